import Verif.Model.Basic
/-
C34: which configurations the constructors accept.
-/

namespace SeqStorage.Props

/-- A safe configuration, in terms of the flash parameters only: a page-aligned range `[start, stop)`
of at least `minPages` pages that can each hold two marker words, a header of `8` bytes padded to
words and one word of data, and words of at most 32 bytes. -/
def SafeRange (minPages readSize writeSize eraseSize start stop : Nat) : Prop :=
  let word := max readSize writeSize
  let header := (8 + word - 1) / word * word
  eraseSize ∣ start ∧ eraseSize ∣ stop ∧ start + minPages * eraseSize ≤ stop ∧
  2 * word + header + word ≤ eraseSize ∧ word ≤ 32

theorem word_eq_max (g : Geo) : g.word = max g.readSize g.writeSize := by
  unfold Geo.word; split <;> omega

/-- **C34** for ranges whose end is not before their start, on flash for
which `minPages` pages fit the 32-bit address space: a configuration is accepted exactly when it
is safe, and accepted as given. Missing: ranges with `stop < start`, for which the statement is false
(`reversed_range_accepted`). -/
theorem config_accepted_iff_safe_partial (minPages : BitVec 32) (readSize writeSize eraseSize : Nat)
    (start stop : BitVec 32) (hfit : minPages.toNat * eraseSize < 2 ^ 32)
    (hmin : 0 < minPages.toNat) (hle : start.toNat ≤ stop.toNat) :
    (SafeRange minPages.toNat readSize writeSize eraseSize start.toNat stop.toNat →
      tryNew minPages readSize writeSize eraseSize start stop =
        .ok ⟨readSize, writeSize, eraseSize, start.toNat, stop.toNat⟩) ∧
    (¬ SafeRange minPages.toNat readSize writeSize eraseSize start.toNat stop.toNat →
      ∃ e, tryNew minPages readSize writeSize eraseSize start stop = .error e) := by
  have hE : eraseSize < 2 ^ 32 := by
    calc eraseSize = 1 * eraseSize := by omega
      _ ≤ minPages.toNat * eraseSize := Nat.mul_le_mul_right _ hmin
      _ < _ := hfit
  have h1 : (BitVec.ofNat 32 eraseSize).toNat = eraseSize := by
    simp [Nat.mod_eq_of_lt hE]
  have h2 : (BitVec.ofNat 32 eraseSize * minPages).toNat = minPages.toNat * eraseSize := by
    rw [BitVec.toNat_mul, h1, Nat.mul_comm, Nat.mod_eq_of_lt hfit]
  have h3 : (stop - start).toNat = stop.toNat - start.toNat := BitVec.toNat_sub_of_le hle
  have hw := word_eq_max ⟨readSize, writeSize, eraseSize, start.toNat, stop.toNat⟩
  have hlt : (stop - start < BitVec.ofNat 32 eraseSize * minPages) ↔
      ¬ (start.toNat + minPages.toNat * eraseSize ≤ stop.toNat) := by
    rw [BitVec.lt_def, h2, h3]; omega
  unfold tryNew SafeRange
  simp only [h1, hlt, Geo.hl, Geo.roundUp, Geo.headerLength, hw, maxWordSize]
  simp only [Nat.dvd_iff_mod_eq_zero]
  generalize (8 + max readSize writeSize - 1) / max readSize writeSize * max readSize writeSize = hl
  generalize max readSize writeSize = w
  by_cases c1 : start.toNat % eraseSize = 0
  · by_cases c2 : stop.toNat % eraseSize = 0
    · by_cases c3 : start.toNat + minPages.toNat * eraseSize ≤ stop.toNat
      · by_cases c4 : eraseSize < w * 3 + hl
        · simp only [c1, c2, c3, c4]
          simp; omega
        · by_cases c5 : w > 32
          · simp only [c1, c2, c3, c4, c5]; simp; omega
          · simp only [c1, c2, c3, c4, c5]; simp; omega
      · simp [c1, c2, c3]
    · simp [c1, c2]
  · simp [c1]

/-- A typical configuration of a map: two pages of 4096 bytes. -/
example : SafeRange 2 1 4 4096 0x1000 0x3000 ∧
    tryNew 2#32 1 4 4096 0x1000#32 0x3000#32 = .ok ⟨1, 4, 4096, 0x1000, 0x3000⟩ := by
  constructor
  · unfold SafeRange; decide
  · decide

/-- A range that is one page too short is refused. -/
example : tryNew 2#32 1 4 4096 0x1000#32 0x2000#32 = .error .rangeTooSmall := by decide

/-- **C34 fails** for a reversed range: in a release build the length wraps around and the range,
which contains no page at all, is accepted (a debug build panics at the subtraction). -/
theorem reversed_range_accepted :
    ∃ (readSize writeSize eraseSize : Nat) (start stop : BitVec 32), stop.toNat < start.toNat ∧
      ∃ g, tryNew 2#32 readSize writeSize eraseSize start stop = .ok g :=
  ⟨1, 4, 4096, 0x3000#32, 0x1000#32, by decide, ⟨1, 4, 4096, 0x3000, 0x1000⟩, by decide⟩

end SeqStorage.Props
