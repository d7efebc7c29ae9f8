import Verif.Model.Monad
import Verif.Model.Item
import Verif.Proofs.Arith
/-
Memory contents and the effect of flash operations.
-/

namespace SeqStorage

variable {K : Type} [DecidableEq K]

/-! ### Reading -/

@[simp] theorem readBytes_length (mem : Nat → Byte) (a n : Nat) : (readBytes mem a n).length = n := by
  simp [readBytes]

theorem readBytes_getElem (mem : Nat → Byte) (a n i : Nat) (h : i < (readBytes mem a n).length) :
    (readBytes mem a n)[i] = mem (a + i) := by simp [readBytes]

theorem readBytes_congr {mem mem' : Nat → Byte} {a n : Nat}
    (h : ∀ x, a ≤ x → x < a + n → mem x = mem' x) : readBytes mem a n = readBytes mem' a n := by
  apply List.ext_getElem (by simp)
  intro i h1 h2
  rw [readBytes_getElem, readBytes_getElem]
  simp at h1
  exact h _ (by omega) (by omega)

theorem readBytes_append (mem : Nat → Byte) (a n m : Nat) :
    readBytes mem a (n + m) = readBytes mem a n ++ readBytes mem (a + n) m := by
  apply List.ext_getElem (by simp)
  intro i h1 h2
  rw [readBytes_getElem]
  simp at h1
  by_cases h : i < n
  · rw [List.getElem_append_left (by simpa using h), readBytes_getElem]
  · rw [List.getElem_append_right (by simpa using h), readBytes_getElem]
    congr 1; simp; omega

theorem readBytes_take (mem : Nat → Byte) (a n k : Nat) :
    (readBytes mem a n).take k = readBytes mem a (min k n) := by
  apply List.ext_getElem (by simp)
  intro i h1 h2
  rw [List.getElem_take, readBytes_getElem, readBytes_getElem]

theorem readBytes_blank {mem : Nat → Byte} {a n : Nat} (h : ∀ x, a ≤ x → x < a + n → mem x = 0xff#8) :
    readBytes mem a n = List.replicate n 0xff#8 := by
  apply List.ext_getElem (by simp)
  intro i h1 h2
  rw [readBytes_getElem, List.getElem_replicate]
  simp at h1
  exact h _ (by omega) (by omega)

/-- `bs` is what is in memory at `a`. -/
theorem readBytes_eq_iff {mem : Nat → Byte} {a : Nat} {bs : List Byte} :
    readBytes mem a bs.length = bs ↔ ∀ i, (h : i < bs.length) → mem (a + i) = bs[i] := by
  constructor
  · intro h i hi
    rw [← readBytes_getElem mem a bs.length i (by simpa using hi)]
    simp only [h]
  · intro h
    apply List.ext_getElem (by simp)
    intro i h1 h2
    rw [readBytes_getElem]; exact h i h2

/-! ### Programming -/

theorem and_ff (b : Byte) : 0xff#8 &&& b = b := by
  apply BitVec.eq_of_getLsbD_eq
  intro i hi
  have : (0xff#8).getLsbD i = true := by
    rw [show (0xff#8) = BitVec.allOnes 8 from rfl, BitVec.getLsbD_allOnes]; simpa using hi
  simp [this]

theorem and_zero_byte (b : Byte) : b &&& 0#8 = 0#8 := by simp

theorem programBytes_outside {mem : Nat → Byte} {a x : Nat} {bs : List Byte}
    (h : x < a ∨ a + bs.length ≤ x) : programBytes mem a bs x = mem x := by
  unfold programBytes; rw [if_neg (by omega)]

theorem programBytes_inside {mem : Nat → Byte} {a i : Nat} {bs : List Byte} (h : i < bs.length) :
    programBytes mem a bs (a + i) = mem (a + i) &&& bs[i] := by
  unfold programBytes
  rw [if_pos (by omega), Nat.add_sub_cancel_left]
  simp [h]

theorem programBytes_nil (mem : Nat → Byte) (a : Nat) : programBytes mem a [] = mem := by
  funext x; unfold programBytes; rw [if_neg (by simp)]

theorem programBytes_append (mem : Nat → Byte) (a : Nat) (bs cs : List Byte) :
    programBytes mem a (bs ++ cs) = programBytes (programBytes mem a bs) (a + bs.length) cs := by
  funext x
  by_cases h1 : x < a
  · rw [programBytes_outside (Or.inl h1), programBytes_outside (Or.inl (by omega)),
      programBytes_outside (Or.inl h1)]
  · obtain ⟨i, rfl⟩ : ∃ i, x = a + i := ⟨x - a, by omega⟩
    by_cases h2 : i < bs.length
    · rw [programBytes_inside (by simp; omega), programBytes_outside (Or.inl (by omega)),
        programBytes_inside h2, List.getElem_append_left h2]
    · by_cases h3 : i < (bs ++ cs).length
      · simp at h3
        obtain ⟨j, rfl⟩ : ∃ j, i = bs.length + j := ⟨i - bs.length, by omega⟩
        rw [programBytes_inside (by simp; omega), List.getElem_append_right (by omega)]
        rw [← Nat.add_assoc, programBytes_inside (by omega), programBytes_outside (Or.inr (by omega))]
        simp
      · simp at h3
        rw [programBytes_outside (Or.inr (by simp; omega)), programBytes_outside (Or.inr (by omega)),
          programBytes_outside (Or.inr (by omega))]

/-- Programming blank flash puts the bytes there. -/
theorem readBytes_program_blank {mem : Nat → Byte} {a : Nat} {bs : List Byte}
    (h : ∀ x, a ≤ x → x < a + bs.length → mem x = 0xff#8) :
    readBytes (programBytes mem a bs) a bs.length = bs := by
  rw [readBytes_eq_iff]
  intro i hi
  rw [programBytes_inside hi, h _ (by omega) (by omega), and_ff]

/-! ### Bytes that do not read back -/

theorem clashes_eq_zero {mem : Nat → Byte} {a : Nat} {bs : List Byte} :
    clashes mem a bs = 0 ↔ ∀ i (h : i < bs.length), mem (a + i) &&& bs[i] = bs[i] := by
  induction bs generalizing a with
  | nil => simp [clashes]
  | cons b bs ih =>
    unfold clashes
    rw [Nat.add_eq_zero_iff, ih]
    constructor
    · rintro ⟨h1, h2⟩ i hi
      cases i with
      | zero =>
        show mem a &&& b = b
        split at h1
        · assumption
        · omega
      | succ i =>
        have := h2 i (by simpa using hi)
        simpa [show a + (i + 1) = a + 1 + i by omega] using this
    · intro h
      refine ⟨?_, fun i hi => ?_⟩
      · have := h 0 (by simp)
        rw [if_pos (by simpa using this)]
      · have := h (i + 1) (by simpa using hi)
        simpa [show a + (i + 1) = a + 1 + i by omega] using this

/-- Nothing clashes when everything reads back. -/
theorem clashes_read {mem : Nat → Byte} {a : Nat} {bs : List Byte} :
    clashes mem a bs = 0 ↔ readBytes (programBytes mem a bs) a bs.length = bs := by
  rw [clashes_eq_zero, readBytes_eq_iff]
  exact forall_congr' fun i => forall_congr' fun hi => by rw [programBytes_inside hi]

theorem clashes_take {mem : Nat → Byte} {a : Nat} {bs : List Byte} (h : clashes mem a bs = 0) (k : Nat) :
    clashes mem a (bs.take k) = 0 := by
  rw [clashes_eq_zero] at h ⊢
  intro i hi
  rw [List.getElem_take]
  exact h i (by rw [List.length_take] at hi; omega)

theorem clashes_append {mem : Nat → Byte} {a : Nat} {bs cs : List Byte} :
    clashes mem a (bs ++ cs) = clashes mem a bs + clashes mem (a + bs.length) cs := by
  induction bs generalizing a with
  | nil => simp [clashes]
  | cons b bs ih =>
    simp only [List.cons_append, clashes, ih, List.length_cons, show a + (bs.length + 1) = a + 1 + bs.length by omega]
    omega

theorem clashes_congr {mem mem' : Nat → Byte} {a : Nat} {bs : List Byte}
    (h : ∀ x, a ≤ x → mem' x = mem x) : clashes mem' a bs = clashes mem a bs := by
  induction bs generalizing a with
  | nil => rfl
  | cons b bs ih =>
    have e := ih (a := a + 1) fun x hx => h x (by omega)
    simp only [clashes, h a (Nat.le_refl _), e]

/-- Zeros never clash. -/
theorem clashes_zeros {mem : Nat → Byte} {a n : Nat} : clashes mem a (List.replicate n 0#8) = 0 := by
  rw [clashes_eq_zero]; intro i hi; simp

/-- Nothing clashes on blank flash. -/
theorem clashes_blank {mem : Nat → Byte} {a : Nat} {bs : List Byte}
    (h : ∀ x, a ≤ x → x < a + bs.length → mem x = 0xff#8) : clashes mem a bs = 0 := by
  rw [clashes_eq_zero]; intro i hi; rw [h _ (by omega) (by omega), and_ff]

/-! ### Flash operations -/

/-- The memory and budget after a write of `bs` at `a` for which power lasts for `k` bytes. -/
theorem Flash.write_ok {g : Geo} (w : g.WF) (f : Flash) {a : Nat} {bs : List Byte}
    (ha : g.word ∣ a) (hb : g.word ∣ bs.length) (hne : bs.length ≠ 0) (h1 : g.start ≤ a)
    (h2 : a + bs.length ≤ g.stop) :
    f.write g a bs =
      (if (spend f.fuel bs.length).2.2 then .ok () else .error .shutoff,
        { f with
          mem := programBytes f.mem a (bs.take (spend f.fuel bs.length).1)
          fuel := (spend f.fuel bs.length).2.1
          writes := countWrites g.writeSize f.writes a (spend f.fuel bs.length).1
          peak := peakWrites g.writeSize f.peak f.writes a (spend f.fuel bs.length).1
          stuck := f.stuck + clashes f.mem a (bs.take (spend f.fuel bs.length).1) }) := by
  have e1 : a % g.writeSize = 0 := Nat.mod_eq_zero_of_dvd (Nat.dvd_trans w.write_dvd ha)
  have e2 : bs.length % g.writeSize = 0 := Nat.mod_eq_zero_of_dvd (Nat.dvd_trans w.write_dvd hb)
  unfold Flash.write
  rw [if_neg (by omega), if_neg (by omega)]

theorem Flash.read_ok {g : Geo} (w : g.WF) (f : Flash) {a n : Nat}
    (ha : g.word ∣ a) (hb : g.readSize ∣ n) (hne : n ≠ 0) (h1 : g.start ≤ a)
    (h2 : a + n ≤ g.stop) : f.read g a n = .ok (readBytes f.mem a n) := by
  have e1 : a % g.readSize = 0 := Nat.mod_eq_zero_of_dvd (Nat.dvd_trans w.read_dvd ha)
  have e2 : n % g.readSize = 0 := Nat.mod_eq_zero_of_dvd hb
  unfold Flash.read
  rw [if_neg (by omega), if_neg (by omega)]

theorem Flash.erase_ok {g : Geo} (w : g.WF) (f : Flash) {i : Nat} (hi : i < g.pageCount) :
    f.erase g (g.pageAddr i) (g.pageEnd i) =
      (if (spend f.fuel g.eraseSize).2.2 then .ok () else .error .shutoff,
        { f with
          mem := eraseBytes f.mem (g.pageAddr i) (spend f.fuel g.eraseSize).1
          fuel := (spend f.fuel g.eraseSize).2.1
          erases := g.pageAddr i :: f.erases
          writes := resetWrites g.writeSize f.writes (g.pageAddr i) (spend f.fuel g.eraseSize).1 }) := by
  have e := w.pageEnd_eq i
  have e1 := Nat.mod_eq_zero_of_dvd (w.pageAddr_dvd i)
  have e2 := Nat.mod_eq_zero_of_dvd (w.pageEnd_dvd i)
  have h1 := w.start_le i
  have h2 := w.page_le hi
  unfold Flash.erase
  rw [if_neg (by omega), if_neg (by omega), if_neg (by omega)]
  rw [show g.pageEnd i - g.pageAddr i = g.eraseSize from by omega]

theorem spend_none (n : Nat) : spend none n = (n, none, true) := rfl

theorem spend_le (fuel : Option Nat) (n : Nat) : (spend fuel n).1 ≤ n := by
  unfold spend; split
  · exact Nat.le_refl _
  · split <;> simp <;> omega

/-- Either everything is processed, or power was limited and fewer bytes are. -/
theorem spend_cases (fuel : Option Nat) (n : Nat) :
    ((spend fuel n).2.2 = true ∧ (spend fuel n).1 = n ∧ (fuel = none → (spend fuel n).2.1 = none)) ∨
    ((spend fuel n).2.2 = false ∧ (spend fuel n).1 < n ∧ fuel = some (spend fuel n).1 ∧
      (spend fuel n).2.1 = none) := by
  unfold spend
  cases fuel with
  | none => left; simp
  | some k =>
    by_cases h : n ≤ k
    · left; simp [h]
    · right; simp [h]; omega

end SeqStorage
