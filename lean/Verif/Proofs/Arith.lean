import Verif.Model.Basic
/-
Well-formed geometries and address arithmetic.
-/

set_option linter.unusedSectionVars false

namespace SeqStorage

/-- The geometries the model is about: the flash contract of `embedded-storage` (read and write size
divide each other, both divide the page size) plus what the constructors check. -/
structure Geo.WF (g : Geo) : Prop where
  read_pos : 0 < g.readSize
  write_pos : 0 < g.writeSize
  dvd : g.readSize ∣ g.writeSize ∨ g.writeSize ∣ g.readSize
  word_dvd : g.word ∣ g.eraseSize
  start_dvd : g.eraseSize ∣ g.start
  stop_dvd : g.eraseSize ∣ g.stop
  range : g.start + g.eraseSize ≤ g.stop
  fits : g.word * 3 + g.hl ≤ g.eraseSize
  word_le : g.word ≤ maxWordSize
  u32 : g.stop < 2 ^ 32

namespace Geo.WF
variable {g : Geo} (w : g.WF)
include w

theorem word_pos : 0 < g.word := by
  have := w.read_pos; have := w.write_pos
  unfold Geo.word; split <;> omega

theorem read_dvd : g.readSize ∣ g.word := by
  unfold Geo.word
  split
  · rename_i h
    rcases w.dvd with h' | h'
    · exact h'
    · have := Nat.le_of_dvd w.read_pos h'; omega
  · exact Nat.dvd_refl _

theorem write_dvd : g.writeSize ∣ g.word := by
  unfold Geo.word
  split
  · exact Nat.dvd_refl _
  · rename_i h
    rcases w.dvd with h' | h'
    · have := Nat.le_of_dvd w.write_pos h'
      have e : g.readSize = g.writeSize := by omega
      rw [e]; exact Nat.dvd_refl _
    · exact h'

theorem read_le : g.readSize ≤ g.word := by unfold Geo.word; split <;> omega
theorem write_le : g.writeSize ≤ g.word := by unfold Geo.word; split <;> omega

theorem roundUp_dvd (v : Nat) : g.word ∣ g.roundUp v := Nat.dvd_mul_left _ _

theorem le_roundUp (v : Nat) : v ≤ g.roundUp v := by
  have hp := w.word_pos
  unfold Geo.roundUp
  have := Nat.div_add_mod' (v + g.word - 1) g.word
  have := Nat.mod_lt (v + g.word - 1) hp
  omega

theorem roundUp_lt (v : Nat) : g.roundUp v < v + g.word := by
  have hp := w.word_pos
  unfold Geo.roundUp
  have := Nat.div_mul_le_self (v + g.word - 1) g.word
  omega

theorem roundUp_mono {a b : Nat} (h : a ≤ b) : g.roundUp a ≤ g.roundUp b := by
  unfold Geo.roundUp
  exact Nat.mul_le_mul_right _ (Nat.div_le_div_right (by omega))

theorem roundUp_of_dvd {v : Nat} (h : g.word ∣ v) : g.roundUp v = v := by
  have h1 := w.le_roundUp v
  have h2 := w.roundUp_lt v
  have h3 := w.roundUp_dvd v
  obtain ⟨a, ha⟩ := h
  obtain ⟨b, hb⟩ := h3
  rw [hb, ha] at h1 h2
  have : b < a + 1 := by
    have : g.word * b < g.word * (a + 1) := by rw [Nat.mul_add]; omega
    exact Nat.lt_of_mul_lt_mul_left this
  have : a ≤ b := Nat.le_of_mul_le_mul_left h1 w.word_pos
  rw [hb, ha]; congr 1; omega

theorem roundUp_zero : g.roundUp 0 = 0 := w.roundUp_of_dvd (Nat.dvd_zero _)

theorem roundUp_pos {v : Nat} (h : 0 < v) : 0 < g.roundUp v := Nat.lt_of_lt_of_le h (w.le_roundUp v)

theorem roundDown_dvd (v : Nat) : g.word ∣ g.roundDown v := Nat.dvd_mul_left _ _

theorem roundDown_le (v : Nat) : g.roundDown v ≤ v := Nat.div_mul_le_self _ _

theorem lt_roundDown (v : Nat) : v < g.roundDown v + g.word := by
  have hp := w.word_pos
  unfold Geo.roundDown
  have := Nat.div_add_mod' v g.word
  have := Nat.mod_lt v hp
  omega

theorem roundDown_of_dvd {v : Nat} (h : g.word ∣ v) : g.roundDown v = v :=
  Nat.div_mul_cancel h

/-- The data is written as whole words plus a padded tail. -/
theorem roundDown_add_tail (v : Nat) :
    g.roundUp v = g.roundDown v + g.roundUp (v - g.roundDown v) := by
  have hp := w.word_pos
  have h1 := w.roundDown_le v
  have h2 := w.lt_roundDown v
  by_cases h : v - g.roundDown v = 0
  · rw [h, w.roundUp_zero, w.roundUp_of_dvd (v := v)]
    · omega
    · have : v = g.roundDown v := by omega
      rw [this]; exact w.roundDown_dvd v
  · have a1 := w.le_roundUp v
    have a2 := w.roundUp_lt v
    have a3 := w.roundUp_dvd v
    have b1 := w.le_roundUp (v - g.roundDown v)
    have b2 := w.roundUp_lt (v - g.roundDown v)
    have b3 := w.roundUp_dvd (v - g.roundDown v)
    have c3 := w.roundDown_dvd v
    obtain ⟨a, ha⟩ := a3
    obtain ⟨b, hb⟩ := b3
    obtain ⟨c, hc⟩ := c3
    have hb1 : b = 1 := by
      have x1 : g.word * b < g.word * 2 := by omega
      have x2 : g.word * 0 < g.word * b := by omega
      have := Nat.lt_of_mul_lt_mul_left x1
      have := Nat.lt_of_mul_lt_mul_left x2
      omega
    have ha1 : a = c + 1 := by
      have x1 : g.word * a < g.word * (c + 2) := by rw [Nat.mul_add]; omega
      have x2 : g.word * c < g.word * a := by omega
      have := Nat.lt_of_mul_lt_mul_left x1
      have := Nat.lt_of_mul_lt_mul_left x2
      omega
    rw [ha, hb, hc, ha1, hb1, Nat.mul_add]

theorem hl_dvd : g.word ∣ g.hl := w.roundUp_dvd _
theorem hl_ge : 8 ≤ g.hl := w.le_roundUp 8
theorem hl_lt : g.hl < 8 + g.word := w.roundUp_lt 8
theorem hl_eq_word (h : 8 ≤ g.word) : g.hl = g.word := by
  have h1 := w.hl_lt
  have h2 := w.hl_dvd
  have h3 := w.hl_ge
  obtain ⟨a, ha⟩ := h2
  have x1 : g.word * a < g.word * 2 := by omega
  have := Nat.lt_of_mul_lt_mul_left x1
  have : a ≠ 0 := by rintro rfl; omega
  have : a = 1 := by omega
  rw [ha, this]; omega

theorem erase_pos : 0 < g.eraseSize := by have := w.fits; have := w.hl_ge; omega

theorem start_word : g.word ∣ g.start := Nat.dvd_trans w.word_dvd w.start_dvd
theorem stop_word : g.word ∣ g.stop := Nat.dvd_trans w.word_dvd w.stop_dvd

/-- The range is a whole number of pages. -/
theorem stop_eq : g.stop = g.start + g.eraseSize * g.pageCount := by
  have hp := w.erase_pos
  have hr := w.range
  have hd : g.eraseSize ∣ g.stop - g.start := Nat.dvd_sub w.stop_dvd w.start_dvd
  have h1 : 1 ≤ (g.stop - g.start) / g.eraseSize := by
    rw [Nat.le_div_iff_mul_le hp]; omega
  have : g.pageCount = (g.stop - g.start) / g.eraseSize := by unfold Geo.pageCount; omega
  rw [this, Nat.mul_div_cancel' hd]; omega

theorem pageCount_pos : 0 < g.pageCount := by unfold Geo.pageCount; omega

theorem page_le {i : Nat} (h : i < g.pageCount) : g.pageEnd i ≤ g.stop := by
  rw [w.stop_eq]
  unfold Geo.pageEnd
  have := Nat.mul_le_mul_left g.eraseSize (show i + 1 ≤ g.pageCount from h)
  omega

theorem start_le (i : Nat) : g.start ≤ g.pageAddr i := by unfold Geo.pageAddr; omega

theorem pageEnd_eq (i : Nat) : g.pageEnd i = g.pageAddr i + g.eraseSize := by
  unfold Geo.pageEnd Geo.pageAddr; rw [Nat.mul_add]; omega

theorem pageAddr_dvd (i : Nat) : g.eraseSize ∣ g.pageAddr i :=
  Nat.dvd_add w.start_dvd (Nat.dvd_mul_right _ _)

theorem pageEnd_dvd (i : Nat) : g.eraseSize ∣ g.pageEnd i :=
  Nat.dvd_add w.start_dvd (Nat.dvd_mul_right _ _)

theorem pageAddr_word (i : Nat) : g.word ∣ g.pageAddr i := Nat.dvd_trans w.word_dvd (w.pageAddr_dvd i)
theorem pageEnd_word (i : Nat) : g.word ∣ g.pageEnd i := Nat.dvd_trans w.word_dvd (w.pageEnd_dvd i)

theorem dataEnd_add (i : Nat) : g.dataEnd i + g.word = g.pageEnd i := by
  have := w.pageEnd_eq i; have := w.fits
  unfold Geo.dataEnd; omega

theorem dataStart_word (i : Nat) : g.word ∣ g.dataStart i :=
  Nat.dvd_add (w.pageAddr_word i) (Nat.dvd_refl _)

theorem dataEnd_word (i : Nat) : g.word ∣ g.dataEnd i :=
  Nat.dvd_sub (w.pageEnd_word i) (Nat.dvd_refl _)

theorem data_room (i : Nat) : g.dataStart i + g.word + g.hl ≤ g.dataEnd i := by
  have := w.pageEnd_eq i; have := w.fits; have := w.dataEnd_add i
  unfold Geo.dataStart; omega

theorem dataEnd_eq (i : Nat) : g.dataEnd i = g.dataStart i + g.pageSize := by
  have := w.pageEnd_eq i; have := w.fits; have := w.dataEnd_add i
  unfold Geo.dataStart Geo.pageSize at *; omega

/-- The page of an address. -/
theorem pageIndex_of {i a : Nat} (h1 : g.pageAddr i ≤ a) (h2 : a < g.pageEnd i) : g.pageIndex a = i := by
  have hp := w.erase_pos
  have := w.pageEnd_eq i
  unfold Geo.pageAddr at *
  unfold Geo.pageIndex
  rw [Nat.div_eq_of_lt_le]
  · rw [Nat.mul_comm]; omega
  · rw [Nat.add_mul, Nat.mul_comm]; omega

theorem pageEnd_le_of_lt {i j : Nat} (h : i < j) : g.pageEnd i ≤ g.pageAddr j := by
  unfold Geo.pageEnd Geo.pageAddr
  have := Nat.mul_le_mul_left g.eraseSize (show i + 1 ≤ j from h)
  omega

/-- Different pages do not overlap. -/
theorem page_disjoint {i j x : Nat} (h : i ≠ j) (h1 : g.pageAddr i ≤ x) (h2 : x < g.pageEnd i) :
    x < g.pageAddr j ∨ g.pageEnd j ≤ x := by
  rcases Nat.lt_or_gt_of_ne h with h | h
  · have := w.pageEnd_le_of_lt h; omega
  · have := w.pageEnd_le_of_lt h; omega

theorem next_lt {i : Nat} : g.nextPage i < g.pageCount := Nat.mod_lt _ w.pageCount_pos

theorem prev_lt {i : Nat} (h : i < g.pageCount) : g.prevPage i < g.pageCount := by
  have := w.pageCount_pos
  unfold Geo.prevPage
  split <;> omega

theorem prevPage_eq {i : Nat} (h : i < g.pageCount) : g.prevPage i = (i + g.pageCount - 1) % g.pageCount := by
  unfold Geo.prevPage
  split
  · rw [Nat.mod_eq_of_lt (by omega)]; omega
  · rw [show ∀ j n, j + 1 + n - 1 = j + n from by omega, Nat.add_mod_right, Nat.mod_eq_of_lt (by omega)]

end Geo.WF

/-- A concrete geometry with four pages of 64 bytes, used for witnesses. -/
def geo4 : Geo := ⟨1, 8, 64, 0, 256⟩

theorem geo4_wf : geo4.WF := by
  constructor <;> decide

end SeqStorage
