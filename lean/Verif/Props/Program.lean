import Verif.Props.MapCrash
import Verif.Props.QueueCrash
/-
What is programmed reads back as it was programmed: property C66.
-/

set_option linter.unusedSectionVars false

namespace SeqStorage.Props
open SeqStorage Spec M Codec

variable {K V : Type} [DecidableEq K] {kc : KeyCodec K} {vc : ValCodec V} {c : Coding K V} {g : Geo} {s : St K} {lim : Nat} {D : List Byte → Prop}

/-! ### What the counter means -/

/-- The counter stays the same exactly when all bytes that got through before power was lost read back as programmed. -/
theorem stuck_iff_misread (f : Flash) (a : Nat) (bs : List Byte) (h : (f.write g a bs).1 = .ok () ∨ (f.write g a bs).1 = .error .shutoff) :
    (f.write g a bs).2.stuck = f.stuck ↔
      ∃ k, readBytes (f.write g a bs).2.mem a k = bs.take k ∧
        ((f.write g a bs).1 = .ok () → k = bs.length) ∧ ((f.write g a bs).1 = .error .shutoff → f.fuel = some k) := by
  unfold Flash.write at h ⊢
  by_cases h1 : a % g.writeSize ≠ 0 ∨ bs.length = 0 ∨ bs.length % g.writeSize ≠ 0
  · rw [if_pos h1] at h; simp at h
  · rw [if_neg h1] at h ⊢
    by_cases h2 : a < g.start ∨ g.stop < a + bs.length
    · rw [if_pos h2] at h; simp at h
    · rw [if_neg h2]
      dsimp only
      rcases spend_cases f.fuel bs.length with h3 | h3
      · rw [h3.1, h3.2.1]
        simp only [if_true, List.take_length]
        rw [show (f.stuck + clashes f.mem a bs = f.stuck) = (clashes f.mem a bs = 0) by
          apply propext; omega, clashes_read]
        constructor
        · intro h
          exact ⟨bs.length, by rw [h, List.take_length], fun _ => rfl, fun h => by simp at h⟩
        · rintro ⟨k, h4, h5, _⟩
          rw [h5 trivial, List.take_length] at h4
          exact h4
      · rw [h3.1]
        simp only [Bool.false_eq_true, if_false]
        rw [show (f.stuck + clashes f.mem a (bs.take (spend f.fuel bs.length).1) = f.stuck) =
          (clashes f.mem a (bs.take (spend f.fuel bs.length).1) = 0) by apply propext; omega, clashes_read]
        have hk : (bs.take (spend f.fuel bs.length).1).length = (spend f.fuel bs.length).1 := by
          rw [List.length_take]; omega
        rw [hk]
        constructor
        · intro h
          exact ⟨_, h, fun h => by simp at h, fun _ => h3.2.2.1⟩
        · rintro ⟨k, h4, _, h5⟩
          have h6 := h5 trivial
          rw [h3.2.2.1] at h6
          simp only [Option.some.injEq] at h6
          rw [← h6] at h4
          exact h4

/-- The counter never decreases. -/
theorem stuck_grows (f : Flash) (a b : Nat) (bs : List Byte) :
    f.stuck ≤ (f.write g a bs).2.stuck ∧ (f.erase g a b).2.stuck = f.stuck := by
  constructor
  · unfold Flash.write
    split
    · exact Nat.le_refl _
    · split
      · exact Nat.le_refl _
      · exact Nat.le_add_right _ _
  · unfold Flash.erase
    split
    · rfl
    · split
      · rfl
      · split <;> rfl

/-- A 1 programmed over a 0 is counted, a 0 over anything and anything over erased flash are not. -/
example : ((Flash.mk (fun x => if x = 1 then 0x0f#8 else 0xff#8) none [] (fun _ => 0) (fun _ => 0) 0 0).write geo2 0
      [0x12#8, 0x32#8, 0x00#8, 0xff#8]).2.stuck = 1 ∧
    ((Flash.mk (fun x => if x = 1 then 0x0f#8 else 0xff#8) none [] (fun _ => 0) (fun _ => 0) 0 0).write geo2 0
      [0x12#8, 0x02#8, 0x00#8, 0xff#8]).2.stuck = 0 := by decide +kernel

/-! ### The queue -/

/-- C66. In a queue that never lost power every byte that was ever programmed read back as it was programmed. -/
theorem queue_programs_read_back (w : g.WF) (h : Reached g s) : s.fl.stuck = 0 := by
  obtain ⟨σ, P, h⟩ := h.qi w
  exact h.fs.stuck rfl

/-- C66, when power may be lost at any byte of every call. Missing: the cases in which C04 is false. For a single page
this is false as well, see `torn_single_page_overwritten`. -/
theorem queue_programs_read_back_after_crash_partial (w : g.WF) (hD : NoMix g.word D) (hn : 2 ≤ g.pageCount) (h : CrashReached g D s) :
    s.fl.stuck = 0 := by
  obtain ⟨q, σ, P, h, _⟩ := h.holds w hD hn
  exact h.fs.stuck rfl

/-! ### The map -/

/-- C66. In a map that never lost power every byte that was ever programmed read back as it was programmed. -/
theorem map_programs_read_back (w : g.WF) (hc : Codes kc vc c) (hn : 2 ≤ g.pageCount) (h : MReached kc vc c g lim s) :
    s.fl.stuck = 0 := by
  obtain ⟨m, b, σ, P, h, _⟩ := h.holds w hc hn
  exact h.good.fs.stuck rfl

/-- C66, when power may be lost at any byte of every call. Missing: the cases in which C10 is false. -/
theorem map_programs_read_back_after_crash_partial (w : g.WF) (hc : Codes kc vc c) (hD : NoMix g.word D) (hn : 2 ≤ g.pageCount)
    {cs : List (CrashCall K V)} (h : History kc vc c D g lim s cs) : (mrunCrash g kc vc cs s).2.fl.stuck = 0 := by
  obtain ⟨st, _, b, σ, P, h, _⟩ := h.holds w hc hD hn
  exact h.good.fs.stuck rfl

/-! ### Concrete cases -/

/-- Items are pushed and popped until pages are erased and used again. -/
def rounds2 : List (QCall (Cache Unit)) :=
  [.push [1#8] false, .push [2#8, 3#8] false, .pop buf32, .push [4#8] true, .push item1 true, .pop buf32, .push [5#8] true, .push item1 true]

theorem rounds2_ok : ∀ c ∈ rounds2, Documented geo8 c := by simp [rounds2, Documented]

def turned : St Unit := (qrun geo8 rounds2 freshSt).2

theorem turned_reached : Reached geo8 turned := fresh_reached rounds2 rounds2_ok

example : turned.fl.stuck = 0 := queue_programs_read_back geo8_wf turned_reached

/-- There it happens that words are programmed twice and that pages are erased. -/
example : turned.fl.peak 8 = 2 ∧ turned.fl.erases ≠ [] := by decide +kernel

example : crashed.fl.stuck = 0 :=
  queue_programs_read_back_after_crash_partial geo8_wf geo8_mix (by decide) crashed_reached

example : mst.fl.stuck = 0 :=
  map_programs_read_back geo3_wf (num_codes 2 4) (by decide) mst_reached

example : (mrunCrash geo8 (numKey 2) (numVal 4) (onePage mcrashCalls) blankMap).2.fl.stuck = 0 :=
  map_programs_read_back_after_crash_partial geo8_wf (num_codes 2 4) geo8_plain (by decide) mcrash_history

/-! ### Where it is false -/

/-- C66 is false of a single page that is erased when power is lost: the next item is written on top of the old ones. -/
theorem torn_single_page_overwritten :
    (qrunPower geo81 [(.push [1#8] false, none), (.push [2#8] false, none), (.push [3#8] false, none), (.push [4#8] true, some 24),
        (.restart noCache, none), (.push item1 false, none)] freshSt).2.fl.stuck = 1 := by decide +kernel

/-- The second time a word is programmed it need not be with zeros, as the strictest mode but one of the simulated flash asks for
(`TwiceWithZero`, /repo/src/mock_flash.rs 281-286 and 339-340): a pop programs the word with the length again. -/
theorem second_program_not_zero :
    (qrun geo42 [.push [1#8, 2#8, 3#8] false, .pop buf32] freshSt).1 = [.ok .done, .ok (.item (some [1#8, 2#8, 3#8]))] ∧
    (qrun geo42 [.push [1#8, 2#8, 3#8] false, .pop buf32] freshSt).2.fl.writes 8 = 2 ∧
    readBytes (qrun geo42 [.push [1#8, 2#8, 3#8] false, .pop buf32] freshSt).2.fl.mem 8 4 ≠ List.replicate 4 0#8 := by decide +kernel

end SeqStorage.Props
