import Verif.Proofs.CutQueue
import Verif.Props.Answers
import Verif.Props.SmallBuffer
/-
What a queue call with a too small buffer leaves behind: C69.
-/

namespace SeqStorage.Props
open M Spec Proofs

variable {K : Type} [DecidableEq K] {g : Geo} {s : St K} {α : Type}

/-- With the first `n` bytes of the buffer `b` the function does what it does with all of `b`, or it tells how many bytes it needs and
the flash is as if the function with all of `b` had lost power before some byte or after the last one. -/
def ShortOrCut (m : M K α) (s : St K) (b : List Byte) (n : Nat) : Prop :=
  let small := m { s with buf := b.take n }
  let large := m { s with buf := b }
  (small.1 = large.1 ∧ small.2.fl = large.2.fl ∧ small.2.cache = large.2.cache ∧ small.2.qit = large.2.qit) ∨
    (∃ need, (b.take n).length < need ∧ small.1 = .error (.bufferTooSmall need)) ∧
      ∃ k, (m { s with fl := { s.fl with fuel := some k }, buf := b }).2.fl.mem = small.2.fl.mem

omit [DecidableEq K] in
theorem cut_short {m : M K α} (h : Short.Cut m) (hs : s.fl.fuel = none) (b : List Byte) (n : Nat)
    (hm : (Says.reads (b.take n).length).holds (m { s with buf := b.take n }).1) : ShortOrCut m s b n := by
  have h := h.rel { s with buf := b.take n } (b.drop n) hs trivial
  have e1 : Short.ext { s with buf := b.take n } (b.drop n) = { s with buf := b } := by simp only [Short.ext, List.take_append_drop]
  unfold Short.Rel at h
  rw [e1] at h
  rcases h with h | ⟨⟨e, h1, h2⟩, k, h3⟩
  · left
    simp only [h]
    exact ⟨trivial, rfl, rfl, rfl⟩
  · refine .inr ⟨?_, k, h3.1⟩
    rw [h2] at hm ⊢
    cases e with
    | bufferTooSmall x => exact ⟨x, hm, rfl⟩
    | serialization x => exact hm.elim
    | _ => exact h1.elim

/-- C69 for a queue: `pop`, `peek` and every step of an iterator, for any contents of flash, cache and iterator. The other calls have no buffer. -/
theorem small_buffer_interrupts_queue (w : g.WF) (hs : s.fl.fuel = none) (b : List Byte) (n : Nat) :
    ShortOrCut (Queue.pop g) s b n ∧ ShortOrCut (Queue.peek g) s b n ∧ ShortOrCut (Queue.iterNext g) s b n := by
  obtain ⟨_, h1, h2, h3, _⟩ := queue_errors_mean w { s with buf := b.take n }
  exact ⟨cut_short (.pop w) hs b n h1, cut_short (.peek w) hs b n h2, cut_short (Short.Cut.iterNext w) hs b n h3⟩

/-- Four items have been popped, which were alone on the first page; a long item is on the second one. -/
def popped : St K2 :=
  (qrun geo3x64 ([.push (List.replicate 4 7#8) false, .push (List.replicate 4 7#8) false, .push (List.replicate 4 7#8) false,
    .push (List.replicate 4 7#8) false, .push (List.replicate 16 7#8) false] ++ List.replicate 4 (.pop (List.replicate 32 0#8))) blankMap).2

/-- A pop with four bytes of buffer erases the first page and then finds that the buffer does not take the item. -/
theorem small_buffer_erases_a_page :
    tells (Queue.pop geo3x64 { popped with buf := (List.replicate 32 0#8).take 4 }).1 = some 16 ∧ popped.fl.mem 0 = 0#8 ∧
      (Queue.pop geo3x64 { popped with buf := (List.replicate 32 0#8).take 4 }).2.fl.mem 0 = 0xff#8 ∧ popped.fl.fuel = none := by
  decide +kernel

/-- The theorem applied to it. -/
example : ShortOrCut (Queue.pop geo3x64) popped (List.replicate 32 0#8) 4 :=
  (small_buffer_interrupts_queue geo3x64_wf small_buffer_erases_a_page.2.2.2 _ _).1

end SeqStorage.Props
