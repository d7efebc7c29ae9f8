import Verif.Proofs.CutMap
/-
The calls of the queue with a too small buffer.
-/
set_option linter.unusedSectionVars false

namespace SeqStorage.Short
open SeqStorage M Spec Proofs

variable {K : Type} [DecidableEq K]

section
variable {g : Geo} {α β : Type} {P : St K → Prop}

theorem Plain.setIter (f : QIter → QIter) : Plain (K := K) (Queue.setIter f) := fun _ => ⟨rfl, rfl, fun _ => rfl, fun _ => rfl⟩
macro_rules | `(tactic| cut_step) => `(tactic| with_reducible exact Plain.cut (Plain.setIter _))

theorem Cut.findYoungest : CutOn (K := K) P (Queue.findYoungest g) := by
  unfold Queue.findYoungest
  cuts
macro_rules | `(tactic| cut_step) => `(tactic| with_reducible exact Cut.findYoungest)

theorem Cut.findOldest : CutOn (K := K) P (Queue.findOldest g) := by
  unfold Queue.findOldest
  cuts
macro_rules | `(tactic| cut_step) => `(tactic| with_reducible exact Cut.findOldest)

theorem Cut.queueRepair (w : g.WF) : Cut (K := K) (Queue.tryRepair g) := by
  have h1 := Cut.generalRepairIn (K := K) w (g.pages 0)
  unfold Queue.tryRepair SeqStorage.tryGeneralRepair
  cuts

theorem Cut.findStart : Cut (K := K) (Queue.findStart g) := by
  unfold Queue.findStart
  cuts

theorem Cut.iterNew (w : g.WF) : CutOn (K := K) P (Queue.iterNew g) := by
  unfold Queue.iterNew
  refine (Cut.withRepair .findStart (.queueRepair w)).bind fun a => Plain.cut fun _ => ⟨rfl, rfl, fun _ => rfl, fun _ => rfl⟩

theorem Cut.nextScan (w : g.WF) (p a : Nat) : CutOn (K := K) P (Queue.nextScan g p a) := by
  have hi := fun h a e P => Cut.readItem (K := K) (P := P) w h a e
  unfold Queue.nextScan
  cuts

theorem Cut.nextLoop (w : g.WF) (n : Nat) : Cut (K := K) (Queue.nextLoop g n) := by
  have h1 := fun P p a => Cut.nextScan (K := K) (P := P) w p a
  have h2 := fun P i => Cut.openPage (K := K) (P := P) w i
  induction n with
  | zero => exact (Plain.throw _).cut
  | succ n ih =>
    unfold Queue.nextLoop
    cuts

theorem Cut.nextInner (w : g.WF) : Cut (K := K) (Queue.nextInner g) := by
  have h1 := Cut.nextLoop (K := K) w (Queue.loopRounds g)
  unfold Queue.nextInner
  cuts

/-- What an item found by the iterator needs is in the buffer. -/
def InBuf (r : Option (Header × Nat)) (t : St K) : Prop := ∀ h a, r = some (h, a) → h.len.toNat ≤ t.buf.length

theorem nextScan_holds (w : g.WF) (p a : Nat) : Post (K := K) (Queue.nextScan g p a) InBuf := by
  unfold Queue.nextScan
  refine .bind fun r => ?_
  split
  · refine .bindPost (readItem_holds w _ _ _) fun r s b hr hb => ?_
    split at hb
    · cases hb; intro h a hh; cases hh
    · simp [M.throw] at hb
    · cases hb
      intro h a hh
      cases hh
      exact hr _ rfl
  · exact .bind fun _ => .pure fun _ _ _ h => by simp at h

theorem nextLoop_holds (w : g.WF) (n : Nat) : Post (K := K) (Queue.nextLoop g n) InBuf := by
  induction n with
  | zero => exact .throw
  | succ n ih =>
    have h1 : ∀ p a, Post (K := K) (do
        match ← Queue.nextScan g p a with
        | some r => pure (some r)
        | none => Queue.nextLoop g n) InBuf := by
      intro p a
      refine .bindPost (nextScan_holds w p a) fun r s b hr hb => ?_
      cases r with
      | some r => cases hb; exact hr
      | none => exact ih s b hb
    unfold Queue.nextLoop
    refine .bind fun s => ?_
    split
    · refine .bind fun _ => ?_
      split
      · exact .bind fun _ => .pure fun _ _ _ h => by simp at h
      · split
        · exact .bind fun _ => .bind fun _ => h1 _ _
        · exact .bind fun _ => h1 _ _
    · exact h1 _ _

theorem Cut.iterNext (w : g.WF) : CutOn (K := K) P (Queue.iterNext g) := by
  unfold Queue.iterNext
  refine .bind (Plain.setIter _).cut fun _ => ?_
  refine (Cut.withRepair (Cut.nextInner w) (Cut.queueRepair w)).bindPost (Post.withRepair (Q := InBuf) (.bind fun _ => nextLoop_holds w _)) fun r => ?_
  split
  · refine .get (fun _ _ => rfl) (fun s x hs => ?_) fun s => ?_
    · have hl := hs _ _ rfl
      simp only [ext, List.take_append_of_le_length hl, List.length_append]
      rw [if_neg (by omega), if_neg (by omega)]
    · cuts
  · exact (Plain.pure _).cut

theorem Cut.peek (w : g.WF) : Cut (K := K) (Queue.peek g) := by
  unfold Queue.peek
  refine (Cut.iterNew w).bind fun _ => (Cut.iterNext w).bind fun r => ?_
  split <;> exact (Plain.pure _).cut

theorem Cut.entryPop (h : Header) (a : Nat) : Cut (K := K) (Queue.entryPop g h a) :=
  (Plain.setIter _).cut.bind fun _ => (Cut.eraseItem h a).bind fun _ => Cut.unmarkDirty

theorem Cut.pop (w : g.WF) : Cut (K := K) (Queue.pop g) := by
  unfold Queue.pop
  refine (Cut.iterNew w).bind fun _ => (Cut.iterNext w).bind fun r => ?_
  split
  · exact (Cut.entryPop _ _).bind fun _ => (Plain.pure _).cut
  · exact (Plain.pure _).cut

end

end SeqStorage.Short
