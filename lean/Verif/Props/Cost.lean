import Verif.Proofs.Cost
import Verif.Props.Safe
/-
How much a call can wear the flash: C64.
-/

namespace SeqStorage.Props
open M Spec Codec

variable {K : Type} [DecidableEq K] {V : Type} {g : Geo} {s : St K}

/-- How often a call of a queue of `n` pages may erase a page. -/
def queueErases {C : Type} (n : Nat) : QCall C → Nat
  | .push _ _ => n + 2
  | .pop _ | .peek _ => 4 * n - 2
  | .iterate steps => n + steps.length * (3 * n - 2)
  | .maxFit | .spaceLeft => n
  | .restart _ => 0

/-- How often a call of a map of `n` pages may erase a page. -/
def mapErases {C : Type} (n : Nat) : MCall K V C → Nat
  | .store _ _ _ => 3 * n + 2
  | .fetch _ _ | .remove _ _ | .removeAll _ | .fetchAll _ _ => n + 2
  | .restart _ => 0

theorem qcall_cost (w : g.WF) (h : SInv false g s) (c : QCall (Cache K)) : CostAt (qcall g c) (queueErases g.pageCount c) s := by
  cases c with
  | push d o => exact ((Cost.push g d o).then' fun _ => .pure _).out s
  | pop b =>
    refine CostAt.step (modify_run _ s) rfl ?_
    exact CostAt.bindSat (l := 0) (pop_safe w (h.setBuf b)) (CostAt.pop w (h.setBuf b)) fun _ s1 _ _ => (Cost.pure _).out s1
  | peek b =>
    refine CostAt.step (modify_run _ s) rfl ?_
    exact CostAt.bindSat (l := 0) (peek_safe w (h.setBuf b)) (CostAt.peek w (h.setBuf b)) fun _ s1 _ _ => (Cost.pure _).out s1
  | iterate steps =>
    refine CostAt.bindSat (iterNew_safe w h) ((Cost.iterNew g).out s) fun _ s1 h1 hq => ?_
    exact CostAt.bindSat (l := 0) (iterSteps_safe w steps ⟨h1, hq⟩) (CostAt.iterSteps w steps ⟨h1, hq⟩) fun _ s1 _ _ => (Cost.pure _).out s1
  | maxFit => exact ((Cost.maxFit g).then' fun _ => .pure _).out s
  | spaceLeft => exact ((Cost.space g).then' fun _ => .pure _).out s
  | restart c => exact (Cost.free ((Leaves.modifyCache _).bind fun _ => .pure _)).out s

/-- C64, queue. Whatever is in the flash and wherever power is lost: the calls erase at most so many pages. -/
theorem queue_calls_erase_boundedly (w : g.WF) (hf : s.fl.faults = 0) (hc : FreshCache g.pageCount s.cache)
    (cs : List (QCall (Cache K) × Option Nat)) (hd : ∀ c ∈ cs, Documented g c.1) :
    (qrunPower g cs s).2.fl.erases.length ≤ s.fl.erases.length + (cs.map fun c => queueErases g.pageCount c.1).sum := by
  have h := freshCache_sinv (mp := false) w (s := s) hf hc (by simp)
  change SInv false g s at h
  clear hf hc
  induction cs generalizing s with
  | nil => exact Nat.le_refl _
  | cons c cs ih =>
    obtain ⟨c, fuel⟩ := c
    have h0 : SInv false g { s with fl := { s.fl with fuel := fuel } } := SInv.flash h (fl := { s.fl with fuel := fuel }) rfl
    have hc := qcall_cost w h0 c
    have hn := (qcall_safe w h0 c (fun x hx => by have := hd (c, fuel) (by simp); rw [hx] at this; exact this)).cases
    have h1 : SInv false g (qcall g c { s with fl := { s.fl with fuel := fuel } }).2 := by
      rcases hn with ⟨a, s1, hr, h1⟩ | ⟨e, s1, hr, h1⟩ <;> (rw [hr]; exact h1.1)
    have h2 := ih (fun c hc => hd c (by simp [hc])) h1
    unfold CostAt at hc
    simp only [qrunPower, List.map_cons, List.sum_cons] at h2 hc ⊢
    omega

/-- C64, map. Whatever is in the flash and in the caches and wherever power is lost: the calls erase at most so many pages. -/
theorem map_calls_erase_boundedly (g : Geo) (kc : KeyCodec K) (vc : ValCodec V) (cs : List (MCall K V (Cache K) × Option Nat)) (s : St K) :
    (mrunPower g kc vc cs s).2.fl.erases.length ≤ s.fl.erases.length + (cs.map fun c => mapErases g.pageCount c.1).sum := by
  have hcall : ∀ c : MCall K V (Cache K), Cost (mcall g kc vc c) (mapErases g.pageCount c) := by
    intro c
    cases c with
    | store k v b => exact .after (.setBuf b) fun _ => (Cost.store g kc vc k v).then' fun _ => .pure _
    | fetch k b => exact .after (.setBuf b) fun _ => (Cost.fetch g kc vc k).then' fun _ => .pure _
    | remove k b =>
      exact .after (.setBuf b) fun _ => (((Cost.free (k := 0) (Cost.remove g kc (some k))).repair (Cost.mapRepair g kc)).mono
        (by simp only [mapErases]; omega)).then' fun _ => .pure _
    | removeAll b =>
      exact .after (.setBuf b) fun _ => (((Cost.free (k := 0) (Cost.remove g kc none)).repair (Cost.mapRepair g kc)).mono
        (by simp only [mapErases]; omega)).then' fun _ => .pure _
    | fetchAll b steps =>
      exact .after (.setBuf b) fun _ => (Cost.fetchAll g kc).then' fun _ => (Leaves.mapSteps g kc vc steps).bind fun _ => .pure _
    | restart c => exact .free ((Leaves.modifyCache _).bind fun _ => .pure _)
  induction cs generalizing s with
  | nil => exact Nat.le_refl _
  | cons c cs ih =>
    obtain ⟨c, fuel⟩ := c
    have h1 := (hcall c).out { s with fl := { s.fl with fuel := fuel } }
    have h2 := ih (mcall g kc vc c { s with fl := { s.fl with fuel := fuel } }).2
    unfold CostAt at h1
    simp only [mrunPower, List.map_cons, List.sum_cons] at h1 h2 ⊢
    omega

/-! ### Concrete runs -/

example : (qrunPower geo2 junkCalls junkSt).2.fl.erases.length ≤ 0 + (junkCalls.map fun c => queueErases geo2.pageCount c.1).sum :=
  queue_calls_erase_boundedly geo2_wf rfl junk_fresh junkCalls (by
    intro c hc
    simp only [junkCalls, List.mem_cons, List.not_mem_nil, or_false] at hc
    rcases hc with rfl | rfl | rfl | rfl | rfl | rfl <;> trivial)

example : (mrunPower geo2 (numKey 2) (numVal 1) junkMapCalls junkMap).2.fl.erases.length ≤
    0 + (junkMapCalls.map fun c => mapErases geo2.pageCount c.1).sum :=
  map_calls_erase_boundedly geo2 (numKey 2) (numVal 1) junkMapCalls junkMap

end SeqStorage.Props
