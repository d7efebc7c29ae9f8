import Verif.Props.Ring
/-
C30: draining a `SharedRamRing` while interrupts enqueue.
-/

namespace SeqStorage.Props
open Spec

/-- The items in a ring, oldest first, as seen by reading and discarding `n` of them. -/
def ringItems : Nat → Ring → List (List Byte)
  | 0, _ => []
  | n + 1, r =>
    match r.peekInto 65535 with
    | some d => d :: ringItems n r.discardOldest
    | none => []

/-- All items in a ring. -/
def ringAll (r : Ring) : List (List Byte) := ringItems r.count r

theorem ringItems_rep : ∀ (l : List (List Byte)) (r : Ring), Ring.Rep r l → ringItems l.length r = l
  | [], _, _ => rfl
  | d :: l, r, h => by
    have hd := h.short d (by simp)
    simp only [List.length_cons, ringItems, h.peek_cons, hd, if_true]
    rw [ringItems_rep l _ h.discard_cons]

theorem ringAll_rep {r : Ring} {l : List (List Byte)} (h : Ring.Rep r l) : ringAll r = l := by
  rw [ringAll, h.count, ringItems_rep l r h]

/-- What an observer of a schedule writes down: the items whose `enqueue` succeeded, in order, and
the items the overflow policy dropped from the ring to make room for one. -/
structure Log where
  accepted : List (List Byte)
  dropped : List (List Byte)

/-- Run a schedule, keeping the log. -/
def sharedRun : List SharedEv → Shared × Log → Shared × Log
  | [], x => x
  | ev :: evs, (s, g) =>
    let s' := s.step ev
    let g' := match ev with
      | .enqueue d p => match s.ring.enqueue d p with
        | some r => ⟨g.accepted ++ [d], g.dropped ++ (ringAll s.ring).take (s.ring.count + 1 - r.count)⟩
        | none => g
      | _ => g
    sharedRun evs (s', g')

/-- Items that are in the ring and not yet in flash: while the drain task has written the oldest item
but not yet discarded it, that item counts as being in flash. -/
def remaining (s : Shared) : List (List Byte) :=
  match s.drainer with
  | .written => (ringAll s.ring).tail
  | _ => ringAll s.ring

/-- No item is dropped by the overflow policy while a drain is under way. -/
def NoDropDuringDrain : List SharedEv → Shared → Prop
  | [], _ => True
  | ev :: evs, s =>
    (match ev with
      | .enqueue d p => s.drainer ≠ .idle → ∀ r, s.ring.enqueue d p = some r → r.count = s.ring.count + 1
      | _ => True) ∧ NoDropDuringDrain evs (s.step ev)

/-- The relation between the ring, the drain task and the log. -/
structure SInv (s : Shared) (g : Log) (l : List (List Byte)) : Prop where
  rep : Ring.Rep s.ring l
  head : ∀ d, s.drainer = .writing d → l.head? = some d
  nonempty : s.drainer = .written → l ≠ []
  perm : g.accepted.Perm (s.pushed ++ g.dropped ++ (if s.drainer = .written then l.tail else l))

theorem dropFor_suffix (cap room : Nat) : ∀ l, ∃ p, l = p ++ Ring.dropFor cap room l
  | [] => ⟨[], rfl⟩
  | d :: l => by
    simp only [Ring.dropFor]
    split
    · obtain ⟨p, hp⟩ := dropFor_suffix cap room l
      exact ⟨d :: p, by rw [List.cons_append, ← hp]⟩
    · exact ⟨[], rfl⟩

/-- What an accepted `enqueue` does. -/
theorem enqueue_rep {r r' : Ring} {l : List (List Byte)} {d : List Byte} {p : OverflowPolicy}
    (h : Ring.Rep r l) (he : r.enqueue d p = some r') :
    ∃ dr k, l = dr ++ k ∧ Ring.Rep r' (k ++ [d]) := by
  cases p with
  | err =>
    have := ringStep_sim h (.push d)
    have he' : r.push d = some r' := he
    simp only [ringStep, he', fifoStep] at this
    split at this
    · exact ⟨[], l, rfl, this.2.1⟩
    · simp at this
  | discardOldest =>
    have := ringStep_sim h (.pushOverwriting d)
    have he' : r.pushOverwriting d = some r' := he
    simp only [ringStep, he', fifoStep] at this
    split at this
    · obtain ⟨q, hq⟩ := dropFor_suffix r.cap (footprint [d]) l
      rw [dropUntilRoom_eq] at this
      exact ⟨q, _, hq, this.2.1⟩
    · simp at this

theorem sinv_step {s : Shared} {g : Log} {l : List (List Byte)} (h : SInv s g l) (ev : SharedEv)
    (hok : match ev with
      | .enqueue d p => s.drainer ≠ .idle → ∀ r, s.ring.enqueue d p = some r → r.count = s.ring.count + 1
      | _ => True) :
    ∃ l', SInv (sharedRun [ev] (s, g)).1 (sharedRun [ev] (s, g)).2 l' := by
  cases ev with
  | enqueue d p =>
    simp only [sharedRun, Shared.step]
    cases he : s.ring.enqueue d p with
    | none => exact ⟨l, h⟩
    | some r =>
      obtain ⟨dr, k, hl, hr⟩ := enqueue_rep h.rep he
      have hdr : (ringAll s.ring).take (s.ring.count + 1 - r.count) = dr := by
        rw [ringAll_rep h.rep, h.rep.count, hr.count, hl]
        simp
      simp only [hdr]
      refine ⟨k ++ [d], hr, ?_, ?_, ?_⟩
      · intro x hx
        have hidle : s.drainer ≠ .idle := by simp [show s.drainer = _ from hx]
        have hc := hok hidle r he
        rw [hr.count, h.rep.count, hl] at hc
        simp at hc
        subst hc
        have := h.head x hx
        simp at hl; subst hl
        cases l with
        | nil => simp at this
        | cons y l => simpa using this
      · intro _; simp
      · show (g.accepted ++ [d]).Perm (s.pushed ++ (g.dropped ++ dr) ++ _)
        have hp := h.perm
        by_cases hw : s.drainer = .written
        · have hc := hok (by simp [hw]) r he
          rw [hr.count, h.rep.count, hl] at hc
          simp at hc
          subst hc
          have hne := h.nonempty hw
          simp at hl; subst hl
          simp only [hw, if_true] at hp ⊢
          obtain ⟨y, l', rfl⟩ := List.exists_cons_of_ne_nil hne
          simpa using hp.append_right [d]
        · simp only [hw, if_false, hl] at hp ⊢
          simpa using hp.append_right [d]
  | drainStart n =>
    simp only [sharedRun, Shared.step]
    split
    · rename_i hd
      split
      · rename_i x hx
        refine ⟨l, h.rep, ?_, by simp, ?_⟩
        · intro y hy
          simp at hy; subst hy
          cases l with
          | nil => rw [h.rep.peek_nil] at hx; simp at hx
          | cons z l =>
            rw [h.rep.peek_cons] at hx
            split at hx <;> simp at hx
            simp [hx]
        · simpa [hd] using h.perm
      · exact ⟨l, h⟩
    · exact ⟨l, h⟩
  | pushOk =>
    simp only [sharedRun, Shared.step]
    split
    · rename_i x hx
      have hh := h.head x hx
      cases l with
      | nil => simp at hh
      | cons y l =>
        simp at hh; subst hh
        refine ⟨y :: l, h.rep, by simp, by simp, ?_⟩
        have := h.perm
        simp only [hx] at this
        simp only [if_true, List.tail_cons]
        refine this.trans ?_
        simp only [reduceCtorEq, if_false]
        rw [List.append_assoc, List.append_assoc, List.append_assoc]
        refine List.Perm.append_left _ ?_
        simp
    · exact ⟨l, h⟩
  | pushFail =>
    simp only [sharedRun, Shared.step]
    split
    · rename_i x hx
      refine ⟨l, h.rep, by simp, by simp, ?_⟩
      simpa [hx] using h.perm
    · exact ⟨l, h⟩
  | drainFinish =>
    simp only [sharedRun, Shared.step]
    split
    · rename_i hx
      have hne := h.nonempty hx
      obtain ⟨y, l', rfl⟩ := List.exists_cons_of_ne_nil hne
      refine ⟨l', h.rep.discard_cons, by simp, by simp, ?_⟩
      simpa [hx] using h.perm
    · exact ⟨l, h⟩
  | wait =>
    simp only [sharedRun, Shared.step]
    split
    · exact ⟨l, h.rep, h.head, h.nonempty, h.perm⟩
    · exact ⟨l, h⟩

theorem sinv_run : ∀ (evs : List SharedEv) (s : Shared) (g : Log) (l : List (List Byte)), SInv s g l →
    NoDropDuringDrain evs s → ∃ l', SInv (sharedRun evs (s, g)).1 (sharedRun evs (s, g)).2 l'
  | [], s, g, l, h, _ => ⟨l, h⟩
  | ev :: evs, s, g, l, h, hn => by
    obtain ⟨l', h'⟩ := sinv_step h ev hn.1
    have e : (sharedRun [ev] (s, g)).1 = s.step ev := rfl
    rw [e] at h'
    exact sinv_run evs _ _ l' h' hn.2

/-- **C30** as far as it holds: for every ring size and every schedule in which the overflow policy
drops nothing between the peek and the discard of a drain, the accepted items are, with
multiplicity, exactly those in flash, those dropped by the policy and those still waiting in the ring.
Missing: schedules in which `DiscardOldest` drops an item during a drain, for which the statement is
false (`shared_drain_loses_item`). -/
theorem shared_drain_conserves_partial (n : Nat) (evs : List SharedEv)
    (h : NoDropDuringDrain evs (Shared.new n)) :
    let (s, log) := sharedRun evs (Shared.new n, ⟨[], []⟩)
    log.accepted.Perm (s.pushed ++ log.dropped ++ remaining s) := by
  obtain ⟨l, hl⟩ := sinv_run evs (Shared.new n) ⟨[], []⟩ [] ⟨Ring.rep_new n, by simp [Shared.new], by simp [Shared.new], by simp [Shared.new]⟩ h
  have := hl.perm
  simp only [remaining, ringAll_rep hl.rep]
  cases hd : (sharedRun evs (Shared.new n, ⟨[], []⟩)).1.drainer <;> simp [hd] at this ⊢ <;> exact this

/-- With the `Err` policy nothing is ever dropped, so the condition of the theorem is met. -/
theorem noDrop_of_err : ∀ (evs : List SharedEv) (s : Shared) (l : List (List Byte)), Ring.Rep s.ring l →
    (∀ d p, .enqueue d p ∈ evs → p = .err) → NoDropDuringDrain evs s := by
  intro evs
  induction evs with
  | nil => intros; trivial
  | cons ev evs ih =>
    intro s l h hp
    have hstep : ∃ l', Ring.Rep (s.step ev).ring l' := by
      cases ev with
      | enqueue d p =>
        simp only [Shared.step]
        cases he : s.ring.enqueue d p with
        | none => exact ⟨l, h⟩
        | some r => obtain ⟨dr, k, _, hr⟩ := enqueue_rep h he; exact ⟨_, hr⟩
      | drainStart n => simp only [Shared.step]; split <;> (try split) <;> exact ⟨l, h⟩
      | pushOk => simp only [Shared.step]; split <;> exact ⟨l, h⟩
      | pushFail => simp only [Shared.step]; split <;> exact ⟨l, h⟩
      | drainFinish =>
        simp only [Shared.step]; split
        · cases l with
          | nil => exact ⟨[], by simpa [h.discard_nil] using h⟩
          | cons y l => exact ⟨l, h.discard_cons⟩
        · exact ⟨l, h⟩
      | wait => simp only [Shared.step]; split <;> exact ⟨l, h⟩
    obtain ⟨l', hl'⟩ := hstep
    refine ⟨?_, ih _ l' hl' (fun d p hm => hp d p (by simp [hm]))⟩
    cases ev with
    | enqueue d p =>
      intro _ r he
      have := hp d p (by simp)
      subst this
      have hs := ringStep_sim h (.push d)
      have he' : s.ring.push d = some r := he
      simp only [ringStep, he', fifoStep] at hs
      split at hs
      · rw [hs.2.1.count, h.count]; simp
      · simp at hs
    | _ => trivial

/-- **C30** with the `Err` overflow policy, in full: every accepted item is exactly once in flash or
still waiting in the ring, for every interleaving. -/
theorem shared_drain_conserves_err (n : Nat) (evs : List SharedEv)
    (hp : ∀ d p, .enqueue d p ∈ evs → p = .err) :
    let (s, log) := sharedRun evs (Shared.new n, ⟨[], []⟩)
    log.accepted.Perm (s.pushed ++ log.dropped ++ remaining s) :=
  shared_drain_conserves_partial n evs (noDrop_of_err evs _ [] (Ring.rep_new n) hp)

/-- A schedule with an enqueue in the middle of a drain, a failed flash write and a retry. -/
example :
    let evs : List SharedEv := [.enqueue [1#8] .err, .enqueue [2#8] .err, .drainStart 9, .pushFail,
      .drainStart 9, .enqueue [3#8] .err, .pushOk, .enqueue [4#8] .err, .drainFinish]
    (∀ d p, .enqueue d p ∈ evs → p = .err) ∧
    (sharedRun evs (Shared.new 9, ⟨[], []⟩)).1.pushed = [[1#8]] ∧
    remaining (sharedRun evs (Shared.new 9, ⟨[], []⟩)).1 = [[2#8], [3#8]] := by
  refine ⟨?_, by decide, by decide⟩
  intro d p h
  simp at h
  rcases h with h | h | h | h <;> exact h.2

/-- **C30 fails** with `DiscardOldest`: the drain task peeks `[1]`, an interrupt makes room by
dropping `[1]`, and the drain then discards `[2]`, which never reached flash and was never dropped by
the policy. -/
theorem shared_drain_loses_item :
    ∃ (n : Nat) (evs : List SharedEv) (d : List Byte),
      let (s, log) := sharedRun evs (Shared.new n, ⟨[], []⟩)
      d ∈ log.accepted ∧ d ∉ s.pushed ∧ d ∉ log.dropped ∧ d ∉ ringAll s.ring :=
  ⟨6, [.enqueue [1#8] .err, .enqueue [2#8] .err, .drainStart 6, .enqueue [3#8] .discardOldest,
    .pushOk, .drainFinish], [2#8], by decide⟩

/-- **C30**, the signal: an item that was accepted is announced until the task has waited for it. -/
theorem accepted_item_signalled (s : Shared) (d : List Byte) (p : OverflowPolicy) (h : (s.ring.enqueue d p).isSome = true)
    (evs : List SharedEv) (hw : .wait ∉ evs) : (evs.foldl Shared.step (s.step (.enqueue d p))).signal = true := by
  have keep : ∀ (evs : List SharedEv) (s : Shared), .wait ∉ evs → s.signal = true → (evs.foldl Shared.step s).signal = true := by
    intro evs
    induction evs with
    | nil => intro s _ hs; exact hs
    | cons ev evs ih =>
      intro s hw hs
      refine ih _ (fun hx => hw (by simp [hx])) ?_
      cases ev with
      | enqueue d p => simp only [Shared.step]; split <;> first | rfl | exact hs
      | drainStart n => simp only [Shared.step]; split <;> (try split) <;> exact hs
      | pushOk => simp only [Shared.step]; split <;> exact hs
      | pushFail => simp only [Shared.step]; split <;> exact hs
      | drainFinish => simp only [Shared.step]; split <;> exact hs
      | wait => exact absurd List.mem_cons_self hw
  refine keep evs _ hw ?_
  cases he : s.ring.enqueue d p with
  | none => rw [he] at h; simp at h
  | some r => simp only [Shared.step, he]

/-- An item comes in while another one is drained. -/
example : (((Shared.new 9).step (.enqueue [1#8] .err)).step .wait).signal = false ∧
    ([SharedEv.drainStart 9, .pushOk, .drainFinish].foldl Shared.step
      ((((Shared.new 9).step (.enqueue [1#8] .err)).step .wait).step (.enqueue [2#8] .err))).signal = true :=
  ⟨by decide, accepted_item_signalled _ _ _ (by decide) _ (by simp)⟩

end SeqStorage.Props
