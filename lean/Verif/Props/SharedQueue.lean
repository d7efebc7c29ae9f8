import Verif.Proofs.SharedQueue
import Verif.Props.Buffered
/-
A task and interrupts that share a queue through a `SharedRamRing`: C58, C59, C60.
-/

set_option linter.unusedSectionVars false

namespace SeqStorage.Props
open M Spec

variable {K : Type} [DecidableEq K] {g : Geo} {cap : Nat}

/-- The items whose `enqueue` succeeded, in order. -/
def accepted : List TaskEv → List (Option TaskOut) → List (List Byte)
  | .interrupt d _ :: es, some (.accepted true) :: os => d :: accepted es os
  | _ :: es, _ :: os => accepted es os
  | _, _ => []

/-- The items that `pop` returned, in order. -/
def handedOut : List (Option TaskOut) → List (List Byte)
  | some (.back (.ok (.popped (some d)))) :: os => d :: handedOut os
  | _ :: os => handedOut os
  | [] => []

/-- The items that are in the ring and not yet in flash. -/
def pending (q : SharedQ K) : List (List Byte) :=
  match q.task with
  | .discarding .. => (ringAll q.ring).tail
  | _ => ringAll q.ring

/-- A call that allows old items to be overwritten. -/
def Overwrites : TaskEv → Prop
  | .call (.drainOne _ o) => o = true
  | .call (.drainAll _ o) => o = true
  | .call (.waitDrain _ o) => o = true
  | .call (.pop _ o) => o = true
  | .call (.peek _ o) => o = true
  | _ => False

/-! ### Order -/

def keep (a : Halves) : List (List Byte) :=
  match a.task with
  | .discarding .. => a.m.tail
  | _ => a.m

theorem pending_eq {q : SharedQ K} {a : Halves} (h : IsHalves g cap q a) : pending q = keep a := by
  unfold pending keep
  rw [h.task, ringAll_rep h.ram]

structure InOrder (acc out : List (List Byte)) (a : Halves) : Prop where
  kept : (out ++ a.f ++ keep a).Sublist acc
  next : ∀ d p ow, a.task = .pushing d p ow → (out ++ a.f ++ d :: a.m.tail).Sublist acc

theorem tail_keep {l kept dropped : List (List Byte)} {d : List Byte} (h : l = dropped ++ kept) :
    (kept ++ [d]).tail.Sublist (l.tail ++ [d]) := by
  subst h
  cases dropped with
  | nil => cases kept <;> simp
  | cons x dropped =>
    simp only [List.cons_append, List.tail_cons]
    exact (List.tail_sublist _).trans (List.Sublist.append_right (List.sublist_append_right _ _) _)

theorem order_step {a a' : Halves} {e : TaskEv} {o : Option TaskOut} {acc out : List (List Byte)} (h : InOrder acc out a)
    (hs : a.steps e o a') : InOrder (acc ++ accepted [e] [o]) (out ++ handedOut [o]) a' := by
  cases e with
  | interrupt d p =>
    rcases hs with ⟨dr, k, hk, _, rfl, rfl⟩ | ⟨rfl, rfl⟩
    · simp only [accepted, handedOut, List.append_nil]
      constructor
      · have h1 : (keep { a with m := k ++ [d], signal := true }).Sublist (keep a ++ [d]) := by
          unfold keep
          dsimp only
          split
          · exact tail_keep hk
          · rw [hk]; exact List.Sublist.append_right (List.sublist_append_right _ _) _
        exact ((List.Sublist.append_left h1 _).trans (by rw [← List.append_assoc]; exact List.Sublist.refl _)).trans
          (List.Sublist.append_right h.kept _)
      · intro x p ow ht
        have h1 := h.next x p ow ht
        have h2 : (out ++ a.f ++ x :: (k ++ [d]).tail).Sublist (out ++ a.f ++ x :: a.m.tail ++ [d]) := by
          rw [List.append_assoc (out ++ a.f)]
          refine List.Sublist.append_left ?_ _
          exact List.Sublist.cons_cons _ (tail_keep hk)
        exact h2.trans (List.Sublist.append_right h1 _)
    · simpa [accepted, handedOut] using h
  | call c =>
    obtain ⟨rfl, rfl⟩ := hs
    simp only [accepted, handedOut, List.append_nil]
    split
    · rename_i ht
      have h1 := h.kept
      unfold keep at h1
      rw [ht] at h1
      cases c <;> exact ⟨h1, by intro d p ow h; cases h⟩
    · exact h
  | run =>
    have ha : ∀ x, accepted [.run] [x] = [] := fun x => by cases x <;> rfl
    rw [ha, List.append_nil]
    have hk := h.kept
    simp only [Halves.steps, Halves.runs] at hs
    unfold keep at hk
    cases ht : a.task with
    | idle =>
      rw [ht] at hs; obtain ⟨rfl, rfl⟩ := hs
      simpa [handedOut] using h
    | waiting d =>
      rw [ht] at hs hk
      simp only at hs hk
      split at hs
      · obtain ⟨rfl, rfl⟩ := hs
        simpa [handedOut] using h
      · cases d with
        | none => obtain ⟨rfl, rfl⟩ := hs; exact ⟨by simpa [handedOut, keep] using hk, by intro d p ow h; cases h⟩
        | some _ => obtain ⟨rfl, rfl⟩ := hs; exact ⟨by simpa [handedOut, keep] using hk, by intro d p ow h; cases h⟩
    | counting pop ow =>
      rw [ht] at hs hk
      obtain ⟨rfl, rfl⟩ := hs
      simp only [handedOut, List.append_nil]
      split <;> exact ⟨hk, by intro d p ow h; cases h⟩
    | peeking p ow =>
      rw [ht] at hs hk
      rcases hs with ⟨d, rest, hm, _, rfl, rfl⟩ | ⟨_, hd⟩
      · simp only [handedOut, List.append_nil]
        refine ⟨hk, ?_⟩
        intro d' p' ow' h'
        cases h'
        simp only [hm, List.tail_cons] at hk ⊢
        exact hk
      · cases p <;> (cases hd; exact ⟨by simpa [handedOut, keep] using hk, by intro d p ow h; cases h⟩)
    | pushing d p ow =>
      rw [ht] at hs hk
      have hn := h.next d p ow ht
      rcases hs with ⟨e, _, rfl, rfl⟩ | ⟨lost, kept, hf, _, rfl, rfl⟩
      · exact ⟨by simpa [handedOut, keep] using hk, by intro d p ow h; cases h⟩
      · refine ⟨?_, by intro d p ow h; cases h⟩
        simp only [handedOut, List.append_nil, keep]
        rw [hf] at hn
        refine List.Sublist.trans ?_ hn
        simp only [List.append_assoc, List.cons_append, List.nil_append]
        exact List.Sublist.append_left (List.sublist_append_right _ _) _
    | discarding p ow =>
      rw [ht] at hs hk
      simp only at hs
      cases p <;> (cases hs; exact ⟨by simpa [handedOut, keep] using hk, by intro d p ow h; cases h⟩)
    | reading pop =>
      rw [ht] at hs hk
      rcases hs with ⟨_, rfl, rfl⟩ | ⟨d, rest, hf, rfl, rfl⟩ | ⟨n, d, rest, hf, _, rfl, rfl⟩
      · cases pop <;> exact ⟨by simpa [handedOut, keep] using hk, by intro d p ow h; cases h⟩
      · cases pop
        · exact ⟨by simpa [handedOut, keep] using hk, by intro d p ow h; cases h⟩
        · exact ⟨by rw [hf] at hk; simpa [handedOut, keep] using hk, by intro d p ow h; cases h⟩
      · exact ⟨by simpa [handedOut, keep] using hk, by intro d p ow h; cases h⟩

theorem accepted_cons (e : TaskEv) (o : Option TaskOut) (es : List TaskEv) (os : List (Option TaskOut)) :
    accepted (e :: es) (o :: os) = accepted [e] [o] ++ accepted es os := by
  cases e with
  | interrupt d p =>
    rcases o with _ | (b | r)
    · rfl
    · cases b <;> rfl
    · rfl
  | _ => rfl

theorem handedOut_cons (o : Option TaskOut) (os : List (Option TaskOut)) : handedOut (o :: os) = handedOut [o] ++ handedOut os := by
  rcases o with _ | (b | (r | (_ | _ | (_ | d) | _))) <;> rfl

theorem new_two (w : g.WF) {s : St K} (h : Start g s) (cap : Nat) :
    IsHalves g cap (SharedQ.new cap s) ⟨[], [], false, .idle, s.buf.length⟩ := by
  refine ⟨⟨_, _, h.qi w, rfl⟩, Ring.rep_new cap, ?_, rfl, rfl, rfl⟩
  simp [SharedQ.new, Ring.new, Ring.cap]

theorem order_run (w : g.WF) (es : List TaskEv) : ∀ {q : SharedQ K} {a : Halves} {acc out : List (List Byte)},
    IsHalves g cap q a → InOrder acc out a →
    ∃ a', IsHalves g cap (SharedQ.schedule g es q).2 a' ∧
      InOrder (acc ++ accepted es (SharedQ.schedule g es q).1) (out ++ handedOut (SharedQ.schedule g es q).1) a' := by
  induction es with
  | nil => intro q a acc out h h'; exact ⟨a, h, by simpa [SharedQ.schedule, accepted, handedOut] using h'⟩
  | cons e es ih =>
    intro q a acc out h h'
    obtain ⟨a1, h1, h2⟩ := step_two w h e
    obtain ⟨a2, h3, h4⟩ := ih h2 (order_step h' h1)
    refine ⟨a2, h3, ?_⟩
    simp only [SharedQ.schedule]
    rw [accepted_cons, handedOut_cons, ← List.append_assoc, ← List.append_assoc]
    exact h4

/-- C58. However interrupts and the task interleave, whatever the overflow policy and the buffers, the items
popped, then those in flash, then those still in the ring are accepted items in the order of their `enqueue`,
none of them twice. -/
theorem shared_queue_keeps_order (w : g.WF) {s : St K} (h : Start g s) (cap : Nat) (evs : List TaskEv) :
    ∃ f, Contents g (SharedQ.schedule g evs (SharedQ.new cap s)).2.st f ∧
      (handedOut (SharedQ.schedule g evs (SharedQ.new cap s)).1 ++ f ++ pending (SharedQ.schedule g evs (SharedQ.new cap s)).2).Sublist
        (accepted evs (SharedQ.schedule g evs (SharedQ.new cap s)).1) := by
  obtain ⟨a, h1, h2⟩ := order_run w evs (acc := []) (out := []) (new_two w h cap) ⟨by simp [keep], by simp⟩
  refine ⟨a.f, Holds.contents_cf w (md := ⟨true, false, none, fun _ => True, false⟩) rfl rfl h1.flash, ?_⟩
  rw [pending_eq h1]
  simpa using h2.kept

/-! ### Nothing is lost -/

/-- The task is in a call that allows old items to be overwritten. -/
def TaskAt.overwrites : TaskAt → Bool
  | .waiting (some o) => o
  | .counting _ o => o
  | .peeking _ o => o
  | .pushing _ _ o => o
  | .discarding _ o => o
  | _ => false

structure Exact (strict : Prop) (acc out : List (List Byte)) (a : Halves) : Prop where
  head : ∀ d p ow, a.task = .pushing d p ow → a.m.head? = some d
  some : ∀ p ow, a.task = .discarding p ow → a.m ≠ []
  all : ∃ gone, acc = gone ++ a.f ++ keep a ∧ out.Sublist gone ∧ (strict → out = gone)
  mild : strict → TaskAt.overwrites a.task = false

theorem exact_step {strict : Prop} {a a' : Halves} {e : TaskEv} {o : Option TaskOut} {acc out : List (List Byte)} (h : Exact strict acc out a)
    (he : ∀ d p, e = .interrupt d p → p = .err) (ho : strict → ¬ Overwrites e)
    (hs : a.steps e o a') : Exact strict (acc ++ accepted [e] [o]) (out ++ handedOut [o]) a' := by
  obtain ⟨hh, hm, ⟨gone, hg, hsub, hst⟩, hmi⟩ := h
  cases e with
  | interrupt d p =>
    rcases hs with ⟨dr, k, hk, hdr, rfl, rfl⟩ | ⟨rfl, rfl⟩
    · have := hdr (he d p rfl)
      subst this
      rw [List.nil_append] at hk
      subst hk
      simp only [accepted, handedOut, List.append_nil]
      refine ⟨?_, by simp, ⟨gone, ?_, hsub, hst⟩, hmi⟩
      · intro x p ow ht
        have := hh x p ow ht
        dsimp only
        cases hx : a.m with
        | nil => rw [hx] at this; simp at this
        | cons y l => rw [hx] at this; simpa using this
      · rw [hg]
        unfold keep
        dsimp only
        cases ht : a.task with
        | discarding p ow =>
          have := hm p ow ht
          cases hx : a.m with
          | nil => exact (this hx).elim
          | cons y l => simp
        | _ => simp
    · simp only [accepted, handedOut, List.append_nil]
      exact ⟨hh, hm, ⟨gone, hg, hsub, hst⟩, hmi⟩
  | call c =>
    obtain ⟨rfl, rfl⟩ := hs
    simp only [accepted, handedOut, List.append_nil]
    split
    · rename_i ht
      unfold keep at hg
      rw [ht] at hg
      cases c with
      | wait => exact ⟨by intro d p ow h; (cases h), by intro p ow h; (cases h), ⟨gone, hg, hsub, hst⟩, fun _ => rfl⟩
      | _ b o =>
        refine ⟨by intro d p ow h; (cases h), by intro p ow h; (cases h), ⟨gone, hg, hsub, hst⟩, fun hx => ?_⟩
        have := ho hx
        simp only [Overwrites] at this
        simpa [Halves.begin, TaskAt.overwrites] using this
    · exact ⟨hh, hm, ⟨gone, hg, hsub, hst⟩, hmi⟩
  | run =>
    have ha : ∀ x, accepted [.run] [x] = [] := fun x => by cases x <;> rfl
    rw [ha, List.append_nil]
    simp only [Halves.steps, Halves.runs] at hs
    unfold keep at hg
    cases ht : a.task with
    | idle =>
      rw [ht] at hs hg; obtain ⟨rfl, rfl⟩ := hs
      simp only [handedOut, List.append_nil]
      exact ⟨hh, hm, ⟨gone, by unfold keep; rw [ht]; exact hg, hsub, hst⟩, hmi⟩
    | waiting d =>
      rw [ht] at hs hg hmi
      simp only at hs hg
      split at hs
      · obtain ⟨rfl, rfl⟩ := hs
        simp only [handedOut, List.append_nil]
        exact ⟨hh, hm, ⟨gone, by unfold keep; rw [ht]; exact hg, hsub, hst⟩, by rw [ht]; exact hmi⟩
      · cases d with
        | none =>
          obtain ⟨rfl, rfl⟩ := hs
          simp only [handedOut, List.append_nil]
          exact ⟨by intro d p ow h; (cases h), by intro p ow h; (cases h), ⟨gone, hg, hsub, hst⟩, fun _ => rfl⟩
        | some _ =>
          obtain ⟨rfl, rfl⟩ := hs
          simp only [handedOut, List.append_nil]
          exact ⟨by intro d p ow h; (cases h), by intro p ow h; (cases h), ⟨gone, hg, hsub, hst⟩, hmi⟩
    | counting pop ow =>
      rw [ht] at hs hg hmi
      obtain ⟨rfl, rfl⟩ := hs
      simp only [handedOut, List.append_nil]
      split
      · exact ⟨by intro d p ow h; (cases h), by intro p ow h; (cases h), ⟨gone, hg, hsub, hst⟩, fun _ => rfl⟩
      · exact ⟨by intro d p ow h; (cases h), by intro p ow h; (cases h), ⟨gone, hg, hsub, hst⟩, hmi⟩
    | peeking p ow =>
      rw [ht] at hs hg hmi
      rcases hs with ⟨d, rest, hx, _, rfl, rfl⟩ | ⟨_, hd⟩
      · simp only [handedOut, List.append_nil]
        refine ⟨?_, by intro p ow h; (cases h), ⟨gone, hg, hsub, hst⟩, hmi⟩
        intro d' p' ow' h'
        cases h'
        dsimp only
        rw [hx]; rfl
      · cases p <;> (cases hd; simp only [handedOut, List.append_nil];
                     exact ⟨by intro d p ow h; (cases h), by intro p ow h; (cases h), ⟨gone, hg, hsub, hst⟩, fun _ => rfl⟩)
    | pushing d p ow =>
      have hd := hh d p ow ht
      rw [ht] at hs hg hmi
      rcases hs with ⟨e, _, rfl, rfl⟩ | ⟨lost, kept, hf, how, rfl, rfl⟩
      · simp only [handedOut, List.append_nil]
        exact ⟨by intro d p ow h; (cases h), by intro p ow h; (cases h), ⟨gone, hg, hsub, hst⟩, fun _ => rfl⟩
      · simp only [handedOut, List.append_nil]
        cases hx : a.m with
        | nil => rw [hx] at hd; simp at hd
        | cons y l =>
          rw [hx] at hd
          simp only [List.head?_cons, Option.some.injEq] at hd
          subst hd
          refine ⟨by intro d p ow h; (cases h), by intro p ow _ h; (cases h), ⟨gone ++ lost, ?_, ?_, ?_⟩, hmi⟩
          · rw [hg, hf, hx]; simp [keep]
          · exact hsub.trans (List.sublist_append_left _ _)
          · intro hxs
            rw [how (hmi hxs), List.append_nil]
            exact hst hxs
    | discarding p ow =>
      rw [ht] at hs hg hmi
      simp only at hs
      cases p <;> (cases hs; simp only [handedOut, List.append_nil];
                   exact ⟨by intro d p ow h; (cases h), by intro p ow h; (cases h), ⟨gone, hg, hsub, hst⟩, by first | exact hmi | exact fun _ => rfl⟩)
    | reading pop =>
      rw [ht] at hs hg
      rcases hs with ⟨_, rfl, rfl⟩ | ⟨d, rest, hf, rfl, rfl⟩ | ⟨n, d, rest, hf, _, rfl, rfl⟩
      · cases pop <;> (simp only [handedOut, List.append_nil, Bool.false_eq_true, if_false, if_true];
                       exact ⟨by intro d p ow h; (cases h), by intro p ow h; (cases h), ⟨gone, hg, hsub, hst⟩, fun _ => rfl⟩)
      · cases pop
        · simp only [handedOut, List.append_nil, Bool.false_eq_true, if_false]
          exact ⟨by intro d p ow h; (cases h), by intro p ow h; (cases h), ⟨gone, hg, hsub, hst⟩, fun _ => rfl⟩
        · simp only [handedOut, if_true]
          refine ⟨by intro d p ow h; (cases h), by intro p ow h; (cases h), ⟨gone ++ [d], ?_, List.Sublist.append_right hsub _, ?_⟩, fun _ => rfl⟩
          · rw [hg, hf]; simp [keep]
          · intro hx; rw [hst hx]
      · simp only [handedOut, List.append_nil]
        exact ⟨by intro d p ow h; (cases h), by intro p ow h; (cases h), ⟨gone, hg, hsub, hst⟩, fun _ => rfl⟩

theorem exact_run (w : g.WF) {strict : Prop} (es : List TaskEv) : ∀ {q : SharedQ K} {a : Halves} {acc out : List (List Byte)},
    IsHalves g cap q a → Exact strict acc out a → (∀ d p, .interrupt d p ∈ es → p = .err) → (strict → ∀ e ∈ es, ¬ Overwrites e) →
    ∃ a', IsHalves g cap (SharedQ.schedule g es q).2 a' ∧
      Exact strict (acc ++ accepted es (SharedQ.schedule g es q).1) (out ++ handedOut (SharedQ.schedule g es q).1) a' := by
  induction es with
  | nil => intro q a acc out h h' _ _; exact ⟨a, h, by simpa [SharedQ.schedule, accepted, handedOut] using h'⟩
  | cons e es ih =>
    intro q a acc out h h' hp ho
    obtain ⟨a1, h1, h2⟩ := step_two w h e
    obtain ⟨a2, h3, h4⟩ := ih h2 (exact_step h' (fun d p he => hp d p (by simp [he])) (fun hx => ho hx e (by simp)) h1)
      (fun d p hm => hp d p (by simp [hm])) (fun hx e he => ho hx e (by simp [he]))
    refine ⟨a2, h3, ?_⟩
    simp only [SharedQ.schedule]
    rw [accepted_cons, handedOut_cons, ← List.append_assoc, ← List.append_assoc]
    exact h4

/-- C58. With the overflow policy `Err` the accepted items are, in order: those that are gone, those in flash
and those still in the ring. Everything popped is gone, in this order, and where no call allowed overwriting
old items nothing else is gone. -/
theorem shared_queue_loses_nothing (w : g.WF) {s : St K} (h : Start g s) (cap : Nat) (evs : List TaskEv)
    (hp : ∀ d p, .interrupt d p ∈ evs → p = .err) :
    ∃ gone f, Contents g (SharedQ.schedule g evs (SharedQ.new cap s)).2.st f ∧
      accepted evs (SharedQ.schedule g evs (SharedQ.new cap s)).1 = gone ++ f ++ pending (SharedQ.schedule g evs (SharedQ.new cap s)).2 ∧
      (handedOut (SharedQ.schedule g evs (SharedQ.new cap s)).1).Sublist gone ∧
      ((∀ e ∈ evs, ¬ Overwrites e) → handedOut (SharedQ.schedule g evs (SharedQ.new cap s)).1 = gone) := by
  obtain ⟨a, h1, h2⟩ := exact_run w (strict := ∀ e ∈ evs, ¬ Overwrites e) evs (acc := []) (out := []) (new_two w h cap)
    ⟨by simp, by simp, ⟨[], rfl, List.Sublist.refl _, fun _ => rfl⟩, fun _ => rfl⟩ hp id
  obtain ⟨gone, hg, hs, hst⟩ := h2.all
  refine ⟨gone, a.f, Holds.contents_cf w (md := ⟨true, false, none, fun _ => True, false⟩) rfl rfl h1.flash, ?_, ?_, ?_⟩
  · rw [pending_eq h1]; simpa using hg
  · simpa using hs
  · intro hx; simpa using hst hx

/-! ### Quiet times -/

/-- The task goes on for `k` steps without interrupts. -/
def undisturbed (g : Geo) (k : Nat) (q : SharedQ K) : List (Option TaskOut) × SharedQ K :=
  SharedQ.schedule g (List.replicate k .run) q

theorem sizes_le {q : SharedQ K} {a : Halves} (h : IsHalves g cap q a) {d : List Byte} (hd : d ∈ a.m) : d.length + 2 ≤ cap := by
  have h1 := h.ram.fits
  have h2 := h.ram.used
  have h3 := footprint_mem hd
  have h4 := h.cap
  rw [footprint_eq] at h3
  omega

theorem undisturbed_add (j k : Nat) (q : SharedQ K) :
    undisturbed g (j + k) q = ((undisturbed g j q).1 ++ (undisturbed g k (undisturbed g j q).2).1, (undisturbed g k (undisturbed g j q).2).2) := by
  induction j generalizing q with
  | zero => simp [undisturbed, SharedQ.schedule]
  | succ j ih =>
    rw [Nat.succ_add]
    simp only [undisturbed, List.replicate_succ, SharedQ.schedule] at ih ⊢
    rw [ih]
    rfl

theorem undisturbed_one (q : SharedQ K) : undisturbed g 1 q = ([(q.run g).2], (q.run g).1) := rfl

/-- How a drain that nothing disturbs ends: all items have been moved, or the flash refused one. -/
theorem drain_loop (w : g.WF) (p : Purpose) (hp : p ≠ .one) (ow : Bool) (n : Nat) : ∀ {q : SharedQ K} {a : Halves}, IsHalves g cap q a →
    a.task = .peeking p ow → a.m.length = n → cap ≤ a.len →
    ∃ k a', k ≤ 3 * n ∧ IsHalves g cap (undisturbed g k q).2 a' ∧ a'.len = a.len ∧
      (∃ lost, a.f ++ a.m = lost ++ (a'.f ++ a'.m) ∧ (ow = false → lost = [])) ∧
      ((a'.task = .peeking p ow ∧ a'.m = []) ∨
       (a'.task = .idle ∧ ∃ e, (undisturbed g k q).1.getLast? = some (some (.back (.error e))) ∧
        (e = .itemTooBig ∨ (e = .fullStorage ∧ ow = false)))) := by
  induction n with
  | zero =>
    intro q a h ht hm _
    exact ⟨0, a, Nat.le_refl _, h, rfl, ⟨[], rfl, fun _ => rfl⟩, Or.inl ⟨ht, List.length_eq_zero_iff.1 hm⟩⟩
  | succ n ih =>
    intro q a h ht hm hc
    obtain ⟨a1, r1, h1⟩ := run_two w h
    simp only [Halves.runs, ht] at r1
    rcases r1 with ⟨d, rest, hx, hd, ho1, rfl⟩ | ⟨hn, _⟩
    · obtain ⟨a2, r2, h2⟩ := run_two w h1
      simp only [Halves.runs] at r2
      rcases r2 with ⟨e, he, ho2, rfl⟩ | ⟨lost, kept, hf, hl, ho2, rfl⟩
      · refine ⟨2, { a with task := .idle }, by omega, ?_, rfl, ⟨[], rfl, fun _ => rfl⟩, Or.inr ⟨rfl, e, ?_, he⟩⟩
        · rw [undisturbed_add 1 1]; exact h2
        · rw [undisturbed_add 1 1, undisturbed_one, undisturbed_one]
          simp [ho2]
      · obtain ⟨a3, r3, h3⟩ := run_two w h2
        simp only [Halves.runs] at r3
        have : a3 = { a with f := kept ++ [d], m := rest, task := .peeking p ow } := by
          cases p with
          | one => exact (hp rfl).elim
          | _ =>
            have := congrArg Prod.fst r3
            simp only [Halves.moved, hx, List.tail_cons] at this
            exact this
        subst this
        obtain ⟨k, a', hk, h4, hlen, ⟨lost', hL, hL'⟩, hend⟩ := ih h3 rfl (by rw [hx] at hm; simpa using hm) hc
        have e3 : (undisturbed g 3 q).2 = ((((q.run g).1).run g).1.run g).1 := rfl
        refine ⟨3 + k, a', by omega, ?_, hlen, ⟨lost ++ lost', ?_, ?_⟩, ?_⟩
        · rw [undisturbed_add 3 k, e3]; exact h4
        · rw [hf, hx, List.append_assoc, List.append_assoc]
          rw [← hL]; simp
        · intro ho; rw [hl ho, hL' ho]; rfl
        · rcases hend with hend | ⟨hi, e, he, hee⟩
          · exact Or.inl hend
          · refine Or.inr ⟨hi, e, ?_, hee⟩
            rw [undisturbed_add 3 k, e3, List.getLast?_append, he]
            rfl
    · cases hx : a.m with
      | nil => rw [hx] at hm; simp at hm
      | cons d rest =>
        have h5 := hn d rest hx
        have h6 := sizes_le h (d := d) (by rw [hx]; simp)
        omega

/-- The states that interrupts and the task can bring a shared queue into. -/
def SReached (g : Geo) (cap : Nat) (q : SharedQ K) : Prop :=
  ∃ s evs, Start g s ∧ q = (SharedQ.schedule g evs (SharedQ.new cap s)).2

theorem SReached.two (w : g.WF) {q : SharedQ K} (h : SReached g cap q) : ∃ a, IsHalves g cap q a := by
  obtain ⟨s, evs, h1, rfl⟩ := h
  obtain ⟨a, h2, _⟩ := order_run w evs (acc := []) (out := []) (new_two w h1 cap) ⟨by simp [keep], by simp⟩
  exact ⟨a, h2⟩

/-- What a call returns, `k` steps after it began, when nothing disturbs it. -/
def returns (g : Geo) (c : TaskCall) (k : Nat) (q : SharedQ K) : Option (Except Err TaskRet) :=
  match (undisturbed g k (q.begin c)).1.getLast? with
  | some (some (.back r)) => some r
  | _ => none

theorem calm_contents (w : g.WF) {s : St K} {f : List (List Byte)} (h : Holds ⟨true, false, none, fun _ => True, false⟩ g s f) : Contents g s f :=
  Holds.contents_cf w (md := ⟨true, false, none, fun _ => True, false⟩) rfl rfl h

/-- C59, as far as it holds. When nothing disturbs it, a `pop` with a large buffer that may not overwrite moves
everything to flash and returns the oldest of all items, in at most three steps for every item in the ring and
three more; or the flash refuses an item and all items are still there, in order. Missing: it should return the
oldest item in any case (`shared_pop_refused`). -/
theorem shared_pop_takes_oldest_partial (w : g.WF) {q : SharedQ K} (h : SReached g cap q) (_ : q.task = .idle) (b : List Byte)
    (hb : cap ≤ b.length) (hb' : g.eraseSize ≤ b.length) (f : List (List Byte)) (hf : Contents g q.st f) :
    ∃ k, k ≤ 3 * q.ring.count + 3 ∧ (undisturbed g k (q.begin (.pop b false))).2.task = .idle ∧
      ((returns g (.pop b false) k q = some (.ok (.popped (f ++ ringAll q.ring).head?)) ∧
        (undisturbed g k (q.begin (.pop b false))).2.ring.count = 0 ∧
        Contents g (undisturbed g k (q.begin (.pop b false))).2.st (f ++ ringAll q.ring).tail) ∨
       ((returns g (.pop b false) k q = some (.error .itemTooBig) ∨ returns g (.pop b false) k q = some (.error .fullStorage)) ∧
        ∃ f', Contents g (undisturbed g k (q.begin (.pop b false))).2.st f' ∧
          f' ++ ringAll (undisturbed g k (q.begin (.pop b false))).2.ring = f ++ ringAll q.ring)) := by
  obtain ⟨a, h1⟩ := h.two w
  have hff : f = a.f := hf.unique (calm_contents w h1.flash)
  subst hff
  rw [ringAll_rep h1.ram]
  have h2 := begin_two w h1 (.pop b false)
  have hcount : q.ring.count = a.m.length := h1.ram.count
  rw [hcount]
  have hbeg : (a.begin (.pop b false)) = { a with len := b.length, task := .counting true false } := rfl
  rw [hbeg] at h2
  obtain ⟨a1, r1, h3⟩ := run_two w h2
  simp only [Halves.runs, if_true] at r1
  obtain ⟨ho1, rfl⟩ := r1
  -- the reading at the end
  have hread : ∀ {q1 : SharedQ K} {a1 : Halves}, IsHalves g cap q1 a1 → a1.task = .reading true → a1.m = [] → a1.len = b.length →
      ((q1.run g).2 = some (.back (.ok (.popped a1.f.head?))) ∧ (q1.run g).1.task = .idle ∧ (q1.run g).1.ring.count = 0 ∧
        Contents g (q1.run g).1.st a1.f.tail) := by
    intro q1 a1 h ht hm hlen
    obtain ⟨a2, r, h'⟩ := run_two w h
    simp only [Halves.runs, ht, if_true] at r
    rcases r with ⟨hf, ho, rfl⟩ | ⟨d, rest, hf, ho, rfl⟩ | ⟨n, d, rest, hf, hn, ho, rfl⟩
    · exact ⟨by rw [ho, hf]; rfl, h'.task, by have := h'.ram.count; rw [this]; simp [hm], by
        have := calm_contents w h'.flash
        dsimp only at this
        rw [hf] at this ⊢
        exact this⟩
    · exact ⟨by rw [ho, hf]; rfl, h'.task, by have := h'.ram.count; rw [this]; simp [hm], by
        have := calm_contents w h'.flash
        dsimp only at this
        rw [hf]
        exact this⟩
    · obtain ⟨f', h5, _⟩ := (works_cf w K).call _ _ h.flash (.pop q1.st.buf) trivial (by simp)
      rw [qcall_pop_run] at h5
      change queueStep _ _ _ _ _ ((Queue.pop g q1.st).1.map .item) _ at h5
      have hrun : (q1.run g).2 = some (.back ((Queue.pop g q1.st).1.map .popped)) := by
        unfold SharedQ.run; rw [h.task, ht]; rfl
      rw [hrun] at ho
      rw [hf] at h5
      have h6 := Holds.fits w h.flash (d := d) (by rw [hf]; simp)
      have h7 := h.len
      simp only [queueStep] at h5
      rw [if_pos (by omega)] at h5
      cases hr : (Queue.pop g q1.st).1 with
      | error e => rw [hr] at h5; simp [Except.map] at h5
      | ok x => rw [hr] at ho; simp [Except.map] at ho
  by_cases hm : a.m = []
  · rw [if_pos hm] at h3
    obtain ⟨q1, q2, q3, q4⟩ := hread h3 rfl hm rfl
    refine ⟨2, by omega, ?_, Or.inl ⟨?_, ?_, ?_⟩⟩
    · rw [undisturbed_add 1 1]; exact q2
    · unfold returns; rw [undisturbed_add 1 1, undisturbed_one, undisturbed_one]
      simp [q1, hm]
    · rw [undisturbed_add 1 1]; exact q3
    · rw [undisturbed_add 1 1, hm, List.append_nil]; exact q4
  · rw [if_neg hm] at h3
    obtain ⟨k, a', hk, h4, hlen, ⟨lost, hL, hL'⟩, hend⟩ := drain_loop w .pop (by simp) false a.m.length h3 rfl rfl hb
    have hl0 := hL' rfl
    subst hl0
    rw [List.nil_append] at hL
    dsimp only at hL
    rcases hend with ⟨ht, hm'⟩ | ⟨ht, e, he, hee⟩
    · obtain ⟨a2, r2, h5⟩ := run_two w h4
      simp only [Halves.runs, ht] at r2
      rcases r2 with ⟨d, rest, hx, _⟩ | ⟨_, r2⟩
      · rw [hm'] at hx; cases hx
      · have e1 := congrArg Prod.fst r2
        simp only [Halves.drained] at e1
        subst e1
        obtain ⟨q1, q2, q3, q4⟩ := hread h5 rfl hm' hlen
        dsimp only at q1 q4
        rw [hm', List.append_nil] at hL
        have e : 1 + (k + (1 + 1)) = k + 3 := by omega
        refine ⟨1 + (k + (1 + 1)), by omega, ?_, Or.inl ⟨?_, ?_, ?_⟩⟩
        · rw [undisturbed_add 1, undisturbed_add k, undisturbed_add 1 1]; exact q2
        · unfold returns
          rw [undisturbed_add 1, undisturbed_add k, undisturbed_add 1 1]
          simp only [undisturbed_one, List.getLast?_append, List.getLast?_singleton, Option.some_or]
          rw [q1, hL]
        · rw [undisturbed_add 1, undisturbed_add k, undisturbed_add 1 1]; exact q3
        · rw [undisturbed_add 1, undisturbed_add k, undisturbed_add 1 1, hL]; exact q4
    · refine ⟨1 + k, by omega, ?_, Or.inr ⟨?_, a'.f, ?_, ?_⟩⟩
      · rw [undisturbed_add 1]; exact h4.task.trans ht
      · have : returns g (.pop b false) (1 + k) q = some (.error e) := by
          unfold returns
          rw [undisturbed_add 1, List.getLast?_append, undisturbed_one]
          rw [he]; rfl
        rcases hee with rfl | ⟨rfl, _⟩
        · exact Or.inl this
        · exact Or.inr this
      · rw [undisturbed_add 1]; exact calm_contents w h4.flash
      · rw [undisturbed_add 1]; exact (congrArg (a'.f ++ ·) (ringAll_rep h4.ram)).trans hL.symm

/-! ### Sleeping -/

/-- The calls of a task that does nothing but `wait_and_drain_all`, with a buffer as large as the ring. -/
def DrainsOnly (cap : Nat) (evs : List TaskEv) : Prop :=
  ∀ c, .call c ∈ evs → ∃ b o, c = .waitDrain b o ∧ cap ≤ b.length

/-- No call has failed. -/
def NoneFailed (outs : List (Option TaskOut)) : Prop := ∀ e, some (.back (.error e)) ∉ outs

/-- Where such a task can be. -/
def inDrain : TaskAt → Bool
  | .idle | .waiting (some _) | .peeking .all _ | .pushing _ .all _ | .discarding .all _ => true
  | _ => false

structure Awake (cap : Nat) (a : Halves) : Prop where
  drains : inDrain a.task = true
  buf : a.task ≠ .idle → cap ≤ a.len
  idle : a.task = .idle → a.m ≠ [] → a.signal = true
  waiting : ∀ o, a.task = .waiting o → a.m ≠ [] → a.signal = true

theorem awake_step {q : SharedQ K} {a a' : Halves} {e : TaskEv} {o : Option TaskOut} (h : Awake cap a) (hq : IsHalves g cap q a)
    (hs : a.steps e o a') (hc : DrainsOnly cap [e]) (ho : NoneFailed [o]) : Awake cap a' := by
  have hb := fun d (hd : d ∈ a.m) => sizes_le hq hd
  obtain ⟨h1, h2, h3, h4⟩ := h
  cases e with
  | interrupt d p =>
    rcases hs with ⟨dr, kept, _, _, _, rfl⟩ | ⟨_, rfl⟩
    · exact ⟨h1, h2, fun _ _ => rfl, fun _ _ _ => rfl⟩
    · exact ⟨h1, h2, h3, h4⟩
  | call c =>
    obtain ⟨b, ow, rfl, hl⟩ := hc c (by simp)
    obtain ⟨_, rfl⟩ := hs
    by_cases ht : a.task = .idle
    · rw [if_pos ht]
      exact ⟨rfl, fun _ => hl, by simp [Halves.begin], fun _ _ => h3 ht⟩
    · rw [if_neg ht]
      exact ⟨h1, h2, h3, h4⟩
  | run =>
    simp only [Halves.steps, Halves.runs] at hs
    cases ht : a.task with
    | idle => rw [ht] at hs; obtain ⟨_, rfl⟩ := hs; exact ⟨h1, h2, h3, h4⟩
    | waiting d =>
      simp only [ht] at hs h1 h2 h4
      split at hs
      · obtain ⟨_, rfl⟩ := hs
        exact ⟨by rw [ht]; exact h1, fun _ => h2 (by simp), by simp [ht], fun o h => h4 o (ht ▸ h)⟩
      · cases d with
        | none => simp [inDrain] at h1
        | some ow =>
          obtain ⟨_, rfl⟩ := hs
          exact ⟨rfl, fun _ => h2 (by simp), by simp, by simp⟩
    | counting p ow => simp [ht, inDrain] at h1
    | peeking p ow =>
      simp only [ht] at hs h1 h2
      have h2 := h2 (by simp)
      rcases hs with ⟨d, rest, hm, hd, _, rfl⟩ | ⟨hn, hs⟩
      · exact ⟨by cases p <;> simp_all [inDrain], fun _ => h2, by simp, by simp⟩
      · cases p with
        | all =>
          have := congrArg Prod.fst hs
          simp only [Halves.drained] at this
          subst this
          refine ⟨rfl, by simp, fun _ hm => ?_, by simp⟩
          cases hx : a.m with
          | nil => exact (hm hx).elim
          | cons d rest =>
            have h5 := hn d rest hx
            have h6 := hb d (by rw [hx]; simp)
            omega
        | _ => simp [inDrain] at h1
    | pushing d p ow =>
      simp only [ht] at hs h1 h2
      have h2 := h2 (by simp)
      rcases hs with ⟨e, _, rfl, _⟩ | ⟨lost, kept, _, _, _, rfl⟩
      · exact (ho e (by simp)).elim
      · exact ⟨by cases p <;> simp_all [inDrain], fun _ => h2, by simp, by simp⟩
    | discarding p ow =>
      simp only [ht] at hs h1 h2
      have h2' := h2 (by simp)
      cases p with
      | all =>
        have := congrArg Prod.fst hs
        simp only [Halves.moved] at this
        subst this
        exact ⟨rfl, fun _ => h2', by simp, by simp⟩
      | _ => simp [inDrain] at h1
    | reading p => simp [ht, inDrain] at h1

theorem awake_run (w : g.WF) (es : List TaskEv) : ∀ {q : SharedQ K} {a : Halves}, IsHalves g cap q a → Awake cap a → DrainsOnly cap es →
    NoneFailed (SharedQ.schedule g es q).1 →
    ∃ a', IsHalves g cap (SharedQ.schedule g es q).2 a' ∧ Awake cap a' := by
  induction es with
  | nil => intro q a h1 h2 _ _; exact ⟨a, h1, h2⟩
  | cons e es ih =>
    intro q a h1 h2 hc ho
    obtain ⟨a1, h3, h4⟩ := step_two w h1 e
    have h5 := awake_step h2 h1 h3 (fun c h => hc c (by simp only [List.mem_singleton] at h; simp [h]))
      (fun e h => ho e (by simp only [List.mem_singleton] at h; simp [SharedQ.schedule, h]))
    exact ih h4 h5 (fun c h => hc c (List.mem_cons_of_mem _ h))
      (fun e h => ho e (by simp only [SharedQ.schedule]; exact List.mem_cons_of_mem _ h))

/-- C60, as far as it holds. A task that does nothing but `wait_and_drain_all`, with a buffer as large as the ring,
never sleeps while items are pending, whatever interrupts happen when, as long as no call has failed. Missing: after
a failed call too (`drain_sleeps_on_items`). -/
theorem drain_task_wakes_partial (w : g.WF) {s : St K} (h : Start g s) (evs : List TaskEv) (hc : DrainsOnly cap evs)
    (ho : NoneFailed (SharedQ.schedule g evs (SharedQ.new cap s)).1) :
    let q := (SharedQ.schedule g evs (SharedQ.new cap s)).2
    (q.task = .idle ∨ ∃ o, q.task = .waiting o) → q.ring.count ≠ 0 → q.signal = true := by
  intro q ht hn
  obtain ⟨a, h1, h2⟩ := awake_run w evs (new_two w h cap) ⟨rfl, by simp, by simp, by simp⟩ hc ho
  have h3 : q.task = a.task := h1.task
  have h4 : q.signal = a.signal := h1.signal
  have h5 : q.ring.count = a.m.length := h1.ram.count
  rw [h4]
  have h6 : a.m ≠ [] := by intro h; rw [h5, h] at hn; exact hn rfl
  rcases ht with ht | ⟨o, ht⟩
  · exact h2.idle (h3 ▸ ht) h6
  · exact h2.waiting o (h3 ▸ ht) h6

/-- When the signal is set and nothing disturbs it, `wait_and_drain_all` returns after at most three steps for every
item and two more, and then the ring is empty; or the flash refuses an item. -/
theorem drain_finishes (w : g.WF) {q : SharedQ K} (h : SReached g cap q) (_ : q.task = .idle) (hs : q.signal = true)
    (b : List Byte) (hb : cap ≤ b.length) (ow : Bool) :
    ∃ k, k ≤ 3 * q.ring.count + 2 ∧ (undisturbed g k (q.begin (.waitDrain b ow))).2.task = .idle ∧
      ((returns g (.waitDrain b ow) k q = some (.ok .done) ∧ (undisturbed g k (q.begin (.waitDrain b ow))).2.ring.count = 0) ∨
       returns g (.waitDrain b ow) k q = some (.error .itemTooBig) ∨
       (returns g (.waitDrain b ow) k q = some (.error .fullStorage) ∧ ow = false)) := by
  obtain ⟨a, h1⟩ := h.two w
  have h2 := begin_two w h1 (.waitDrain b ow)
  have hcount : q.ring.count = a.m.length := h1.ram.count
  rw [hcount]
  have hbeg : (a.begin (.waitDrain b ow)) = { a with len := b.length, task := .waiting (some ow) } := rfl
  rw [hbeg] at h2
  obtain ⟨a1, r1, h3⟩ := run_two w h2
  have hs' : a.signal = true := h1.signal ▸ hs
  simp only [Halves.runs, hs', Bool.true_eq_false, if_false] at r1
  obtain ⟨ho1, rfl⟩ := r1
  obtain ⟨k, a', hk, h4, hlen, _, hend⟩ := drain_loop w .all (by simp) ow a.m.length h3 rfl rfl hb
  rcases hend with ⟨ht, hm'⟩ | ⟨ht, e, he, hee⟩
  · obtain ⟨a2, r2, h5⟩ := run_two w h4
    simp only [Halves.runs, ht] at r2
    rcases r2 with ⟨d, rest, hx, _⟩ | ⟨_, r2⟩
    · rw [hm'] at hx; cases hx
    · have e1 := congrArg Prod.fst r2
      have e2 := congrArg Prod.snd r2
      simp only [Halves.drained] at e1 e2
      subst e1
      refine ⟨1 + (k + 1), by omega, ?_, Or.inl ⟨?_, ?_⟩⟩
      · rw [undisturbed_add 1, undisturbed_add k]; exact h5.task
      · unfold returns
        rw [undisturbed_add 1, undisturbed_add k]
        simp only [undisturbed_one, List.getLast?_append, List.getLast?_singleton, Option.some_or]
        rw [e2]
      · rw [undisturbed_add 1, undisturbed_add k]
        exact h5.ram.count.trans (by simp [hm'])
  · have : returns g (.waitDrain b ow) (1 + k) q = some (.error e) := by
      unfold returns
      rw [undisturbed_add 1, List.getLast?_append, undisturbed_one]
      rw [he]; rfl
    refine ⟨1 + k, by omega, ?_, Or.inr ?_⟩
    · rw [undisturbed_add 1]; exact h4.task.trans ht
    · rcases hee with rfl | ⟨rfl, ho⟩
      · exact Or.inl this
      · exact Or.inr ⟨this, ho⟩

/-! ### Cases and counterexamples -/

/-- An item that fills a page of `geo2`. -/
def big (b : Byte) : List Byte := List.replicate 16 b

/-- Halves drains that fill the flash, and a third item. -/
def fillUp : List TaskEv :=
  let r : List TaskEv := [.call (.waitDrain buf100 false), .run, .run, .run, .run, .run]
  .interrupt (big 1) .err :: r ++ .interrupt (big 2) .err :: r ++ [.interrupt (big 3) .err]

/-- The state after that. -/
def fullShared : SharedQ Unit := (SharedQ.schedule geo2 fillUp (SharedQ.new 40 freshSt)).2

theorem fullShared_reached : SReached geo2 40 fullShared := ⟨freshSt, fillUp, fresh_start geo2, rfl⟩

theorem fullShared_facts : fullShared.task = .idle ∧ fullShared.signal = true ∧ ringAll fullShared.ring = [big 3] ∧
    (Queue.pop geo2 { fullShared.st with buf := buf100 }).1 = .ok (some (big 1)) := by decide +kernel

/-- C59 does not hold when the flash is full and nothing may be overwritten: `pop` wants to make room by moving the
items of the ring to flash first, which the flash refuses. The call fails, again and again, though the oldest item
could be popped, which would make room. -/
theorem shared_pop_refused :
    ∃ q : SharedQ Unit, SReached geo2 40 q ∧ q.task = .idle ∧
      (Queue.pop geo2 { q.st with buf := buf100 }).1 = .ok (some (big 1)) ∧
      returns geo2 (.pop buf100 false) 3 q = some (.error .fullStorage) ∧
      returns geo2 (.pop buf100 false) 3 (undisturbed geo2 3 (q.begin (.pop buf100 false))).2 = some (.error .fullStorage) := by
  refine ⟨fullShared, fullShared_reached, fullShared_facts.1, fullShared_facts.2.2.2, ?_, ?_⟩ <;> decide +kernel

/-- C60 does not hold after a failed call: the signal is gone, and the next `wait_and_drain_all` sleeps although an
item is in the ring. -/
theorem drain_sleeps_on_items :
    ∃ evs, DrainsOnly 40 evs ∧
      let q := (SharedQ.schedule geo2 evs (SharedQ.new 40 freshSt)).2
      q.task = .waiting (some false) ∧ q.signal = false ∧ ringAll q.ring = [big 3] := by
  refine ⟨fillUp ++ [.call (.waitDrain buf100 false), .run, .run, .run, .call (.waitDrain buf100 false), .run], ?_, by decide +kernel⟩
  intro c hc
  refine ⟨buf100, false, ?_, by decide⟩
  simp [fillUp] at hc
  exact hc

def failed : Option TaskOut → Bool
  | some (.back (.error _)) => true
  | _ => false

/-- A schedule with interrupts in the middle of a drain and a full ring. -/
def busy : List TaskEv :=
  [.interrupt [1#8] .err, .call (.waitDrain buf100 false), .run, .run, .interrupt [2#8, 2#8] .err, .run, .interrupt [3#8] .err,
    .interrupt [4#8] .err, .run, .run, .run, .run, .run, .interrupt [5#8] .err, .call (.pop buf100 false)]

/-- The hypotheses of C58 and C60 are met by it: 3 and 4 were refused, 5 is in the ring. -/
example : DrainsOnly 8 busy.dropLast ∧ NoneFailed (SharedQ.schedule geo2 busy.dropLast (SharedQ.new 8 freshSt)).1 ∧
    (∀ e ∈ busy, ¬ Overwrites e) ∧
    accepted busy (SharedQ.schedule geo2 busy (SharedQ.new 8 freshSt)).1 = [[1#8], [2#8, 2#8], [5#8]] ∧
    handedOut (SharedQ.schedule geo2 (busy ++ List.replicate 12 .run) (SharedQ.new 8 freshSt)).1 = [[1#8]] ∧
    ringAll (SharedQ.schedule geo2 busy.dropLast (SharedQ.new 8 freshSt)).2.ring = [[5#8]] := by
  refine ⟨?_, ?_, ?_, by decide +kernel, by decide +kernel, by decide +kernel⟩
  · intro c hc
    refine ⟨buf100, false, ?_, by decide⟩
    simp [busy] at hc
    exact hc
  · have : ∀ o ∈ (SharedQ.schedule geo2 busy.dropLast (SharedQ.new 8 freshSt)).1, failed o = false := by decide +kernel
    intro e he
    exact absurd (this _ he) (by simp [failed])
  · simp [busy, Overwrites]

/-- The hypotheses of `shared_pop_takes_oldest_partial` and `drain_finishes` are met by the full queue. -/
example : SReached geo2 40 fullShared ∧ fullShared.task = .idle ∧ fullShared.signal = true ∧ 40 ≤ buf100.length ∧
    geo2.eraseSize ≤ buf100.length :=
  ⟨fullShared_reached, fullShared_facts.1, fullShared_facts.2.1, by decide, by decide⟩

end SeqStorage.Props
