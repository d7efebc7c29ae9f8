import Verif.Proofs.Buffered
import Verif.Props.Shared
import Verif.Model.SharedUse
/-
The shared queue in terms of two lists of items: those in flash and those in the ring.
-/

set_option linter.unusedSectionVars false

namespace SeqStorage
open M Spec

variable {K : Type} [DecidableEq K] {g : Geo}

/-- The items in flash, the items in the ring, the signal, the task and the length of its buffer. -/
structure Halves where
  f : List (List Byte)
  m : List (List Byte)
  signal : Bool
  task : TaskAt
  len : Nat

namespace Halves

def begin (a : Halves) : TaskCall → Halves
  | .wait => { a with task := .waiting none }
  | .drainOne b o => { a with len := b.length, task := .peeking .one o }
  | .drainAll b o => { a with len := b.length, task := .peeking .all o }
  | .waitDrain b o => { a with len := b.length, task := .waiting (some o) }
  | .pop b o => { a with len := b.length, task := .counting true o }
  | .peek b o => { a with len := b.length, task := .counting false o }

/-- What follows when the drain has found nothing. -/
def drained (a : Halves) : Purpose → Halves × Option TaskOut
  | .one => ({ a with task := .idle }, some (.back (.ok (.drained false))))
  | .all => ({ a with task := .idle }, some (.back (.ok .done)))
  | .pop => ({ a with task := .reading true }, none)
  | .peek => ({ a with task := .reading false }, none)

/-- What follows when an item has been moved. -/
def moved (a : Halves) (ow : Bool) : Purpose → Halves × Option TaskOut
  | .one => ({ a with m := a.m.tail, task := .idle }, some (.back (.ok (.drained true))))
  | p => ({ a with m := a.m.tail, task := .peeking p ow }, none)

def runs (a : Halves) (o : Option TaskOut) (a' : Halves) : Prop :=
  match a.task with
  | .idle => o = none ∧ a' = a
  | .waiting d =>
    if a.signal = false then o = none ∧ a' = a
    else
      match d with
      | none => o = some (.back (.ok .done)) ∧ a' = { a with signal := false, task := .idle }
      | some ow => o = none ∧ a' = { a with signal := false, task := .peeking .all ow }
  | .counting pop ow =>
    o = none ∧ a' = { a with task := if a.m = [] then .reading pop else .peeking (if pop then .pop else .peek) ow }
  | .peeking p ow =>
    (∃ d rest, a.m = d :: rest ∧ d.length ≤ a.len ∧ o = none ∧ a' = { a with task := .pushing d p ow }) ∨
    ((∀ d rest, a.m = d :: rest → a.len < d.length) ∧ (a', o) = a.drained p)
  | .pushing d p ow =>
    (∃ e, (e = .itemTooBig ∨ (e = .fullStorage ∧ ow = false)) ∧ o = some (.back (.error e)) ∧ a' = { a with task := .idle }) ∨
    (∃ lost kept, a.f = lost ++ kept ∧ (ow = false → lost = []) ∧ o = none ∧ a' = { a with f := kept ++ [d], task := .discarding p ow })
  | .discarding p ow => (a', o) = a.moved ow p
  | .reading pop =>
    (a.f = [] ∧ o = some (.back (.ok (if pop then .popped none else .peeked none))) ∧ a' = { a with task := .idle }) ∨
    (∃ d rest, a.f = d :: rest ∧ o = some (.back (.ok (if pop then .popped (some d) else .peeked (some d)))) ∧
      a' = { a with f := if pop then rest else a.f, task := .idle }) ∨
    (∃ n d rest, a.f = d :: rest ∧ a.len < n ∧ o = some (.back (.error (.bufferTooSmall n))) ∧ a' = { a with task := .idle })

def steps (a : Halves) (e : TaskEv) (o : Option TaskOut) (a' : Halves) : Prop :=
  match e with
  | .interrupt d p =>
    (∃ dropped kept, a.m = dropped ++ kept ∧ (p = .err → dropped = []) ∧ o = some (.accepted true) ∧
      a' = { a with m := kept ++ [d], signal := true }) ∨
    (o = some (.accepted false) ∧ a' = a)
  | .call c => o = none ∧ a' = if a.task = .idle then a.begin c else a
  | .run => a.runs o a'

end Halves

/-- The model's state in these terms. -/
structure IsHalves (g : Geo) (cap : Nat) (q : SharedQ K) (a : Halves) : Prop where
  flash : Holds ⟨true, false, none, fun _ => True, false⟩ g q.st a.f
  ram : Ring.Rep q.ring a.m
  cap : q.ring.cap = cap
  signal : q.signal = a.signal
  task : q.task = a.task
  len : q.st.buf.length = a.len

variable {cap : Nat}

theorem begin_two {q : SharedQ K} {a : Halves} (w : g.WF) (h : IsHalves g cap q a) (c : TaskCall) : IsHalves g cap (q.begin c) (a.begin c) := by
  cases c with
  | wait => exact ⟨h.flash, h.ram, h.cap, h.signal, rfl, h.len⟩
  | _ b o => exact ⟨holds_buf w h.flash b, h.ram, h.cap, h.signal, rfl, rfl⟩

theorem run_two {q : SharedQ K} {a : Halves} (w : g.WF) (h : IsHalves g cap q a) :
    ∃ a', a.runs (q.run g).2 a' ∧ IsHalves g cap (q.run g).1 a' := by
  have W := works_cf w K
  have ht := h.task
  unfold Halves.runs
  unfold SharedQ.run
  rw [ht]
  cases hT : a.task with
  | idle => exact ⟨a, ⟨rfl, rfl⟩, by rw [hT] at ht; exact { h with }⟩
  | waiting d =>
    simp only
    rw [h.signal]
    by_cases hs : a.signal = false
    · simp only [if_pos hs]; exact ⟨a, ⟨trivial, rfl⟩, h⟩
    · simp only [if_neg hs]
      cases d with
      | none => exact ⟨_, ⟨rfl, rfl⟩, ⟨h.flash, h.ram, h.cap, rfl, rfl, h.len⟩⟩
      | some ow => exact ⟨_, ⟨rfl, rfl⟩, ⟨h.flash, h.ram, h.cap, rfl, rfl, h.len⟩⟩
  | counting pop ow =>
    simp only
    have hc := h.ram.count
    by_cases hm : a.m = []
    · rw [if_neg (by rw [hc, hm]; simp)]
      exact ⟨_, ⟨rfl, rfl⟩, ⟨h.flash, h.ram, h.cap, h.signal, by simp [hm], h.len⟩⟩
    · rw [if_pos (by rw [hc]; exact List.length_pos_iff.2 hm)]
      exact ⟨_, ⟨rfl, rfl⟩, ⟨h.flash, h.ram, h.cap, h.signal, by simp [hm], h.len⟩⟩
  | peeking p ow =>
    simp only
    have hnone : q.ring.peekInto q.st.buf.length = none → (∀ d rest, a.m = d :: rest → a.len < d.length) →
        ∃ a', ((∃ d rest, a.m = d :: rest ∧ d.length ≤ a.len ∧ (q.run g).2 = none ∧ a' = { a with task := .pushing d p ow }) ∨
          ((∀ d rest, a.m = d :: rest → a.len < d.length) ∧ (a', (q.run g).2) = a.drained p)) ∧ IsHalves g cap (q.run g).1 a' := by
      intro hp hle
      unfold SharedQ.run
      rw [ht, hT]
      simp only
      rw [hp]
      cases p <;> exact ⟨_, Or.inr ⟨hle, rfl⟩, ⟨h.flash, h.ram, h.cap, h.signal, rfl, h.len⟩⟩
    cases hm : a.m with
    | nil =>
      have hp := Ring.Rep.peek_nil (hm ▸ h.ram) q.st.buf.length
      have := hnone hp (by rw [hm]; intro d rest h; cases h)
      unfold SharedQ.run at this
      rw [ht, hT, hm] at this
      exact this
    | cons d rest =>
      have hp := Ring.Rep.peek_cons (hm ▸ h.ram) q.st.buf.length
      by_cases hd : d.length ≤ q.st.buf.length
      · rw [if_pos hd] at hp
        rw [hp]
        exact ⟨_, Or.inl ⟨d, rest, rfl, h.len ▸ hd, rfl, rfl⟩, ⟨holds_buf w h.flash _, by rw [← hm]; exact h.ram, h.cap, h.signal, rfl,
          (fill_length q.st d hd).trans h.len⟩⟩
      · rw [if_neg hd] at hp
        have := hnone hp (by rw [hm]; intro d rest h'; cases h'; rw [← h.len]; omega)
        unfold SharedQ.run at this
        rw [ht, hT, hm] at this
        exact this
  | pushing d p ow =>
    simp only
    obtain ⟨f', h1, h2⟩ := W.call _ _ h.flash (.push d ow) trivial (by simp)
    have hl := W.pushLen _ _ d ow h.flash trivial
    rw [qcall_push_run] at h1 h2 hl
    revert h1 h2 hl
    generalize Queue.push g d ow q.st = r
    obtain ⟨r, s⟩ := r
    cases r with
    | ok u =>
      intro h1 h2 hl
      simp only [queueStep, Except.map] at h1
      rcases h1 with ⟨_, h1, _⟩ | ⟨_, _, h1, _⟩ | ⟨_, _, lost, kept, h3, h4, h5, _⟩
      · simp at h1
      · simp at h1
      · exact ⟨_, Or.inr ⟨lost, kept, h3, h5, rfl, rfl⟩, ⟨by rw [← h4]; exact h2, h.ram, h.cap, h.signal, rfl, hl.trans h.len⟩⟩
    | error e =>
      intro h1 h2 hl
      simp only [queueStep, Except.map] at h1
      rcases h1 with ⟨_, h1, h3⟩ | ⟨_, ho, h1, h3, _⟩ | ⟨_, h1, _⟩
      · cases h1
        exact ⟨_, Or.inl ⟨_, Or.inl rfl, rfl, rfl⟩, ⟨by rw [← h3]; exact h2, h.ram, h.cap, h.signal, rfl, hl.trans h.len⟩⟩
      · cases h1
        exact ⟨_, Or.inl ⟨_, Or.inr ⟨rfl, ho⟩, rfl, rfl⟩, ⟨by rw [← h3]; exact h2, h.ram, h.cap, h.signal, rfl, hl.trans h.len⟩⟩
      · simp at h1
  | discarding p ow =>
    simp only
    have hr : Ring.Rep q.ring.discardOldest a.m.tail := by
      cases hm : a.m with
      | nil =>
        have := hm ▸ h.ram
        rw [Ring.Rep.discard_nil this]; exact this
      | cons d rest => exact Ring.Rep.discard_cons (hm ▸ h.ram)
    have hc : q.ring.discardOldest.cap = cap := by rw [← h.cap]; exact Ring.discard_cap _
    cases p <;> exact ⟨_, rfl, ⟨h.flash, hr, hc, h.signal, rfl, h.len⟩⟩
  | reading pop =>
    simp only
    cases pop with
    | true =>
      obtain ⟨f', h1, h2⟩ := W.call _ _ h.flash (.pop q.st.buf) trivial (by simp)
      have hl := W.popLen _ _ q.st.buf h.flash
      rw [qcall_pop_run] at h1 h2 hl
      change queueStep _ _ _ _ _ ((Queue.pop g q.st).1.map .item) _ at h1
      change Holds _ _ (Queue.pop g q.st).2 _ at h2
      change (Queue.pop g q.st).2.buf.length = _ at hl
      simp only [if_true]
      revert h1 h2 hl
      generalize Queue.pop g q.st = r
      obtain ⟨r, s⟩ := r
      intro h1 h2 hl
      simp only [queueStep] at h1
      cases hf : a.f with
      | nil =>
        rw [hf] at h1
        obtain ⟨h3, h4⟩ := h1
        cases r with
        | error e => simp [Except.map] at h3
        | ok x =>
          simp [Except.map] at h3; subst h3
          exact ⟨_, Or.inl ⟨rfl, rfl, rfl⟩, ⟨by rw [← h4]; exact h2, h.ram, h.cap, h.signal, rfl, hl.trans h.len⟩⟩
      | cons d rest =>
        rw [hf] at h1
        simp only at h1
        split at h1
        · obtain ⟨h3, h4⟩ := h1
          cases r with
          | error e => simp [Except.map] at h3
          | ok x =>
            simp [Except.map] at h3; subst h3
            exact ⟨_, Or.inr (Or.inl ⟨d, rest, rfl, rfl, rfl⟩), ⟨by rw [← h4]; exact h2, h.ram, h.cap, h.signal, rfl, hl.trans h.len⟩⟩
        · obtain ⟨h3, h4⟩ := h1
          cases r with
          | ok e => simp [Except.map] at h3
          | error x =>
            simp [Except.map] at h3; subst h3
            exact ⟨_, Or.inr (Or.inr ⟨_, d, rest, rfl, by rw [← h.len]; omega, rfl, rfl⟩), ⟨by rw [← h4]; exact h2, h.ram, h.cap, h.signal, rfl, hl.trans h.len⟩⟩
    | false =>
      obtain ⟨f', h1, h2⟩ := W.call _ _ h.flash (.peek q.st.buf) trivial (by simp)
      have hl := W.peekLen _ _ q.st.buf h.flash
      rw [qcall_peek_run] at h1 h2 hl
      change queueStep _ _ _ _ _ ((Queue.peek g q.st).1.map .item) _ at h1
      change Holds _ _ (Queue.peek g q.st).2 _ at h2
      change (Queue.peek g q.st).2.buf.length = _ at hl
      simp only [Bool.false_eq_true, if_false]
      revert h1 h2 hl
      generalize Queue.peek g q.st = r
      obtain ⟨r, s⟩ := r
      intro h1 h2 hl
      simp only [queueStep] at h1
      cases hf : a.f with
      | nil =>
        rw [hf] at h1
        obtain ⟨h3, h4⟩ := h1
        cases r with
        | error e => simp [Except.map] at h3
        | ok x =>
          simp [Except.map] at h3; subst h3
          exact ⟨_, Or.inl ⟨rfl, rfl, rfl⟩, ⟨by rw [← h4]; exact h2, h.ram, h.cap, h.signal, rfl, hl.trans h.len⟩⟩
      | cons d rest =>
        rw [hf] at h1
        simp only at h1
        split at h1
        · obtain ⟨h3, h4⟩ := h1
          cases r with
          | error e => simp [Except.map] at h3
          | ok x =>
            simp [Except.map] at h3; subst h3
            exact ⟨_, Or.inr (Or.inl ⟨d, rest, rfl, rfl, rfl⟩), ⟨by rw [← h4]; exact h2, h.ram, h.cap, h.signal, rfl, hl.trans h.len⟩⟩
        · obtain ⟨h3, h4⟩ := h1
          cases r with
          | ok e => simp [Except.map] at h3
          | error x =>
            simp [Except.map] at h3; subst h3
            exact ⟨_, Or.inr (Or.inr ⟨_, d, rest, rfl, by rw [← h.len]; omega, rfl, rfl⟩), ⟨by rw [← h4]; exact h2, h.ram, h.cap, h.signal, rfl, hl.trans h.len⟩⟩

/-- What an accepted `enqueue` does. -/
theorem enqueue_two {r r' : Ring} {l : List (List Byte)} {d : List Byte} {p : OverflowPolicy}
    (h : Ring.Rep r l) (he : r.enqueue d p = some r') :
    ∃ dr k, l = dr ++ k ∧ (p = .err → dr = []) ∧ Ring.Rep r' (k ++ [d]) ∧ r'.cap = r.cap := by
  cases p with
  | err =>
    have := Props.ringStep_sim h (.push d)
    have he' : r.push d = some r' := he
    simp only [Props.ringStep, he', fifoStep] at this
    split at this
    · exact ⟨[], l, rfl, fun _ => rfl, this.2.1, this.2.2⟩
    · simp at this
  | discardOldest =>
    have := Props.ringStep_sim h (.pushOverwriting d)
    have he' : r.pushOverwriting d = some r' := he
    simp only [Props.ringStep, he', fifoStep] at this
    split at this
    · obtain ⟨q, hq⟩ := Props.dropFor_suffix r.cap (footprint [d]) l
      rw [Props.dropUntilRoom_eq] at this
      exact ⟨q, _, hq, by simp, this.2.1, this.2.2⟩
    · simp at this

theorem step_two {q : SharedQ K} {a : Halves} (w : g.WF) (h : IsHalves g cap q a) (e : TaskEv) :
    ∃ a', a.steps e (q.step g e).2 a' ∧ IsHalves g cap (q.step g e).1 a' := by
  cases e with
  | interrupt d p =>
    simp only [SharedQ.step, Halves.steps]
    cases he : q.ring.enqueue d p with
    | none => exact ⟨a, Or.inr ⟨rfl, rfl⟩, h⟩
    | some r =>
      obtain ⟨dr, k, hk, hp, hr, hc⟩ := enqueue_two h.ram he
      exact ⟨_, Or.inl ⟨dr, k, hk, hp, rfl, rfl⟩, ⟨h.flash, hr, hc.trans h.cap, rfl, h.task, h.len⟩⟩
  | call c =>
    simp only [SharedQ.step, Halves.steps, h.task]
    by_cases ht : a.task = .idle
    · rw [if_pos ht, if_pos ht]; exact ⟨_, ⟨rfl, rfl⟩, begin_two w h c⟩
    · rw [if_neg ht, if_neg ht]; exact ⟨_, ⟨rfl, rfl⟩, h⟩
  | run => exact run_two w h

end SeqStorage
