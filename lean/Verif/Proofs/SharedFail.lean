import Verif.Proofs.SharedQueue
import Verif.Model.SharedFail
/-
The shared queue on a flash that fails, in terms of the items in flash and in the ring.
-/

set_option linter.unusedSectionVars false

namespace SeqStorage
open M Spec

variable {K : Type} [DecidableEq K] {g : Geo}

namespace Halves

/-- What the task's next step can do when the flash fails. -/
def fails (a : Halves) (o : Option TaskOut) (a' : Halves) : Prop :=
  match a.task with
  | .pushing d _ ow =>
    o = some (.back (.error .shutoff)) ∧ ∃ lost kept, a.f = lost ++ kept ∧ (ow = false → lost = []) ∧
      (a' = { a with f := kept, task := .idle } ∨ a' = { a with f := kept ++ [d], task := .idle })
  | .reading pop =>
    (∃ e, o = some (.back (.error e)) ∧ a' = { a with task := .idle }) ∨
    (pop = true ∧ o = some (.back (.error .shutoff)) ∧ ∃ d rest, a.f = d :: rest ∧ a' = { a with f := rest, task := .idle })
  | _ => False

end Halves

/-- The model's state in these terms. -/
structure IsTorn (g : Geo) (D : List Byte → Prop) (cap : Nat) (q : SharedQ K) (a : Halves) : Prop where
  flash : Holds ⟨false, false, none, D, false⟩ g q.st a.f
  ram : Ring.Rep q.ring a.m
  cap : q.ring.cap = cap
  signal : q.signal = a.signal
  task : q.task = a.task
  len : q.st.buf.length = a.len
  fine : ∀ d ∈ a.m, NoTorn D d
  next : ∀ d p ow, a.task = .pushing d p ow → NoTorn D d

variable {cap : Nat} {D : List Byte → Prop}

theorem begin_torn {q : SharedQ K} {a : Halves} (w : g.WF) (h : IsTorn g D cap q a) (c : TaskCall) : IsTorn g D cap (q.begin c) (a.begin c) := by
  cases c with
  | wait => exact ⟨h.flash, h.ram, h.cap, h.signal, rfl, h.len, h.fine, by intro d p ow h; cases h⟩
  | _ b o => exact ⟨holds_buf w h.flash b, h.ram, h.cap, h.signal, rfl, rfl, h.fine, by intro d p ow h; cases h⟩

theorem run_torn {q : SharedQ K} {a : Halves} (w : g.WF) (hmd : (⟨false, false, none, D, false⟩ : Mode).OK g) (h : IsTorn g D cap q a) :
    ∃ a', (a.runs (q.run g).2 a' ∨ a.fails (q.run g).2 a') ∧ IsTorn g D cap (q.run g).1 a' := by
  have W := works_crash w K hmd
  have ht := h.task
  unfold Halves.runs Halves.fails
  unfold SharedQ.run
  rw [ht]
  cases hT : a.task with
  | idle => exact ⟨a, Or.inl ⟨rfl, rfl⟩, h⟩
  | waiting d =>
    simp only
    rw [h.signal]
    by_cases hs : a.signal = false
    · simp only [if_pos hs]; exact ⟨a, Or.inl ⟨trivial, rfl⟩, h⟩
    · simp only [if_neg hs]
      cases d with
      | none => exact ⟨_, Or.inl ⟨rfl, rfl⟩, ⟨h.flash, h.ram, h.cap, rfl, rfl, h.len, h.fine, by intro d p ow h; cases h⟩⟩
      | some ow => exact ⟨_, Or.inl ⟨rfl, rfl⟩, ⟨h.flash, h.ram, h.cap, rfl, rfl, h.len, h.fine, by intro d p ow h; cases h⟩⟩
  | counting pop ow =>
    simp only
    have hc := h.ram.count
    by_cases hm : a.m = []
    · rw [if_neg (by rw [hc, hm]; simp)]
      exact ⟨_, Or.inl ⟨rfl, rfl⟩, ⟨h.flash, h.ram, h.cap, h.signal, by simp [hm], h.len, h.fine, by rw [if_pos hm]; intro d p ow h; cases h⟩⟩
    · rw [if_pos (by rw [hc]; exact List.length_pos_iff.2 hm)]
      exact ⟨_, Or.inl ⟨rfl, rfl⟩, ⟨h.flash, h.ram, h.cap, h.signal, by simp [hm], h.len, h.fine, by rw [if_neg hm]; intro d p ow h; cases h⟩⟩
  | peeking p ow =>
    simp only
    have hsplit : a.m = [] ∨ ∃ d rest, a.m = d :: rest := by
      cases a.m with
      | nil => exact Or.inl rfl
      | cons d rest => exact Or.inr ⟨d, rest, rfl⟩
    rcases hsplit with hm | ⟨d, rest, hm⟩
    · rw [Ring.Rep.peek_nil (hm ▸ h.ram) q.st.buf.length]
      have hle : ∀ d rest, a.m = d :: rest → a.len < d.length := by rw [hm]; intro d rest h; cases h
      cases p <;> exact ⟨_, Or.inl (Or.inr ⟨hle, rfl⟩), ⟨h.flash, h.ram, h.cap, h.signal, rfl, h.len, h.fine, by intro d p ow h; cases h⟩⟩
    · have hp := Ring.Rep.peek_cons (hm ▸ h.ram) q.st.buf.length
      by_cases hd : d.length ≤ q.st.buf.length
      · rw [if_pos hd] at hp
        rw [hp]
        refine ⟨_, Or.inl (Or.inl ⟨d, rest, hm, h.len ▸ hd, rfl, rfl⟩), ⟨holds_buf w h.flash _, h.ram, h.cap, h.signal, rfl,
          (fill_length q.st d hd).trans h.len, h.fine, ?_⟩⟩
        intro d' p' ow' h'
        cases h'
        exact h.fine d (by rw [hm]; simp)
      · rw [if_neg hd] at hp
        rw [hp]
        have hle : ∀ d rest, a.m = d :: rest → a.len < d.length := by rw [hm]; intro d rest h'; cases h'; rw [← h.len]; omega
        cases p <;> exact ⟨_, Or.inl (Or.inr ⟨hle, rfl⟩), ⟨h.flash, h.ram, h.cap, h.signal, rfl, h.len, h.fine, by intro d p ow h; cases h⟩⟩
  | pushing d p ow =>
    simp only
    have hA := h.next d p ow hT
    obtain ⟨f', h1, h2⟩ := W.call _ _ h.flash (.push d ow) trivial (by intro d' o' h'; cases h'; exact hA)
    have hl := W.pushLen _ _ d ow h.flash hA
    rw [qcall_push_run] at h1 h2 hl
    revert h1 h2 hl
    generalize Queue.push g d ow q.st = r
    obtain ⟨r, s⟩ := r
    cases r with
    | ok u =>
      intro h1 h2 hl
      simp only [crashStep, Except.map] at h1
      rcases h1 with ⟨_, h1, _⟩ | ⟨_, _, h1, _⟩ | ⟨_, _, lost, kept, h3, h4, h5, _⟩ | ⟨h1, _⟩
      · simp at h1
      · simp at h1
      · exact ⟨_, Or.inl (Or.inr ⟨lost, kept, h3, h5, rfl, rfl⟩), ⟨by rw [← h4]; exact h2, h.ram, h.cap, h.signal, rfl, hl.trans h.len,
          h.fine, by intro d p ow h; cases h⟩⟩
      · simp at h1
    | error e =>
      intro h1 h2 hl
      simp only [crashStep, Except.map] at h1
      rcases h1 with ⟨_, h1, h3⟩ | ⟨_, ho, h1, h3⟩ | ⟨_, h1, _⟩ | ⟨h1, lost, kept, h3, h4, h5, _⟩
      · cases h1
        exact ⟨_, Or.inl (Or.inl ⟨_, Or.inl rfl, rfl, rfl⟩), ⟨by rw [← h3]; exact h2, h.ram, h.cap, h.signal, rfl, hl.trans h.len,
          h.fine, by intro d p ow h; cases h⟩⟩
      · cases h1
        exact ⟨_, Or.inl (Or.inl ⟨_, Or.inr ⟨rfl, ho⟩, rfl, rfl⟩), ⟨by rw [← h3]; exact h2, h.ram, h.cap, h.signal, rfl, hl.trans h.len,
          h.fine, by intro d p ow h; cases h⟩⟩
      · simp at h1
      · cases h1
        rcases h4 with h4 | h4
        · exact ⟨_, Or.inr ⟨rfl, lost, kept, h3, h5, Or.inl rfl⟩, ⟨by rw [← h4]; exact h2, h.ram, h.cap, h.signal, rfl, hl.trans h.len,
            h.fine, by intro d p ow h; cases h⟩⟩
        · exact ⟨_, Or.inr ⟨rfl, lost, kept, h3, h5, Or.inr rfl⟩, ⟨by rw [← h4]; exact h2, h.ram, h.cap, h.signal, rfl, hl.trans h.len,
            h.fine, by intro d p ow h; cases h⟩⟩
  | discarding p ow =>
    simp only
    have hr : Ring.Rep q.ring.discardOldest a.m.tail := by
      cases hm : a.m with
      | nil =>
        have := hm ▸ h.ram
        rw [Ring.Rep.discard_nil this]; exact this
      | cons d rest => exact Ring.Rep.discard_cons (hm ▸ h.ram)
    have hc : q.ring.discardOldest.cap = cap := by rw [← h.cap]; exact Ring.discard_cap _
    have hf : ∀ d ∈ a.m.tail, NoTorn D d := fun d hd => h.fine d (List.mem_of_mem_tail hd)
    cases p <;> exact ⟨_, Or.inl rfl, ⟨h.flash, hr, hc, h.signal, rfl, h.len, hf, by intro d p ow h; cases h⟩⟩
  | reading pop =>
    simp only
    cases pop with
    | true =>
      obtain ⟨f', h1, h2⟩ := W.call _ _ h.flash (.pop q.st.buf) trivial (by simp)
      have hl := W.popLen _ _ q.st.buf h.flash
      rw [qcall_pop_run] at h1 h2 hl
      change crashStep _ _ _ _ _ ((Queue.pop g q.st).1.map .item) _ at h1
      change Holds _ _ (Queue.pop g q.st).2 _ at h2
      change (Queue.pop g q.st).2.buf.length = _ at hl
      simp only [if_true]
      revert h1 h2 hl
      generalize Queue.pop g q.st = r
      obtain ⟨r, s⟩ := r
      intro h1 h2 hl
      simp only [crashStep] at h1
      cases r with
      | ok x =>
        rcases h1 with ⟨h3, h1, h4⟩ | ⟨d, h3, h1, _⟩ | ⟨_, _, _, h1, _⟩ | ⟨h1, _⟩
        · simp [Except.map] at h1; subst h1
          exact ⟨_, Or.inl (Or.inl ⟨h3, rfl, rfl⟩), ⟨by rw [h4, ← h3] at h2; exact h2, h.ram, h.cap, h.signal, rfl, hl.trans h.len,
            h.fine, by intro d p ow h; cases h⟩⟩
        · simp [Except.map] at h1; subst h1
          exact ⟨_, Or.inl (Or.inr (Or.inl ⟨d, f', h3, rfl, rfl⟩)), ⟨h2, h.ram, h.cap, h.signal, rfl, hl.trans h.len,
            h.fine, by intro d p ow h; cases h⟩⟩
        · simp [Except.map] at h1
        · simp [Except.map] at h1
      | error e =>
        rcases h1 with ⟨_, h1, _⟩ | ⟨d, _, h1, _⟩ | ⟨_, _, _, _, h4⟩ | ⟨h1, h4 | ⟨d, h4⟩⟩
        · simp [Except.map] at h1
        · simp [Except.map] at h1
        · exact ⟨_, Or.inr (Or.inl ⟨e, rfl, rfl⟩), ⟨by rw [← h4]; exact h2, h.ram, h.cap, h.signal, rfl, hl.trans h.len,
            h.fine, by intro d p ow h; cases h⟩⟩
        · exact ⟨_, Or.inr (Or.inl ⟨e, rfl, rfl⟩), ⟨by rw [← h4]; exact h2, h.ram, h.cap, h.signal, rfl, hl.trans h.len,
            h.fine, by intro d p ow h; cases h⟩⟩
        · simp [Except.map] at h1; subst h1
          exact ⟨_, Or.inr (Or.inr ⟨trivial, rfl, d, f', h4, rfl⟩), ⟨h2, h.ram, h.cap, h.signal, rfl, hl.trans h.len,
            h.fine, by intro d p ow h; cases h⟩⟩
    | false =>
      obtain ⟨f', h1, h2⟩ := W.call _ _ h.flash (.peek q.st.buf) trivial (by simp)
      have hl := W.peekLen _ _ q.st.buf h.flash
      rw [qcall_peek_run] at h1 h2 hl
      change crashStep _ _ _ _ _ ((Queue.peek g q.st).1.map .item) _ at h1
      change Holds _ _ (Queue.peek g q.st).2 _ at h2
      change (Queue.peek g q.st).2.buf.length = _ at hl
      simp only [Bool.false_eq_true, if_false]
      revert h1 h2 hl
      generalize Queue.peek g q.st = r
      obtain ⟨r, s⟩ := r
      intro h1 h2 hl
      simp only [crashStep] at h1
      obtain ⟨h4, h1⟩ := h1
      have hT' : ∀ o : Option TaskOut, IsTorn g D cap ({ q with st := s, task := .idle } : SharedQ K) { a with task := .idle } := fun _ =>
        ⟨by rw [← h4]; exact h2, h.ram, h.cap, h.signal, rfl, hl.trans h.len, h.fine, by intro d p ow h; cases h⟩
      cases r with
      | ok x =>
        rcases h1 with ⟨h1, _⟩ | ⟨_, _, _, h1⟩ | h1
        · simp [Except.map] at h1; subst h1
          cases hf : a.f with
          | nil => exact ⟨_, Or.inl (Or.inl ⟨rfl, rfl, rfl⟩), by rw [← hf]; exact hT' none⟩
          | cons d rest => exact ⟨_, Or.inl (Or.inr (Or.inl ⟨d, rest, rfl, rfl, rfl⟩)), by rw [← hf]; exact hT' none⟩
        · simp [Except.map] at h1
        · simp [Except.map] at h1
      | error e => exact ⟨_, Or.inr (Or.inl ⟨e, rfl, rfl⟩), hT' none⟩

end SeqStorage
