import Verif.Proofs.QueueUse
import Verif.Props.Ring
import Verif.Model.BufferedUse
/-
A `BufferedQueue` is its flash queue with the ring in front of it.
-/

set_option linter.unusedSectionVars false

namespace SeqStorage
open M Spec

variable {K : Type} [DecidableEq K] {g : Geo}

/-- The flash queue of a buffered queue works like `step` in the states described by `H`, for data as
described by `A`. -/
structure Works (g : Geo) (H : St K → List (List Byte) → Prop) (A : List Byte → Prop)
    (step : List (List Byte) → QCall (Cache K) → Except Err QAnswer → List (List Byte) → Prop) : Prop where
  call : ∀ s f, H s f → ∀ c, Documented g c → (∀ d o, c = .push d o → A d) →
    ∃ f', step f c (qcall g c s).1 f' ∧ H (qcall g c s).2 f'
  fill : ∀ s f b, H s f → H { s with buf := b } f
  popLen : ∀ s f b, H s f → (qcall g (.pop b) s).2.buf.length = b.length
  peekLen : ∀ s f b, H s f → (qcall g (.peek b) s).2.buf.length = b.length
  pushLen : ∀ s f d o, H s f → A d → (qcall g (.push d o) s).2.buf.length = s.buf.length

/-- What a buffered queue holds. -/
structure BHolds (H : St K → List (List Byte) → Prop) (A : List Byte → Prop) (cap : Nat) (q : BQ K) (p : Split) : Prop where
  flash : H q.st p.1
  ram : Ring.Rep q.ram p.2
  cap : q.ram.cap = cap
  fine : ∀ d ∈ p.2, A d

/-- Restarts use a fresh cache. -/
def BDocumented (g : Geo) : BCall (Cache K) → Prop
  | .restart c => FreshCache g.pageCount c
  | _ => True

/-- The data of an `enqueue`. -/
def BData {ρ : Type} (A : List Byte → Prop) : BCall ρ → Prop
  | .enqueue d _ => A d
  | _ => True

theorem qcall_push_run (d : List Byte) (o : Bool) (s : St K) :
    qcall g (.push d o) s = ((Queue.push g d o s).1.map fun _ => .done, (Queue.push g d o s).2) := by
  cases h : Queue.push g d o s with
  | mk r s' =>
    cases r with
    | ok x => simp only [qcall]; rw [bind_ok h]; rfl
    | error e => simp only [qcall]; rw [bind_err h]; rfl

theorem qcall_pop_run (b : List Byte) (s : St K) :
    qcall g (.pop b) s = ((Queue.pop g { s with buf := b }).1.map .item, (Queue.pop g { s with buf := b }).2) := by
  simp only [qcall]
  rw [bind_ok (setBuf_run b s)]
  cases h : Queue.pop g { s with buf := b } with
  | mk r s' =>
    cases r with
    | ok x => rw [bind_ok h]; rfl
    | error e => rw [bind_err h]; rfl

theorem qcall_peek_run (b : List Byte) (s : St K) :
    qcall g (.peek b) s = ((Queue.peek g { s with buf := b }).1.map .item, (Queue.peek g { s with buf := b }).2) := by
  simp only [qcall]
  rw [bind_ok (setBuf_run b s)]
  cases h : Queue.peek g { s with buf := b } with
  | mk r s' =>
    cases r with
    | ok x => rw [bind_ok h]; rfl
    | error e => rw [bind_err h]; rfl

theorem fill_length (s : St K) (d : List Byte) (h : d.length ≤ s.buf.length) : (BQ.fill s d).buf.length = s.buf.length := by
  simp [BQ.fill]; omega

section
variable {H : St K → List (List Byte) → Prop} {A : List Byte → Prop} {cap : Nat}
variable {step : List (List Byte) → QCall (Cache K) → Except Err QAnswer → List (List Byte) → Prop}

theorem drainOne_sat (hw : Works g H A step) {q : BQ K} {p : Split} (h : BHolds H A cap q p) (o : Bool) :
    ∃ p', moveStep step p.1 q.st.buf o (BQ.drainOne g o q).1 p' p.2 ∧ BHolds H A cap (BQ.drainOne g o q).2 p' ∧
      (BQ.drainOne g o q).2.st.buf.length = q.st.buf.length := by
  obtain ⟨f, m⟩ := p
  cases m with
  | nil =>
    have hp := Ring.Rep.peek_nil h.ram q.st.buf.length
    refine ⟨(f, []), ?_⟩
    unfold BQ.drainOne
    rw [hp]
    exact ⟨⟨rfl, rfl⟩, h, rfl⟩
  | cons d rest =>
    have hp := Ring.Rep.peek_cons h.ram q.st.buf.length
    by_cases hd : d.length ≤ q.st.buf.length
    · rw [if_pos hd] at hp
      have hA := h.fine d (by simp)
      have hf := hw.fill _ _ (d ++ q.st.buf.drop d.length) h.flash
      obtain ⟨f', h1, h2⟩ := hw.call _ _ hf (.push d o) trivial (by rintro _ _ ⟨⟩; exact hA)
      have hl := hw.pushLen _ _ d o hf hA
      rw [qcall_push_run] at h1 h2 hl
      have hl' : (d ++ q.st.buf.drop d.length).length = q.st.buf.length := by simp; omega
      simp only at hl
      rw [hl'] at hl
      unfold BQ.drainOne BQ.fill
      rw [hp]
      simp only
      revert h1 h2 hl
      generalize Queue.push g d o { q.st with buf := d ++ q.st.buf.drop d.length } = r
      obtain ⟨r, s⟩ := r
      cases r with
      | ok u =>
        intro h1 h2 hl
        refine ⟨(f', rest), ?_, ⟨h2, h.ram.discard_cons, by rw [← h.cap]; exact Ring.discard_cap _, fun x hx => h.fine x (by simp [hx])⟩, hl⟩
        simp only [moveStep]
        rw [if_pos hd]
        exact ⟨_, h1, by simp, by simp⟩
      | error e =>
        intro h1 h2 hl
        refine ⟨(f', d :: rest), ?_, ⟨h2, h.ram, h.cap, h.fine⟩, hl⟩
        simp only [moveStep]
        rw [if_pos hd]
        exact ⟨_, h1, by simp, by simp⟩
    · rw [if_neg hd] at hp
      refine ⟨(f, d :: rest), ?_⟩
      unfold BQ.drainOne
      rw [hp]
      refine ⟨?_, h, rfl⟩
      simp only [moveStep]
      rw [if_neg hd]
      exact ⟨by simp, by simp⟩

theorem movesStep_len {b b' : List Byte} (hb : b.length = b'.length) {o : Bool} {r : Except Err Unit} {p' : Split} :
    ∀ {m f : List (List Byte)}, movesStep step b o r p' f m → movesStep step b' o r p' f m := by
  intro m
  induction m with
  | nil => intro f h; exact h
  | cons d m ih =>
    intro f h
    simp only [movesStep] at h ⊢
    rw [← hb]
    by_cases hd : d.length ≤ b.length
    · rw [if_pos hd] at h ⊢
      obtain ⟨a, f1, h1, h2⟩ := h
      refine ⟨a, f1, h1, ?_⟩
      cases a with
      | ok a => exact ih h2
      | error e => exact h2
    · rw [if_neg hd] at h ⊢
      exact h

theorem drainAll_sat (hw : Works g H A step) (o : Bool) : ∀ (n : Nat) {q : BQ K} {p : Split}, BHolds H A cap q p → p.2.length < n →
    ∃ p', movesStep step q.st.buf o (BQ.drainAll g o n q).1 p' p.1 p.2 ∧ BHolds H A cap (BQ.drainAll g o n q).2 p' := by
  intro n
  induction n with
  | zero => intro q p _ hn; omega
  | succ n ih =>
    intro q p h hn
    obtain ⟨f, m⟩ := p
    obtain ⟨p1, h1, h2, h3⟩ := drainOne_sat hw h o
    unfold BQ.drainAll
    revert h1 h2 h3
    generalize BQ.drainOne g o q = r
    obtain ⟨r, q1⟩ := r
    intro h1 h2 h3
    simp only at h1 h2 h3
    cases m with
    | nil =>
      obtain ⟨rfl, rfl⟩ := h1
      exact ⟨(f, []), ⟨rfl, rfl⟩, h2⟩
    | cons d rest =>
      simp only [moveStep] at h1
      simp only [movesStep]
      by_cases hd : d.length ≤ q.st.buf.length
      · simp only [if_pos hd] at h1 ⊢
        obtain ⟨a, ha, h1⟩ := h1
        cases a with
        | ok a =>
          obtain ⟨rfl, h1⟩ := h1
          simp only [List.length_cons] at hn
          obtain ⟨p2, h4, h5⟩ := ih h2 (by rw [h1]; omega)
          exact ⟨p2, ⟨_, _, ha, movesStep_len h3 (h1 ▸ h4)⟩, h5⟩
        | error e =>
          obtain ⟨rfl, h1⟩ := h1
          exact ⟨p1, ⟨_, _, ha, rfl, by rw [← h1]⟩, h2⟩
      · simp only [if_neg hd] at h1 ⊢
        obtain ⟨rfl, rfl⟩ := h1
        exact ⟨_, ⟨rfl, rfl⟩, h2⟩

theorem peekInto_oldest {r : Ring} {m : List (List Byte)} (h : Ring.Rep r m) {b : List Byte} {n : Nat} (hn : n = b.length) :
    r.peekInto n = oldest b m := by
  cases m with
  | nil => exact h.peek_nil _
  | cons d m => rw [h.peek_cons, hn]; rfl

/-- One call. -/
theorem bcall_sat (hw : Works g H A step) {q : BQ K} {p : Split} (h : BHolds H A cap q p) (c : BCall (Cache K))
    (hd : BDocumented g c) (ha : BData A c) :
    ∃ p', splitStep step cap p c (bcall g c q).1 p' ∧ BHolds H A cap (bcall g c q).2 p' := by
  cases c with
  | enqueue d discard =>
    have hs := Props.ringStep_sim h.ram (if discard then .pushOverwriting d else .push d)
    have hmem : ∀ x ∈ (fifoStep q.ram.cap p.2 (if discard then .pushOverwriting d else .push d)).2, A x := by
      have hdrop : ∀ (room : Nat) (l : List (List Byte)), (∀ x ∈ l, A x) → ∀ x ∈ dropUntilRoom q.ram.cap room l, A x := by
        intro room l
        induction l with
        | nil => intro _ x hx; simp [dropUntilRoom] at hx
        | cons y l ih =>
          intro hl x hx
          simp only [dropUntilRoom] at hx
          by_cases hc : footprint (y :: l) + room ≤ q.ram.cap
          · rw [if_pos hc] at hx; exact hl x hx
          · rw [if_neg hc] at hx; exact ih (fun z hz => hl z (by simp [hz])) x hx
      cases discard <;> simp only [fifoStep, Bool.false_eq_true, if_false, if_true]
      · by_cases hc : d.length ≤ 65535 ∧ footprint (p.2 ++ [d]) ≤ q.ram.cap
        · rw [if_pos hc]
          intro x hx
          rcases List.mem_append.1 hx with hx | hx
          · exact h.fine x hx
          · obtain rfl := List.mem_singleton.1 hx; exact ha
        · rw [if_neg hc]; exact h.fine
      · by_cases hc : d.length ≤ 65535 ∧ footprint [d] ≤ q.ram.cap
        · rw [if_pos hc]
          intro x hx
          rcases List.mem_append.1 hx with hx | hx
          · exact hdrop _ _ h.fine x hx
          · obtain rfl := List.mem_singleton.1 hx; exact ha
        · rw [if_neg hc]; exact h.fine
    obtain ⟨h1, h2, h3⟩ := hs
    refine ⟨(p.1, (fifoStep q.ram.cap p.2 (if discard then .pushOverwriting d else .push d)).2), ?_⟩
    have hE : ∃ b, (bcall g (.enqueue d discard) q) = (.ok (.accepted b), ⟨q.st, (Props.ringStep q.ram (if discard then .pushOverwriting d else .push d)).2⟩) ∧
        (Props.ringStep q.ram (if discard then .pushOverwriting d else .push d)).1 = .accepted b := by
      cases discard <;> simp only [bcall, BQ.enqueue, Ring.enqueue, Props.ringStep, Bool.false_eq_true, if_false, if_true]
      · cases q.ram.push d with
        | none => exact ⟨false, rfl, rfl⟩
        | some r => exact ⟨true, rfl, rfl⟩
      · cases q.ram.pushOverwriting d with
        | none => exact ⟨false, rfl, rfl⟩
        | some r => exact ⟨true, rfl, rfl⟩
    obtain ⟨b, h4, h5⟩ := hE
    rw [h4]
    refine ⟨⟨b, rfl, rfl, ?_⟩, h.flash, h2, by rw [h3, h.cap], hmem⟩
    rw [← h5, h1, h.cap]
  | drainOne b o =>
    have h' : BHolds H A cap { q with st := { q.st with buf := b } } p := ⟨hw.fill _ _ b h.flash, h.ram, h.cap, h.fine⟩
    obtain ⟨p', h1, h2, _⟩ := drainOne_sat hw h' o
    exact ⟨p', ⟨_, rfl, h1⟩, h2⟩
  | drainAll b o =>
    have h' : BHolds H A cap { q with st := { q.st with buf := b } } p := ⟨hw.fill _ _ b h.flash, h.ram, h.cap, h.fine⟩
    obtain ⟨p', h1, h2⟩ := drainAll_sat hw o (q.ram.count + 1) h' (by rw [h.ram.count]; omega)
    exact ⟨p', ⟨_, rfl, h1⟩, h2⟩
  | pop b =>
    obtain ⟨f', h1, h2⟩ := hw.call _ _ h.flash (.pop b) trivial (by rintro _ _ ⟨⟩)
    have h3 := hw.popLen _ _ b h.flash
    rw [qcall_pop_run] at h1 h2 h3
    simp only [bcall, BQ.pop, splitStep]
    revert h1 h2 h3
    generalize Queue.pop g { q.st with buf := b } = r
    obtain ⟨r, s⟩ := r
    intro h1 h2 h3
    simp only at h1 h2 h3
    rcases r with e | (_ | d)
    · exact ⟨(f', p.2), ⟨_, h1, rfl, rfl⟩, h2, h.ram, h.cap, h.fine⟩
    · have hp := peekInto_oldest h.ram h3
      simp only
      rw [hp]
      cases ho : oldest b p.2 with
      | none => exact ⟨(f', p.2), ⟨_, h1, rfl, rfl⟩, h2, h.ram, h.cap, h.fine⟩
      | some d =>
        refine ⟨(f', p.2.tail), ⟨_, h1, rfl, rfl⟩, hw.fill _ _ _ h2, ?_, by rw [← h.cap]; exact Ring.discard_cap _,
          fun x hx => h.fine x (List.mem_of_mem_tail hx)⟩
        have hr := h.ram
        cases hm : p.2 with
        | nil => rw [hm] at ho; simp [oldest] at ho
        | cons y l => rw [hm] at hr; exact hr.discard_cons
    · exact ⟨(f', p.2), ⟨_, h1, rfl, rfl⟩, h2, h.ram, h.cap, h.fine⟩
  | peek b =>
    obtain ⟨f', h1, h2⟩ := hw.call _ _ h.flash (.peek b) trivial (by rintro _ _ ⟨⟩)
    have h3 := hw.peekLen _ _ b h.flash
    rw [qcall_peek_run] at h1 h2 h3
    simp only [bcall, BQ.peek, splitStep]
    revert h1 h2 h3
    generalize Queue.peek g { q.st with buf := b } = r
    obtain ⟨r, s⟩ := r
    intro h1 h2 h3
    simp only at h1 h2 h3
    rcases r with e | (_ | d)
    · exact ⟨(f', p.2), ⟨_, h1, rfl, rfl⟩, h2, h.ram, h.cap, h.fine⟩
    · have hp := peekInto_oldest h.ram h3
      simp only
      rw [hp]
      cases ho : oldest b p.2 with
      | none => exact ⟨(f', p.2), ⟨_, h1, rfl, rfl⟩, h2, h.ram, h.cap, h.fine⟩
      | some d => exact ⟨(f', p.2), ⟨_, h1, rfl, rfl⟩, hw.fill _ _ _ h2, h.ram, h.cap, h.fine⟩
    · exact ⟨(f', p.2), ⟨_, h1, rfl, rfl⟩, h2, h.ram, h.cap, h.fine⟩
  | status =>
    refine ⟨p, ⟨?_, rfl⟩, h⟩
    simp only [bcall]
    rw [h.ram.count, h.ram.used, h.cap]
    rfl
  | restart c =>
    obtain ⟨f', h1, h2⟩ := hw.call _ _ h.flash (.restart c) hd (by rintro _ _ ⟨⟩)
    exact ⟨(f', []), ⟨rfl, ⟨_, h1⟩, rfl⟩, h2, Ring.rep_new _, by rw [← h.cap]; simp [bcall, Ring.new, Ring.cap], by simp⟩

end

section
variable (w : g.WF) {md : Mode}
include w

theorem holds_buf {s : St K} {q : List (List Byte)} (h : Holds md g s q) (b : List Byte) : Holds md g { s with buf := b } q := by
  obtain ⟨σ, P, h, hq⟩ := h
  exact ⟨σ, P, h.buf b, hq⟩

theorem pop_len (hmd : md.OK g) (hnp : md.np = false) {s : St K} {q : List (List Byte)} (h : Holds md g s q) (b : List Byte) :
    (qcall g (.pop b) s).2.buf.length = b.length := by
  obtain ⟨σ, P, h, hq⟩ := h
  rw [qcall_pop_run]
  rcases (pop_sat w (h.buf b) hmd hnp).cases with ⟨r, s1, he, _, _, _, _, hl, _⟩ | ⟨e, s1, he, hl, _⟩
  · rw [he]; exact hl
  · rw [he]; exact hl

theorem peek_len {s : St K} {q : List (List Byte)} (h : Holds md g s q) (b : List Byte) :
    (qcall g (.peek b) s).2.buf.length = b.length := by
  obtain ⟨σ, P, h, hq⟩ := h
  rw [qcall_peek_run]
  rcases (peek_sat w (h.buf b)).cases with ⟨r, s1, he, _, _, _, _, hl, _⟩ | ⟨e, s1, he, hl, _⟩
  · rw [he]; exact hl
  · rw [he]; exact hl

theorem push_len (hmd : md.OK g) {s : St K} {q : List (List Byte)} (h : Holds md g s q) (d : List Byte) (o : Bool)
    (hnt : md.cf = false → NoTorn md.was d) : (qcall g (.push d o) s).2.buf.length = s.buf.length := by
  obtain ⟨σ, P, h, hq⟩ := h
  rw [qcall_push_run]
  rcases (push_sat w h hmd hnt o).cases with ⟨r, s1, he, _, _, _, _, _, hl, _⟩ | ⟨e, s1, he, hl, _⟩
  · rw [he]; exact congrArg _ hl.buf
  · rw [he]; exact congrArg _ hl.buf

/-- Without power loss. -/
theorem works_cf (K : Type) [DecidableEq K] : Works g (Holds (K := K) ⟨true, false, none, fun _ => True, false⟩ g) (fun _ => True) (queueStep g.word g.eraseSize g.pageCount) :=
  ⟨fun _ _ h c hd _ => qcall_cf w (md := ⟨true, false, none, fun _ => True, false⟩) rfl h c hd (by simp), fun _ _ b h => holds_buf w h b,
    fun _ _ b h => pop_len w ⟨by simp, by simp⟩ rfl h b, fun _ _ b h => peek_len w h b,
    fun _ _ d o h _ => push_len w ⟨by simp, by simp⟩ h d o (by simp)⟩

/-- With power loss. -/
theorem works_crash (K : Type) [DecidableEq K] {D : List Byte → Prop} (hmd : (⟨false, false, none, D, false⟩ : Mode).OK g) :
    Works g (Holds (K := K) ⟨false, false, none, D, false⟩ g) (NoTorn D) (crashStep g.word g.eraseSize g.pageCount) :=
  ⟨fun _ _ h c hd ha => qcall_crash w (md := ⟨false, false, none, D, false⟩) rfl rfl hmd h c hd (by
      cases c <;> first | exact ha _ _ rfl | trivial), fun _ _ b h => holds_buf w h b,
    fun _ _ b h => pop_len w hmd rfl h b, fun _ _ b h => peek_len w h b,
    fun _ _ d o h ha => push_len w hmd h d o (fun _ => ha)⟩

end

section
variable {H : St K → List (List Byte) → Prop} {A : List Byte → Prop} {cap : Nat}
variable {step : List (List Byte) → QCall (Cache K) → Except Err QAnswer → List (List Byte) → Prop}

theorem brun_sat (hw : Works g H A step) (cs : List (BCall (Cache K))) : ∀ {q : BQ K} {p : Split}, BHolds H A cap q p →
    (∀ c ∈ cs, BDocumented g c) → (∀ c ∈ cs, BData A c) →
    ∃ p', Runs (splitStep step cap) p cs (brun g cs q).1 p' ∧ BHolds H A cap (brun g cs q).2 p' := by
  induction cs with
  | nil => intro q p h _ _; exact ⟨p, ⟨rfl, rfl⟩, h⟩
  | cons c cs ih =>
    intro q p h hd ha
    obtain ⟨p1, h1, h2⟩ := bcall_sat hw h c (hd c (by simp)) (ha c (by simp))
    obtain ⟨p2, h3, h4⟩ := ih h2 (fun c hc => hd c (by simp [hc])) (fun c hc => ha c (by simp [hc]))
    exact ⟨p2, ⟨_, _, p1, rfl, h1, h3⟩, h4⟩

theorem brunPower_sat (hw : Works g H A step) (hpow : ∀ s f fuel, H s f → H { s with fl := { s.fl with fuel := fuel } } f)
    (cs : List (BCall (Cache K) × Option Nat)) : ∀ {q : BQ K} {p : Split}, BHolds H A cap q p →
    (∀ c ∈ cs, BDocumented g c.1) → (∀ c ∈ cs, BData A c.1) →
    ∃ p', Runs (splitStep step cap) p (cs.map (·.1)) (brunPower g cs q).1 p' ∧ BHolds H A cap (brunPower g cs q).2 p' := by
  induction cs with
  | nil => intro q p h _ _; exact ⟨p, ⟨rfl, rfl⟩, h⟩
  | cons c cs ih =>
    obtain ⟨c, fuel⟩ := c
    intro q p h hd ha
    have h' : BHolds H A cap { q with st := { q.st with fl := { q.st.fl with fuel := fuel } } } p :=
      ⟨hpow _ _ fuel h.flash, h.ram, h.cap, h.fine⟩
    obtain ⟨p1, h1, h2⟩ := bcall_sat hw h' c (hd (c, fuel) (by simp)) (ha (c, fuel) (by simp))
    obtain ⟨p2, h3, h4⟩ := ih h2 (fun c hc => hd c (by simp [hc])) (fun c hc => ha c (by simp [hc]))
    exact ⟨p2, ⟨_, _, p1, rfl, h1, h3⟩, h4⟩

end

/-! ### One queue -/

/-- The buffer of a call is as large as a page and as the RAM. -/
def LargeBuf {ρ : Type} (page cap : Nat) : BCall ρ → Prop
  | .drainOne b _ | .drainAll b _ | .pop b | .peek b => page ≤ b.length ∧ cap ≤ b.length
  | _ => True

/-- What is known of the items of a buffered queue. -/
structure Sizes (W page cap : Nat) (p : Split) : Prop where
  flash : ∀ d ∈ p.1, pad W d.length ≤ page
  ram : footprint p.2 ≤ cap

theorem footprint_mem {l : List (List Byte)} {d : List Byte} (h : d ∈ l) : d.length + 2 ≤ footprint l :=
  le_sum (List.mem_map_of_mem h)

theorem footprint_cons (d : List Byte) (l : List (List Byte)) : footprint (d :: l) = d.length + 2 + footprint l := by
  simp [footprint]

theorem footprint_append (l l' : List (List Byte)) : footprint (l ++ l') = footprint l + footprint l' := by
  simp [footprint]

theorem dropUntilRoom_spec (cap room : Nat) : ∀ l, ∃ lost, l = lost ++ dropUntilRoom cap room l ∧
    (room ≤ cap → footprint (dropUntilRoom cap room l) + room ≤ cap)
  | [] => ⟨[], rfl, fun h => by simpa [dropUntilRoom, footprint] using h⟩
  | d :: l => by
    simp only [dropUntilRoom]
    by_cases h : footprint (d :: l) + room ≤ cap
    · rw [if_pos h]; exact ⟨[], rfl, fun _ => h⟩
    · rw [if_neg h]
      obtain ⟨lost, h1, h2⟩ := dropUntilRoom_spec cap room l
      exact ⟨d :: lost, by rw [List.cons_append, ← h1], h2⟩

section
variable {ρ : Type} {W page pages cap : Nat} {p p' : Split} {r : Except Err BAnswer}
variable {step : List (List Byte) → QCall ρ → Except Err QAnswer → List (List Byte) → Prop}

theorem enqueue_one {d : List Byte} {discard : Bool} (hz : footprint p.2 ≤ cap)
    (h : splitStep step cap p (.enqueue d discard) r p') :
    oneQueue (ρ := ρ) cap (p.1 ++ p.2) (.enqueue d discard) r (p'.1 ++ p'.2) ∧ footprint p'.2 ≤ cap ∧ p'.1 = p.1 := by
  obtain ⟨b, rfl, hf, h⟩ := h
  simp only [oneQueue, hf]
  cases discard <;> simp only [fifoStep, Bool.false_eq_true, if_false, if_true] at h
  · by_cases hc : d.length ≤ 65535 ∧ footprint (p.2 ++ [d]) ≤ cap
    · rw [if_pos hc] at h
      obtain ⟨h1, h2⟩ := Prod.mk.inj h
      obtain rfl := FifoOut.accepted.inj h1
      refine ⟨Or.inl ⟨rfl, p.1 ++ p.2, [], [], by simp, by rw [← h2]; simp, by simp⟩, by rw [← h2]; exact hc.2, trivial⟩
    · rw [if_neg hc] at h
      obtain ⟨h1, h2⟩ := Prod.mk.inj h
      obtain rfl := FifoOut.accepted.inj h1
      exact ⟨Or.inr ⟨rfl, by rw [h2], by simp⟩, by rw [← h2]; exact hz, trivial⟩
  · by_cases hc : d.length ≤ 65535 ∧ footprint [d] ≤ cap
    · rw [if_pos hc] at h
      obtain ⟨h1, h2⟩ := Prod.mk.inj h
      obtain rfl := FifoOut.accepted.inj h1
      obtain ⟨lost, h3, h4⟩ := dropUntilRoom_spec cap (footprint [d]) p.2
      refine ⟨Or.inl ⟨rfl, p.1, lost, dropUntilRoom cap (footprint [d]) p.2, by rw [List.append_assoc, ← h3], by rw [← h2]; simp, by simp⟩, ?_, trivial⟩
      rw [← h2, footprint_append]
      exact h4 hc.2
    · rw [if_neg hc] at h
      obtain ⟨h1, h2⟩ := Prod.mk.inj h
      obtain rfl := FifoOut.accepted.inj h1
      refine ⟨Or.inr ⟨rfl, by rw [h2], fun _ => ?_⟩, by rw [← h2]; exact hz, trivial⟩
      have : footprint [d] = d.length + 2 := by simp [footprint]
      omega

/-- A push on the flash queue that leaves out power loss. -/
theorem push_one {f f' : List (List Byte)} {d : List Byte} {o : Bool} {a : Except Err QAnswer}
    (h : queueStep (ρ := ρ) W page pages f (.push d o) a f') :
    ((a = .error .itemTooBig ∨ a = .error .fullStorage ∧ o = false) ∧ f' = f) ∨
    (pad W d.length ≤ page ∧ a = .ok .done ∧ ∃ lost kept, f = lost ++ kept ∧ f' = kept ++ [d] ∧ (o = false → lost = [])) := by
  rcases h with ⟨_, h1, h2⟩ | ⟨_, h1, h2, h3, _⟩ | ⟨h0, h1, lost, kept, h2, h3, h4, _⟩
  · exact Or.inl ⟨Or.inl h1, h2⟩
  · exact Or.inl ⟨Or.inr ⟨h2, h1⟩, h3⟩
  · exact Or.inr ⟨by have := h0.2; unfold itemSize at this; omega, h1, lost, kept, h2, h3, h4⟩

theorem moves_one {b : List Byte} {o : Bool} {x : Except Err Unit} : ∀ {m f : List (List Byte)}, Sizes W page cap (f, m) →
    movesStep (queueStep (ρ := ρ) W page pages) b o x p' f m →
    ((∃ lost, f ++ m = lost ++ (p'.1 ++ p'.2) ∧ (o = false → lost = [])) ∧
      ((x = .ok () ∧ (cap ≤ b.length → p'.2 = [])) ∨ x = .error .itemTooBig ∨ (x = .error .fullStorage ∧ o = false))) ∧ Sizes W page cap p' := by
  intro m
  induction m with
  | nil =>
    intro f hz h
    obtain ⟨rfl, rfl⟩ := h
    exact ⟨⟨⟨[], rfl, fun _ => rfl⟩, Or.inl ⟨rfl, fun _ => rfl⟩⟩, hz⟩
  | cons d m ih =>
    intro f hz h
    have hd := footprint_cons d m
    have hr := hz.ram
    simp only at hr
    simp only [movesStep] at h
    by_cases hl : d.length ≤ b.length
    rotate_left
    · rw [if_neg hl] at h
      obtain ⟨rfl, rfl⟩ := h
      exact ⟨⟨⟨[], rfl, fun _ => rfl⟩, Or.inl ⟨rfl, fun hb => by omega⟩⟩, hz⟩
    rw [if_pos hl] at h
    obtain ⟨a, f1, h1, h2⟩ := h
    rcases push_one h1 with ⟨h3, rfl⟩ | ⟨h0, rfl, lost, kept, rfl, rfl, h5⟩
    · have : ∃ e, a = .error e ∧ (e = .itemTooBig ∨ e = .fullStorage ∧ o = false) := by
        rcases h3 with rfl | ⟨rfl, h3⟩
        · exact ⟨_, rfl, Or.inl rfl⟩
        · exact ⟨_, rfl, Or.inr ⟨rfl, h3⟩⟩
      obtain ⟨e, rfl, he⟩ := this
      obtain ⟨rfl, rfl⟩ := h2
      refine ⟨⟨⟨[], rfl, fun _ => rfl⟩, Or.inr ?_⟩, hz⟩
      rcases he with rfl | ⟨rfl, he⟩
      · exact Or.inl rfl
      · exact Or.inr ⟨rfl, he⟩
    · have hz' : Sizes W page cap (kept ++ [d], m) := by
        refine ⟨fun x hx => ?_, by simp only; omega⟩
        rcases List.mem_append.1 hx with hx | hx
        · exact hz.flash x (by simp [hx])
        · obtain rfl := List.mem_singleton.1 hx; exact h0
      obtain ⟨⟨⟨lost', h6, h7⟩, h8⟩, h9⟩ := ih hz' h2
      refine ⟨⟨⟨lost ++ lost', ?_, fun ho => by rw [h5 ho, h7 ho]; rfl⟩, h8⟩, h9⟩
      rw [List.append_assoc lost lost', ← h6]
      simp

theorem move_one {b : List Byte} {o : Bool} {x : Except Err Bool} {m f : List (List Byte)} (hz : Sizes W page cap (f, m))
    (h : moveStep (queueStep (ρ := ρ) W page pages) f b o x p' m) :
    ((∃ lost, f ++ m = lost ++ (p'.1 ++ p'.2) ∧ (o = false → lost = [])) ∧
      ((∃ y, x = .ok y) ∨ ((x = .error .itemTooBig ∨ x = .error .fullStorage ∧ o = false) ∧ p'.1 ++ p'.2 = f ++ m))) ∧ Sizes W page cap p' := by
  cases m with
  | nil =>
    obtain ⟨rfl, rfl⟩ := h
    exact ⟨⟨⟨[], rfl, fun _ => rfl⟩, Or.inl ⟨false, rfl⟩⟩, hz⟩
  | cons d m =>
    have hd := footprint_cons d m
    have hr := hz.ram
    simp only at hr
    simp only [moveStep] at h
    by_cases hl : d.length ≤ b.length
    · rw [if_pos hl] at h
      obtain ⟨a, h1, h2⟩ := h
      obtain ⟨f', m'⟩ := p'
      simp only at h1 h2
      rcases push_one h1 with ⟨h3, rfl⟩ | ⟨h0, rfl, lost, kept, rfl, rfl, h5⟩
      · rcases h3 with rfl | ⟨rfl, h3⟩
        · obtain ⟨rfl, rfl⟩ := h2
          exact ⟨⟨⟨[], rfl, fun _ => rfl⟩, Or.inr ⟨Or.inl rfl, rfl⟩⟩, hz⟩
        · obtain ⟨rfl, rfl⟩ := h2
          exact ⟨⟨⟨[], rfl, fun _ => rfl⟩, Or.inr ⟨Or.inr ⟨rfl, h3⟩, rfl⟩⟩, hz⟩
      · obtain ⟨rfl, rfl⟩ := h2
        refine ⟨⟨⟨lost, by simp, h5⟩, Or.inl ⟨true, rfl⟩⟩, fun x hx => ?_, by simp only; omega⟩
        rcases List.mem_append.1 hx with hx | hx
        · exact hz.flash x (by simp [hx])
        · obtain rfl := List.mem_singleton.1 hx; exact h0
    · rw [if_neg hl] at h
      obtain ⟨rfl, rfl⟩ := h
      exact ⟨⟨⟨[], rfl, fun _ => rfl⟩, Or.inl ⟨false, rfl⟩⟩, hz⟩

/-- A buffered queue without power loss is one queue. -/
theorem split_one {c : BCall ρ} (hz : Sizes W page cap p) (hb : LargeBuf page cap c)
    (h : splitStep (queueStep W page pages) cap p c r p') :
    oneQueue cap (p.1 ++ p.2) c r (p'.1 ++ p'.2) ∧ Sizes W page cap p' := by
  obtain ⟨f, m⟩ := p
  have hram : ∀ d ∈ m, d.length ≤ cap := fun d hd => by
    have := footprint_mem hd; have := hz.ram; simp only at this; omega
  have hold : ∀ b : List Byte, cap ≤ b.length → oldest b m = m.head? := by
    intro b hb
    cases m with
    | nil => rfl
    | cons d m => simp only [oldest]; rw [if_pos (by have := hram d (by simp); omega)]; rfl
  have hpad : ∀ d ∈ f, pad W d.length ≤ page := hz.flash
  cases c with
  | enqueue d discard =>
    obtain ⟨h1, h2, h3⟩ := enqueue_one hz.ram h
    exact ⟨h1, by rw [h3]; exact hz.flash, h2⟩
  | drainOne b o =>
    obtain ⟨x, rfl, h⟩ := h
    obtain ⟨⟨h1, h2⟩, h3⟩ := move_one hz h
    refine ⟨⟨h1, ?_⟩, h3⟩
    rcases h2 with ⟨y, rfl⟩ | ⟨rfl | ⟨rfl, h2⟩, h4⟩
    · exact Or.inl ⟨y, rfl⟩
    · exact Or.inr ⟨Or.inl rfl, h4⟩
    · exact Or.inr ⟨Or.inr ⟨rfl, h2⟩, h4⟩
  | drainAll b o =>
    obtain ⟨x, rfl, h⟩ := h
    obtain ⟨⟨h1, h2⟩, h3⟩ := moves_one hz h
    refine ⟨⟨h1, ?_⟩, h3⟩
    rcases h2 with ⟨rfl, _⟩ | rfl | ⟨rfl, h2⟩
    · exact Or.inl rfl
    · exact Or.inr (Or.inl rfl)
    · exact Or.inr (Or.inr ⟨rfl, h2⟩)
  | pop b =>
    obtain ⟨a, h1, h2⟩ := h
    obtain ⟨f', m'⟩ := p'
    simp only [queueStep] at h1 h2
    simp only [oneQueue]
    cases f with
    | nil =>
      obtain ⟨rfl, rfl⟩ := h1
      simp only [hold b hb.2] at h2
      obtain ⟨rfl, rfl⟩ := h2
      cases m with
      | nil => exact ⟨⟨rfl, rfl⟩, hz⟩
      | cons d m => exact ⟨⟨rfl, rfl⟩, by simp, by have := hz.ram; simp [footprint_cons] at this ⊢; omega⟩
    | cons d f =>
      simp only at h1
      rw [if_pos (by have := hpad d (by simp); have := hb.1; omega)] at h1
      obtain ⟨rfl, rfl⟩ := h1
      obtain ⟨rfl, rfl⟩ := h2
      exact ⟨⟨rfl, rfl⟩, fun x hx => hz.flash x (by simp at hx ⊢; exact Or.inr hx), hz.ram⟩
  | peek b =>
    obtain ⟨a, h1, h2, h3⟩ := h
    obtain ⟨f', m'⟩ := p'
    simp only [queueStep] at h1 h2 h3
    simp only [oneQueue]
    subst h2
    cases f with
    | nil =>
      obtain ⟨rfl, rfl⟩ := h1
      simp only [hold b hb.2] at h3
      exact ⟨⟨h3, rfl⟩, hz⟩
    | cons d f =>
      simp only at h1
      rw [if_pos (by have := hpad d (by simp); have := hb.1; omega)] at h1
      obtain ⟨rfl, rfl⟩ := h1
      exact ⟨⟨h3, rfl⟩, hz⟩
  | status =>
    obtain ⟨rfl, rfl⟩ := h
    exact ⟨⟨rfl, _, _, _, rfl, by simp, by have := hz.ram; simp only at this ⊢; omega⟩, hz⟩
  | restart c =>
    obtain ⟨rfl, ⟨a, h1⟩, h2⟩ := h
    obtain ⟨f', m'⟩ := p'
    simp only [queueStep] at h1 h2
    obtain ⟨_, rfl⟩ := h1
    subst h2
    exact ⟨⟨rfl, ⟨m, by simp⟩⟩, hz.flash, by simp [footprint]⟩

/-- A push on the flash queue with power loss. -/
theorem push_torn {f f' : List (List Byte)} {d : List Byte} {o : Bool} {a : Except Err QAnswer}
    (h : crashStep (ρ := ρ) W page pages f (.push d o) a f') :
    ((a = .error .itemTooBig ∨ a = .error .fullStorage ∧ o = false) ∧ f' = f) ∨
    (∃ lost kept, f = lost ++ kept ∧ (o = false → lost = []) ∧
      (a = .ok .done ∧ f' = kept ++ [d] ∨ a = .error .shutoff ∧ (f' = kept ∨ f' = kept ++ [d]))) := by
  rcases h with ⟨_, h1, h2⟩ | ⟨_, h1, h2, h3⟩ | ⟨_, h1, lost, kept, h2, h3, h4, _⟩ | ⟨h1, lost, kept, h2, h3, h4, _⟩
  · exact Or.inl ⟨Or.inl h1, h2⟩
  · exact Or.inl ⟨Or.inr ⟨h2, h1⟩, h3⟩
  · exact Or.inr ⟨lost, kept, h2, h4, Or.inl ⟨h1, h3⟩⟩
  · exact Or.inr ⟨lost, kept, h2, h4, Or.inr ⟨h1, h3⟩⟩

theorem moves_torn {b : List Byte} {o : Bool} (hb : cap ≤ b.length) {x : Except Err Unit} : ∀ {m f : List (List Byte)}, footprint m ≤ cap →
    movesStep (crashStep (ρ := ρ) W page pages) b o x p' f m →
    ((∃ lost kept, f ++ m = lost ++ kept ∧ (o = false → lost = []) ∧
      (p'.1 ++ p'.2 = kept ∨ x = .error .shutoff ∧ ∃ u d v, kept = u ++ d :: v ∧ p'.1 ++ p'.2 = u ++ d :: d :: v)) ∧
      ((x = .ok () ∧ p'.2 = []) ∨ x = .error .itemTooBig ∨ (x = .error .fullStorage ∧ o = false) ∨ x = .error .shutoff)) ∧ footprint p'.2 ≤ cap := by
  intro m
  induction m with
  | nil =>
    intro f hz h
    obtain ⟨rfl, rfl⟩ := h
    exact ⟨⟨⟨[], _, rfl, fun _ => rfl, Or.inl rfl⟩, Or.inl ⟨rfl, rfl⟩⟩, hz⟩
  | cons d m ih =>
    intro f hz h
    have hd := footprint_cons d m
    simp only [movesStep] at h
    rw [if_pos (by omega)] at h
    obtain ⟨a, f1, h1, h2⟩ := h
    rcases push_torn h1 with ⟨h3, rfl⟩ | ⟨lost, kept, rfl, h5, ⟨rfl, rfl⟩ | ⟨rfl, h6⟩⟩
    · have : ∃ e, a = .error e ∧ (e = .itemTooBig ∨ e = .fullStorage ∧ o = false) := by
        rcases h3 with rfl | ⟨rfl, h3⟩
        · exact ⟨_, rfl, Or.inl rfl⟩
        · exact ⟨_, rfl, Or.inr ⟨rfl, h3⟩⟩
      obtain ⟨e, rfl, he⟩ := this
      obtain ⟨rfl, rfl⟩ := h2
      refine ⟨⟨⟨[], _, rfl, fun _ => rfl, Or.inl rfl⟩, Or.inr ?_⟩, hz⟩
      rcases he with rfl | ⟨rfl, he⟩
      · exact Or.inl rfl
      · exact Or.inr (Or.inl ⟨rfl, he⟩)
    · obtain ⟨⟨⟨lost', kept', h6, h7, h8⟩, h9⟩, h10⟩ := ih (by omega) h2
      refine ⟨⟨⟨lost ++ lost', kept', ?_, fun ho => by rw [h5 ho, h7 ho]; rfl, h8⟩, h9⟩, h10⟩
      rw [List.append_assoc lost lost', ← h6]
      simp
    · obtain ⟨rfl, rfl⟩ := h2
      refine ⟨⟨⟨lost, kept ++ d :: m, by simp, h5, ?_⟩, Or.inr (Or.inr (Or.inr rfl))⟩, hz⟩
      rcases h6 with rfl | rfl
      · exact Or.inl rfl
      · exact Or.inr ⟨rfl, kept, d, m, rfl, by simp⟩

/-- A buffered queue with power loss is one queue in which a failing drain may repeat an item. -/
theorem split_torn {c : BCall ρ} (hz : footprint p.2 ≤ cap) (hb : LargeBuf page cap c)
    (h : splitStep (crashStep W page pages) cap p c r p') :
    oneQueueTorn cap (p.1 ++ p.2) c r (p'.1 ++ p'.2) ∧ footprint p'.2 ≤ cap := by
  obtain ⟨f, m⟩ := p
  have hram : ∀ d ∈ m, d.length ≤ cap := fun d hd => by
    have := footprint_mem hd; simp only at hz; omega
  have hold : ∀ b : List Byte, cap ≤ b.length → oldest b m = m.head? := by
    intro b hb
    cases m with
    | nil => rfl
    | cons d m => simp only [oldest]; rw [if_pos (by have := hram d (by simp); omega)]; rfl
  cases c with
  | enqueue d discard =>
    obtain ⟨h1, h2, h3⟩ := enqueue_one hz h
    exact ⟨h1, h2⟩
  | drainOne b o =>
    obtain ⟨x, rfl, h⟩ := h
    simp only at h
    cases m with
    | nil =>
      obtain ⟨rfl, rfl⟩ := h
      exact ⟨⟨⟨[], _, rfl, fun _ => rfl, Or.inl rfl⟩, Or.inl ⟨false, rfl⟩⟩, hz⟩
    | cons d m =>
      have hd := footprint_cons d m
      simp only at hz
      simp only [moveStep] at h
      rw [if_pos (by have := hb.2; omega)] at h
      obtain ⟨a, h1, h2⟩ := h
      obtain ⟨f', m'⟩ := p'
      simp only at h1 h2
      rcases push_torn h1 with ⟨h3, rfl⟩ | ⟨lost, kept, rfl, h5, ⟨rfl, rfl⟩ | ⟨rfl, h6⟩⟩
      · rcases h3 with rfl | ⟨rfl, h3⟩
        · obtain ⟨rfl, rfl⟩ := h2
          exact ⟨⟨⟨[], _, rfl, fun _ => rfl, Or.inl rfl⟩, Or.inr (Or.inl ⟨Or.inl rfl, rfl⟩)⟩, hz⟩
        · obtain ⟨rfl, rfl⟩ := h2
          exact ⟨⟨⟨[], _, rfl, fun _ => rfl, Or.inl rfl⟩, Or.inr (Or.inl ⟨Or.inr ⟨rfl, h3⟩, rfl⟩)⟩, hz⟩
      · obtain ⟨rfl, rfl⟩ := h2
        exact ⟨⟨⟨lost, kept ++ d :: m', by simp, h5, Or.inl (by simp)⟩, Or.inl ⟨true, rfl⟩⟩, by simp only; omega⟩
      · obtain ⟨rfl, rfl⟩ := h2
        refine ⟨⟨⟨lost, kept ++ d :: m, by simp, h5, ?_⟩, Or.inr (Or.inr rfl)⟩, hz⟩
        rcases h6 with rfl | rfl
        · exact Or.inl rfl
        · exact Or.inr ⟨rfl, kept, d, m, rfl, by simp⟩
  | drainAll b o =>
    obtain ⟨x, rfl, h⟩ := h
    obtain ⟨⟨⟨lost, kept, h1, h2, h3⟩, h4⟩, h5⟩ := moves_torn hb.2 hz h
    refine ⟨⟨⟨lost, kept, h1, h2, ?_⟩, ?_⟩, h5⟩
    · rcases h3 with h3 | ⟨rfl, h3⟩
      · exact Or.inl h3
      · exact Or.inr ⟨rfl, h3⟩
    · rcases h4 with ⟨rfl, _⟩ | rfl | ⟨rfl, h4⟩ | rfl
      · exact Or.inl rfl
      · exact Or.inr (Or.inl rfl)
      · exact Or.inr (Or.inr (Or.inl ⟨rfl, h4⟩))
      · exact Or.inr (Or.inr (Or.inr rfl))
  | pop b =>
    obtain ⟨a, h1, h2⟩ := h
    obtain ⟨f', m'⟩ := p'
    simp only [crashStep] at h1 h2
    simp only [oneQueueTorn]
    rcases h1 with ⟨rfl, rfl, rfl⟩ | ⟨d, rfl, rfl, _⟩ | ⟨n, h3, h4, _⟩ | ⟨rfl, h3⟩
    · simp only [hold b hb.2] at h2
      obtain ⟨rfl, rfl⟩ := h2
      cases m with
      | nil => exact ⟨Or.inl ⟨rfl, rfl⟩, hz⟩
      | cons d m => exact ⟨Or.inl ⟨rfl, rfl⟩, by simp [footprint_cons] at hz ⊢; omega⟩
    · obtain ⟨rfl, rfl⟩ := h2
      exact ⟨Or.inl ⟨rfl, rfl⟩, hz⟩
    · have := hb.1; omega
    · obtain ⟨rfl, rfl⟩ := h2
      refine ⟨Or.inr ⟨rfl, ?_⟩, hz⟩
      rcases h3 with rfl | ⟨d, rfl⟩
      · exact Or.inl rfl
      · exact Or.inr rfl
  | peek b =>
    obtain ⟨a, h1, h2, h3⟩ := h
    obtain ⟨f', m'⟩ := p'
    simp only [crashStep] at h1 h2 h3
    simp only [oneQueueTorn]
    subst h2
    obtain ⟨rfl, ⟨rfl, _⟩ | ⟨n, h4, h5, _⟩ | rfl⟩ := h1
    · cases f' with
      | nil =>
        simp only [List.head?_nil, hold b hb.2] at h3
        exact ⟨⟨Or.inl h3, rfl⟩, hz⟩
      | cons d f => exact ⟨⟨Or.inl h3, rfl⟩, hz⟩
    · have := hb.1; omega
    · exact ⟨⟨Or.inr h3, rfl⟩, hz⟩
  | status =>
    obtain ⟨rfl, rfl⟩ := h
    exact ⟨⟨rfl, _, _, _, rfl, by simp, by simp only at hz ⊢; omega⟩, hz⟩
  | restart c =>
    obtain ⟨rfl, ⟨a, h1⟩, h2⟩ := h
    obtain ⟨f', m'⟩ := p'
    simp only [crashStep] at h1 h2
    obtain ⟨_, rfl⟩ := h1
    subst h2
    exact ⟨⟨rfl, ⟨m, by simp⟩⟩, by simp [footprint]⟩

end

theorem Runs.image {C R S T : Type} {step : S → C → R → S → Prop} {step' : T → C → R → T → Prop} (φ : S → T) (I : S → Prop)
    (cs : List C) : ∀ {q q' : S} {rs : List R},
    (∀ c ∈ cs, ∀ q r q', I q → step q c r q' → step' (φ q) c r (φ q') ∧ I q') → I q → Runs step q cs rs q' →
    Runs step' (φ q) cs rs (φ q') ∧ I q' := by
  induction cs with
  | nil => rintro q q' rs _ hI ⟨rfl, rfl⟩; exact ⟨⟨rfl, rfl⟩, hI⟩
  | cons c cs ih =>
    rintro q q' rs hs hI ⟨r, rs', q1, rfl, h1, h2⟩
    obtain ⟨h3, h4⟩ := hs c (by simp) _ _ _ hI h1
    obtain ⟨h5, h6⟩ := ih (fun c hc => hs c (by simp [hc])) h4 h2
    exact ⟨⟨r, rs', _, rfl, h3, h5⟩, h6⟩

end SeqStorage
