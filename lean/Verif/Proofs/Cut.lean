import Verif.Proofs.ReserveMap
/-
What a call of the map with a too small buffer leaves on the flash: what the same call with a larger buffer leaves when power
is lost at some byte.
-/
set_option linter.unusedSectionVars false

namespace SeqStorage.Short
open SeqStorage M Spec Proofs

variable {K : Type} [DecidableEq K]

/-- The same state with a longer buffer. -/
def ext (s : St K) (x : List Byte) : St K := { s with buf := s.buf ++ x }

/-- The errors a function gives when the buffer is too small. -/
def Lacks : Err → Prop
  | .bufferTooSmall _ | .serialization _ => True
  | _ => False

/-- The result of a run that has used up its power when the flash contained `mem`. -/
def Stopped {α : Type} (r : Except Err α × St K) (mem : Nat → Byte) : Prop :=
  r.2.fl.mem = mem ∧ (r.2.fl.fuel = some 0 ∨ r.1 = .error .shutoff)

/-- With unlimited power the function keeps it, and with enough of it it does the same. -/
def Steady {α : Type} (m : M K α) : Prop :=
  ∀ s, s.fl.fuel = none → (m s).2.fl.fuel = none ∧ ∃ n, ∀ k, n ≤ k → m (withFuel s (some k)) = ((m s).1, withFuel (m s).2 (some (k - n)))

/-- Without power nothing changes. -/
def Dead {α : Type} (m : M K α) : Prop := ∀ s, s.fl.fuel = some 0 → Stopped (m s) s.fl.mem

/-- A longer buffer makes no difference, or the function complains about the buffer and leaves the flash as the function with
the longer buffer does when it is interrupted. -/
def Rel {α : Type} (m : M K α) (s : St K) (x : List Byte) : Prop :=
  m (ext s x) = ((m s).1, ext (m s).2 x) ∨
    (∃ e, Lacks e ∧ (m s).1 = .error e) ∧ ∃ n, Stopped (m (withFuel (ext s x) (some n))) (m s).2.fl.mem

structure CutOn {α : Type} (P : St K → Prop) (m : M K α) : Prop where
  steady : Steady m
  dead : Dead m
  rel : ∀ s x, s.fl.fuel = none → P s → Rel m s x

/-- The three together. -/
abbrev Cut {α : Type} (m : M K α) : Prop := CutOn (fun _ => True) m

/-- A function that does not change the flash and does not look at power and buffer. -/
def Plain {α : Type} (m : M K α) : Prop :=
  ∀ s, (m s).2.fl.fuel = s.fl.fuel ∧ (m s).2.fl.mem = s.fl.mem ∧ (∀ f, m (withFuel s f) = ((m s).1, withFuel (m s).2 f)) ∧
    ∀ x, m (ext s x) = ((m s).1, ext (m s).2 x)

def Post {α : Type} (m : M K α) (P : α → St K → Prop) : Prop := ∀ s a, (m s).1 = .ok a → P a (m s).2

section
variable {g : Geo} {α β : Type} {P : St K → Prop}

theorem Plain.cut {m : M K α} (h : Plain m) : CutOn P m where
  steady s hs := ⟨(h s).1.trans hs, 0, fun _ _ => (h s).2.2.1 _⟩
  dead s hs := ⟨(h s).2.1, .inl ((h s).1.trans hs)⟩
  rel s x _ _ := .inl ((h s).2.2.2 x)

theorem CutOn.weaken {m : M K α} (h : Cut m) : CutOn P m := ⟨h.steady, h.dead, fun s x hs _ => h.rel s x hs trivial⟩

theorem Plain.pure (a : α) : Plain (K := K) (pure a : M K α) := fun _ => ⟨rfl, rfl, fun _ => rfl, fun _ => rfl⟩
theorem Plain.throw (e : Err) : Plain (K := K) (M.throw e : M K α) := fun _ => ⟨rfl, rfl, fun _ => rfl, fun _ => rfl⟩
theorem Plain.lift (r : Except Err α) : Plain (K := K) (M.lift r : M K α) := fun _ => ⟨rfl, rfl, fun _ => rfl, fun _ => rfl⟩

theorem Plain.bind {m : M K α} {f : α → M K β} (hm : Plain m) (hf : ∀ a, Plain (f a)) : Plain (m >>= f) := by
  intro s
  obtain ⟨h1, h2, h3, h4⟩ := hm s
  show (M.bind m f s).2.fl.fuel = _ ∧ (M.bind m f s).2.fl.mem = _ ∧ (∀ fu, M.bind m f (withFuel s fu) = ((M.bind m f s).1, withFuel (M.bind m f s).2 fu)) ∧
    ∀ x, M.bind m f (ext s x) = ((M.bind m f s).1, ext (M.bind m f s).2 x)
  unfold M.bind
  rcases hr : m s with ⟨r, t⟩
  rw [hr] at h1 h2 h3 h4
  cases r with
  | error e =>
    refine ⟨h1, h2, fun fu => ?_, fun x => ?_⟩
    · rw [h3]
    · rw [h4]
  | ok a =>
    obtain ⟨i1, i2, i3, i4⟩ := hf a t
    refine ⟨i1.trans h1, i2.trans h2, fun fu => ?_, fun x => ?_⟩
    · rw [h3]; exact i3 fu
    · rw [h4]; exact i4 x

theorem Plain.attempt {m : M K α} (hm : Plain m) : Plain (M.attempt m) := by
  intro s
  obtain ⟨h1, h2, h3, h4⟩ := hm s
  refine ⟨h1, h2, fun fu => ?_, fun x => ?_⟩
  · unfold M.attempt; rw [h3]
  · unfold M.attempt; rw [h4]

theorem Plain.modifyCache (f : Cache K → Cache K) : Plain (SeqStorage.modifyCache f) := fun _ => ⟨rfl, rfl, fun _ => rfl, fun _ => rfl⟩

theorem Plain.updateCache (f : Cache K → Except Err (Cache K)) : Plain (SeqStorage.updateCache f) := by
  intro s
  unfold SeqStorage.updateCache
  have e1 : ∀ fu, (withFuel s fu).cache = s.cache := fun _ => rfl
  have e2 : ∀ x, (ext s x).cache = s.cache := fun _ => rfl
  simp only [e1, e2]
  cases f s.cache with
  | ok c => exact ⟨rfl, rfl, fun _ => rfl, fun _ => rfl⟩
  | error e => exact ⟨rfl, rfl, fun _ => rfl, fun _ => rfl⟩

theorem Plain.flashRead (a n : Nat) : Plain (K := K) (flashRead g a n) := by
  intro s
  unfold SeqStorage.flashRead
  have e1 : ∀ fu, (withFuel s fu).fl.read g a n = s.fl.read g a n := fun _ => rfl
  have e2 : ∀ x, (ext s x).fl.read g a n = s.fl.read g a n := fun _ => rfl
  simp only [e1, e2]
  cases s.fl.read g a n with
  | ok c => exact ⟨rfl, rfl, fun _ => rfl, fun _ => rfl⟩
  | error e => exact ⟨rfl, rfl, fun _ => rfl, fun _ => rfl⟩

/-! ### Composition -/

theorem Steady.bind {m : M K α} {f : α → M K β} (hm : Steady m) (hf : ∀ a, Steady (f a)) : Steady (m >>= f) := by
  intro s hs
  obtain ⟨h1, n, h3⟩ := hm s hs
  show (M.bind m f s).2.fl.fuel = none ∧ ∃ n, ∀ k, n ≤ k → M.bind m f (withFuel s (some k)) = ((M.bind m f s).1, withFuel (M.bind m f s).2 (some (k - n)))
  unfold M.bind
  rcases hr : m s with ⟨r, t⟩
  rw [hr] at h1 h3
  cases r with
  | error e =>
    refine ⟨h1, n, fun k hk => ?_⟩
    rw [h3 k hk]
  | ok a =>
    obtain ⟨i1, n', i3⟩ := hf a t h1
    refine ⟨i1, n + n', fun k hk => ?_⟩
    rw [h3 k (by omega)]
    dsimp only
    rw [i3 (k - n) (by omega), Nat.sub_sub]

/-- What follows a stopped run. -/
theorem Stopped.bind {m : M K α} {f : α → M K β} {s : St K} {mem : Nat → Byte} (h : Stopped (m s) mem) (hf : ∀ a, Dead (f a)) :
    Stopped ((m >>= f) s) mem := by
  show Stopped (M.bind m f s) mem
  unfold M.bind
  obtain ⟨h1, h2⟩ := h
  rcases hr : m s with ⟨r, t⟩
  rw [hr] at h1 h2
  cases r with
  | error e =>
    refine ⟨h1, ?_⟩
    rcases h2 with h2 | h2
    · exact .inl h2
    · simp only [Except.error.injEq] at h2
      subst h2
      exact .inr rfl
  | ok a =>
    rcases h2 with h2 | h2
    · have := hf a t h2
      rwa [h1] at this
    · simp at h2

theorem Dead.bind {m : M K α} {f : α → M K β} (hm : Dead m) (hf : ∀ a, Dead (f a)) : Dead (m >>= f) :=
  fun s hs => (hm s hs).bind hf

theorem CutOn.bindPost {m : M K α} {f : α → M K β} {Q : α → St K → Prop} (hm : CutOn P m) (hp : Post m Q) (hf : ∀ a, CutOn (Q a) (f a)) :
    CutOn P (m >>= f) where
  steady := hm.steady.bind fun a => (hf a).steady
  dead := hm.dead.bind fun a => (hf a).dead
  rel s x hs hP := by
    obtain ⟨j1, n1, j3⟩ := hm.steady (ext s x) hs
    have k1 := (hm.steady s hs).1
    rcases hm.rel s x hs hP with h | ⟨⟨e, h1, h2⟩, n, h3⟩
    · have hq := hp s
      show M.bind m f (ext s x) = ((M.bind m f s).1, ext (M.bind m f s).2 x) ∨ (∃ e, Lacks e ∧ (M.bind m f s).1 = .error e) ∧
        ∃ n, Stopped (M.bind m f (withFuel (ext s x) (some n))) (M.bind m f s).2.fl.mem
      unfold M.bind
      rw [h] at j3
      rw [h]
      rcases hr : m s with ⟨r, t⟩
      rw [hr] at j3 hq k1
      cases r with
      | error e => exact .inl rfl
      | ok a =>
        rcases (hf a).rel t x k1 (hq a rfl) with i | ⟨i1, n, i2⟩
        · exact .inl i
        · refine .inr ⟨i1, n1 + n, ?_⟩
          rw [j3 (n1 + n) (by omega), Nat.add_sub_cancel_left]
          exact i2
    · refine .inr ⟨⟨e, h1, ?_⟩, n, ?_⟩
      · show (M.bind m f s).1 = _
        unfold M.bind
        rcases hr : m s with ⟨r, t⟩
        rw [hr] at h2
        simp only at h2
        subst h2
        rfl
      · have e1 : ((m >>= f) s).2 = (m s).2 := by
          show (M.bind m f s).2 = _
          unfold M.bind
          rcases hr : m s with ⟨r, t⟩
          rw [hr] at h2
          simp only at h2
          subst h2
          rfl
        rw [e1]
        exact h3.bind fun a => (hf a).dead

theorem CutOn.bind {m : M K α} {f : α → M K β} (hm : CutOn P m) (hf : ∀ a, Cut (f a)) : CutOn P (m >>= f) :=
  hm.bindPost (Q := fun _ _ => True) (fun _ _ _ => trivial) hf

theorem CutOn.get {f : St K → M K β} (hfl : ∀ (s : St K) (fl : Flash), f { s with fl := fl } = f s)
    (hx : ∀ s x, P s → f (ext s x) = f s) (hf : ∀ s, Cut (f s)) : CutOn P (M.get >>= f) where
  steady s hs := by
    obtain ⟨h1, n, h3⟩ := (hf s).steady s hs
    refine ⟨h1, n, fun k hk => ?_⟩
    show f (withFuel s (some k)) (withFuel s (some k)) = _
    rw [show f (withFuel s (some k)) = f s from hfl s _]
    exact h3 k hk
  dead s hs := (hf s).dead s hs
  rel s x hs hP := by
    have h := (hf s).rel s x hs trivial
    show f (ext s x) (ext s x) = (_, _) ∨ _ ∧ ∃ n, Stopped (f (withFuel (ext s x) (some n)) (withFuel (ext s x) (some n))) _
    simp only [show ∀ n, f (withFuel (ext s x) (some n)) = f s from fun n => (hfl _ _).trans (hx s x hP), hx s x hP]
    exact h

theorem Cut.get {f : St K → M K β} (hfl : ∀ (s : St K) (fl : Flash) (b : List Byte), f { s with fl := fl, buf := b } = f s)
    (hf : ∀ s, Cut (f s)) : CutOn P (M.get >>= f) :=
  .get (fun s fl => hfl s fl s.buf) (fun s _ _ => hfl s s.fl _) hf

/-- A function that complains although a longer buffer would do. -/
theorem Rel.complains {m : M K α} {s : St K} {x : List Byte} {e : Err} (hd : Dead m) (he : Lacks e) (h1 : (m s).1 = .error e)
    (h2 : (m s).2.fl.mem = s.fl.mem) : Rel m s x := by
  refine .inr ⟨⟨e, he, h1⟩, 0, ?_⟩
  rw [h2]
  exact hd (withFuel (ext s x) (some 0)) rfl

theorem Cut.flashWrite (a : Nat) (bs : List Byte) : CutOn (K := K) P (flashWrite g a bs) where
  steady s hs := by
    obtain ⟨h1, n, _, h3⟩ := Needs.flashWrite (K := K) (g := g) (b := bs.length) a bs (Nat.le_refl _) s hs
    exact ⟨h1, n, h3⟩
  dead s hs := by
    unfold SeqStorage.flashWrite Flash.write
    by_cases c1 : a % g.writeSize ≠ 0 ∨ bs.length = 0 ∨ bs.length % g.writeSize ≠ 0
    · simp only [if_pos c1]
      exact ⟨rfl, .inl hs⟩
    by_cases c2 : a < g.start ∨ g.stop < a + bs.length
    · simp only [if_neg c1, if_pos c2]
      exact ⟨rfl, .inl hs⟩
    have h4 : spend s.fl.fuel bs.length = (0, none, false) := by
      rw [hs]
      simp only [spend]
      rw [if_neg (by omega)]
    simp only [if_neg c1, if_neg c2, h4]
    refine ⟨?_, .inr rfl⟩
    simp only [List.take_zero]
    funext y
    simp only [programBytes, List.length_nil]
    split
    · omega
    · rfl
  rel s x _ _ := .inl rfl

theorem Cut.flashErase (a b : Nat) (hb : b ≠ a) : CutOn (K := K) P (flashErase g a b) where
  steady s hs := by
    unfold SeqStorage.flashErase Flash.erase
    by_cases c0 : b < a
    · simp only [if_pos c0]
      exact ⟨hs, 0, fun k _ => rfl⟩
    by_cases c1 : a < g.start ∨ g.stop < b
    · simp only [if_neg c0, if_pos c1]
      exact ⟨hs, 0, fun k _ => rfl⟩
    by_cases c2 : a % g.eraseSize ≠ 0 ∨ b % g.eraseSize ≠ 0
    · simp only [if_neg c0, if_neg c1, if_pos c2]
      exact ⟨hs, 0, fun k _ => rfl⟩
    simp only [if_neg c0, if_neg c1, if_neg c2]
    rw [hs]
    refine ⟨rfl, b - a, fun k hk => ?_⟩
    have h4 : spend (some k) (b - a) = (b - a, some (k - (b - a)), true) := by simp [spend, hk]
    simp only [withFuel, h4]
    rfl
  dead s hs := by
    unfold SeqStorage.flashErase Flash.erase
    by_cases c0 : b < a
    · simp only [if_pos c0]
      exact ⟨rfl, .inl hs⟩
    by_cases c1 : a < g.start ∨ g.stop < b
    · simp only [if_neg c0, if_pos c1]
      exact ⟨rfl, .inl hs⟩
    by_cases c2 : a % g.eraseSize ≠ 0 ∨ b % g.eraseSize ≠ 0
    · simp only [if_neg c0, if_neg c1, if_pos c2]
      exact ⟨rfl, .inl hs⟩
    have h4 : spend s.fl.fuel (b - a) = (0, none, false) := by
      rw [hs]
      simp only [spend]
      rw [if_neg (by omega)]
    simp only [if_neg c0, if_neg c1, if_neg c2, h4]
    refine ⟨?_, .inr rfl⟩
    funext y
    simp only [eraseBytes]
    split
    · omega
    · rfl
  rel s x _ _ := .inl rfl

/-- What `withRepair` does after the first attempt. -/
def afterTry (f : M K α) (r : M K Unit) : Except Err α × St K → Except Err α × St K
  | (.error .corrupted, t) => (r >>= fun _ => f) t
  | (q, t) => (q, t)

theorem withRepair_eq (f : M K α) (r : M K Unit) (s : St K) : SeqStorage.withRepair f r s = afterTry f r (f s) := by
  show M.bind (M.attempt f) (fun x => match x with
    | .error .corrupted => r >>= fun _ => f
    | q => M.lift q) s = _
  unfold M.bind M.attempt
  rcases f s with ⟨q, t⟩
  rcases q with e | a
  · cases e <;> rfl
  · rfl

theorem Cut.withRepair {f : M K α} {r : M K Unit} (hf : Cut f) (hr : Cut r) : CutOn P (SeqStorage.withRepair f r) := by
  have rest := hr.bind fun _ => hf
  have stop : ∀ {x : Except Err α × St K} {mem}, Stopped x mem → Stopped (afterTry f r x) mem := by
    intro x mem h
    unfold afterTry
    split
    · obtain ⟨h1, h2⟩ := h
      rcases h2 with h2 | h2
      · have := rest.dead _ h2
        rwa [h1] at this
      · simp at h2
    · exact h
  have go : ∀ {x : Except Err α × St K}, x.2.fl.fuel = none → (afterTry f r x).2.fl.fuel = none ∧
      ∃ n, ∀ k, n ≤ k → afterTry f r (x.1, withFuel x.2 (some k)) = ((afterTry f r x).1, withFuel (afterTry f r x).2 (some (k - n))) := by
    intro x hx
    rcases x with ⟨q, t⟩
    rcases q with e | a
    · cases e
      case corrupted => exact rest.steady t hx
      all_goals exact ⟨hx, 0, fun k _ => rfl⟩
    · exact ⟨hx, 0, fun k _ => rfl⟩
  refine ⟨fun s hs => ?_, fun s hs => ?_, fun s x hs _ => ?_⟩
  · obtain ⟨h1, n, h3⟩ := hf.steady s hs
    obtain ⟨i1, n', i3⟩ := go h1
    rw [withRepair_eq]
    refine ⟨i1, n + n', fun k hk => ?_⟩
    rw [withRepair_eq, h3 k (by omega), i3 (k - n) (by omega), Nat.sub_sub]
  · rw [withRepair_eq]
    exact stop (hf.dead s hs)
  · obtain ⟨j1, n1, j3⟩ := hf.steady (ext s x) hs
    have k1 := (hf.steady s hs).1
    unfold Rel
    simp only [withRepair_eq]
    rcases hf.rel s x hs trivial with h | ⟨⟨e, h1, h2⟩, n, h3⟩
    · rw [h] at j3 ⊢
      generalize f s = y at j3 k1 ⊢
      rcases y with ⟨q, t⟩
      rcases q with e | a
      · cases e
        case corrupted =>
          rcases rest.rel t x k1 trivial with i | ⟨i1, n, i2⟩
          · exact .inl i
          · refine .inr ⟨i1, n1 + n, ?_⟩
            rw [j3 (n1 + n) (by omega), Nat.add_sub_cancel_left]
            exact i2
        all_goals exact .inl rfl
      · exact .inl rfl
    · have e1 : afterTry f r (f s) = f s := by
        rcases hq : f s with ⟨q, t⟩
        rw [hq] at h2
        dsimp only at h2
        subst h2
        cases e <;> first | rfl | exact h1.elim
      rw [e1]
      exact .inr ⟨⟨e, h1, h2⟩, n, stop h3⟩
/-! ### The functions -/

/-- One step through the body of a function. -/
syntax "cut_step" : tactic

macro_rules | `(tactic| cut_step) => `(tactic| split)
macro_rules | `(tactic| cut_step) => `(tactic| with_reducible refine CutOn.bind ?_ fun _ => ?_)
macro_rules | `(tactic| cut_step) => `(tactic| (with_reducible refine Cut.get ?_ fun _ => ?_); focus (intros; rfl))
macro_rules | `(tactic| cut_step) => `(tactic| with_reducible exact Plain.cut (Plain.lift _))
macro_rules | `(tactic| cut_step) => `(tactic| with_reducible exact Plain.cut (Plain.throw _))
macro_rules | `(tactic| cut_step) => `(tactic| with_reducible exact Plain.cut (Plain.pure _))
macro_rules | `(tactic| cut_step) => `(tactic| with_reducible exact Plain.cut (Plain.flashRead _ _))
macro_rules | `(tactic| cut_step) => `(tactic| with_reducible exact Plain.cut (Plain.modifyCache _))
macro_rules | `(tactic| cut_step) => `(tactic| with_reducible exact Cut.flashWrite _ _)

/-- Go through the body of a function. -/
macro "cuts" : tactic =>
  `(tactic| ((try dsimp only); repeat' (first | with_reducible assumption | cut_step | with_reducible apply_assumption | dsimp only)))

theorem Cut.unmarkDirty : CutOn (K := K) P SeqStorage.unmarkDirty := (Plain.modifyCache _).cut
macro_rules | `(tactic| cut_step) => `(tactic| with_reducible exact Cut.unmarkDirty)

theorem Cut.checkDirty : CutOn (K := K) P SeqStorage.checkDirty := (Plain.modifyCache _).cut
macro_rules | `(tactic| cut_step) => `(tactic| with_reducible exact Cut.checkDirty)

theorem Cut.noticePage (i : Nat) (st : PageState) (d : Bool) : CutOn (K := K) P (SeqStorage.noticePage i st d) := (Plain.updateCache _).cut
macro_rules | `(tactic| cut_step) => `(tactic| with_reducible exact Cut.noticePage _ _ _)

theorem Plain.getPageState (i : Nat) : Plain (K := K) (SeqStorage.getPageState g i) :=
  (Plain.flashRead _ _).bind fun _ => (Plain.flashRead _ _).bind fun _ => .lift _

theorem Cut.getPageStateCached (i : Nat) : CutOn (K := K) P (SeqStorage.getPageStateCached g i) := by
  unfold SeqStorage.getPageStateCached
  have := fun P => (Plain.getPageState (K := K) (g := g) i).cut (P := P)
  cuts
macro_rules | `(tactic| cut_step) => `(tactic| with_reducible exact Cut.getPageStateCached _)

theorem Cut.openPage (w : g.WF) (i : Nat) : CutOn (K := K) P (SeqStorage.openPage g i) :=
  (Cut.noticePage _ _ _).bind fun _ => .flashErase _ _ (by unfold Geo.pageEnd Geo.pageAddr; rw [Nat.mul_add]; have := w.erase_pos; omega)

theorem Cut.partialClosePage (i : Nat) : CutOn (K := K) P (SeqStorage.partialClosePage g i) := by
  unfold SeqStorage.partialClosePage
  cuts
macro_rules | `(tactic| cut_step) => `(tactic| with_reducible exact Cut.partialClosePage _)

theorem Cut.closePage (i : Nat) : CutOn (K := K) P (SeqStorage.closePage g i) := by
  unfold SeqStorage.closePage
  cuts
macro_rules | `(tactic| cut_step) => `(tactic| with_reducible exact Cut.closePage _)

theorem Cut.findFirstIn (st : PageState) (l : List Nat) : Cut (K := K) (SeqStorage.findFirstIn g st l) := by
  induction l with
  | nil => exact (Plain.pure _).cut
  | cons i l ih =>
    unfold SeqStorage.findFirstIn
    cuts

theorem Cut.findFirstPage (i : Nat) (st : PageState) : CutOn (K := K) P (SeqStorage.findFirstPage g i st) := .weaken (.findFirstIn _ _)
macro_rules | `(tactic| cut_step) => `(tactic| with_reducible exact Cut.findFirstPage _ _)

theorem Cut.findLastIn (st : PageState) (o : Option Nat) (l : List Nat) : Cut (K := K) (SeqStorage.findLastIn g st o l) := by
  induction l generalizing o with
  | nil => exact (Plain.pure _).cut
  | cons i l ih =>
    unfold SeqStorage.findLastIn
    cuts

theorem Cut.findLastPage (i : Nat) (st : PageState) : CutOn (K := K) P (SeqStorage.findLastPage g i st) := .weaken (.findLastIn _ _ _)
macro_rules | `(tactic| cut_step) => `(tactic| with_reducible exact Cut.findLastPage _ _)

theorem Cut.generalRepairIn (w : g.WF) (l : List Nat) : Cut (K := K) (SeqStorage.generalRepairIn g l) := by
  induction l with
  | nil => exact (Plain.pure _).cut
  | cons i l ih =>
    unfold SeqStorage.generalRepairIn
    refine (Plain.getPageState i).attempt.cut.bind fun r => ?_
    split
    · exact (Cut.openPage w i).bind fun _ => ih
    · exact ih

theorem Plain.readHeader (a e : Nat) : Plain (K := K) (SeqStorage.readHeader g a e) := by
  unfold SeqStorage.readHeader
  split
  · exact .pure _
  · refine (Plain.flashRead _ _).bind fun _ => (Plain.lift _).bind fun r => ?_
    split
    · exact .pure _
    · split
      · exact .throw _
      · exact .pure _

theorem Cut.readHeader (a e : Nat) : CutOn (K := K) P (SeqStorage.readHeader g a e) := (Plain.readHeader a e).cut
macro_rules | `(tactic| cut_step) => `(tactic| with_reducible exact Cut.readHeader _ _)

theorem Cut.writeRaw (h : Header) (d : List Byte) (a : Nat) : CutOn (K := K) P (SeqStorage.writeRaw g h d a) := by
  unfold SeqStorage.writeRaw SeqStorage.writeHeader
  cuts
macro_rules | `(tactic| cut_step) => `(tactic| with_reducible exact Cut.writeRaw _ _ _)

theorem Cut.writeNew (a : Nat) (d : List Byte) : CutOn (K := K) P (SeqStorage.writeNew g a d) := Cut.writeRaw _ _ _
macro_rules | `(tactic| cut_step) => `(tactic| with_reducible exact Cut.writeNew _ _)

theorem Cut.eraseItem (h : Header) (a : Nat) : CutOn (K := K) P (SeqStorage.eraseItem g h a) := by
  unfold SeqStorage.eraseItem SeqStorage.writeHeader
  cuts
macro_rules | `(tactic| cut_step) => `(tactic| with_reducible exact Cut.eraseItem _ _)

theorem Cut.traverse (e : Nat) (skip : Header → Bool) (n a : Nat) : Cut (K := K) (SeqStorage.traverse g e skip n a) := by
  induction n generalizing a with
  | zero => exact (Plain.throw _).cut
  | succ n ih =>
    unfold SeqStorage.traverse
    refine (Plain.readHeader a e).attempt.cut.bind fun r => ?_
    cuts

theorem Cut.traverseOn (e : Nat) (skip : Header → Bool) (n a : Nat) : CutOn (K := K) P (SeqStorage.traverse g e skip n a) :=
  .weaken (.traverse e skip n a)
macro_rules | `(tactic| cut_step) => `(tactic| with_reducible exact Cut.traverseOn _ _ _ _)

theorem Cut.findFreeSpot (a e n : Nat) : CutOn (K := K) P (SeqStorage.findFreeSpot g a e n) := by
  unfold SeqStorage.findFreeSpot
  cuts
macro_rules | `(tactic| cut_step) => `(tactic| with_reducible exact Cut.findFreeSpot _ _ _)

end

end SeqStorage.Short
