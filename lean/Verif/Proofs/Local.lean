import Verif.Model.Use
import Verif.Model.MapUse
/-
What the code can see and touch: the behaviour of every function depends on the flash only through the bytes of the
configured range (and the power that is left), and it leaves the rest of the flash alone. A storage without caches
stays without caches, and then the dirty flag means nothing either.
-/
set_option linter.unusedSectionVars false

namespace SeqStorage.Proofs
open SeqStorage M Spec

variable {K : Type} [DecidableEq K] {V : Type}

/-- A cache that caches nothing. -/
structure Uncached (c : Cache K) : Prop where
  ps : c.ps = .uncached
  pp : c.pp = .uncached
  kp : c.kp = .uncached

/-- Two states the code cannot tell apart: the same bytes in the range, the same power, the same cache, buffer and
iterator. What the flash holds outside the range, its observations, and the dirty flag of a storage without caches do
not matter. -/
structure Alike (g : Geo) (s s' : St K) : Prop where
  mem : ∀ a, g.start ≤ a → a < g.stop → s'.fl.mem a = s.fl.mem a
  fuel : s'.fl.fuel = s.fl.fuel
  buf : s'.buf = s.buf
  qit : s'.qit = s.qit
  mit : s'.mit = s.mit
  ps : s'.cache.ps = s.cache.ps
  pp : s'.cache.pp = s.cache.pp
  kp : s'.cache.kp = s.cache.kp
  dirty : s'.cache.dirty = s.cache.dirty ∨ Uncached s.cache

/-- The state after the function, for two states that it cannot tell apart. -/
structure After (g : Geo) {α : Type} (s : St K) (r r' : Except Err α × St K) : Prop where
  res : r'.1 = r.1
  alike : Alike g r.2 r'.2
  frame : ∀ a, a < g.start ∨ g.stop ≤ a → r.2.fl.mem a = s.fl.mem a
  bare : Uncached s.cache → Uncached r.2.cache
  power : s.fl.fuel = none → r.2.fl.fuel = none

/-- The function depends on and changes nothing outside its range. -/
def Resp (g : Geo) {α : Type} (m : M K α) : Prop :=
  ∀ s s', Alike g s s' → After g s (m s) (m s')

theorem Alike.refl (g : Geo) (s : St K) : Alike g s s :=
  ⟨fun _ _ _ => rfl, rfl, rfl, rfl, rfl, rfl, rfl, rfl, Or.inl rfl⟩

theorem Alike.eta {g : Geo} {s s' : St K} (h : Alike g s s') :
    s' = { s with fl := s'.fl, cache := { s.cache with dirty := s'.cache.dirty } } := by
  obtain ⟨fl', ⟨d', p', q', k'⟩, b', i', m'⟩ := s'
  have := h.buf; have := h.qit; have := h.mit; have := h.ps; have := h.pp; have := h.kp
  simp_all

theorem Alike.uncached {g : Geo} {s s' : St K} (h : Alike g s s') (u : Uncached s.cache) : Uncached s'.cache :=
  ⟨h.ps.trans u.ps, h.pp.trans u.pp, h.kp.trans u.kp⟩

theorem Alike.symm {g : Geo} {s s' : St K} (h : Alike g s s') : Alike g s' s :=
  ⟨fun a h1 h2 => (h.mem a h1 h2).symm, h.fuel.symm, h.buf.symm, h.qit.symm, h.mit.symm, h.ps.symm, h.pp.symm,
    h.kp.symm, h.dirty.elim (fun e => Or.inl e.symm) fun u => Or.inr (h.uncached u)⟩

theorem Alike.trans {g : Geo} {s s' s'' : St K} (h : Alike g s s') (h' : Alike g s' s'') : Alike g s s'' :=
  ⟨fun a h1 h2 => (h'.mem a h1 h2).trans (h.mem a h1 h2), h'.fuel.trans h.fuel, h'.buf.trans h.buf,
    h'.qit.trans h.qit, h'.mit.trans h.mit, h'.ps.trans h.ps, h'.pp.trans h.pp, h'.kp.trans h.kp, by
      rcases h.dirty with e | u
      · rcases h'.dirty with e' | u'
        · exact Or.inl (e'.trans e)
        · exact Or.inr (h.symm.uncached u')
      · exact Or.inr u⟩

section
variable {g : Geo}

theorem Resp.pure {α : Type} (a : α) : Resp (K := K) g (pure a : M K α) :=
  fun _ _ h => ⟨rfl, h, fun _ _ => rfl, id, id⟩

theorem Resp.throw {α : Type} (e : Err) : Resp (K := K) g (M.throw e : M K α) :=
  fun _ _ h => ⟨rfl, h, fun _ _ => rfl, id, id⟩

theorem Resp.lift {α : Type} (r : Except Err α) : Resp (K := K) g (M.lift r : M K α) :=
  fun _ _ h => ⟨rfl, h, fun _ _ => rfl, id, id⟩

theorem Resp.bind {α β : Type} {m : M K α} {f : α → M K β} (hm : Resp g m) (hf : ∀ a, Resp g (f a)) :
    Resp g (m >>= f) := by
  intro s s' h
  have h1 := hm s s' h
  show After g s (M.bind m f s) (M.bind m f s')
  unfold M.bind
  rcases hr : m s with ⟨r, t⟩
  rcases hr' : m s' with ⟨r', t'⟩
  rw [hr, hr'] at h1
  obtain rfl : r' = r := h1.res
  cases r' with
  | error e => exact ⟨rfl, h1.alike, h1.frame, h1.bare, h1.power⟩
  | ok a =>
    have h2 := hf a t t' h1.alike
    exact ⟨h2.res, h2.alike, fun x hx => (h2.frame x hx).trans (h1.frame x hx), fun u => h2.bare (h1.bare u),
      fun u => h2.power (h1.power u)⟩

theorem Resp.attempt {α : Type} {m : M K α} (hm : Resp g m) : Resp g (M.attempt m) := by
  intro s s' h
  have h1 := hm s s' h
  exact ⟨congrArg Except.ok h1.res, h1.alike, h1.frame, h1.bare, h1.power⟩

theorem Resp.get {β : Type} {f : St K → M K β}
    (hf : ∀ (s : St K) (fl : Flash) (d : Bool), f { s with fl := fl, cache := { s.cache with dirty := d } } = f s)
    (hr : ∀ s, Resp g (f s)) : Resp g (M.get >>= f) := by
  intro s s' h
  show After g s (f s s) (f s' s')
  rw [show f s' = f s from by rw [h.eta]; exact hf s _ _]
  exact hr s s s' h

theorem Resp.modify {f : St K → St K}
    (hf : ∀ (s : St K) (fl : Flash) (c : Cache K), f { s with fl := fl, cache := c } = { f s with fl := fl, cache := c })
    : Resp g (M.modify f) := by
  intro s s' h
  have e1 : f s = { f s with fl := s.fl, cache := s.cache } := hf s s.fl s.cache
  have e2 : f s' = { f s with fl := s'.fl, cache := s'.cache } := by
    obtain ⟨fl', c', b', i', m'⟩ := s'
    have hb : b' = s.buf := h.buf
    have hi : i' = s.qit := h.qit
    have hm : m' = s.mit := h.mit
    subst hb hi hm
    exact hf s _ _
  refine ⟨rfl, ?_, ?_, ?_, ?_⟩
  · show Alike g (f s) (f s')
    rw [e2]
    rw [e1]
    exact ⟨h.mem, h.fuel, rfl, rfl, rfl, h.ps, h.pp, h.kp, h.dirty⟩
  · intro a _
    show (f s).fl.mem a = _
    rw [e1]
  · intro u
    show Uncached (f s).cache
    rw [e1]
    exact u
  · intro u
    show (f s).fl.fuel = none
    rw [e1]
    exact u

theorem Alike.withCache {s s' : St K} (h : Alike g s s') {c c' : Cache K}
    (hc : c' = c ∨ (Uncached c ∧ Uncached c')) :
    Alike g { s with cache := c } { s' with cache := c' } := by
  rcases hc with rfl | ⟨u, u'⟩
  · exact ⟨h.mem, h.fuel, h.buf, h.qit, h.mit, rfl, rfl, rfl, Or.inl rfl⟩
  · exact ⟨h.mem, h.fuel, h.buf, h.qit, h.mit, u'.ps.trans u.ps.symm, u'.pp.trans u.pp.symm,
      u'.kp.trans u.kp.symm, Or.inr u⟩

theorem Alike.cacheEq {s s' : St K} (h : Alike g s s') : s'.cache = s.cache ∨ (Uncached s.cache ∧ Uncached s'.cache) := by
  rcases h.dirty with e | u
  · left
    have := h.ps; have := h.pp; have := h.kp
    cases hs : s.cache; cases hs' : s'.cache; simp_all
  · exact Or.inr ⟨u, h.uncached u⟩

theorem Resp.modifyCache {f : Cache K → Cache K} (hf : ∀ c, Uncached c → Uncached (f c)) :
    Resp g (SeqStorage.modifyCache f) := by
  intro s s' h
  refine ⟨rfl, ?_, fun _ _ => rfl, hf _, id⟩
  refine h.withCache ?_
  rcases h.cacheEq with e | ⟨u, u'⟩
  · exact Or.inl (congrArg f e)
  · exact Or.inr ⟨hf _ u, hf _ u'⟩

theorem Resp.updateCache {f : Cache K → Except Err (Cache K)}
    (hf : ∀ c, Uncached c → ∃ c', f c = .ok c' ∧ Uncached c') : Resp g (SeqStorage.updateCache f) := by
  intro s s' h
  unfold SeqStorage.updateCache
  rcases h.cacheEq with e | ⟨u, u'⟩
  · rw [e]
    cases hc : f s.cache with
    | ok c =>
      refine ⟨rfl, h.withCache (Or.inl rfl), fun _ _ => rfl, fun u => ?_, id⟩
      obtain ⟨c1, h1, h2⟩ := hf _ u
      rw [hc] at h1
      cases h1
      exact h2
    | error e => exact ⟨rfl, h, fun _ _ => rfl, id, id⟩
  · obtain ⟨c1, h1, h2⟩ := hf _ u
    obtain ⟨c2, h3, h4⟩ := hf _ u'
    rw [h1, h3]
    exact ⟨rfl, h.withCache (Or.inr ⟨h2, h4⟩), fun _ _ => rfl, fun _ => h2, id⟩

theorem Resp.flashRead (a n : Nat) : Resp (K := K) g (flashRead g a n) := by
  intro s s' h
  unfold SeqStorage.flashRead
  have e : s'.fl.read g a n = s.fl.read g a n := by
    unfold Flash.read
    split
    · rfl
    · split
      · rfl
      · rename_i _ hb
        congr 1
        unfold readBytes
        refine List.map_congr_left fun i hi => ?_
        have := List.mem_range.1 hi
        exact h.mem _ (by omega) (by omega)
  rw [e]
  cases s.fl.read g a n with
  | ok bs => exact ⟨rfl, h, fun _ _ => rfl, id, id⟩
  | error e =>
    exact ⟨rfl, ⟨h.mem, h.fuel, h.buf, h.qit, h.mit, h.ps, h.pp, h.kp, h.dirty⟩, fun _ _ => rfl, id, id⟩

theorem Alike.withFlash {s s' : St K} (h : Alike g s s') {fl fl' : Flash}
    (hm : ∀ a, g.start ≤ a → a < g.stop → fl'.mem a = fl.mem a) (hf : fl'.fuel = fl.fuel) :
    Alike g { s with fl := fl } { s' with fl := fl' } :=
  ⟨hm, hf, h.buf, h.qit, h.mit, h.ps, h.pp, h.kp, h.dirty⟩

theorem spend_le (fuel : Option Nat) (n : Nat) : (spend fuel n).1 ≤ n := by
  unfold spend
  split
  · exact Nat.le_refl _
  · split <;> simp <;> omega

theorem Resp.ofFlash {op : Flash → Except Err Unit × Flash}
    (hr : ∀ fl fl' : Flash, (∀ a, g.start ≤ a → a < g.stop → fl'.mem a = fl.mem a) → fl'.fuel = fl.fuel →
      (op fl').1 = (op fl).1 ∧ (∀ a, g.start ≤ a → a < g.stop → (op fl').2.mem a = (op fl).2.mem a) ∧
      (op fl').2.fuel = (op fl).2.fuel ∧ ∀ a, a < g.start ∨ g.stop ≤ a → (op fl).2.mem a = fl.mem a)
    (hp : ∀ fl : Flash, fl.fuel = none → (op fl).2.fuel = none) :
    Resp (K := K) g fun s => ((op s.fl).1, { s with fl := (op s.fl).2 }) := by
  intro s s' h
  obtain ⟨h1, h2, h3, h4⟩ := hr s.fl s'.fl h.mem h.fuel
  exact ⟨h1, h.withFlash h2 h3, h4, id, hp s.fl⟩

theorem Resp.flashWrite (a : Nat) (bs : List Byte) : Resp (K := K) g (flashWrite g a bs) := by
  have hp : ∀ fl : Flash, fl.fuel = none → (fl.write g a bs).2.fuel = none := by
    intro fl h
    unfold Flash.write
    split
    · exact h
    · split
      · exact h
      · simp [h, spend]
  refine Resp.ofFlash (op := fun fl => fl.write g a bs) ?_ hp
  intro fl fl' hm hf
  have hk := spend_le fl.fuel bs.length
  unfold Flash.write
  rw [hf]
  by_cases c1 : a % g.writeSize ≠ 0 ∨ bs.length = 0 ∨ bs.length % g.writeSize ≠ 0
  · simp only [if_pos c1]
    exact ⟨trivial, hm, hf, fun _ _ => rfl⟩
  by_cases c2 : a < g.start ∨ g.stop < a + bs.length
  · simp only [if_neg c1, if_pos c2]
    exact ⟨trivial, hm, hf, fun _ _ => rfl⟩
  simp only [if_neg c1, if_neg c2]
  rcases hs : spend fl.fuel bs.length with ⟨k, fuel', done⟩
  rw [hs] at hk
  dsimp only at hk ⊢
  refine ⟨trivial, ?_, trivial, ?_⟩
  · intro x h1 h2
    simp only [programBytes, hm x h1 h2]
  · intro x hx
    simp only [programBytes, List.length_take]
    rw [if_neg (by omega)]

theorem Resp.flashErase (a b : Nat) : Resp (K := K) g (flashErase g a b) := by
  have hp : ∀ fl : Flash, fl.fuel = none → (fl.erase g a b).2.fuel = none := by
    intro fl h
    unfold Flash.erase
    split
    · exact h
    · split
      · exact h
      · split
        · exact h
        · simp [h, spend]
  refine Resp.ofFlash (op := fun fl => fl.erase g a b) ?_ hp
  intro fl fl' hm hf
  have hk := spend_le fl.fuel (b - a)
  unfold Flash.erase
  rw [hf]
  by_cases c0 : b < a
  · simp only [if_pos c0]
    exact ⟨trivial, hm, hf, fun _ _ => rfl⟩
  by_cases c1 : a < g.start ∨ g.stop < b
  · simp only [if_neg c0, if_pos c1]
    exact ⟨trivial, hm, hf, fun _ _ => rfl⟩
  by_cases c2 : a % g.eraseSize ≠ 0 ∨ b % g.eraseSize ≠ 0
  · simp only [if_neg c0, if_neg c1, if_pos c2]
    exact ⟨trivial, hm, hf, fun _ _ => rfl⟩
  simp only [if_neg c0, if_neg c1, if_neg c2]
  rcases hs : spend fl.fuel (b - a) with ⟨k, fuel', done⟩
  rw [hs] at hk
  dsimp only at hk ⊢
  refine ⟨trivial, ?_, trivial, ?_⟩
  · intro x h1 h2
    simp only [eraseBytes, hm x h1 h2]
  · intro x hx
    simp only [eraseBytes]
    rw [if_neg (by omega)]

/-! ### Caches that cache nothing stay that way -/

theorem Uncached.noticePage {c : Cache K} (u : Uncached c) (i : Nat) (st : PageState) (d : Bool) :
    ∃ c', c.noticePage i st d = .ok c' ∧ Uncached c' := by
  refine ⟨{ c with dirty := c.dirty || d }, ?_, ⟨u.ps, u.pp, u.kp⟩⟩
  have := u.ps; have := u.pp
  simp [Cache.noticePage, PSCache.notice, PPCache.noticePage, *]

theorem Uncached.noticeKey {c : Cache K} (u : Uncached c) (k : K) (a : Nat) (d : Bool) :
    ∃ c', c.noticeKey k a d = .ok c' ∧ Uncached c' := by
  refine ⟨{ c with dirty := c.dirty || d }, ?_, ⟨u.ps, u.pp, u.kp⟩⟩
  have := u.kp
  simp [Cache.noticeKey, KPCache.noticeLocation, *]

theorem Uncached.noticeKeyErased {c : Cache K} (u : Uncached c) (k : K) : Uncached (c.noticeKeyErased k) :=
  ⟨u.ps, u.pp, by simp [Cache.noticeKeyErased, u.kp, KPCache.noticeErased]⟩

theorem Uncached.invalidate {c : Cache K} (u : Uncached c) : Uncached c.invalidate :=
  ⟨by simp [Cache.invalidate, u.ps, PSCache.invalidate], by simp [Cache.invalidate, u.pp, PPCache.invalidate],
    by simp [Cache.invalidate, u.kp, KPCache.invalidate]⟩

/-! ### The functions -/

/-- One step through the body of a function. -/
syntax "resp_step" : tactic

macro_rules | `(tactic| resp_step) => `(tactic| split)
macro_rules | `(tactic| resp_step) => `(tactic| with_reducible refine Resp.bind ?_ fun _ => ?_)
macro_rules | `(tactic| resp_step) => `(tactic| with_reducible refine Resp.attempt ?_)
macro_rules | `(tactic| resp_step) => `(tactic| (with_reducible refine Resp.get ?_ fun _ => ?_); focus (intros; rfl))
macro_rules | `(tactic| resp_step) => `(tactic| (with_reducible refine Resp.modify ?_); intros; rfl)
macro_rules | `(tactic| resp_step) => `(tactic| with_reducible exact Resp.lift _)
macro_rules | `(tactic| resp_step) => `(tactic| with_reducible exact Resp.throw _)
macro_rules | `(tactic| resp_step) => `(tactic| with_reducible exact Resp.pure _)
macro_rules | `(tactic| resp_step) => `(tactic| with_reducible exact Resp.flashRead _ _)
macro_rules | `(tactic| resp_step) => `(tactic| with_reducible exact Resp.flashWrite _ _)
macro_rules | `(tactic| resp_step) => `(tactic| with_reducible exact Resp.flashErase _ _)

/-- Go through the body of a function. -/
macro "resp" : tactic =>
  `(tactic| ((try dsimp only); repeat' (first | with_reducible assumption | resp_step | with_reducible apply_assumption | dsimp only)))

theorem Resp.unmarkDirty : Resp (K := K) g (SeqStorage.unmarkDirty) := by
  exact Resp.modifyCache fun c u => ⟨u.ps, u.pp, u.kp⟩
macro_rules | `(tactic| resp_step) => `(tactic| with_reducible exact Resp.unmarkDirty)

theorem Resp.checkDirty : Resp (K := K) g (SeqStorage.checkDirty) := by
  refine Resp.modifyCache fun c u => ?_
  split
  · exact u.invalidate
  · exact u
macro_rules | `(tactic| resp_step) => `(tactic| with_reducible exact Resp.checkDirty)

theorem Resp.invalidate : Resp (K := K) g (SeqStorage.modifyCache Cache.invalidate) := by
  exact Resp.modifyCache fun c u => u.invalidate
macro_rules | `(tactic| resp_step) => `(tactic| with_reducible exact Resp.invalidate)

theorem Resp.noticePage (i : Nat) (st : PageState) (d : Bool) : Resp (K := K) g (SeqStorage.noticePage i st d) := by
  exact Resp.updateCache fun c u => u.noticePage i st d
macro_rules | `(tactic| resp_step) => `(tactic| with_reducible exact Resp.noticePage _ _ _)

theorem Resp.noticeKey (k : K) (a : Nat) (d : Bool) : Resp (K := K) g (Map.noticeKey k a d) := by
  exact Resp.updateCache fun c u => u.noticeKey k a d
macro_rules | `(tactic| resp_step) => `(tactic| with_reducible exact Resp.noticeKey _ _ _)

theorem Resp.withRepair {α : Type} {f : M K α} {r : M K Unit} (hf : Resp g f) (hr : Resp g r) :
    Resp g (SeqStorage.withRepair f r) := by
  unfold SeqStorage.withRepair
  resp
macro_rules | `(tactic| resp_step) => `(tactic| with_reducible refine Resp.withRepair ?_ ?_)

theorem Resp.eraseAll : Resp (K := K) g (SeqStorage.eraseAll g) := by
  unfold SeqStorage.eraseAll
  resp
macro_rules | `(tactic| resp_step) => `(tactic| with_reducible exact Resp.eraseAll)

theorem Resp.getPageState (i : Nat) : Resp (K := K) g (SeqStorage.getPageState g i) := by
  unfold SeqStorage.getPageState
  resp
macro_rules | `(tactic| resp_step) => `(tactic| with_reducible exact Resp.getPageState _)

theorem Resp.getPageStateCached (i : Nat) : Resp (K := K) g (SeqStorage.getPageStateCached g i) := by
  unfold SeqStorage.getPageStateCached
  resp
macro_rules | `(tactic| resp_step) => `(tactic| with_reducible exact Resp.getPageStateCached _)

theorem Resp.openPage (i : Nat) : Resp (K := K) g (SeqStorage.openPage g i) := by
  unfold SeqStorage.openPage
  resp
macro_rules | `(tactic| resp_step) => `(tactic| with_reducible exact Resp.openPage _)

theorem Resp.partialClosePage (i : Nat) : Resp (K := K) g (SeqStorage.partialClosePage g i) := by
  unfold SeqStorage.partialClosePage
  resp
macro_rules | `(tactic| resp_step) => `(tactic| with_reducible exact Resp.partialClosePage _)

theorem Resp.closePage (i : Nat) : Resp (K := K) g (SeqStorage.closePage g i) := by
  unfold SeqStorage.closePage
  resp
macro_rules | `(tactic| resp_step) => `(tactic| with_reducible exact Resp.closePage _)

theorem Resp.findFirstIn (st : PageState) (l : List Nat) : Resp (K := K) g (SeqStorage.findFirstIn g st l) := by
  induction l with
  | nil => exact Resp.pure _
  | cons i l ih =>
    unfold SeqStorage.findFirstIn
    resp
macro_rules | `(tactic| resp_step) => `(tactic| with_reducible exact Resp.findFirstIn _ _)

theorem Resp.findFirstPage (i : Nat) (st : PageState) : Resp (K := K) g (SeqStorage.findFirstPage g i st) := by
  unfold SeqStorage.findFirstPage
  resp
macro_rules | `(tactic| resp_step) => `(tactic| with_reducible exact Resp.findFirstPage _ _)

theorem Resp.findLastIn (st : PageState) (o : Option Nat) (l : List Nat) : Resp (K := K) g (SeqStorage.findLastIn g st o l) := by
  induction l generalizing o with
  | nil => exact Resp.pure _
  | cons i l ih =>
    unfold SeqStorage.findLastIn
    resp
macro_rules | `(tactic| resp_step) => `(tactic| with_reducible exact Resp.findLastIn _ _ _)

theorem Resp.findLastPage (i : Nat) (st : PageState) : Resp (K := K) g (SeqStorage.findLastPage g i st) := by
  unfold SeqStorage.findLastPage
  resp
macro_rules | `(tactic| resp_step) => `(tactic| with_reducible exact Resp.findLastPage _ _)

theorem Resp.generalRepairIn (l : List Nat) : Resp (K := K) g (SeqStorage.generalRepairIn g l) := by
  induction l with
  | nil => exact Resp.pure _
  | cons i l ih =>
    unfold SeqStorage.generalRepairIn
    resp
macro_rules | `(tactic| resp_step) => `(tactic| with_reducible exact Resp.generalRepairIn _)

theorem Resp.tryGeneralRepair : Resp (K := K) g (SeqStorage.tryGeneralRepair g) := by
  unfold SeqStorage.tryGeneralRepair
  resp
macro_rules | `(tactic| resp_step) => `(tactic| with_reducible exact Resp.tryGeneralRepair)

theorem Resp.readHeader (a e : Nat) : Resp (K := K) g (SeqStorage.readHeader g a e) := by
  unfold SeqStorage.readHeader
  resp
macro_rules | `(tactic| resp_step) => `(tactic| with_reducible exact Resp.readHeader _ _)

theorem Resp.readIntoBuf (a n : Nat) : Resp (K := K) g (SeqStorage.readIntoBuf g a n) := by
  unfold SeqStorage.readIntoBuf
  resp
macro_rules | `(tactic| resp_step) => `(tactic| with_reducible exact Resp.readIntoBuf _ _)

theorem Resp.readItem (h : Header) (a e : Nat) : Resp (K := K) g (SeqStorage.readItem g h a e) := by
  unfold SeqStorage.readItem
  resp
macro_rules | `(tactic| resp_step) => `(tactic| with_reducible exact Resp.readItem _ _ _)

theorem Resp.writeHeader (h : Header) (a : Nat) : Resp (K := K) g (SeqStorage.writeHeader g h a) := by
  unfold SeqStorage.writeHeader
  resp
macro_rules | `(tactic| resp_step) => `(tactic| with_reducible exact Resp.writeHeader _ _)

theorem Resp.eraseItem (h : Header) (a : Nat) : Resp (K := K) g (SeqStorage.eraseItem g h a) := by
  unfold SeqStorage.eraseItem
  refine Resp.bind (Resp.modifyCache fun c u => ⟨u.ps, ?_, u.kp⟩) fun _ => ?_
  · simp [u.pp, PPCache.noticeErased]
  · resp
macro_rules | `(tactic| resp_step) => `(tactic| with_reducible exact Resp.eraseItem _ _)

theorem Resp.writeRaw (h : Header) (d : List Byte) (a : Nat) : Resp (K := K) g (SeqStorage.writeRaw g h d a) := by
  unfold SeqStorage.writeRaw
  refine Resp.bind (Resp.modifyCache fun c u => ⟨u.ps, ?_, u.kp⟩) fun _ => ?_
  · simp [u.pp, PPCache.noticeWritten]
  · resp
macro_rules | `(tactic| resp_step) => `(tactic| with_reducible exact Resp.writeRaw _ _ _)

theorem Resp.writeNew (a : Nat) (d : List Byte) : Resp (K := K) g (SeqStorage.writeNew g a d) := by
  unfold SeqStorage.writeNew
  resp
macro_rules | `(tactic| resp_step) => `(tactic| with_reducible exact Resp.writeNew _ _)

theorem Resp.traverse (e : Nat) (skip : Header → Bool) (n a : Nat) : Resp (K := K) g (SeqStorage.traverse g e skip n a) := by
  induction n generalizing a with
  | zero => exact Resp.throw _
  | succ n ih =>
    unfold SeqStorage.traverse
    resp
macro_rules | `(tactic| resp_step) => `(tactic| with_reducible exact Resp.traverse _ _ _ _)

theorem Resp.itemNext (e n a : Nat) : Resp (K := K) g (SeqStorage.itemNext g e n a) := by
  induction n generalizing a with
  | zero => exact Resp.throw _
  | succ n ih =>
    unfold SeqStorage.itemNext
    resp
macro_rules | `(tactic| resp_step) => `(tactic| with_reducible exact Resp.itemNext _ _ _)

theorem Resp.findFreeSpot (a e n : Nat) : Resp (K := K) g (SeqStorage.findFreeSpot g a e n) := by
  unfold SeqStorage.findFreeSpot
  resp
macro_rules | `(tactic| resp_step) => `(tactic| with_reducible exact Resp.findFreeSpot _ _ _)

theorem Resp.isPageEmpty (i : Nat) (st : PageState) : Resp (K := K) g (SeqStorage.isPageEmpty g i st) := by
  unfold SeqStorage.isPageEmpty
  resp
macro_rules | `(tactic| resp_step) => `(tactic| with_reducible exact Resp.isPageEmpty _ _)

/-! ### The queue -/

theorem Resp.findYoungest : Resp (K := K) g (Queue.findYoungest g) := by
  unfold Queue.findYoungest
  resp
macro_rules | `(tactic| resp_step) => `(tactic| with_reducible exact Resp.findYoungest)

theorem Resp.findOldest : Resp (K := K) g (Queue.findOldest g) := by
  unfold Queue.findOldest
  resp
macro_rules | `(tactic| resp_step) => `(tactic| with_reducible exact Resp.findOldest)

theorem Resp.qtryRepair : Resp (K := K) g (Queue.tryRepair g) := by
  unfold Queue.tryRepair
  resp
macro_rules | `(tactic| resp_step) => `(tactic| with_reducible exact Resp.qtryRepair)

theorem Resp.advancePage (cur : Nat) (o : Bool) : Resp (K := K) g (Queue.advancePage g cur o) := by
  unfold Queue.advancePage
  resp
macro_rules | `(tactic| resp_step) => `(tactic| with_reducible exact Resp.advancePage _ _)

theorem Resp.pushInner (d : List Byte) (o : Bool) : Resp (K := K) g (Queue.pushInner g d o) := by
  unfold Queue.pushInner
  resp
macro_rules | `(tactic| resp_step) => `(tactic| with_reducible exact Resp.pushInner _ _)

theorem Resp.push (d : List Byte) (o : Bool) : Resp (K := K) g (Queue.push g d o) := by
  unfold Queue.push
  resp
macro_rules | `(tactic| resp_step) => `(tactic| with_reducible exact Resp.push _ _)

theorem Resp.nextItemAddress (i : Nat) : Resp (K := K) g (Queue.nextItemAddress g i) := by
  unfold Queue.nextItemAddress
  resp
macro_rules | `(tactic| resp_step) => `(tactic| with_reducible exact Resp.nextItemAddress _)

theorem Resp.findMaxFitInner : Resp (K := K) g (Queue.findMaxFitInner g) := by
  unfold Queue.findMaxFitInner
  resp
macro_rules | `(tactic| resp_step) => `(tactic| with_reducible exact Resp.findMaxFitInner)

theorem Resp.findMaxFit : Resp (K := K) g (Queue.findMaxFit g) := by
  unfold Queue.findMaxFit
  resp
macro_rules | `(tactic| resp_step) => `(tactic| with_reducible exact Resp.findMaxFit)

theorem Resp.spaceLeftPage (i : Nat) : Resp (K := K) g (Queue.spaceLeftPage g i) := by
  unfold Queue.spaceLeftPage
  resp
macro_rules | `(tactic| resp_step) => `(tactic| with_reducible exact Resp.spaceLeftPage _)

theorem Resp.spaceLeftIn (n : Nat) (l : List Nat) : Resp (K := K) g (Queue.spaceLeftIn g n l) := by
  induction l generalizing n with
  | nil => exact Resp.pure _
  | cons i l ih =>
    unfold Queue.spaceLeftIn
    resp
macro_rules | `(tactic| resp_step) => `(tactic| with_reducible exact Resp.spaceLeftIn _ _)

theorem Resp.spaceLeftInner : Resp (K := K) g (Queue.spaceLeftInner g) := by
  unfold Queue.spaceLeftInner
  resp
macro_rules | `(tactic| resp_step) => `(tactic| with_reducible exact Resp.spaceLeftInner)

theorem Resp.spaceLeft : Resp (K := K) g (Queue.spaceLeft g) := by
  unfold Queue.spaceLeft
  resp
macro_rules | `(tactic| resp_step) => `(tactic| with_reducible exact Resp.spaceLeft)

theorem Resp.findStart : Resp (K := K) g (Queue.findStart g) := by
  unfold Queue.findStart
  resp
macro_rules | `(tactic| resp_step) => `(tactic| with_reducible exact Resp.findStart)

theorem Resp.iterNew : Resp (K := K) g (Queue.iterNew g) := by
  unfold Queue.iterNew
  resp
macro_rules | `(tactic| resp_step) => `(tactic| with_reducible exact Resp.iterNew)

theorem Resp.setIter (f : QIter → QIter) : Resp (K := K) g (Queue.setIter f) := by
  unfold Queue.setIter
  resp
macro_rules | `(tactic| resp_step) => `(tactic| with_reducible exact Resp.setIter _)

theorem Resp.nextScan (p a : Nat) : Resp (K := K) g (Queue.nextScan g p a) := by
  unfold Queue.nextScan
  resp
macro_rules | `(tactic| resp_step) => `(tactic| with_reducible exact Resp.nextScan _ _)

theorem Resp.nextLoop (n : Nat) : Resp (K := K) g (Queue.nextLoop g n) := by
  induction n with
  | zero => exact Resp.throw _
  | succ n ih =>
    unfold Queue.nextLoop
    resp
macro_rules | `(tactic| resp_step) => `(tactic| with_reducible exact Resp.nextLoop _)

theorem Resp.qnextInner : Resp (K := K) g (Queue.nextInner g) := by
  unfold Queue.nextInner
  resp
macro_rules | `(tactic| resp_step) => `(tactic| with_reducible exact Resp.qnextInner)

theorem Resp.qiterNext : Resp (K := K) g (Queue.iterNext g) := by
  unfold Queue.iterNext
  resp
macro_rules | `(tactic| resp_step) => `(tactic| with_reducible exact Resp.qiterNext)

theorem Resp.entryPop (h : Header) (a : Nat) : Resp (K := K) g (Queue.entryPop g h a) := by
  unfold Queue.entryPop
  resp
macro_rules | `(tactic| resp_step) => `(tactic| with_reducible exact Resp.entryPop _ _)

theorem Resp.peek : Resp (K := K) g (Queue.peek g) := by
  unfold Queue.peek
  resp
macro_rules | `(tactic| resp_step) => `(tactic| with_reducible exact Resp.peek)

theorem Resp.pop : Resp (K := K) g (Queue.pop g) := by
  unfold Queue.pop
  resp
macro_rules | `(tactic| resp_step) => `(tactic| with_reducible exact Resp.pop)

theorem Resp.setBuf (b : List Byte) : Resp (K := K) g (SeqStorage.setBuf b) := by
  unfold SeqStorage.setBuf
  resp
macro_rules | `(tactic| resp_step) => `(tactic| with_reducible exact Resp.setBuf _)

theorem Resp.iterSteps (l : List (List Byte × Bool)) : Resp (K := K) g (SeqStorage.iterSteps g l) := by
  induction l with
  | nil => exact Resp.pure _
  | cons x l ih =>
    obtain ⟨b, p⟩ := x
    unfold SeqStorage.iterSteps
    resp
macro_rules | `(tactic| resp_step) => `(tactic| with_reducible exact Resp.iterSteps _)

/-! ### The map -/

theorem Resp.liftSer {α : Type} (r : Except SerErr α) : Resp (K := K) g (Map.liftSer r) := Resp.lift _
macro_rules | `(tactic| resp_step) => `(tactic| with_reducible exact Resp.liftSer _)

theorem Resp.fetchCached (k : K) : Resp (K := K) g (Map.fetchCached g k) := by
  unfold Map.fetchCached
  resp
macro_rules | `(tactic| resp_step) => `(tactic| with_reducible exact Resp.fetchCached _)

theorem Resp.lastUsedPage : Resp (K := K) g (Map.lastUsedPage g) := by
  unfold Map.lastUsedPage
  resp
macro_rules | `(tactic| resp_step) => `(tactic| with_reducible exact Resp.lastUsedPage)

theorem Resp.scanPage (kc : KeyCodec K) (k : K) (e n a : Nat) (f : Option (Nat × Nat)) : Resp (K := K) g (Map.scanPage g kc k e n a f) := by
  induction n generalizing a f with
  | zero => exact Resp.throw _
  | succ n ih =>
    unfold Map.scanPage
    resp
macro_rules | `(tactic| resp_step) => `(tactic| with_reducible exact Resp.scanPage _ _ _ _ _ _)

theorem Resp.searchPages (kc : KeyCodec K) (k : K) (n p : Nat) : Resp (K := K) g (Map.searchPages g kc k n p) := by
  induction n generalizing p with
  | zero => exact Resp.throw _
  | succ n ih =>
    unfold Map.searchPages
    resp
macro_rules | `(tactic| resp_step) => `(tactic| with_reducible exact Resp.searchPages _ _ _ _)

theorem Resp.fetchLoc (kc : KeyCodec K) (k : K) : Resp (K := K) g (Map.fetchLoc g kc k) := by
  unfold Map.fetchLoc
  resp
macro_rules | `(tactic| resp_step) => `(tactic| with_reducible exact Resp.fetchLoc _ _)

theorem Resp.migrateLoop (kc : KeyCodec K) (e n a w : Nat) : Resp (K := K) g (Map.migrateLoop g kc e n a w) := by
  induction n generalizing a w with
  | zero => exact Resp.throw _
  | succ n ih =>
    unfold Map.migrateLoop
    resp
macro_rules | `(tactic| resp_step) => `(tactic| with_reducible exact Resp.migrateLoop _ _ _ _ _)

theorem Resp.migrate (kc : KeyCodec K) (a b : Nat) : Resp (K := K) g (Map.migrate g kc a b) := by
  unfold Map.migrate
  resp
macro_rules | `(tactic| resp_step) => `(tactic| with_reducible exact Resp.migrate _ _ _)

theorem Resp.mtryRepair (kc : KeyCodec K) : Resp (K := K) g (Map.tryRepair g kc) := by
  unfold Map.tryRepair
  resp
macro_rules | `(tactic| resp_step) => `(tactic| with_reducible exact Resp.mtryRepair _)

theorem Resp.fetchItem (kc : KeyCodec K) (vc : ValCodec V) (k : K) : Resp (K := K) g (Map.fetchItem g kc vc k) := by
  unfold Map.fetchItem
  resp
macro_rules | `(tactic| resp_step) => `(tactic| with_reducible exact Resp.fetchItem _ _ _)

theorem Resp.serializeItem (kc : KeyCodec K) (k : K) (vs : Nat → Except SerErr (List Byte)) : Resp (K := K) g (Map.serializeItem kc k vs) := by
  unfold Map.serializeItem
  resp
macro_rules | `(tactic| resp_step) => `(tactic| with_reducible exact Resp.serializeItem _ _ _)

theorem Resp.storeAdvance (kc : KeyCodec K) (p : Nat) : Resp (K := K) g (Map.storeAdvance g kc p) := by
  unfold Map.storeAdvance
  resp
macro_rules | `(tactic| resp_step) => `(tactic| with_reducible exact Resp.storeAdvance _ _)

theorem Resp.storeRound (kc : KeyCodec K) (k : K) (vs : Nat → Except SerErr (List Byte)) : Resp (K := K) g (Map.storeRound g kc k vs) := by
  unfold Map.storeRound
  resp
macro_rules | `(tactic| resp_step) => `(tactic| with_reducible exact Resp.storeRound _ _ _)

theorem Resp.storeLoop (kc : KeyCodec K) (k : K) (vs : Nat → Except SerErr (List Byte)) (n : Nat) : Resp (K := K) g (Map.storeLoop g kc k vs n) := by
  induction n with
  | zero =>
    unfold Map.storeLoop
    resp
  | succ n ih =>
    unfold Map.storeLoop
    resp
macro_rules | `(tactic| resp_step) => `(tactic| with_reducible exact Resp.storeLoop _ _ _ _)

theorem Resp.storeInner (kc : KeyCodec K) (k : K) (vs : Nat → Except SerErr (List Byte)) : Resp (K := K) g (Map.storeInner g kc k vs) := by
  unfold Map.storeInner
  resp
macro_rules | `(tactic| resp_step) => `(tactic| with_reducible exact Resp.storeInner _ _ _)

theorem Resp.storeItem (kc : KeyCodec K) (vc : ValCodec V) (k : K) (v : V) : Resp (K := K) g (Map.storeItem g kc vc k v) := by
  unfold Map.storeItem
  resp
macro_rules | `(tactic| resp_step) => `(tactic| with_reducible exact Resp.storeItem _ _ _ _)

theorem Resp.removePage (kc : KeyCodec K) (k : Option K) (e n a : Nat) : Resp (K := K) g (Map.removePage g kc k e n a) := by
  induction n generalizing a with
  | zero => exact Resp.throw _
  | succ n ih =>
    unfold Map.removePage
    resp
macro_rules | `(tactic| resp_step) => `(tactic| with_reducible exact Resp.removePage _ _ _ _ _)

theorem Resp.removeIn (kc : KeyCodec K) (k : Option K) (l : List Nat) : Resp (K := K) g (Map.removeIn g kc k l) := by
  induction l with
  | nil => exact Resp.pure _
  | cons i l ih =>
    unfold Map.removeIn
    resp
macro_rules | `(tactic| resp_step) => `(tactic| with_reducible exact Resp.removeIn _ _ _)

theorem Resp.noticeKeyErased (k : K) : Resp (K := K) g (SeqStorage.modifyCache fun c => c.noticeKeyErased k) := by
  exact Resp.modifyCache fun c u => u.noticeKeyErased k
macro_rules | `(tactic| resp_step) => `(tactic| with_reducible exact Resp.noticeKeyErased _)

theorem Resp.removeInner (kc : KeyCodec K) (k : Option K) : Resp (K := K) g (Map.removeInner g kc k) := by
  unfold Map.removeInner
  resp
macro_rules | `(tactic| resp_step) => `(tactic| with_reducible exact Resp.removeInner _ _)

theorem Resp.removeItem (kc : KeyCodec K) (k : K) : Resp (K := K) g (Map.removeItem g kc k) := by
  unfold Map.removeItem
  resp
macro_rules | `(tactic| resp_step) => `(tactic| with_reducible exact Resp.removeItem _ _)

theorem Resp.removeAll (kc : KeyCodec K) : Resp (K := K) g (Map.removeAll g kc) := by
  unfold Map.removeAll
  resp
macro_rules | `(tactic| resp_step) => `(tactic| with_reducible exact Resp.removeAll _)

theorem Resp.fetchAllFirst : Resp (K := K) g (Map.fetchAllFirst g) := by
  unfold Map.fetchAllFirst
  resp
macro_rules | `(tactic| resp_step) => `(tactic| with_reducible exact Resp.fetchAllFirst)

theorem Resp.fetchAll (kc : KeyCodec K) : Resp (K := K) g (Map.fetchAll g kc) := by
  unfold Map.fetchAll
  resp
macro_rules | `(tactic| resp_step) => `(tactic| with_reducible exact Resp.fetchAll _)

theorem Resp.iterItem (n : Nat) : Resp (K := K) g (Map.iterItem g n) := by
  induction n with
  | zero => exact Resp.throw _
  | succ n ih =>
    unfold Map.iterItem
    resp
macro_rules | `(tactic| resp_step) => `(tactic| with_reducible exact Resp.iterItem _)

theorem Resp.iterPage (n : Nat) : Resp (K := K) g (Map.iterPage g n) := by
  induction n with
  | zero => exact Resp.throw _
  | succ n ih =>
    unfold Map.iterPage
    resp
macro_rules | `(tactic| resp_step) => `(tactic| with_reducible exact Resp.iterPage _)

theorem Resp.iterLoop (n : Nat) : Resp (K := K) g (Map.iterLoop g n) := by
  induction n with
  | zero => exact Resp.throw _
  | succ n ih =>
    unfold Map.iterLoop
    resp
macro_rules | `(tactic| resp_step) => `(tactic| with_reducible exact Resp.iterLoop _)

theorem Resp.miterNext (kc : KeyCodec K) (vc : ValCodec V) : Resp (K := K) g (Map.iterNext g kc vc) := by
  unfold Map.iterNext
  resp
macro_rules | `(tactic| resp_step) => `(tactic| with_reducible exact Resp.miterNext _ _)

theorem Resp.mapSteps (kc : KeyCodec K) (vc : ValCodec V) (l : List (List Byte)) : Resp (K := K) g (SeqStorage.mapSteps g kc vc l) := by
  induction l with
  | nil => exact Resp.pure _
  | cons b l ih =>
    unfold SeqStorage.mapSteps
    resp
macro_rules | `(tactic| resp_step) => `(tactic| with_reducible exact Resp.mapSteps _ _ _)

/-! ### Calls -/

/-- A call other than a restart. -/
theorem Resp.qcall (c : QCall (Cache K)) (hc : ∀ x, c ≠ .restart x) : Resp (K := K) g (SeqStorage.qcall g c) := by
  cases c with
  | restart x => exact absurd rfl (hc x)
  | _ => unfold SeqStorage.qcall; resp

/-- A call other than a restart. -/
theorem Resp.mcall (kc : KeyCodec K) (vc : ValCodec V) (c : MCall K V (Cache K)) (hc : ∀ x, c ≠ .restart x) :
    Resp (K := K) g (SeqStorage.mcall g kc vc c) := by
  cases c with
  | restart x => exact absurd rfl (hc x)
  | _ => unfold SeqStorage.mcall; resp

/-- What holds of a restart as well. -/
structure Like (g : Geo) {α : Type} (s : St K) (r r' : α × St K) : Prop where
  res : r'.1 = r.1
  alike : Alike g r.2 r'.2
  frame : ∀ a, a < g.start ∨ g.stop ≤ a → r.2.fl.mem a = s.fl.mem a
  power : s.fl.fuel = none → r.2.fl.fuel = none

theorem After.like {α : Type} {s : St K} {r r' : Except Err α × St K} (h : After g s r r') : Like g s r r' :=
  ⟨h.res, h.alike, h.frame, h.power⟩

theorem like_restart {s s' : St K} (h : Alike g s s') (c : Cache K) {α : Type} (a : α) :
    Like g s ((modifyCache (fun _ => c) >>= fun _ => pure a : M K α) s) ((modifyCache (fun _ => c) >>= fun _ => pure a : M K α) s') :=
  ⟨rfl, h.withCache (Or.inl rfl), fun _ _ => rfl, id⟩

theorem qcall_like (c : QCall (Cache K)) {s s' : St K} (h : Alike g s s') : Like g s (qcall g c s) (qcall g c s') := by
  by_cases hc : ∃ x, c = .restart x
  · obtain ⟨x, rfl⟩ := hc
    exact like_restart h x _
  · exact (Resp.qcall c (fun x hx => hc ⟨x, hx⟩) s s' h).like

theorem mcall_like (kc : KeyCodec K) (vc : ValCodec V) (c : MCall K V (Cache K)) {s s' : St K} (h : Alike g s s') :
    Like g s (mcall g kc vc c s) (mcall g kc vc c s') := by
  by_cases hc : ∃ x, c = .restart x
  · obtain ⟨x, rfl⟩ := hc
    exact like_restart h x _
  · exact (Resp.mcall kc vc c (fun x hx => hc ⟨x, hx⟩) s s' h).like

theorem qrun_like (cs : List (QCall (Cache K))) : ∀ {s s' : St K}, Alike g s s' → Like g s (qrun g cs s) (qrun g cs s') := by
  induction cs with
  | nil => intro s s' h; exact ⟨rfl, h, fun _ _ => rfl, id⟩
  | cons c cs ih =>
    intro s s' h
    have h1 := qcall_like c h
    have h2 := ih h1.alike
    exact ⟨by simp only [qrun]; rw [h1.res, h2.res], h2.alike, fun a ha => (h2.frame a ha).trans (h1.frame a ha),
      fun hp => h2.power (h1.power hp)⟩

theorem mrun_like (kc : KeyCodec K) (vc : ValCodec V) (cs : List (MCall K V (Cache K))) :
    ∀ {s s' : St K}, Alike g s s' → Like g s (mrun g kc vc cs s) (mrun g kc vc cs s') := by
  induction cs with
  | nil => intro s s' h; exact ⟨rfl, h, fun _ _ => rfl, id⟩
  | cons c cs ih =>
    intro s s' h
    have h1 := mcall_like kc vc c h
    have h2 := ih h1.alike
    exact ⟨by simp only [mrun]; rw [h1.res, h2.res], h2.alike, fun a ha => (h2.frame a ha).trans (h1.frame a ha),
      fun hp => h2.power (h1.power hp)⟩

end

end SeqStorage.Proofs
