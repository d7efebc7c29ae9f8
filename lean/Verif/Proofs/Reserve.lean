import Verif.Model.Use
import Verif.Proofs.Header
/-
How much power a call of the queue uses: with enough of it the call does what it does with unlimited power, and what
it uses is a page for each erase and the bytes it programs.
-/
set_option linter.unusedSectionVars false

namespace SeqStorage.Proofs
open SeqStorage M Spec

variable {K : Type} [DecidableEq K]

/-- The same state with another amount of power. -/
def withFuel (s : St K) (f : Option Nat) : St K := { s with fl := { s.fl with fuel := f } }

/-- With unlimited power the function keeps it; there is an amount of power, at most a page for each erase and `b` bytes,
with which it does the same and which it uses up. -/
def Needs (g : Geo) {α : Type} (m : M K α) (b : Nat) : Prop :=
  ∀ s, s.fl.fuel = none → (m s).2.fl.fuel = none ∧ ∃ n,
    n + g.eraseSize * s.fl.erases.length ≤ g.eraseSize * (m s).2.fl.erases.length + b ∧
    ∀ k, n ≤ k → m (withFuel s (some k)) = ((m s).1, withFuel (m s).2 (some (k - n)))

section
variable {g : Geo}

theorem Needs.free {α : Type} {m : M K α} {b : Nat}
    (h : ∀ s f, (m s).2.fl.fuel = s.fl.fuel ∧ (m s).2.fl.erases = s.fl.erases ∧ m (withFuel s f) = ((m s).1, withFuel (m s).2 f)) :
    Needs g m b := by
  intro s hs
  refine ⟨(h s none).1.trans hs, 0, ?_, fun k _ => (h s _).2.2⟩
  rw [(h s none).2.1]
  omega

theorem Needs.mono {α : Type} {m : M K α} {b b' : Nat} (h : Needs g m b) (hb : b ≤ b') : Needs g m b' := by
  intro s hs
  obtain ⟨h1, n, h2, h3⟩ := h s hs
  exact ⟨h1, n, by omega, h3⟩

theorem Needs.pure {α : Type} {b : Nat} (a : α) : Needs (K := K) g (pure a : M K α) b :=
  .free fun _ _ => ⟨rfl, rfl, rfl⟩

theorem Needs.throw {α : Type} {b : Nat} (e : Err) : Needs (K := K) g (M.throw e : M K α) b :=
  .free fun _ _ => ⟨rfl, rfl, rfl⟩

theorem Needs.lift {α : Type} {b : Nat} (r : Except Err α) : Needs (K := K) g (M.lift r : M K α) b :=
  .free fun _ _ => ⟨rfl, rfl, rfl⟩

theorem Needs.bindTwo {α β : Type} {m : M K α} {f : α → M K β} {b c : Nat} (hm : Needs g m b) (hf : ∀ a, Needs g (f a) c) :
    Needs g (m >>= f) (b + c) := by
  intro s hs
  obtain ⟨h1, n, h2, h3⟩ := hm s hs
  show (M.bind m f s).2.fl.fuel = none ∧ ∃ n, n + g.eraseSize * s.fl.erases.length ≤
    g.eraseSize * (M.bind m f s).2.fl.erases.length + (b + c) ∧
    ∀ k, n ≤ k → M.bind m f (withFuel s (some k)) = ((M.bind m f s).1, withFuel (M.bind m f s).2 (some (k - n)))
  unfold M.bind
  rcases hr : m s with ⟨r, t⟩
  rw [hr] at h1 h2 h3
  cases r with
  | error e =>
    refine ⟨h1, n, by dsimp only at h2 ⊢; omega, fun k hk => ?_⟩
    rw [h3 k hk]
  | ok a =>
    obtain ⟨i1, n', i2, i3⟩ := hf a t h1
    refine ⟨i1, n + n', by dsimp only at h2 ⊢; omega, fun k hk => ?_⟩
    rw [h3 k (by omega)]
    dsimp only
    rw [i3 (k - n) (by omega), Nat.sub_sub]

theorem Needs.bind {α β : Type} {m : M K α} {f : α → M K β} {c : Nat} (hm : Needs g m 0) (hf : ∀ a, Needs g (f a) c) :
    Needs g (m >>= f) c := by
  have := hm.bindTwo hf
  rwa [Nat.zero_add] at this

theorem Needs.attempt {α : Type} {m : M K α} {b : Nat} (hm : Needs g m b) : Needs g (M.attempt m) b := by
  intro s hs
  obtain ⟨h1, n, h2, h3⟩ := hm s hs
  refine ⟨h1, n, h2, fun k hk => ?_⟩
  unfold M.attempt
  rw [h3 k hk]

theorem Needs.get {β : Type} {f : St K → M K β} {b : Nat}
    (hf : ∀ (s : St K) (fl : Flash), f { s with fl := fl } = f s)
    (hr : ∀ s, Needs g (f s) b) : Needs g (M.get >>= f) b := by
  intro s hs
  obtain ⟨h1, n, h2, h3⟩ := hr s s hs
  refine ⟨h1, n, h2, fun k hk => ?_⟩
  show f (withFuel s (some k)) (withFuel s (some k)) = _
  rw [show f (withFuel s (some k)) = f s from hf s _]
  exact h3 k hk

theorem Needs.modify {f : St K → St K} {b : Nat}
    (hf : ∀ (s : St K) (fl : Flash), f { s with fl := fl } = { f s with fl := fl }) : Needs g (M.modify f) b := by
  have e : ∀ s : St K, (f s).fl = s.fl := fun s => by
    have := hf s s.fl
    rw [show ({ s with fl := s.fl } : St K) = s from rfl] at this
    rw [this]
  refine .free fun s fu => ⟨?_, ?_, ?_⟩
  · show (f s).fl.fuel = _
    rw [e]
  · show (f s).fl.erases = _
    rw [e]
  · show (Except.ok (), f { s with fl := { s.fl with fuel := fu } }) = (Except.ok (), { f s with fl := { (f s).fl with fuel := fu } })
    rw [hf, e]

theorem Needs.modifyCache {b : Nat} (f : Cache K → Cache K) : Needs g (SeqStorage.modifyCache f) b :=
  .modify fun _ _ => rfl

theorem Needs.updateCache {b : Nat} (f : Cache K → Except Err (Cache K)) : Needs g (SeqStorage.updateCache f) b := by
  refine .free fun s fu => ?_
  unfold SeqStorage.updateCache
  rw [show (withFuel s fu).cache = s.cache from rfl]
  cases f s.cache with
  | ok c => exact ⟨rfl, rfl, rfl⟩
  | error e => exact ⟨rfl, rfl, rfl⟩

theorem Needs.flashRead {b : Nat} (a n : Nat) : Needs (K := K) g (flashRead g a n) b := by
  refine .free fun s fu => ?_
  unfold SeqStorage.flashRead
  rw [show (withFuel s fu).fl.read g a n = s.fl.read g a n from rfl]
  cases s.fl.read g a n with
  | ok bs => exact ⟨rfl, rfl, rfl⟩
  | error e => exact ⟨rfl, rfl, rfl⟩

theorem Needs.flashWrite {b : Nat} (a : Nat) (bs : List Byte) (hb : bs.length ≤ b) : Needs (K := K) g (flashWrite g a bs) b := by
  intro s hs
  unfold SeqStorage.flashWrite Flash.write
  by_cases c1 : a % g.writeSize ≠ 0 ∨ bs.length = 0 ∨ bs.length % g.writeSize ≠ 0
  · simp only [if_pos c1]
    exact ⟨hs, 0, by simp only [Flash.fault]; omega, fun k _ => rfl⟩
  by_cases c2 : a < g.start ∨ g.stop < a + bs.length
  · simp only [if_neg c1, if_pos c2]
    exact ⟨hs, 0, by simp only [Flash.fault]; omega, fun k _ => rfl⟩
  simp only [if_neg c1, if_neg c2]
  rw [hs]
  refine ⟨rfl, bs.length, by omega, fun k hk => ?_⟩
  have h4 : spend (some k) bs.length = (bs.length, some (k - bs.length), true) := by simp [spend, hk]
  simp only [withFuel, h4]
  rfl

theorem Needs.flashErase {b : Nat} (x y : Nat) (h : y ≤ x + g.eraseSize) : Needs (K := K) g (flashErase g x y) b := by
  intro s hs
  unfold SeqStorage.flashErase Flash.erase
  by_cases c0 : y < x
  · simp only [if_pos c0]
    exact ⟨hs, 0, by simp only [Flash.fault]; omega, fun k _ => rfl⟩
  by_cases c1 : x < g.start ∨ g.stop < y
  · simp only [if_neg c0, if_pos c1]
    exact ⟨hs, 0, by simp only [Flash.fault]; omega, fun k _ => rfl⟩
  by_cases c2 : x % g.eraseSize ≠ 0 ∨ y % g.eraseSize ≠ 0
  · simp only [if_neg c0, if_neg c1, if_pos c2]
    exact ⟨hs, 0, by simp only [Flash.fault]; omega, fun k _ => rfl⟩
  simp only [if_neg c0, if_neg c1, if_neg c2]
  rw [hs]
  refine ⟨rfl, y - x, by simp only [List.length_cons, Nat.mul_add]; omega, fun k hk => ?_⟩
  have h4 : spend (some k) (y - x) = (y - x, some (k - (y - x)), true) := by simp [spend, hk]
  simp only [withFuel, h4]
  rfl

/-! ### The functions -/

/-- One step through the body of a function. -/
syntax "needs_step" : tactic

macro_rules | `(tactic| needs_step) => `(tactic| split)
macro_rules | `(tactic| needs_step) => `(tactic| with_reducible refine Needs.bind ?_ fun _ => ?_)
macro_rules | `(tactic| needs_step) => `(tactic| with_reducible refine Needs.attempt ?_)
macro_rules | `(tactic| needs_step) => `(tactic| (with_reducible refine Needs.get ?_ fun _ => ?_); focus (intros; rfl))
macro_rules | `(tactic| needs_step) => `(tactic| (with_reducible refine Needs.modify ?_); intros; rfl)
macro_rules | `(tactic| needs_step) => `(tactic| with_reducible exact Needs.lift _)
macro_rules | `(tactic| needs_step) => `(tactic| with_reducible exact Needs.throw _)
macro_rules | `(tactic| needs_step) => `(tactic| with_reducible exact Needs.pure _)
macro_rules | `(tactic| needs_step) => `(tactic| with_reducible exact Needs.flashRead _ _)

/-- Go through the body of a function. -/
macro "needs" : tactic =>
  `(tactic| ((try dsimp only); repeat' (first | with_reducible assumption | needs_step | with_reducible apply_assumption | dsimp only)))

theorem Needs.unmarkDirty {b : Nat} : Needs (K := K) g (SeqStorage.unmarkDirty) b := .modifyCache _
macro_rules | `(tactic| needs_step) => `(tactic| with_reducible exact Needs.unmarkDirty)

theorem Needs.checkDirty {b : Nat} : Needs (K := K) g (SeqStorage.checkDirty) b := .modifyCache _
macro_rules | `(tactic| needs_step) => `(tactic| with_reducible exact Needs.checkDirty)

theorem Needs.invalidate {b : Nat} : Needs (K := K) g (SeqStorage.modifyCache Cache.invalidate) b := .modifyCache _
macro_rules | `(tactic| needs_step) => `(tactic| with_reducible exact Needs.invalidate)

theorem Needs.noticePage {b : Nat} (i : Nat) (st : PageState) (d : Bool) : Needs (K := K) g (SeqStorage.noticePage i st d) b :=
  .updateCache _
macro_rules | `(tactic| needs_step) => `(tactic| with_reducible exact Needs.noticePage _ _ _)

theorem Needs.withRepair {α : Type} {f : M K α} {r : M K Unit} {b : Nat} (hf : Needs g f b) (hr : Needs g r 0) :
    Needs g (SeqStorage.withRepair f r) (b + b) := by
  unfold SeqStorage.withRepair
  refine hf.attempt.bindTwo fun x => ?_
  split
  · exact hr.bind fun _ => hf
  · exact .lift _

theorem Needs.withRepair0 {α : Type} {f : M K α} {r : M K Unit} (hf : Needs g f 0) (hr : Needs g r 0) :
    Needs g (SeqStorage.withRepair f r) 0 := hf.withRepair hr
macro_rules | `(tactic| needs_step) => `(tactic| with_reducible refine Needs.withRepair0 ?_ ?_)

theorem Needs.getPageState (i : Nat) : Needs (K := K) g (SeqStorage.getPageState g i) 0 := by
  unfold SeqStorage.getPageState
  needs
macro_rules | `(tactic| needs_step) => `(tactic| with_reducible exact Needs.getPageState _)

theorem Needs.getPageStateCached (i : Nat) : Needs (K := K) g (SeqStorage.getPageStateCached g i) 0 := by
  unfold SeqStorage.getPageStateCached
  needs
macro_rules | `(tactic| needs_step) => `(tactic| with_reducible exact Needs.getPageStateCached _)

theorem Needs.openPage (i : Nat) : Needs (K := K) g (SeqStorage.openPage g i) 0 :=
  (Needs.noticePage _ _ _).bind fun _ => .flashErase _ _ (by unfold Geo.pageEnd Geo.pageAddr; rw [Nat.mul_add]; omega)
macro_rules | `(tactic| needs_step) => `(tactic| with_reducible exact Needs.openPage _)

theorem Needs.partialClosePage (i : Nat) : Needs (K := K) g (SeqStorage.partialClosePage g i) g.word := by
  unfold SeqStorage.partialClosePage
  refine (Needs.getPageStateCached i).bind fun cur => ?_
  split
  · exact .pure _
  · exact (Needs.noticePage _ _ _).bind fun _ => (Needs.flashWrite (b := g.word) _ _ (by simp [markerWord])).bindTwo (c := 0) fun _ => .pure _

theorem Needs.closePage (i : Nat) : Needs (K := K) g (SeqStorage.closePage g i) (g.word + g.word) := by
  unfold SeqStorage.closePage
  refine (Needs.partialClosePage i).bindTwo fun cur => ?_
  split
  · exact .pure _
  · exact (Needs.noticePage _ _ _).bind fun _ => .flashWrite _ _ (by simp [markerWord])

theorem Needs.findFirstIn (st : PageState) (l : List Nat) : Needs (K := K) g (SeqStorage.findFirstIn g st l) 0 := by
  induction l with
  | nil => exact Needs.pure _
  | cons i l ih =>
    unfold SeqStorage.findFirstIn
    needs
macro_rules | `(tactic| needs_step) => `(tactic| with_reducible exact Needs.findFirstIn _ _)

theorem Needs.findFirstPage (i : Nat) (st : PageState) : Needs (K := K) g (SeqStorage.findFirstPage g i st) 0 := by
  unfold SeqStorage.findFirstPage
  needs
macro_rules | `(tactic| needs_step) => `(tactic| with_reducible exact Needs.findFirstPage _ _)

theorem Needs.findLastIn (st : PageState) (o : Option Nat) (l : List Nat) : Needs (K := K) g (SeqStorage.findLastIn g st o l) 0 := by
  induction l generalizing o with
  | nil => exact Needs.pure _
  | cons i l ih =>
    unfold SeqStorage.findLastIn
    needs
macro_rules | `(tactic| needs_step) => `(tactic| with_reducible exact Needs.findLastIn _ _ _)

theorem Needs.findLastPage (i : Nat) (st : PageState) : Needs (K := K) g (SeqStorage.findLastPage g i st) 0 := by
  unfold SeqStorage.findLastPage
  needs
macro_rules | `(tactic| needs_step) => `(tactic| with_reducible exact Needs.findLastPage _ _)

theorem Needs.generalRepairIn (l : List Nat) : Needs (K := K) g (SeqStorage.generalRepairIn g l) 0 := by
  induction l with
  | nil => exact Needs.pure _
  | cons i l ih =>
    unfold SeqStorage.generalRepairIn
    needs
macro_rules | `(tactic| needs_step) => `(tactic| with_reducible exact Needs.generalRepairIn _)

theorem Needs.tryGeneralRepair : Needs (K := K) g (SeqStorage.tryGeneralRepair g) 0 := by
  unfold SeqStorage.tryGeneralRepair
  needs
macro_rules | `(tactic| needs_step) => `(tactic| with_reducible exact Needs.tryGeneralRepair)

theorem Needs.readHeader (a e : Nat) : Needs (K := K) g (SeqStorage.readHeader g a e) 0 := by
  unfold SeqStorage.readHeader
  needs
macro_rules | `(tactic| needs_step) => `(tactic| with_reducible exact Needs.readHeader _ _)

theorem Needs.readIntoBuf (a n : Nat) : Needs (K := K) g (SeqStorage.readIntoBuf g a n) 0 := by
  unfold SeqStorage.readIntoBuf
  needs
macro_rules | `(tactic| needs_step) => `(tactic| with_reducible exact Needs.readIntoBuf _ _)

theorem Needs.readItem (h : Header) (a e : Nat) : Needs (K := K) g (SeqStorage.readItem g h a e) 0 := by
  unfold SeqStorage.readItem
  needs
macro_rules | `(tactic| needs_step) => `(tactic| with_reducible exact Needs.readItem _ _ _)

theorem Needs.writeHeader (w : g.WF) (h : Header) (a : Nat) : Needs (K := K) g (SeqStorage.writeHeader g h a) g.hl :=
  .flashWrite _ _ (Nat.le_of_eq (encode_length w h))

theorem Needs.eraseItem (w : g.WF) (h : Header) (a : Nat) : Needs (K := K) g (SeqStorage.eraseItem g h a) g.hl :=
  (Needs.modifyCache _).bind fun _ => .writeHeader w _ _

theorem Needs.writeRaw (w : g.WF) (h : Header) (d : List Byte) (a : Nat) :
    Needs (K := K) g (SeqStorage.writeRaw g h d a) (g.hl + g.roundUp d.length) := by
  unfold SeqStorage.writeRaw
  refine (Needs.modifyCache _).bind fun _ => (Needs.writeHeader w _ _).bindTwo fun _ => ?_
  have hd := w.roundDown_le d.length
  have hu := w.le_roundUp (d.drop (g.roundDown d.length)).length
  rw [w.roundDown_add_tail d.length]
  have tail : ∀ _ : Unit, Needs (K := K) g (if (d.drop (g.roundDown d.length)).length ≠ 0 then
      SeqStorage.flashWrite g (a + g.hl + g.roundDown d.length) (d.drop (g.roundDown d.length) ++
        List.replicate (g.roundUp (d.drop (g.roundDown d.length)).length - (d.drop (g.roundDown d.length)).length) 0#8)
      else Pure.pure ()) (g.roundUp (d.length - g.roundDown d.length)) := by
    intro _
    split
    · refine .flashWrite _ _ ?_
      rw [List.length_append, List.length_replicate, Nat.add_sub_cancel' hu, List.length_drop]
      exact Nat.le_refl _
    · exact .pure _
  dsimp only
  split
  · exact (Needs.flashWrite _ _ (by rw [List.length_take]; omega)).bindTwo tail
  · exact (tail ()).mono (by omega)

theorem Needs.writeNew (w : g.WF) (a : Nat) (d : List Byte) : Needs (K := K) g (SeqStorage.writeNew g a d) (g.hl + g.roundUp d.length) :=
  .writeRaw w _ _ _

theorem Needs.traverse (e : Nat) (skip : Header → Bool) (n a : Nat) : Needs (K := K) g (SeqStorage.traverse g e skip n a) 0 := by
  induction n generalizing a with
  | zero => exact Needs.throw _
  | succ n ih =>
    unfold SeqStorage.traverse
    needs
macro_rules | `(tactic| needs_step) => `(tactic| with_reducible exact Needs.traverse _ _ _ _)

theorem Needs.itemNext (e n a : Nat) : Needs (K := K) g (SeqStorage.itemNext g e n a) 0 := by
  induction n generalizing a with
  | zero => exact Needs.throw _
  | succ n ih =>
    unfold SeqStorage.itemNext
    needs
macro_rules | `(tactic| needs_step) => `(tactic| with_reducible exact Needs.itemNext _ _ _)

theorem Needs.findFreeSpot (a e n : Nat) : Needs (K := K) g (SeqStorage.findFreeSpot g a e n) 0 := by
  unfold SeqStorage.findFreeSpot
  needs
macro_rules | `(tactic| needs_step) => `(tactic| with_reducible exact Needs.findFreeSpot _ _ _)

theorem Needs.isPageEmpty (i : Nat) (st : PageState) : Needs (K := K) g (SeqStorage.isPageEmpty g i st) 0 := by
  unfold SeqStorage.isPageEmpty
  needs
macro_rules | `(tactic| needs_step) => `(tactic| with_reducible exact Needs.isPageEmpty _ _)

/-! ### The queue -/

theorem Needs.findYoungest : Needs (K := K) g (Queue.findYoungest g) 0 := by
  unfold Queue.findYoungest
  needs
macro_rules | `(tactic| needs_step) => `(tactic| with_reducible exact Needs.findYoungest)

theorem Needs.findOldest : Needs (K := K) g (Queue.findOldest g) 0 := by
  unfold Queue.findOldest
  needs
macro_rules | `(tactic| needs_step) => `(tactic| with_reducible exact Needs.findOldest)

theorem Needs.qtryRepair : Needs (K := K) g (Queue.tryRepair g) 0 := by
  unfold Queue.tryRepair
  needs
macro_rules | `(tactic| needs_step) => `(tactic| with_reducible exact Needs.qtryRepair)

theorem Needs.advancePage (cur : Nat) (o : Bool) : Needs (K := K) g (Queue.advancePage g cur o) (g.word + g.word + g.word) := by
  unfold Queue.advancePage
  refine (Needs.getPageStateCached _).bind fun st => ?_
  dsimp only
  have close : ∀ _ : Unit, Needs (K := K) g (do
      let _ ← SeqStorage.partialClosePage g (g.nextPage cur)
      Pure.pure (g.dataStart (g.nextPage cur))) g.word := fun _ => (Needs.partialClosePage _).bindTwo (c := 0) fun _ => .pure _
  have rest : ∀ (single : Bool) (empty : Bool), Needs (K := K) g (if empty = false then (do
        SeqStorage.unmarkDirty
        M.throw .fullStorage) else do
      SeqStorage.openPage g (g.nextPage cur)
      if single then Pure.pure () else SeqStorage.closePage g cur
      let _ ← SeqStorage.partialClosePage g (g.nextPage cur)
      Pure.pure (g.dataStart (g.nextPage cur))) (g.word + g.word + g.word) := by
    intro single empty
    split
    · exact Needs.unmarkDirty.bind fun _ => .throw _
    · refine (Needs.openPage _).bind fun _ => ?_
      dsimp only
      split
      · exact ((Needs.pure (b := g.word + g.word) ()).bindTwo close)
      · exact (Needs.closePage _).bindTwo close
  split
  · exact (Needs.closePage _).bindTwo close
  · exact .throw _
  · split
    · exact (Needs.pure _).bind fun e => rest _ e
    · exact (Needs.isPageEmpty _ _).bind fun e => rest _ e

/-- How many bytes an attempt to push an item programs at most. -/
def pushBytes (g : Geo) (len : Nat) : Nat := 4 * g.word + g.hl + g.roundUp len

theorem Needs.pushInner (w : g.WF) (d : List Byte) (o : Bool) : Needs (K := K) g (Queue.pushInner g d o) (pushBytes g d.length) := by
  unfold Queue.pushInner
  refine Needs.checkDirty.bind fun _ => ?_
  split
  · exact Needs.unmarkDirty.bind fun _ => .throw _
  · refine Needs.findYoungest.bind fun cur => Needs.mono (b := g.word + (g.word + g.word + g.word + (g.hl + g.roundUp d.length))) ?_
      (by unfold pushBytes; omega)
    refine (Needs.partialClosePage _).bindTwo fun _ => (Needs.findFreeSpot _ _ _).bind fun spot => ?_
    have e : ∀ a : Nat, Needs (K := K) g (do SeqStorage.writeNew g a d; SeqStorage.unmarkDirty) (g.hl + g.roundUp d.length) := fun a =>
      (Needs.writeNew w _ _).bindTwo (c := 0) fun _ => .unmarkDirty
    dsimp only
    split
    · exact (Needs.pure _).bindTwo e
    · exact (Needs.advancePage _ _).bindTwo e

theorem Needs.push (w : g.WF) (d : List Byte) (o : Bool) : Needs (K := K) g (Queue.push g d o) (pushBytes g d.length + pushBytes g d.length) :=
  (Needs.pushInner w d o).withRepair .qtryRepair

theorem Needs.nextItemAddress (i : Nat) : Needs (K := K) g (Queue.nextItemAddress g i) 0 := by
  unfold Queue.nextItemAddress
  needs
macro_rules | `(tactic| needs_step) => `(tactic| with_reducible exact Needs.nextItemAddress _)

theorem Needs.findMaxFitInner : Needs (K := K) g (Queue.findMaxFitInner g) 0 := by
  unfold Queue.findMaxFitInner
  needs
macro_rules | `(tactic| needs_step) => `(tactic| with_reducible exact Needs.findMaxFitInner)

theorem Needs.findMaxFit : Needs (K := K) g (Queue.findMaxFit g) 0 := by
  unfold Queue.findMaxFit
  needs
macro_rules | `(tactic| needs_step) => `(tactic| with_reducible exact Needs.findMaxFit)

theorem Needs.spaceLeftPage (i : Nat) : Needs (K := K) g (Queue.spaceLeftPage g i) 0 := by
  unfold Queue.spaceLeftPage
  needs
macro_rules | `(tactic| needs_step) => `(tactic| with_reducible exact Needs.spaceLeftPage _)

theorem Needs.spaceLeftIn (n : Nat) (l : List Nat) : Needs (K := K) g (Queue.spaceLeftIn g n l) 0 := by
  induction l generalizing n with
  | nil => exact Needs.pure _
  | cons i l ih =>
    unfold Queue.spaceLeftIn
    needs
macro_rules | `(tactic| needs_step) => `(tactic| with_reducible exact Needs.spaceLeftIn _ _)

theorem Needs.spaceLeftInner : Needs (K := K) g (Queue.spaceLeftInner g) 0 := by
  unfold Queue.spaceLeftInner
  needs
macro_rules | `(tactic| needs_step) => `(tactic| with_reducible exact Needs.spaceLeftInner)

theorem Needs.spaceLeft : Needs (K := K) g (Queue.spaceLeft g) 0 := by
  unfold Queue.spaceLeft
  needs
macro_rules | `(tactic| needs_step) => `(tactic| with_reducible exact Needs.spaceLeft)

theorem Needs.findStart : Needs (K := K) g (Queue.findStart g) 0 := by
  unfold Queue.findStart
  needs
macro_rules | `(tactic| needs_step) => `(tactic| with_reducible exact Needs.findStart)

theorem Needs.iterNew : Needs (K := K) g (Queue.iterNew g) 0 := by
  unfold Queue.iterNew
  needs
macro_rules | `(tactic| needs_step) => `(tactic| with_reducible exact Needs.iterNew)

theorem Needs.setIter (f : QIter → QIter) : Needs (K := K) g (Queue.setIter f) 0 := by
  unfold Queue.setIter
  needs
macro_rules | `(tactic| needs_step) => `(tactic| with_reducible exact Needs.setIter _)

theorem Needs.nextScan (p a : Nat) : Needs (K := K) g (Queue.nextScan g p a) 0 := by
  unfold Queue.nextScan
  needs
macro_rules | `(tactic| needs_step) => `(tactic| with_reducible exact Needs.nextScan _ _)

theorem Needs.nextLoop (n : Nat) : Needs (K := K) g (Queue.nextLoop g n) 0 := by
  induction n with
  | zero => exact Needs.throw _
  | succ n ih =>
    unfold Queue.nextLoop
    needs
macro_rules | `(tactic| needs_step) => `(tactic| with_reducible exact Needs.nextLoop _)

theorem Needs.qnextInner : Needs (K := K) g (Queue.nextInner g) 0 := by
  unfold Queue.nextInner
  needs
macro_rules | `(tactic| needs_step) => `(tactic| with_reducible exact Needs.qnextInner)

theorem Needs.qiterNext : Needs (K := K) g (Queue.iterNext g) 0 := by
  unfold Queue.iterNext
  needs
macro_rules | `(tactic| needs_step) => `(tactic| with_reducible exact Needs.qiterNext)

theorem Needs.entryPop (w : g.WF) (h : Header) (a : Nat) : Needs (K := K) g (Queue.entryPop g h a) g.hl :=
  (Needs.setIter _).bind fun _ => (Needs.eraseItem w _ _).bindTwo (c := 0) fun _ => .unmarkDirty

theorem Needs.peek : Needs (K := K) g (Queue.peek g) 0 := by
  unfold Queue.peek
  needs
macro_rules | `(tactic| needs_step) => `(tactic| with_reducible exact Needs.peek)

theorem Needs.pop (w : g.WF) : Needs (K := K) g (Queue.pop g) g.hl := by
  unfold Queue.pop
  refine Needs.iterNew.bind fun _ => Needs.qiterNext.bind fun r => ?_
  split
  · exact (Needs.entryPop w _ _).bindTwo (c := 0) fun _ => .pure _
  · exact .pure _

theorem Needs.setBuf (b : List Byte) : Needs (K := K) g (SeqStorage.setBuf b) 0 := by
  unfold SeqStorage.setBuf
  needs
macro_rules | `(tactic| needs_step) => `(tactic| with_reducible exact Needs.setBuf _)

theorem Needs.iterSteps (w : g.WF) (l : List (List Byte × Bool)) : Needs (K := K) g (SeqStorage.iterSteps g l) (l.length * g.hl) := by
  induction l with
  | nil => exact Needs.pure _
  | cons x l ih =>
    obtain ⟨b, p⟩ := x
    unfold SeqStorage.iterSteps
    rw [List.length_cons, Nat.succ_mul, Nat.add_comm]
    refine (Needs.setBuf _).bind fun _ => Needs.qiterNext.attempt.bind fun r => ?_
    have more : ∀ x : Except Err (Option (List Byte)), Needs (K := K) g (do
        let l ← SeqStorage.iterSteps g l
        Pure.pure (x :: l)) (l.length * g.hl) := fun x => ih.bindTwo (c := 0) fun _ => .pure _
    split
    · exact (more _).mono (by omega)
    · split
      · exact (Needs.entryPop w _ _).bindTwo fun _ => more _
      · exact (more _).mono (by omega)
    · exact (more _).mono (by omega)
    · exact .throw _

end
end SeqStorage.Proofs
