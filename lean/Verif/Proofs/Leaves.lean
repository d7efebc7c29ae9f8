import Verif.Proofs.MapDirty
/-
What the reading calls leave of the flash.
-/

set_option linter.unusedSectionVars false

namespace SeqStorage
open M Spec

variable {K : Type} [DecidableEq K] {α β V : Type}

/-- A relation between the flash before and after. -/
structure FlashRel where
  rel : Flash → Flash → Prop
  refl : ∀ f, rel f f
  trans : ∀ f1 f2 f3, rel f1 f2 → rel f2 f3 → rel f1 f3
  fault : ∀ f, rel f f.fault

variable {R : FlashRel}

/-- The function keeps the relation, in whatever state it is called. -/
structure Leaves (R : FlashRel) (m : M K α) : Prop where
  out : ∀ s, R.rel s.fl (m s).2.fl

namespace Leaves

theorem same {m : M K α} (h : ∀ s, (m s).2.fl = s.fl) : Leaves R m := ⟨fun s => by rw [h]; exact R.refl _⟩
theorem pure (a : α) : Leaves R (pure a : M K α) := .same fun _ => rfl
theorem throw (e : Err) : Leaves R (M.throw e : M K α) := .same fun _ => rfl
theorem lift (r : Except Err α) : Leaves R (M.lift r : M K α) := .same fun _ => rfl
theorem get : Leaves R (M.get : M K (St K)) := .same fun _ => rfl
theorem modify {f : St K → St K} (h : ∀ s, (f s).fl = s.fl) : Leaves R (M.modify f) := .same h
theorem modifyCache (f : Cache K → Cache K) : Leaves R (modifyCache f) := .same fun _ => rfl
theorem unmark : Leaves R (unmarkDirty : M K Unit) := .modifyCache _
theorem check : Leaves R (checkDirty : M K Unit) := .modifyCache _
theorem setBuf (b : List Byte) : Leaves R (setBuf b : M K Unit) := .modify fun _ => rfl
theorem setIter (f : QIter → QIter) : Leaves R (Queue.setIter f : M K Unit) := .modify fun _ => rfl
theorem liftSer (r : Except SerErr α) : Leaves R (Map.liftSer r : M K α) := .same fun _ => by cases r <;> rfl

theorem bind {m : M K α} {f : α → M K β} (h : Leaves R m) (hf : ∀ a, Leaves R (f a)) : Leaves R (m >>= f) := by
  constructor
  intro s
  rw [bind_run]
  have hm := h.out s
  generalize m s = r at hm ⊢
  obtain ⟨r, s1⟩ := r
  cases r with
  | ok a => exact R.trans _ _ _ hm ((hf a).out s1)
  | error e => exact hm

theorem modifyBind {f : St K → St K} {k : Unit → M K β} (h : ∀ s, (f s).fl = s.fl) (hk : ∀ a, Leaves R (k a)) :
    Leaves R (M.modify f >>= k) := (Leaves.modify h).bind hk

theorem attempt {m : M K α} {f : Except Err α → M K β} (h : Leaves R m) (hf : ∀ r, Leaves R (f r)) :
    Leaves R (M.attempt m >>= f) := by
  constructor
  intro s
  rw [bind_ok (attempt_run m s)]
  exact R.trans _ _ _ (h.out s) ((hf _).out _)

theorem repair {m : M K α} {r : M K Unit} (h : Leaves R m) (hr : Leaves R r) : Leaves R (withRepair m r) := by
  unfold withRepair
  refine h.attempt fun x => ?_
  split
  · exact hr.bind fun _ => h
  · exact .lift _

theorem read (g : Geo) (a n : Nat) : Leaves R (flashRead g a n : M K (List Byte)) := by
  constructor
  intro s
  unfold flashRead
  split
  · exact R.refl _
  · exact R.fault _

theorem update (f : Cache K → Except Err (Cache K)) : Leaves R (updateCache f) := by
  refine .same fun s => ?_
  unfold updateCache
  split <;> rfl

theorem noticePage (i : Nat) (st : PageState) (d : Bool) : Leaves R (noticePage i st d : M K Unit) := .update _
theorem noticeKey (k : K) (a : Nat) (d : Bool) : Leaves R (Map.noticeKey k a d) := .update _

theorem pageState (g : Geo) (i : Nat) : Leaves R (getPageState g i : M K PageState) :=
  (Leaves.read ..).bind fun _ => (Leaves.read ..).bind fun _ => .lift _

theorem pageStateCached (g : Geo) (i : Nat) : Leaves R (getPageStateCached g i : M K PageState) := by
  unfold getPageStateCached
  refine Leaves.get.bind fun s => (Leaves.lift _).bind fun r => ?_
  split
  · exact .pure _
  · exact (Leaves.pageState ..).bind fun _ => (Leaves.noticePage ..).bind fun _ => .pure _

theorem findFirstIn (g : Geo) (st : PageState) (l : List Nat) : Leaves R (findFirstIn g st l : M K (Option Nat)) := by
  induction l with
  | nil => exact .pure _
  | cons i l ih =>
    unfold SeqStorage.findFirstIn
    refine (Leaves.pageStateCached g i).bind fun cur => ?_
    split
    · exact .pure _
    · exact ih

theorem findFirst (g : Geo) (i : Nat) (st : PageState) : Leaves R (findFirstPage g i st : M K (Option Nat)) :=
  Leaves.findFirstIn ..

theorem readHeader (g : Geo) (a e : Nat) : Leaves R (readHeader g a e : M K (Option Header)) := by
  unfold SeqStorage.readHeader
  split
  · exact .pure _
  · refine (Leaves.read ..).bind fun bs => (Leaves.lift _).bind fun r => ?_
    split
    · exact .pure _
    · split
      · exact .throw _
      · exact .pure _

theorem readItem (g : Geo) (h : Header) (a e : Nat) : Leaves R (readItem g h a e : M K MaybeItem) := by
  unfold SeqStorage.readItem
  split
  · exact .pure _
  · split
    · exact .pure _
    · refine Leaves.get.bind fun s => ?_
      split
      · exact .throw _
      · refine Leaves.bind ?_ fun _ => Leaves.get.bind fun s => ?_
        · unfold readIntoBuf
          split
          · exact .pure _
          · exact (Leaves.read ..).bind fun _ => .modify fun _ => rfl
        · split <;> exact .pure _

theorem traverse (g : Geo) (e : Nat) (skip : Header → Bool) (rounds : Nat) :
    ∀ a, Leaves R (traverse g e skip rounds a : M K _) := by
  induction rounds with
  | zero => intro a; exact .throw _
  | succ n ih =>
    intro a
    unfold SeqStorage.traverse
    refine (Leaves.readHeader g a e).attempt fun r => ?_
    split
    · split
      · exact ih _
      · exact .pure _
    · exact .pure _
    · exact ih _
    · exact .throw _

theorem itemNext (g : Geo) (e : Nat) (rounds : Nat) : ∀ a, Leaves R (itemNext g e rounds a : M K _) := by
  induction rounds with
  | zero => intro a; exact .throw _
  | succ n ih =>
    intro a
    unfold SeqStorage.itemNext
    refine (Leaves.traverse ..).bind fun r => ?_
    split
    · refine (Leaves.readItem ..).bind fun r => ?_
      split
      · exact .pure _
      · exact ih _
    · exact .pure _

theorem isPageEmpty (g : Geo) (i : Nat) (st : PageState) : Leaves R (isPageEmpty g i st : M K Bool) := by
  unfold SeqStorage.isPageEmpty
  split
  · exact Leaves.get.bind fun _ => (Leaves.traverse ..).bind fun _ => .pure _
  · exact .pure _
  · exact .pure _

/-! ### The queue -/

section
open Queue

theorem youngest (g : Geo) : Leaves R (findYoungest g : M K Nat) := by
  unfold findYoungest
  refine (Leaves.findFirst ..).bind fun r => ?_
  split
  · exact .pure _
  · refine (Leaves.findFirst ..).bind fun r => ?_
    split
    · refine (Leaves.findFirst ..).bind fun r => ?_
      split
      · exact .pure _
      · exact .throw _
    · exact .pure _

theorem oldest (g : Geo) : Leaves R (findOldest g : M K Nat) := by
  unfold findOldest
  exact (Leaves.youngest g).bind fun _ => (Leaves.findFirst ..).bind fun _ => .pure _

theorem nextItem (g : Geo) (i : Nat) : Leaves R (nextItemAddress g i : M K Nat) := by
  unfold nextItemAddress
  refine Leaves.get.bind fun s => ?_
  split
  · exact .pure _
  · exact (Leaves.traverse ..).bind fun _ => .pure _

theorem maxFitInner (g : Geo) : Leaves R (findMaxFitInner g : M K _) := by
  unfold findMaxFitInner
  refine Leaves.check.bind fun _ => (Leaves.youngest g).bind fun _ => (Leaves.pageStateCached ..).bind fun _ => ?_
  split
  · refine (Leaves.isPageEmpty ..).bind fun _ => ?_
    split
    · exact Leaves.unmark.bind fun _ => .pure _
    · exact (Leaves.nextItem ..).bind fun _ => Leaves.unmark.bind fun _ => .pure _
  · exact Leaves.unmark.bind fun _ => .pure _
  · exact .throw _

theorem spaceInner (g : Geo) : Leaves R (spaceLeftInner g : M K _) := by
  have hp : ∀ i, Leaves R (K := K) (spaceLeftPage g i) := by
    intro i
    unfold spaceLeftPage
    refine (Leaves.pageStateCached ..).bind fun _ => (Leaves.isPageEmpty ..).bind fun _ => ?_
    split
    · exact .pure _
    · split
      · exact .pure _
      · refine (Leaves.nextItem ..).bind fun _ => ?_
        split
        · refine (Leaves.isPageEmpty ..).bind fun _ => ?_
          split <;> exact .pure _
        · exact .pure _
  have hl : ∀ l t, Leaves R (K := K) (spaceLeftIn g t l) := by
    intro l
    induction l with
    | nil => intro t; exact .pure _
    | cons i l ih => intro t; exact (hp i).bind fun _ => ih _
  exact Leaves.check.bind fun _ => (hl _ _).bind fun _ => Leaves.unmark.bind fun _ => .pure _

theorem nextScan (g : Geo) (p a : Nat) : Leaves R (nextScan g p a : M K _) := by
  unfold Queue.nextScan
  refine (Leaves.traverse ..).bind fun r => ?_
  split
  · refine (Leaves.readItem ..).bind fun r => ?_
    split
    · exact (Leaves.setIter _).bind fun _ => .pure _
    · exact .throw _
    · exact (Leaves.setIter _).bind fun _ => (Leaves.setIter _).bind fun _ => Leaves.unmark.bind fun _ => .pure _
  · exact (Leaves.setIter _).bind fun _ => .pure _

/-! What may also erase. -/

variable {g : Geo} (hE : ∀ f a b, R.rel f (f.erase g a b).2)
include hE

theorem openPage (i : Nat) : Leaves R (openPage g i : M K Unit) :=
  (Leaves.noticePage ..).bind fun _ => ⟨fun s => hE s.fl _ _⟩

theorem queueRepair : Leaves R (Queue.tryRepair g : M K Unit) := by
  have : ∀ l, Leaves R (K := K) (generalRepairIn g l) := by
    intro l
    induction l with
    | nil => exact .pure _
    | cons i l ih =>
      unfold generalRepairIn
      refine (Leaves.pageState g i).attempt fun r => ?_
      split
      · exact (Leaves.openPage hE i).bind fun _ => ih
      · exact ih
  exact (Leaves.modifyCache _).bind fun _ => this _

theorem iterNew : Leaves R (Queue.iterNew g : M K Unit) := by
  unfold Queue.iterNew
  refine Leaves.bind (Leaves.repair ?_ (.queueRepair hE)) fun _ => .modify (fun _ => rfl)
  exact Leaves.check.bind fun _ => (Leaves.oldest g).bind fun _ => Leaves.get.bind fun _ => .pure _

theorem nextLoop (n : Nat) : Leaves R (nextLoop g n : M K _) := by
  induction n with
  | zero => exact .throw _
  | succ n ih =>
    unfold Queue.nextLoop
    refine Leaves.get.bind fun s => ?_
    split
    · refine (Leaves.pageStateCached ..).bind fun st => ?_
      split
      · exact Leaves.unmark.bind fun _ => .pure _
      · split
        · refine (Leaves.openPage hE _).bind fun _ => (Leaves.setIter _).bind fun _ => (Leaves.nextScan ..).bind fun r => ?_
          split
          · exact .pure _
          · exact ih
        · refine (Leaves.setIter _).bind fun _ => (Leaves.nextScan ..).bind fun r => ?_
          split
          · exact .pure _
          · exact ih
    · refine (Leaves.nextScan ..).bind fun r => ?_
      split
      · exact .pure _
      · exact ih

theorem iterNext : Leaves R (Queue.iterNext g : M K _) := by
  unfold Queue.iterNext
  refine (Leaves.setIter _).bind fun _ => Leaves.bind (Leaves.repair ?_ (.queueRepair hE)) fun r => ?_
  · exact Leaves.check.bind fun _ => Leaves.nextLoop hE _
  · split
    · refine Leaves.get.bind fun s => ?_
      split
      · exact .throw _
      · exact .pure _
    · exact .pure _

theorem iterSteps (steps : List (List Byte × Bool)) (hs : ∀ x ∈ steps, x.2 = false) : Leaves R (iterSteps g steps : M K _) := by
  induction steps with
  | nil => exact .pure _
  | cons x steps ih =>
    obtain ⟨b, p⟩ := x
    have hp : p = false := hs (b, p) (by simp)
    subst hp
    have ih := ih fun x hx => hs x (by simp [hx])
    unfold SeqStorage.iterSteps
    refine (Leaves.setBuf b).bind fun _ => (Leaves.iterNext hE).attempt fun r => ?_
    split
    · exact ih.bind fun _ => .pure _
    · exact ih.bind fun _ => .pure _
    · exact ih.bind fun _ => .pure _
    · exact .throw _

theorem peek : Leaves R (Queue.peek g : M K _) := by
  unfold Queue.peek
  refine (Leaves.iterNew hE).bind fun _ => (Leaves.iterNext hE).bind fun r => ?_
  split <;> exact .pure _
end

/-! ### The map -/

section
open Map

theorem fetchCached (g : Geo) (k : K) : Leaves R (fetchCached g k) := by
  unfold Map.fetchCached
  refine Leaves.get.bind fun s => ?_
  split
  · exact .pure _
  · refine (Leaves.readHeader ..).bind fun r => ?_
    split
    · exact (Leaves.modifyCache _).bind fun _ => .pure _
    · refine (Leaves.readItem ..).bind fun r => ?_
      split
      · exact .pure _
      · exact (Leaves.modifyCache _).bind fun _ => .pure _

theorem lastUsed (g : Geo) : Leaves R (lastUsedPage g : M K _) := by
  unfold lastUsedPage
  refine (Leaves.findFirst ..).bind fun r => ?_
  split
  · exact .pure _
  · refine (Leaves.findFirst ..).bind fun r => ?_
    split
    · refine (Leaves.pageStateCached ..).bind fun st => ?_
      split <;> exact .pure _
    · exact .throw _

theorem scanPage (g : Geo) (kc : KeyCodec K) (k : K) (e n : Nat) : ∀ a f, Leaves R (scanPage g kc k e n a f) := by
  induction n with
  | zero => intro a f; exact .throw _
  | succ n ih =>
    intro a f
    unfold Map.scanPage
    refine (Leaves.itemNext ..).bind fun r => ?_
    split
    · exact .pure _
    · exact Leaves.get.bind fun s => (Leaves.liftSer _).bind fun r => ih _ _

theorem searchPages (g : Geo) (kc : KeyCodec K) (k : K) (n : Nat) : ∀ p, Leaves R (searchPages g kc k n p) := by
  induction n with
  | zero => intro p; exact .throw _
  | succ n ih =>
    intro p
    unfold Map.searchPages
    refine (Leaves.scanPage ..).bind fun r => ?_
    split
    · exact (Leaves.noticeKey ..).bind fun _ => .pure _
    · refine (Leaves.pageStateCached ..).bind fun st => ?_
      split
      · exact .pure _
      · exact ih _

theorem fetchLoc (g : Geo) (kc : KeyCodec K) (k : K) : Leaves R (fetchLoc g kc k) := by
  unfold Map.fetchLoc
  refine Leaves.check.bind fun _ => (Leaves.fetchCached ..).bind fun r => ?_
  split
  · exact .pure _
  · refine (Leaves.lastUsed g).bind fun r => ?_
    split
    · exact Leaves.unmark.bind fun _ => .pure _
    · refine (Leaves.searchPages ..).bind fun r => ?_
      split
      · exact Leaves.unmark.bind fun _ => .pure _
      · refine Leaves.unmark.bind fun _ => (Leaves.readHeader ..).bind fun r => ?_
        split
        · exact .throw _
        · refine (Leaves.readItem ..).bind fun r => ?_
          split
          · exact .pure _
          · exact .throw _
          · exact .throw _

theorem fetchAllFirst (g : Geo) : Leaves R (fetchAllFirst g : M K _) := by
  unfold Map.fetchAllFirst
  refine (Leaves.findFirst ..).bind fun r => ?_
  split
  · exact .pure _
  · refine (Leaves.findFirst ..).bind fun r => ?_
    split
    · refine (Leaves.pageStateCached ..).bind fun st => ?_
      split
      · exact .pure _
      · exact Leaves.unmark.bind fun _ => .pure _
    · exact .pure _

theorem iterItem (g : Geo) (n : Nat) : Leaves R (iterItem g n : M K _) := by
  induction n with
  | zero => exact .throw _
  | succ n ih =>
    unfold Map.iterItem
    refine Leaves.get.bind fun s => (Leaves.traverse ..).bind fun r => ?_
    split
    · refine Leaves.modifyBind (fun _ => rfl) fun _ => (Leaves.readItem ..).bind fun r => ?_
      split
      · exact .pure _
      · exact ih
    · exact Leaves.modifyBind (fun _ => rfl) fun _ => .pure _

theorem iterPage (g : Geo) (n : Nat) : Leaves R (iterPage g n : M K _) := by
  induction n with
  | zero => exact .throw _
  | succ n ih =>
    unfold Map.iterPage
    refine Leaves.modifyBind (fun _ => rfl) fun _ => Leaves.get.bind fun s => ?_
    split
    · exact .pure _
    · refine (Leaves.pageStateCached ..).attempt fun r => ?_
      split
      · exact .throw _
      · exact Leaves.modifyBind (fun _ => rfl) fun _ => .pure _
      · exact Leaves.modifyBind (fun _ => rfl) fun _ => .pure _
      · exact ih

theorem iterLoop (g : Geo) (n : Nat) : Leaves R (iterLoop g n : M K _) := by
  induction n with
  | zero => exact .throw _
  | succ n ih =>
    unfold Map.iterLoop
    refine (Leaves.iterItem ..).bind fun r => ?_
    split
    · exact .pure _
    · refine (Leaves.iterPage ..).bind fun r => ?_
      split
      · exact ih
      · exact .pure _

theorem mapNext (g : Geo) (kc : KeyCodec K) (vc : ValCodec V) : Leaves R (Map.iterNext g kc vc) := by
  unfold Map.iterNext
  refine (Leaves.iterLoop ..).bind fun r => ?_
  split
  · exact .pure _
  · refine Leaves.get.bind fun s => (Leaves.liftSer _).bind fun _ => ?_
    dsimp only
    split
    · exact .throw _
    · exact (Leaves.liftSer _).bind fun _ => .pure _

theorem mapSteps (g : Geo) (kc : KeyCodec K) (vc : ValCodec V) (steps : List (List Byte)) : Leaves R (mapSteps g kc vc steps) := by
  induction steps with
  | nil => exact .pure _
  | cons b steps ih =>
    unfold SeqStorage.mapSteps
    exact (Leaves.setBuf b).bind fun _ => (Leaves.mapNext g kc vc).attempt fun r => ih.bind fun _ => .pure _

end
end Leaves
end SeqStorage
