import Verif.Proofs.Run
import Verif.Model.Map
import Verif.Model.Use
/-
When power is lost in the middle of a call, the cache is marked dirty.
-/

set_option linter.unusedSectionVars false

namespace SeqStorage
open M Spec

variable {K : Type} [DecidableEq K] {α β : Type}

/-- Something that holds of the flash between flash accesses (`I`) and something that holds once power is
lost (`E`), when the flash is written only after the cache was marked dirty. -/
structure Rule (K : Type) where
  I : Flash → Prop
  E : St K → Prop
  fault : ∀ fl, I fl → I fl.fault
  write : ∀ g a bs (s : St K), I s.fl → s.cache.dirty = true →
    ((flashWrite g a bs s).1 ≠ .error .shutoff → I (flashWrite g a bs s).2.fl) ∧
    ((flashWrite g a bs s).1 = .error .shutoff → E (flashWrite g a bs s).2)
  erase : ∀ g a b (s : St K), I s.fl → s.cache.dirty = true →
    ((flashErase g a b s).1 ≠ .error .shutoff → I (flashErase g a b s).2.fl) ∧
    ((flashErase g a b s).1 = .error .shutoff → E (flashErase g a b s).2)

/-- A result that obeys the rule. -/
def After (R : Rule K) (x : Except Err α × St K) : Prop :=
  (x.1 ≠ .error .shutoff → R.I x.2.fl) ∧ (x.1 = .error .shutoff → R.E x.2)

/-- A function that obeys the rule. -/
structure Marks (R : Rule K) (m : M K α) : Prop where
  out : ∀ s, R.I s.fl → After R (m s)

variable {R : Rule K}

/-- Nothing is done to the flash and power is not lost. -/
theorem Marks.calm {m : M K α} (h : ∀ s, (m s).1 ≠ .error .shutoff) (h' : ∀ s, (m s).2.fl = s.fl) : Marks R m :=
  ⟨fun s hs => ⟨fun _ => by rw [h']; exact hs, fun h1 => absurd h1 (h s)⟩⟩

theorem Marks.pure (a : α) : Marks R (pure a : M K α) := .calm (fun _ => by simp) (fun _ => rfl)
theorem Marks.throw {e : Err} (h : e ≠ .shutoff) : Marks R (M.throw e : M K α) := .calm (fun _ => by simpa using h) (fun _ => rfl)
theorem Marks.lift {r : Except Err α} (h : r ≠ .error .shutoff) : Marks R (M.lift r : M K α) := .calm (fun _ => h) (fun _ => rfl)
theorem Marks.get : Marks R (M.get : M K (St K)) := .calm (fun _ => by simp) (fun _ => rfl)
theorem Marks.modify {f : St K → St K} (h : ∀ s, (f s).fl = s.fl) : Marks R (M.modify f) := .calm (fun _ => by simp) h
theorem Marks.modifyCache (f : Cache K → Cache K) : Marks R (modifyCache f) := .calm (fun _ => by simp) (fun _ => rfl)
theorem Marks.unmark : Marks R (unmarkDirty : M K Unit) := .modifyCache _
theorem Marks.check : Marks R (checkDirty : M K Unit) := .modifyCache _
theorem Marks.setBuf (b : List Byte) : Marks R (setBuf b : M K Unit) := .modify (fun _ => rfl)

theorem Marks.setIter (f : QIter → QIter) : Marks R (Queue.setIter f : M K Unit) := .modify (fun _ => rfl)

theorem Marks.bind {m : M K α} {f : α → M K β} (h : Marks R m) (hf : ∀ a, Marks R (f a)) : Marks R (m >>= f) := by
  constructor
  intro s hs
  rw [bind_run]
  have hm := h.out s hs
  generalize m s = r at hm ⊢
  obtain ⟨r, s1⟩ := r
  cases r with
  | ok a => exact (hf a).out s1 (hm.1 (by simp))
  | error e => exact ⟨fun h => hm.1 (by simpa using h), fun h => hm.2 (by simpa using h)⟩

theorem Marks.attempt {m : M K α} {f : Except Err α → M K β} (h : Marks R m) (h1 : ∀ r, r ≠ .error .shutoff → Marks R (f r))
    (h2 : ∀ s, R.E s → After R (f (.error .shutoff) s)) : Marks R (M.attempt m >>= f) := by
  constructor
  intro s hs
  rw [bind_ok (attempt_run m s)]
  have hm := h.out s hs
  generalize m s = r at hm ⊢
  obtain ⟨r, s1⟩ := r
  by_cases he : r = .error .shutoff
  · subst he; exact h2 s1 (hm.2 rfl)
  · exact (h1 r he).out s1 (hm.1 he)

theorem Marks.attemptQuiet {m : M K α} {f : Except Err α → M K β} (h : Marks R m) (hq : ∀ s, (m s).1 ≠ .error .shutoff)
    (h1 : ∀ r, Marks R (f r)) : Marks R (M.attempt m >>= f) := by
  constructor
  intro s hs
  rw [bind_ok (attempt_run m s)]
  exact (h1 _).out _ ((h.out s hs).1 (hq s))

theorem After.rethrow {s : St K} (h : R.E s) : After R ((.error .shutoff, s) : Except Err α × St K) :=
  ⟨fun h => absurd rfl h, fun _ => h⟩

theorem Marks.repair {m : M K α} {r : M K Unit} (h : Marks R m) (hr : Marks R r) : Marks R (withRepair m r) := by
  unfold withRepair
  refine h.attempt ?_ fun s hs => .rethrow hs
  intro x hx
  split
  · exact hr.bind fun _ => h
  · exact .lift hx

theorem read_errs (g : Geo) (fl : Flash) (a n : Nat) : fl.read g a n ≠ .error .shutoff := by
  unfold Flash.read; repeat' split
  all_goals simp

theorem Marks.read (g : Geo) (a n : Nat) : Marks R (flashRead g a n : M K (List Byte)) := by
  constructor
  intro s hs
  unfold flashRead
  have := read_errs g s.fl a n
  split
  · exact ⟨fun _ => hs, fun h => by simp at h⟩
  · rename_i e he
    rw [he] at this
    exact ⟨fun _ => R.fault _ hs, fun h => absurd (by simpa using h) this⟩

/-- A call that makes the cache dirty, if it succeeds, followed by a flash access. -/
theorem Marks.after {m : M K α} {f : α → M K β} (hm : Marks R m) (h : ∀ s, (∃ a, (m s).1 = .ok a) → (m s).2.cache.dirty = true)
    (hf : ∀ a s, R.I s.fl → s.cache.dirty = true → After R (f a s)) : Marks R (m >>= f) := by
  constructor
  intro s hs
  rw [bind_run]
  have h := h s
  have hm := hm.out s hs
  generalize m s = r at h hm ⊢
  obtain ⟨r, s1⟩ := r
  cases r with
  | ok a => exact hf a s1 (hm.1 (by simp)) (h ⟨a, rfl⟩)
  | error e => exact ⟨fun h => hm.1 (by simpa using h), fun h => hm.2 (by simpa using h)⟩

/-- A run of flash writes with a dirty cache. -/
structure Keeps (R : Rule K) (m : M K α) : Prop where
  out : ∀ s, R.I s.fl → s.cache.dirty = true → After R (m s) ∧ (m s).2.cache = s.cache

theorem Keeps.pure (a : α) : Keeps R (pure a : M K α) := ⟨fun s hs _ => ⟨(Marks.pure a).out s hs, rfl⟩⟩
theorem Keeps.write (g : Geo) (a : Nat) (bs : List Byte) : Keeps R (flashWrite g a bs : M K Unit) :=
  ⟨fun s hs hd => ⟨R.write g a bs s hs hd, rfl⟩⟩
theorem Keeps.bind {m : M K α} {f : α → M K β} (h : Keeps R m) (hf : ∀ a, Keeps R (f a)) : Keeps R (m >>= f) := by
  constructor
  intro s hs hd
  rw [bind_run]
  have hm := h.out s hs hd
  generalize m s = r at hm ⊢
  obtain ⟨r, s1⟩ := r
  cases r with
  | ok a =>
    have := (hf a).out s1 (hm.1.1 (by simp)) (by rw [show s1.cache = s.cache from hm.2]; exact hd)
    exact ⟨this.1, this.2.trans hm.2⟩
  | error e => exact ⟨⟨fun h => hm.1.1 (by simpa using h), fun h => hm.1.2 (by simpa using h)⟩, hm.2⟩

theorem notice_errs (c : CalcPS) (i : Nat) (st : PageState) : c.notice i st ≠ .error .shutoff := by
  unfold CalcPS.notice
  repeat' split
  all_goals simp

theorem psNotice_errs (c : PSCache) (i : Nat) (st : PageState) : c.notice i st ≠ .error .shutoff := by
  unfold PSCache.notice
  cases c with
  | uncached => simp
  | calculated c =>
    have := notice_errs c i st
    cases h : c.notice i st with
    | ok _ => simp only [h, Except.map]; simp
    | error e => rw [h] at this; simp only [h, Except.map]; simpa using this
  | table l => simp only; split <;> simp

theorem psGet_errs (c : PSCache) (i : Nat) : c.get i ≠ .error .shutoff := by
  unfold PSCache.get
  cases c with
  | uncached => simp
  | calculated c => simp
  | table l => simp only; split <;> simp

theorem kpNotice_errs (c : KPCache K) (k : K) (a : Nat) : c.noticeLocation k a ≠ .error .shutoff := by
  unfold KPCache.noticeLocation
  repeat' split
  all_goals simp

theorem Marks.update {f : Cache K → Except Err (Cache K)} (h : ∀ c, f c ≠ .error .shutoff) : Marks R (updateCache f) := by
  refine .calm (fun s h' => ?_) (fun s => ?_)
  · unfold updateCache at h'
    have := h s.cache
    cases hn : f s.cache with
    | ok p => rw [hn] at h'; simp at h'
    | error e => rw [hn] at h' this; simp only [Except.error.injEq] at h'; subst h'; exact absurd rfl this
  · unfold updateCache
    split <;> rfl

theorem Marks.noticePage (i : Nat) (st : PageState) (d : Bool) : Marks R (noticePage i st d : M K Unit) := by
  refine .update fun c => ?_
  unfold Cache.noticePage
  have := psNotice_errs c.ps i st
  cases hn : c.ps.notice i st with
  | ok p => simp
  | error e => rw [hn] at this; exact fun h => this (by simpa using h)

theorem noticePage_dirty (i : Nat) (st : PageState) (s : St K) (h : ∃ a, (noticePage i st true s).1 = .ok a) :
    (noticePage i st true s).2.cache.dirty = true := by
  unfold SeqStorage.noticePage updateCache at *
  cases hn : s.cache.noticePage i st true with
  | ok c =>
    rw [show (fun c => Cache.noticePage c i st true) s.cache = .ok c from hn]
    unfold Cache.noticePage at hn
    split at hn
    · simp at hn
    · simp only [Except.ok.injEq] at hn; subst hn; simp
  | error e =>
    rw [show (fun c => Cache.noticePage c i st true) s.cache = .error e from hn] at h
    simp at h

theorem Marks.noticeKey (k : K) (a : Nat) (d : Bool) : Marks R (Map.noticeKey k a d) := by
  refine .update fun c => ?_
  unfold Cache.noticeKey
  have := kpNotice_errs c.kp k a
  cases hn : c.kp.noticeLocation k a with
  | ok p => simp
  | error e => rw [hn] at this; exact fun h => this (by simpa using h)

theorem Marks.pageState (g : Geo) (i : Nat) : Marks R (getPageState g i : M K PageState) := by
  unfold getPageState
  refine (Marks.read ..).bind fun _ => (Marks.read ..).bind fun _ => .lift ?_
  unfold stateOfMarkers; split <;> simp

theorem Marks.pageStateCached (g : Geo) (i : Nat) : Marks R (getPageStateCached g i : M K PageState) := by
  unfold getPageStateCached
  refine Marks.get.bind fun s => (Marks.lift (psGet_errs _ _)).bind fun r => ?_
  split
  · exact .pure _
  · exact (Marks.pageState g i).bind fun _ => (Marks.noticePage ..).bind fun _ => .pure _

theorem Marks.openPage (g : Geo) (i : Nat) : Marks R (openPage g i : M K Unit) := by
  unfold SeqStorage.openPage
  exact (Marks.noticePage ..).after (noticePage_dirty i _) fun _ s hs hd => R.erase _ _ _ s hs hd

theorem Marks.partialClose (g : Geo) (i : Nat) : Marks R (partialClosePage g i : M K PageState) := by
  unfold partialClosePage
  refine (Marks.pageStateCached g i).bind fun cur => ?_
  split
  · exact .pure _
  · refine (Marks.noticePage ..).after (noticePage_dirty i _) fun _ s hs hd => ?_
    exact (((Keeps.write g _ _).bind fun _ => Keeps.pure _).out s hs hd).1

theorem Marks.closePage (g : Geo) (i : Nat) : Marks R (closePage g i : M K Unit) := by
  unfold SeqStorage.closePage
  refine (Marks.partialClose g i).bind fun cur => ?_
  split
  · exact .pure _
  · exact (Marks.noticePage ..).after (noticePage_dirty i _) fun _ s hs hd => R.write _ _ _ s hs hd

theorem Marks.findFirstIn (g : Geo) (st : PageState) (l : List Nat) : Marks R (findFirstIn g st l : M K (Option Nat)) := by
  induction l with
  | nil => exact .pure _
  | cons i l ih =>
    unfold SeqStorage.findFirstIn
    refine (Marks.pageStateCached g i).bind fun cur => ?_
    split
    · exact .pure _
    · exact ih

theorem Marks.findFirst (g : Geo) (i : Nat) (st : PageState) : Marks R (findFirstPage g i st : M K (Option Nat)) :=
  Marks.findFirstIn ..

theorem Marks.findLastIn (g : Geo) (st : PageState) (l : List Nat) :
    ∀ last, Marks R (findLastIn g st last l : M K (Option Nat)) := by
  induction l with
  | nil => intro last; exact .pure _
  | cons i l ih =>
    intro last
    unfold SeqStorage.findLastIn
    refine (Marks.pageStateCached g i).bind fun cur => ?_
    split
    · exact ih _
    · split
      · exact .pure _
      · exact ih _

theorem pageState_errs (g : Geo) (i : Nat) (s : St K) : (getPageState g i s).1 ≠ .error .shutoff := by
  have hq : ∀ a n (s : St K) (e : Err) (s' : St K), flashRead g a n s = (.error e, s') → e ≠ .shutoff := by
    intro a n s e s' h
    unfold flashRead at h
    have := read_errs g s.fl a n
    split at h
    · simp at h
    · rename_i e' he
      rw [he] at this
      simp only [Prod.mk.injEq, Except.error.injEq] at h
      rw [← h.1]; simpa using this
  unfold getPageState
  cases h1 : flashRead g (g.pageAddr i) g.readSize s with
  | mk r s1 =>
    cases r with
    | error e => rw [bind_err h1]; simpa using hq _ _ _ _ _ h1
    | ok bs =>
      rw [bind_ok h1]
      cases h2 : flashRead g (g.pageAddr i + (g.eraseSize - g.readSize)) g.readSize s1 with
      | mk r s2 =>
        cases r with
        | error e => rw [bind_err h2]; simpa using hq _ _ _ _ _ h2
        | ok bs' =>
          rw [bind_ok h2]
          show stateOfMarkers _ _ ≠ _
          unfold stateOfMarkers; split <;> simp

theorem Marks.generalIn (g : Geo) (l : List Nat) : Marks R (generalRepairIn g l : M K Unit) := by
  induction l with
  | nil => exact .pure _
  | cons i l ih =>
    unfold generalRepairIn
    refine (Marks.pageState g i).attemptQuiet (pageState_errs g i) fun r => ?_
    split
    · exact (Marks.openPage g i).bind fun _ => ih
    · exact ih

theorem Marks.readHeader (g : Geo) (a e : Nat) : Marks R (readHeader g a e : M K (Option Header)) := by
  unfold SeqStorage.readHeader
  split
  · exact .pure _
  · refine (Marks.read ..).bind fun bs => ?_
    refine (Marks.lift ?_).bind fun r => ?_
    · intro h; have := decodeHeader_err h; simp at this
    · split
      · exact .pure _
      · split
        · exact .throw (by simp)
        · exact .pure _

theorem Marks.readItem (g : Geo) (h : Header) (a e : Nat) : Marks R (readItem g h a e : M K MaybeItem) := by
  unfold SeqStorage.readItem
  split
  · exact .pure _
  · split
    · exact .pure _
    · refine Marks.get.bind fun s => ?_
      split
      · exact .throw (by simp)
      · refine Marks.bind ?_ fun _ => Marks.get.bind fun s => ?_
        · unfold readIntoBuf
          split
          · exact .pure _
          · exact (Marks.read ..).bind fun _ => .modify (fun _ => rfl)
        · split <;> exact .pure _

theorem Marks.eraseItem (g : Geo) (h : Header) (a : Nat) : Marks R (eraseItem g h a : M K Unit) := by
  unfold SeqStorage.eraseItem
  exact (Marks.modifyCache _).after (fun s _ => rfl) fun _ s hs hd => R.write _ _ _ s hs hd

theorem Marks.writeRaw (g : Geo) (h : Header) (d : List Byte) (a : Nat) : Marks R (writeRaw g h d a : M K Unit) := by
  unfold SeqStorage.writeRaw
  refine (Marks.modifyCache _).after (fun s _ => rfl) fun _ s hs hd => ?_
  have hk : Keeps R (K := K) (do
      writeHeader g h a
      let k := g.roundDown d.length
      if k ≠ 0 then flashWrite g (a + g.hl) (d.take k) else Pure.pure ()
      let tail := d.drop k
      if tail.length ≠ 0 then
        flashWrite g (a + g.hl + k) (tail ++ List.replicate (g.roundUp tail.length - tail.length) 0#8)
      else Pure.pure ()) := by
    refine (Keeps.write ..).bind fun _ => ?_
    dsimp only
    split
    · refine (Keeps.write ..).bind fun _ => ?_
      split
      · exact .write ..
      · exact .pure _
    · split
      · exact .write ..
      · exact .pure _
  exact (hk.out s hs hd).1

theorem Marks.writeNew (g : Geo) (a : Nat) (d : List Byte) : Marks R (writeNew g a d : M K Unit) := Marks.writeRaw ..

theorem Marks.traverse (g : Geo) (e : Nat) (skip : Header → Bool) (rounds : Nat) :
    ∀ a, Marks R (traverse g e skip rounds a : M K _) := by
  induction rounds with
  | zero => intro a; exact .throw (by simp)
  | succ n ih =>
    intro a
    unfold SeqStorage.traverse
    refine (Marks.readHeader g a e).attempt ?_ fun s hs => .rethrow hs
    intro r hr
    split
    · split
      · exact ih _
      · exact .pure _
    · exact .pure _
    · exact ih _
    · exact .throw (by intro h; subst h; exact hr rfl)

theorem Marks.itemNext (g : Geo) (e : Nat) (rounds : Nat) : ∀ a, Marks R (itemNext g e rounds a : M K _) := by
  induction rounds with
  | zero => intro a; exact .throw (by simp)
  | succ n ih =>
    intro a
    unfold SeqStorage.itemNext
    refine (Marks.traverse ..).bind fun r => ?_
    split
    · refine (Marks.readItem ..).bind fun r => ?_
      split
      · exact .pure _
      · exact ih _
    · exact .pure _

theorem Marks.freeSpot (g : Geo) (a e len : Nat) : Marks R (findFreeSpot g a e len : M K _) := by
  unfold findFreeSpot
  refine Marks.get.bind fun s => ?_
  have hj : ∀ free : Nat, Marks R (K := K) (match g.availableDataBytes (e - free) with
      | some avail => if len ≤ avail then Pure.pure (some free) else Pure.pure none
      | none => Pure.pure none) := by
    intro free
    split
    · split <;> exact .pure _
    · exact .pure _
  dsimp only
  split
  · exact hj _
  · exact (Marks.traverse ..).bind fun r => hj _

theorem Marks.isPageEmpty (g : Geo) (i : Nat) (st : PageState) : Marks R (isPageEmpty g i st : M K Bool) := by
  unfold SeqStorage.isPageEmpty
  split
  · exact Marks.get.bind fun _ => (Marks.traverse ..).bind fun _ => .pure _
  · exact .pure _
  · exact .pure _

/-! ### The queue -/

section
open Queue

theorem Marks.youngest (g : Geo) : Marks R (findYoungest g : M K Nat) := by
  unfold findYoungest
  refine (Marks.findFirst ..).bind fun r => ?_
  split
  · exact .pure _
  · refine (Marks.findFirst ..).bind fun r => ?_
    split
    · refine (Marks.findFirst ..).bind fun r => ?_
      split
      · exact .pure _
      · exact .throw (by simp)
    · exact .pure _

theorem Marks.oldest (g : Geo) : Marks R (findOldest g : M K Nat) := by
  unfold findOldest
  exact (Marks.youngest g).bind fun _ => (Marks.findFirst ..).bind fun _ => .pure _

theorem Marks.queueRepair (g : Geo) : Marks R (Queue.tryRepair g : M K Unit) := by
  unfold Queue.tryRepair
  exact (Marks.modifyCache _).bind fun _ => Marks.generalIn ..

theorem Marks.advance (g : Geo) (cur : Nat) (o : Bool) : Marks R (advancePage g cur o : M K Nat) := by
  unfold advancePage
  refine (Marks.pageStateCached ..).bind fun st => ?_
  dsimp only
  split
  · exact (Marks.closePage ..).bind fun _ => (Marks.partialClose ..).bind fun _ => .pure _
  · exact .throw (by simp)
  · have hj : ∀ empty : Bool, Marks R (K := K) (if empty = false then do
        unmarkDirty
        M.throw .fullStorage
      else do
        SeqStorage.openPage g (g.nextPage cur)
        if decide (g.nextPage cur = cur) = true then Pure.pure () else SeqStorage.closePage g cur
        let _ ← partialClosePage g (g.nextPage cur)
        Pure.pure (g.dataStart (g.nextPage cur))) := by
      intro empty
      split
      · exact Marks.unmark.bind fun _ => .throw (by simp)
      · refine (Marks.openPage ..).bind fun _ => ?_
        split
        · exact (Marks.partialClose ..).bind fun _ => .pure _
        · exact (Marks.closePage ..).bind fun _ => (Marks.partialClose ..).bind fun _ => .pure _
    split
    · exact (Marks.pure _).bind fun r => hj r
    · exact (Marks.isPageEmpty ..).bind fun r => hj r

theorem Marks.pushInner (g : Geo) (d : List Byte) (o : Bool) : Marks R (pushInner g d o : M K Unit) := by
  unfold Queue.pushInner
  refine Marks.check.bind fun _ => ?_
  split
  · exact Marks.unmark.bind fun _ => .throw (by simp)
  · refine (Marks.youngest g).bind fun _ => (Marks.partialClose ..).bind fun _ => (Marks.freeSpot ..).bind fun r => ?_
    dsimp only
    split
    · exact (Marks.writeNew ..).bind fun _ => .unmark
    · exact (Marks.advance ..).bind fun _ => (Marks.writeNew ..).bind fun _ => .unmark

theorem Marks.push (g : Geo) (d : List Byte) (o : Bool) : Marks R (Queue.push g d o : M K Unit) :=
  (Marks.pushInner g d o).repair (.queueRepair g)

theorem Marks.nextItem (g : Geo) (i : Nat) : Marks R (nextItemAddress g i : M K Nat) := by
  unfold nextItemAddress
  refine Marks.get.bind fun s => ?_
  split
  · exact .pure _
  · exact (Marks.traverse ..).bind fun _ => .pure _

theorem Marks.maxFit (g : Geo) : Marks R (findMaxFit g : M K _) := by
  refine Marks.repair ?_ (.queueRepair g)
  unfold findMaxFitInner
  refine Marks.check.bind fun _ => (Marks.youngest g).bind fun _ => (Marks.pageStateCached ..).bind fun _ => ?_
  split
  · refine (Marks.isPageEmpty ..).bind fun _ => ?_
    split
    · exact Marks.unmark.bind fun _ => .pure _
    · exact (Marks.nextItem ..).bind fun _ => Marks.unmark.bind fun _ => .pure _
  · exact Marks.unmark.bind fun _ => .pure _
  · exact .throw (by simp)

theorem Marks.spaceLeft (g : Geo) : Marks R (Queue.spaceLeft g : M K _) := by
  have hp : ∀ i, Marks R (K := K) (spaceLeftPage g i) := by
    intro i
    unfold spaceLeftPage
    refine (Marks.pageStateCached ..).bind fun _ => (Marks.isPageEmpty ..).bind fun _ => ?_
    split
    · exact .pure _
    · split
      · exact .pure _
      · refine (Marks.nextItem ..).bind fun _ => ?_
        split
        · refine (Marks.isPageEmpty ..).bind fun _ => ?_
          split <;> exact .pure _
        · exact .pure _
  have hl : ∀ l t, Marks R (K := K) (spaceLeftIn g t l) := by
    intro l
    induction l with
    | nil => intro t; exact .pure _
    | cons i l ih => intro t; exact (hp i).bind fun _ => ih _
  refine Marks.repair ?_ (.queueRepair g)
  exact Marks.check.bind fun _ => (hl _ _).bind fun _ => Marks.unmark.bind fun _ => .pure _

theorem Marks.iterNew (g : Geo) : Marks R (Queue.iterNew g : M K Unit) := by
  unfold Queue.iterNew
  refine Marks.bind (Marks.repair ?_ (.queueRepair g)) fun _ => .modify (fun _ => rfl)
  exact Marks.check.bind fun _ => (Marks.oldest g).bind fun _ => Marks.get.bind fun _ => .pure _

theorem Marks.nextScan (g : Geo) (p a : Nat) : Marks R (nextScan g p a : M K _) := by
  unfold Queue.nextScan
  refine (Marks.traverse ..).bind fun r => ?_
  split
  · refine (Marks.readItem ..).bind fun r => ?_
    split
    · exact (Marks.setIter _).bind fun _ => .pure _
    · exact .throw (by simp)
    · exact (Marks.setIter _).bind fun _ => (Marks.setIter _).bind fun _ => Marks.unmark.bind fun _ => .pure _
  · exact (Marks.setIter _).bind fun _ => .pure _

theorem Marks.nextLoop (g : Geo) (n : Nat) : Marks R (nextLoop g n : M K _) := by
  induction n with
  | zero => exact .throw (by simp)
  | succ n ih =>
    unfold Queue.nextLoop
    refine Marks.get.bind fun s => ?_
    split
    · refine (Marks.pageStateCached ..).bind fun st => ?_
      split
      · exact Marks.unmark.bind fun _ => .pure _
      · split
        · refine (Marks.openPage ..).bind fun _ => (Marks.setIter _).bind fun _ => (Marks.nextScan ..).bind fun r => ?_
          split
          · exact .pure _
          · exact ih
        · refine (Marks.setIter _).bind fun _ => (Marks.nextScan ..).bind fun r => ?_
          split
          · exact .pure _
          · exact ih
    · refine (Marks.nextScan ..).bind fun r => ?_
      split
      · exact .pure _
      · exact ih

theorem Marks.iterNext (g : Geo) : Marks R (Queue.iterNext g : M K _) := by
  unfold Queue.iterNext
  refine (Marks.setIter _).bind fun _ => Marks.bind (Marks.repair ?_ (.queueRepair g)) fun r => ?_
  · exact Marks.check.bind fun _ => Marks.nextLoop ..
  · split
    · refine Marks.get.bind fun s => ?_
      split
      · exact .throw (by simp)
      · exact .pure _
    · exact .pure _

theorem Marks.entryPop (g : Geo) (h : Header) (a : Nat) : Marks R (Queue.entryPop g h a : M K Unit) := by
  unfold Queue.entryPop
  exact (Marks.setIter _).bind fun _ => (Marks.eraseItem ..).bind fun _ => .unmark

theorem Marks.iterSteps (g : Geo) (steps : List (List Byte × Bool)) : Marks R (iterSteps g steps : M K _) := by
  induction steps with
  | nil => exact .pure _
  | cons x steps ih =>
    obtain ⟨b, p⟩ := x
    unfold SeqStorage.iterSteps
    refine (Marks.setBuf b).bind fun _ => (Marks.iterNext g).attempt ?_ fun s hs => .rethrow hs
    intro r hr
    split
    · exact ih.bind fun _ => .pure _
    · split
      · exact (Marks.entryPop ..).bind fun _ => ih.bind fun _ => .pure _
      · exact ih.bind fun _ => .pure _
    · exact ih.bind fun _ => .pure _
    · exact .throw (by intro h; subst h; exact hr rfl)

/-- Every call on a queue. -/
theorem Marks.qcall (g : Geo) (c : QCall (Cache K)) : Marks R (qcall g c) := by
  cases c with
  | push d o => exact (Marks.push ..).bind fun _ => .pure _
  | pop b =>
    refine (Marks.setBuf b).bind fun _ => Marks.bind ?_ fun _ => .pure _
    unfold Queue.pop
    refine (Marks.iterNew g).bind fun _ => (Marks.iterNext g).bind fun r => ?_
    split
    · exact (Marks.entryPop ..).bind fun _ => .pure _
    · exact .pure _
  | peek b =>
    refine (Marks.setBuf b).bind fun _ => Marks.bind ?_ fun _ => .pure _
    unfold Queue.peek
    refine (Marks.iterNew g).bind fun _ => (Marks.iterNext g).bind fun r => ?_
    split <;> exact .pure _
  | iterate steps => exact (Marks.iterNew g).bind fun _ => (Marks.iterSteps ..).bind fun _ => .pure _
  | maxFit => exact (Marks.maxFit g).bind fun _ => .pure _
  | spaceLeft => exact (Marks.spaceLeft g).bind fun _ => .pure _
  | restart c => exact (Marks.modifyCache _).bind fun _ => .pure _

end

/-! ### Instances -/

/-- Power loss leaves the cache marked dirty. -/
def dirtyRule (K : Type) : Rule K where
  I _ := True
  E s := s.cache.dirty = true
  fault _ h := h
  write _ _ _ _ _ hd := ⟨fun _ => trivial, fun _ => hd⟩
  erase _ _ _ _ _ hd := ⟨fun _ => trivial, fun _ => hd⟩

/-- Without a limit on the bytes, power is never lost. -/
def powerRule (K : Type) : Rule K where
  I fl := fl.fuel = none
  E _ := False
  fault _ h := h
  write g a bs s h _ := by
    unfold flashWrite Flash.write
    rw [h]
    dsimp only
    split
    · exact ⟨fun _ => h, by simp⟩
    · split
      · exact ⟨fun _ => h, by simp⟩
      · exact ⟨fun _ => rfl, by simp [spend_none]⟩
  erase g a b s h _ := by
    unfold flashErase Flash.erase
    rw [h]
    dsimp only
    split
    · exact ⟨fun _ => h, by simp⟩
    · split
      · exact ⟨fun _ => h, by simp⟩
      · split
        · exact ⟨fun _ => h, by simp⟩
        · exact ⟨fun _ => rfl, by simp [spend_none]⟩

theorem qcall_dirty (g : Geo) (c : QCall (Cache K)) (s : St K) (h : (qcall g c s).1 = .error .shutoff) :
    (qcall g c s).2.cache.dirty = true := ((Marks.qcall (R := dirtyRule K) g c).out s trivial).2 h

theorem qcall_powered (g : Geo) (c : QCall (Cache K)) (s : St K) (h : s.fl.fuel = none) :
    (qcall g c s).1 ≠ .error .shutoff ∧ (qcall g c s).2.fl.fuel = none := by
  have := (Marks.qcall (R := powerRule K) g c).out s h
  have h1 : (qcall g c s).1 ≠ .error .shutoff := fun hx => this.2 hx
  exact ⟨h1, this.1 h1⟩

/-! ### A dirty cache is as good as none -/

/-- On a dirty cache it does the same as on an empty one. -/
structure Cleans (m : M K α) : Prop where
  out : ∀ s, s.cache.dirty = true → m s = m { s with cache := s.cache.invalidate }

theorem checkDirty_dirty (s : St K) (h : s.cache.dirty = true) :
    (checkDirty s : Except Err Unit × St K) = (.ok (), { s with cache := s.cache.invalidate }) := by
  show (Except.ok (), { s with cache := if s.cache.dirty then s.cache.invalidate else s.cache }) = _
  rw [if_pos h]

theorem Cleans.check (f : Unit → M K α) : Cleans (checkDirty >>= f) := by
  constructor
  intro s h
  rw [bind_ok (checkDirty_dirty s h), bind_ok (a := ()) (s' := { s with cache := s.cache.invalidate })]
  rfl

theorem Cleans.bind {m : M K α} (h : Cleans m) (f : α → M K β) : Cleans (m >>= f) := by
  constructor
  intro s hs
  rw [bind_run, bind_run, h.out s hs]

theorem Cleans.repair {m : M K α} (h : Cleans m) (r : M K Unit) : Cleans (withRepair m r) := by
  constructor
  intro s hs
  unfold withRepair
  rw [bind_run, bind_run, attempt_run, attempt_run, h.out s hs]

theorem Cleans.afterBuf {m : M K α} (h : Cleans m) (b : List Byte) : Cleans (SeqStorage.setBuf b >>= fun _ => m) := by
  constructor
  intro s hs
  exact h.out { s with buf := b } hs

theorem Cleans.restart (c : Cache K) (f : Unit → M K α) : Cleans ((modifyCache fun _ => c) >>= f) := ⟨fun _ _ => rfl⟩

theorem Cleans.iterNew (g : Geo) : Cleans (Queue.iterNew g : M K Unit) :=
  ((Cleans.check _).repair _).bind _

theorem Cleans.qcall (g : Geo) (c : QCall (Cache K)) : Cleans (qcall g c) := by
  cases c with
  | push d o => exact ((Cleans.check _).repair _).bind _
  | pop b => exact (((Cleans.iterNew g).bind _).bind _).afterBuf b
  | peek b => exact (((Cleans.iterNew g).bind _).bind _).afterBuf b
  | iterate steps => exact (Cleans.iterNew g).bind _
  | maxFit => exact ((Cleans.check _).repair _).bind _
  | spaceLeft => exact ((Cleans.check _).repair _).bind _
  | restart c => exact .restart c _

end SeqStorage
