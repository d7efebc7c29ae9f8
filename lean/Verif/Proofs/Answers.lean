import Verif.Proofs.Leaves
import Verif.Proofs.Reread
/-
Which errors a function can end with, on whatever flash and with whatever caches.
-/

set_option linter.unusedSectionVars false

namespace SeqStorage
open M Spec

variable {K : Type} [DecidableEq K] {α β V : Type}

/-- An error that says nothing about an argument of the call. -/
def Base : Err → Prop
  | .fullStorage | .itemTooBig | .serialization _ | .bufferTooSmall _ | .bufferTooBig => False
  | _ => True

/-- What an error may be, given the length of the buffer. -/
structure Kind where
  ok : Nat → Err → Prop
  base : ∀ n e, Base e → ok n e

/-- Only base errors. -/
def Kind.none : Kind := ⟨fun _ => Base, fun _ _ h => h⟩

variable {P : Kind}

/-- The function keeps the length of the buffer and ends only with such errors. -/
structure Errs (P : Kind) (m : M K α) : Prop where
  out : ∀ s, (m s).2.buf.length = s.buf.length ∧ ∀ e, (m s).1 = .error e → P.ok s.buf.length e

namespace Errs

theorem easy {m : M K α} (h : ∀ s, (m s).2.buf = s.buf) (he : ∀ s e, (m s).1 = .error e → Base e) : Errs P m :=
  ⟨fun s => ⟨by rw [h], fun e h => P.base _ _ (he s e h)⟩⟩

theorem pure (a : α) : Errs P (pure a : M K α) := .easy (fun _ => rfl) (by intro s e h; cases h)
theorem throw {e : Err} (h : Base e) : Errs P (M.throw e : M K α) := .easy (fun _ => rfl) (by intro s e h; cases h; assumption)
theorem throwP {e : Err} (h : ∀ n, P.ok n e) : Errs P (M.throw e : M K α) := ⟨fun s => ⟨rfl, by intro e h'; cases h'; exact h _⟩⟩
theorem lift {r : Except Err α} (h : ∀ e, r = .error e → Base e) : Errs P (M.lift r : M K α) := .easy (fun _ => rfl) fun _ => h
theorem get : Errs P (M.get : M K (St K)) := .easy (fun _ => rfl) (by intro s e h; cases h)
theorem modify {f : St K → St K} (h : ∀ s, (f s).buf = s.buf) : Errs P (M.modify f) := .easy h (by intro s e h; cases h)
theorem modifyCache (f : Cache K → Cache K) : Errs P (modifyCache f) := .modify fun _ => rfl
theorem unmark : Errs P (unmarkDirty : M K Unit) := .modifyCache _
theorem check : Errs P (checkDirty : M K Unit) := .modifyCache _
theorem setIter (f : QIter → QIter) : Errs P (Queue.setIter f : M K Unit) := .modify fun _ => rfl
theorem liftSer (h : ∀ n e, P.ok n (.serialization e)) (r : Except SerErr α) : Errs P (Map.liftSer r : M K α) :=
  ⟨fun s => ⟨rfl, by intro e he; cases r <;> cases he; exact h _ _⟩⟩

theorem bind {m : M K α} {f : α → M K β} (h : Errs P m) (hf : ∀ a, Errs P (f a)) : Errs P (m >>= f) := by
  constructor
  intro s
  rw [bind_run]
  have hm := h.out s
  generalize m s = r at hm ⊢
  obtain ⟨r, s1⟩ := r
  cases r with
  | ok a =>
    have := (hf a).out s1
    dsimp only at hm ⊢
    rw [hm.1] at this
    exact this
  | error e => exact ⟨hm.1, by intro e' h; cases h; exact hm.2 _ rfl⟩

/-- Knowing the state. -/
theorem look {f : St K → M K β} (h : ∀ s, ((f s) s).2.buf.length = s.buf.length ∧ ∀ e, ((f s) s).1 = .error e → P.ok s.buf.length e) :
    Errs P (M.get >>= f) := ⟨fun s => h s⟩

theorem modifyBind {f : St K → St K} {k : Unit → M K β} (h : ∀ s, (f s).buf = s.buf) (hk : ∀ a, Errs P (k a)) :
    Errs P (M.modify f >>= k) := (Errs.modify h).bind hk

theorem attempt {m : M K α} {f : Except Err α → M K β} (h : Errs .none m)
    (hf : ∀ r, (∀ e, r = .error e → Base e) → Errs P (f r)) : Errs P (M.attempt m >>= f) := by
  constructor
  intro s
  rw [bind_ok (attempt_run m s)]
  have := (hf (m s).1 (h.out s).2).out (m s).2
  rw [(h.out s).1] at this
  exact this

theorem repair {m : M K α} {r : M K Unit} (h : Errs P m) (hr : Errs P r) : Errs P (withRepair m r) := by
  unfold withRepair
  constructor
  intro s
  rw [bind_ok (attempt_run m s)]
  have hm := h.out s
  generalize m s = x at hm
  obtain ⟨x, s1⟩ := x
  dsimp only at hm ⊢
  split
  · have := (hr.bind fun _ => h).out s1
    rw [hm.1] at this
    exact this
  · exact hm

theorem weaken {m : M K α} (h : Errs .none m) : Errs P m := ⟨fun s => ⟨(h.out s).1, fun e he => P.base _ _ ((h.out s).2 e he)⟩⟩

theorem read (g : Geo) (a n : Nat) : Errs P (flashRead g a n : M K (List Byte)) := by
  refine .easy (fun s => ?_) fun s e h => ?_
  · unfold flashRead; split <;> rfl
  · unfold flashRead Flash.read at h
    split at h
    · cases h
    · rename_i e' he
      cases h
      split at he
      · cases he; trivial
      · split at he
        · cases he; trivial
        · cases he

theorem write (g : Geo) (a : Nat) (bs : List Byte) : Errs P (flashWrite g a bs : M K Unit) := by
  refine .easy (fun s => rfl) fun s e h => ?_
  change (s.fl.write g a bs).1 = _ at h
  unfold Flash.write at h
  split at h
  · cases h; trivial
  · split at h
    · cases h; trivial
    · dsimp only at h
      split at h <;> cases h
      trivial

theorem erase (g : Geo) (a b : Nat) : Errs P (flashErase g a b : M K Unit) := by
  refine .easy (fun s => rfl) fun s e h => ?_
  change (s.fl.erase g a b).1 = _ at h
  unfold Flash.erase at h
  split at h
  · cases h; trivial
  · split at h
    · cases h; trivial
    · split at h
      · cases h; trivial
      · dsimp only at h
        split at h <;> cases h
        trivial

theorem update {f : Cache K → Except Err (Cache K)} (h : ∀ c e, f c = .error e → Base e) : Errs P (updateCache f) := by
  refine .easy (fun s => ?_) fun s e he => ?_
  · unfold updateCache; split <;> rfl
  · unfold updateCache at he
    split at he
    · cases he
    · rename_i h'; cases he; exact h _ _ h'

theorem calc_base {c : CalcPS} {i : Nat} {st : PageState} {e : Err} (h : c.notice i st = .error e) : Base e := by
  unfold CalcPS.notice at h
  repeat' split at h
  all_goals first | (cases h; done) | (cases h; trivial)

theorem psNotice_base {p : PSCache} {i : Nat} {st : PageState} {e : Err} (h : p.notice i st = .error e) : Base e := by
  cases p with
  | uncached => cases h
  | calculated c =>
    simp only [PSCache.notice] at h
    cases hc : c.notice i st with
    | ok x => rw [hc] at h; cases h
    | error x => rw [hc] at h; cases h; exact calc_base hc
  | table l =>
    simp only [PSCache.notice] at h
    split at h
    · cases h
    · cases h; trivial

theorem psGet_base {p : PSCache} {i : Nat} {e : Err} (h : p.get i = .error e) : Base e := by
  cases p with
  | uncached => cases h
  | calculated c => cases h
  | table l =>
    simp only [PSCache.get] at h
    split at h
    · cases h
    · cases h; trivial

theorem kpNotice_base {c : KPCache K} {k : K} {a : Nat} {e : Err} (h : c.noticeLocation k a = .error e) : Base e := by
  unfold KPCache.noticeLocation at h
  repeat' split at h
  all_goals first | (cases h; done) | (cases h; trivial)

theorem noticePage (i : Nat) (st : PageState) (d : Bool) : Errs P (noticePage i st d : M K Unit) := by
  refine .update fun c e h => ?_
  unfold Cache.noticePage at h
  split at h
  · rename_i h'; cases h; exact psNotice_base h'
  · cases h

theorem noticeKey (k : K) (a : Nat) (d : Bool) : Errs P (Map.noticeKey k a d) := by
  refine .update fun c e h => ?_
  unfold Cache.noticeKey at h
  split at h
  · rename_i h'; cases h; exact kpNotice_base h'
  · cases h

theorem pageState (g : Geo) (i : Nat) : Errs P (getPageState g i : M K PageState) := by
  refine (Errs.read ..).bind fun a => (Errs.read ..).bind fun b => .lift fun e h => ?_
  unfold stateOfMarkers at h
  split at h <;> cases h
  trivial

theorem pageStateCached (g : Geo) (i : Nat) : Errs P (getPageStateCached g i : M K PageState) := by
  unfold getPageStateCached
  refine Errs.get.bind fun s => (Errs.lift fun e h => psGet_base h).bind fun r => ?_
  split
  · exact .pure _
  · exact (Errs.pageState ..).bind fun _ => (Errs.noticePage ..).bind fun _ => .pure _

theorem openPage (g : Geo) (i : Nat) : Errs P (openPage g i : M K Unit) :=
  (Errs.noticePage ..).bind fun _ => .erase ..

theorem partialClose (g : Geo) (i : Nat) : Errs P (partialClosePage g i : M K PageState) := by
  unfold partialClosePage
  refine (Errs.pageStateCached g i).bind fun cur => ?_
  split
  · exact .pure _
  · exact (Errs.noticePage ..).bind fun _ => (Errs.write ..).bind fun _ => .pure _

theorem closePage (g : Geo) (i : Nat) : Errs P (closePage g i : M K Unit) := by
  unfold SeqStorage.closePage
  refine (Errs.partialClose g i).bind fun cur => ?_
  split
  · exact .pure _
  · exact (Errs.noticePage ..).bind fun _ => .write ..

theorem findFirstIn (g : Geo) (st : PageState) (l : List Nat) : Errs P (findFirstIn g st l : M K (Option Nat)) := by
  induction l with
  | nil => exact .pure _
  | cons i l ih =>
    unfold SeqStorage.findFirstIn
    refine (Errs.pageStateCached g i).bind fun cur => ?_
    split
    · exact .pure _
    · exact ih

theorem findFirst (g : Geo) (i : Nat) (st : PageState) : Errs P (findFirstPage g i st : M K (Option Nat)) :=
  Errs.findFirstIn ..

theorem findLastIn (g : Geo) (st : PageState) (l : List Nat) : ∀ x, Errs P (findLastIn g st x l : M K (Option Nat)) := by
  induction l with
  | nil => intro x; exact .pure _
  | cons i l ih =>
    intro x
    unfold SeqStorage.findLastIn
    refine (Errs.pageStateCached g i).bind fun cur => ?_
    split
    · exact ih _
    · split
      · exact .pure _
      · exact ih _

theorem readHeader (g : Geo) (a e : Nat) : Errs P (readHeader g a e : M K (Option Header)) := by
  unfold SeqStorage.readHeader
  split
  · exact .pure _
  · refine (Errs.read ..).bind fun bs => (Errs.lift fun e h => ?_).bind fun r => ?_
    · rw [decodeHeader_err h]; trivial
    · split
      · exact .pure _
      · split
        · exact .throw trivial
        · exact .pure _

theorem traverse (g : Geo) (e : Nat) (skip : Header → Bool) (rounds : Nat) :
    ∀ a, Errs P (traverse g e skip rounds a : M K _) := by
  induction rounds with
  | zero => intro a; exact .throw trivial
  | succ n ih =>
    intro a
    unfold SeqStorage.traverse
    refine (Errs.readHeader g a e).attempt fun r hr => ?_
    split
    · split
      · exact ih _
      · exact .pure _
    · exact .pure _
    · exact ih _
    · exact .throw (hr _ rfl)

theorem isPageEmpty (g : Geo) (i : Nat) (st : PageState) : Errs P (isPageEmpty g i st : M K Bool) := by
  unfold SeqStorage.isPageEmpty
  split
  · exact Errs.get.bind fun _ => (Errs.traverse ..).bind fun _ => .pure _
  · exact .pure _
  · exact .pure _

theorem freeSpot (g : Geo) (a e n : Nat) : Errs P (findFreeSpot g a e n : M K _) := by
  unfold findFreeSpot
  refine Errs.get.bind fun s => ?_
  dsimp only
  split
  · refine (Errs.pure _).bind fun _ => ?_
    split
    · split <;> exact .pure _
    · exact .pure _
  · refine (Errs.traverse ..).bind fun _ => (Errs.pure _).bind fun _ => ?_
    split
    · split <;> exact .pure _
    · exact .pure _

theorem writeRaw (g : Geo) (h : Header) (d : List Byte) (a : Nat) : Errs P (writeRaw g h d a : M K Unit) := by
  unfold SeqStorage.writeRaw
  refine (Errs.modifyCache _).bind fun _ => (Errs.write ..).bind fun _ => ?_
  dsimp only
  have : ∀ u : Unit, Errs P (K := K) (if (d.drop (g.roundDown d.length)).length ≠ 0 then
      flashWrite g (a + g.hl + g.roundDown d.length) (d.drop (g.roundDown d.length) ++ List.replicate (g.roundUp (d.drop (g.roundDown d.length)).length - (d.drop (g.roundDown d.length)).length) 0#8)
      else Pure.pure ()) := by
    intro _
    split
    · exact .write ..
    · exact .pure _
  split
  · exact (Errs.write ..).bind this
  · exact this ()

theorem writeNew (g : Geo) (d : List Byte) (a : Nat) : Errs P (writeNew g a d : M K Unit) := .writeRaw ..

theorem eraseItem (g : Geo) (h : Header) (a : Nat) : Errs P (eraseItem g h a : M K Unit) :=
  (Errs.modifyCache _).bind fun _ => .write ..

theorem generalRepair (g : Geo) : Errs P (tryGeneralRepair g : M K Unit) := by
  have : ∀ l, Errs P (K := K) (generalRepairIn g l) := by
    intro l
    induction l with
    | nil => exact .pure _
    | cons i l ih =>
      unfold generalRepairIn
      refine (Errs.pageState g i).attempt fun r hr => ?_
      split
      · exact (Errs.openPage g i).bind fun _ => ih
      · exact ih
  exact this _

/-- What it returns when it succeeds. -/
def Gives (Q : α → Prop) (m : M K α) : Prop := ∀ s a, (m s).1 = .ok a → Q a

theorem gives_bind {Q : β → Prop} {m : M K α} {f : α → M K β} (h : ∀ a, Gives Q (f a)) : Gives Q (m >>= f) := by
  intro s b hb
  rw [bind_run] at hb
  generalize m s = r at hb
  obtain ⟨r, s1⟩ := r
  cases r with
  | ok a => exact h a s1 b hb
  | error e => cases hb

theorem gives_pure {Q : α → Prop} {a : α} (h : Q a) : Gives Q (Pure.pure a : M K α) := by
  intro s b hb; cases hb; exact h

theorem gives_throw {Q : α → Prop} (e : Err) : Gives Q (M.throw e : M K α) := by
  intro s b hb; cases hb

theorem bindGives {Q : α → Prop} {m : M K α} {f : α → M K β} (h : Errs P m) (hg : Gives Q m) (hf : ∀ a, Q a → Errs P (f a)) :
    Errs P (m >>= f) := by
  constructor
  intro s
  rw [bind_run]
  have hm := h.out s
  have hgs := hg s
  generalize m s = r at hm hgs ⊢
  obtain ⟨r, s1⟩ := r
  cases r with
  | ok a =>
    have := (hf a (hgs a rfl)).out s1
    dsimp only at hm ⊢
    rw [hm.1] at this
    exact this
  | error e => exact ⟨hm.1, by intro e' h; cases h; exact hm.2 _ rfl⟩

/-- Knowing the length of the buffer the first part was given. -/
theorem known {m : M K α} {f : α → M K β} (h : Errs P m)
    (hf : ∀ s a, (m s).1 = .ok a → ∀ s', s'.buf.length = s.buf.length →
      (f a s').2.buf.length = s'.buf.length ∧ ∀ e, (f a s').1 = .error e → P.ok s'.buf.length e) : Errs P (m >>= f) := by
  constructor
  intro s
  rw [bind_run]
  have hm := h.out s
  have hfs := hf s
  generalize m s = r at hm hfs ⊢
  obtain ⟨r, s1⟩ := r
  cases r with
  | ok a =>
    have := hfs a rfl s1 hm.1
    dsimp only at hm ⊢
    rw [hm.1] at this
    exact this
  | error e => exact ⟨hm.1, by intro e' h; cases h; exact hm.2 _ rfl⟩

theorem fetchAllFirst (g : Geo) : Errs P (Map.fetchAllFirst g : M K _) := by
  unfold Map.fetchAllFirst
  refine (Errs.findFirst ..).bind fun r => ?_
  split
  · exact .pure _
  · refine (Errs.findFirst ..).bind fun r => ?_
    split
    · refine (Errs.pageStateCached ..).bind fun st => ?_
      split
      · exact .pure _
      · exact Errs.unmark.bind fun _ => .pure _
    · exact .pure _

theorem gives_fetchAll (g : Geo) : Gives (K := K) (fun r => ∀ e, r = .error e → Base e) (Map.fetchAllFirst g) := by
  unfold Map.fetchAllFirst
  refine gives_bind fun r => ?_
  split
  · exact gives_pure (by simp)
  · refine gives_bind fun r => ?_
    split
    · refine gives_bind fun r => ?_
      split
      · exact gives_pure (by simp)
      · exact gives_bind fun _ => gives_pure (by simp)
    · exact gives_pure (by intro e h; cases h; trivial)

/-! ### The queue -/

section
open Queue

theorem youngest (g : Geo) : Errs P (findYoungest g : M K Nat) := by
  unfold findYoungest
  refine (Errs.findFirst ..).bind fun r => ?_
  split
  · exact .pure _
  · refine (Errs.findFirst ..).bind fun r => ?_
    split
    · refine (Errs.findFirst ..).bind fun r => ?_
      split
      · exact .pure _
      · exact .throw trivial
    · exact .pure _

theorem oldest (g : Geo) : Errs P (findOldest g : M K Nat) := by
  unfold findOldest
  exact (Errs.youngest g).bind fun _ => (Errs.findFirst ..).bind fun _ => .pure _

theorem nextItem (g : Geo) (i : Nat) : Errs P (nextItemAddress g i : M K Nat) := by
  unfold nextItemAddress
  refine Errs.get.bind fun s => ?_
  split
  · exact .pure _
  · exact (Errs.traverse ..).bind fun _ => .pure _

theorem maxFitInner (g : Geo) : Errs P (findMaxFitInner g : M K _) := by
  unfold findMaxFitInner
  refine Errs.check.bind fun _ => (Errs.youngest g).bind fun _ => (Errs.pageStateCached ..).bind fun _ => ?_
  split
  · refine (Errs.isPageEmpty ..).bind fun _ => ?_
    split
    · exact Errs.unmark.bind fun _ => .pure _
    · exact (Errs.nextItem ..).bind fun _ => Errs.unmark.bind fun _ => .pure _
  · exact Errs.unmark.bind fun _ => .pure _
  · exact .throw trivial

theorem spaceInner (g : Geo) : Errs P (spaceLeftInner g : M K _) := by
  have hp : ∀ i, Errs P (K := K) (spaceLeftPage g i) := by
    intro i
    unfold spaceLeftPage
    refine (Errs.pageStateCached ..).bind fun _ => (Errs.isPageEmpty ..).bind fun _ => ?_
    split
    · exact .pure _
    · split
      · exact .pure _
      · refine (Errs.nextItem ..).bind fun _ => ?_
        split
        · refine (Errs.isPageEmpty ..).bind fun _ => ?_
          split <;> exact .pure _
        · exact .pure _
  have hl : ∀ l t, Errs P (K := K) (spaceLeftIn g t l) := by
    intro l
    induction l with
    | nil => intro t; exact .pure _
    | cons i l ih => intro t; exact (hp i).bind fun _ => ih _
  exact Errs.check.bind fun _ => (hl _ _).bind fun _ => Errs.unmark.bind fun _ => .pure _

theorem queueRepair (g : Geo) : Errs P (Queue.tryRepair g : M K Unit) := (Errs.modifyCache _).bind fun _ => .generalRepair g

/-- A page in front that is partially open and full is an inconsistency, not a full queue. -/
theorem advance (g : Geo) (cur : Nat) (ow : Bool) (h : ow = false → ∀ n, P.ok n .fullStorage) :
    Errs P (advancePage g cur ow : M K Nat) := by
  unfold advancePage
  refine (Errs.pageStateCached ..).bind fun st => ?_
  have hrest : ∀ single : Bool, Errs P (K := K) (do
      SeqStorage.openPage g (g.nextPage cur)
      if single then Pure.pure () else SeqStorage.closePage g cur
      let _ ← partialClosePage g (g.nextPage cur)
      Pure.pure (g.dataStart (g.nextPage cur))) := by
    intro single
    refine (Errs.openPage ..).bind fun _ => ?_
    split
    · exact (Errs.partialClose ..).bind fun _ => .pure _
    · exact (Errs.closePage ..).bind fun _ => (Errs.partialClose ..).bind fun _ => .pure _
  dsimp only
  split
  · exact (Errs.closePage ..).bind fun _ => (Errs.partialClose ..).bind fun _ => .pure _
  · exact .throw trivial
  · split
    · exact hrest _
    · rename_i ho
      refine (Errs.isPageEmpty ..).bind fun em => ?_
      split
      · exact Errs.unmark.bind fun _ => .throwP (h (by simpa using ho))
      · exact hrest _

theorem pushInner (g : Geo) (d : List Byte) (ow : Bool) (h : ow = false → ∀ n, P.ok n .fullStorage)
    (h' : g.tooBig d.length = true → ∀ n, P.ok n .itemTooBig) : Errs P (pushInner g d ow : M K Unit) := by
  unfold Queue.pushInner
  refine Errs.check.bind fun _ => ?_
  split
  · rename_i hb
    exact Errs.unmark.bind fun _ => .throwP (h' hb)
  · refine (Errs.youngest g).bind fun cur => (Errs.partialClose ..).bind fun _ => (Errs.freeSpot ..).bind fun sp => ?_
    split
    · exact (Errs.writeNew ..).bind fun _ => .unmark
    · exact (Errs.advance g cur ow h).bind fun _ => (Errs.writeNew ..).bind fun _ => .unmark

theorem push (g : Geo) (d : List Byte) (ow : Bool) (h : ow = false → ∀ n, P.ok n .fullStorage)
    (h' : g.tooBig d.length = true → ∀ n, P.ok n .itemTooBig) : Errs P (Queue.push g d ow : M K Unit) :=
  .repair (.pushInner g d ow h h') (.queueRepair g)

theorem iterNew (g : Geo) : Errs P (Queue.iterNew g : M K Unit) := by
  unfold Queue.iterNew
  refine Errs.bind (Errs.repair ?_ (.queueRepair g)) fun _ => .modify (fun _ => rfl)
  exact Errs.check.bind fun _ => (Errs.oldest g).bind fun _ => Errs.get.bind fun _ => .pure _

theorem entryPop (g : Geo) (h : Header) (a : Nat) : Errs P (Queue.entryPop g h a : M K Unit) :=
  (Errs.setIter _).bind fun _ => (Errs.eraseItem ..).bind fun _ => .unmark
end

/-! ### What reads items into the buffer -/

section
variable (hS : ∀ n k, n < k → P.ok n (.bufferTooSmall k))
include hS

theorem readItem (g : Geo) (h : Header) (a e : Nat) : Errs P (readItem g h a e : M K MaybeItem) := by
  unfold SeqStorage.readItem
  split
  · exact .pure _
  · split
    · exact .pure _
    · refine .look fun s => ?_
      split
      · rename_i hlt
        exact ⟨rfl, by intro e h; cases h; exact hS _ _ hlt⟩
      · rename_i hlt
        have key : Errs P (K := K) (do
            let s ← M.get
            if adaptedCrc32 (s.buf.take h.len.toNat) = h.crc then Pure.pure (MaybeItem.present h) else Pure.pure (MaybeItem.corrupted h)) := by
          refine Errs.get.bind fun s => ?_
          split <;> exact .pure _
        unfold readIntoBuf
        split
        · exact key.out s
        · rw [bind_run, bind_run]
          unfold flashRead
          cases hr : s.fl.read g (a + g.hl) (g.roundUp h.len.toNat) with
          | error e' => 
            refine ⟨rfl, ?_⟩
            intro e he; cases he
            refine P.base _ _ ?_
            unfold Flash.read at hr
            split at hr
            · cases hr; trivial
            · split at hr <;> cases hr
              trivial
          | ok bs =>
            have hl := read_length hr
            have := key.out { s with buf := bs ++ s.buf.drop (g.roundUp h.len.toNat) }
            have hlen : (bs ++ s.buf.drop (g.roundUp h.len.toNat)).length = s.buf.length := by
              rw [List.length_append, List.length_drop, hl]; omega
            dsimp only at this
            rw [hlen] at this
            exact this

theorem itemNext (g : Geo) (e : Nat) (rounds : Nat) : ∀ a, Errs P (itemNext g e rounds a : M K _) := by
  induction rounds with
  | zero => intro a; exact .throw trivial
  | succ n ih =>
    intro a
    unfold SeqStorage.itemNext
    refine (Errs.traverse ..).bind fun r => ?_
    split
    · refine (Errs.readItem hS ..).bind fun r => ?_
      split
      · exact .pure _
      · exact ih _
    · exact .pure _

section
open Queue

theorem nextScan (g : Geo) (p a : Nat) : Errs P (nextScan g p a : M K _) := by
  unfold Queue.nextScan
  refine (Errs.traverse ..).bind fun r => ?_
  split
  · refine (Errs.readItem hS ..).bind fun r => ?_
    split
    · exact (Errs.setIter _).bind fun _ => .pure _
    · exact .throw trivial
    · exact (Errs.setIter _).bind fun _ => (Errs.setIter _).bind fun _ => Errs.unmark.bind fun _ => .pure _
  · exact (Errs.setIter _).bind fun _ => .pure _

theorem nextLoop (g : Geo) (n : Nat) : Errs P (nextLoop g n : M K _) := by
  induction n with
  | zero => exact .throw trivial
  | succ n ih =>
    unfold Queue.nextLoop
    refine Errs.get.bind fun s => ?_
    split
    · refine (Errs.pageStateCached ..).bind fun st => ?_
      split
      · exact Errs.unmark.bind fun _ => .pure _
      · split
        · refine (Errs.openPage g _).bind fun _ => (Errs.setIter _).bind fun _ => (Errs.nextScan hS ..).bind fun r => ?_
          split
          · exact .pure _
          · exact ih
        · refine (Errs.setIter _).bind fun _ => (Errs.nextScan hS ..).bind fun r => ?_
          split
          · exact .pure _
          · exact ih
    · refine (Errs.nextScan hS ..).bind fun r => ?_
      split
      · exact .pure _
      · exact ih

theorem iterNext (g : Geo) : Errs P (Queue.iterNext g : M K _) := by
  unfold Queue.iterNext
  refine (Errs.setIter _).bind fun _ => Errs.bind (Errs.repair ?_ (.queueRepair g)) fun r => ?_
  · exact Errs.check.bind fun _ => Errs.nextLoop hS g _
  · split
    · refine Errs.get.bind fun s => ?_
      split
      · exact .throw trivial
      · exact .pure _
    · exact .pure _

theorem peek (g : Geo) : Errs P (Queue.peek g : M K _) := by
  unfold Queue.peek
  refine (Errs.iterNew g).bind fun _ => (Errs.iterNext hS g).bind fun r => ?_
  split <;> exact .pure _

theorem pop (g : Geo) : Errs P (Queue.pop g : M K _) := by
  unfold Queue.pop
  refine (Errs.iterNew g).bind fun _ => (Errs.iterNext hS g).bind fun r => ?_
  split
  · exact (Errs.entryPop ..).bind fun _ => .pure _
  · exact .pure _
end

/-! ### The map -/

section
open Map

theorem fetchCached (g : Geo) (k : K) : Errs P (fetchCached g k) := by
  unfold Map.fetchCached
  refine Errs.get.bind fun s => ?_
  split
  · exact .pure _
  · refine (Errs.readHeader ..).bind fun r => ?_
    split
    · exact (Errs.modifyCache _).bind fun _ => .pure _
    · refine (Errs.readItem hS ..).bind fun r => ?_
      split
      · exact .pure _
      · exact (Errs.modifyCache _).bind fun _ => .pure _

omit hS in
theorem lastUsed (g : Geo) : Errs P (lastUsedPage g : M K _) := by
  unfold lastUsedPage
  refine (Errs.findFirst ..).bind fun r => ?_
  split
  · exact .pure _
  · refine (Errs.findFirst ..).bind fun r => ?_
    split
    · refine (Errs.pageStateCached ..).bind fun st => ?_
      split <;> exact .pure _
    · exact .throw trivial

variable (hD : ∀ n e, P.ok n (.serialization e))
include hD

theorem scanPage (g : Geo) (kc : KeyCodec K) (k : K) (e n : Nat) : ∀ a f, Errs P (scanPage g kc k e n a f) := by
  induction n with
  | zero => intro a f; exact .throw trivial
  | succ n ih =>
    intro a f
    unfold Map.scanPage
    refine (Errs.itemNext hS ..).bind fun r => ?_
    split
    · exact .pure _
    · exact Errs.get.bind fun s => (Errs.liftSer hD _).bind fun r => ih _ _

theorem searchPages (g : Geo) (kc : KeyCodec K) (k : K) (n : Nat) : ∀ p, Errs P (searchPages g kc k n p) := by
  induction n with
  | zero => intro p; exact .throw trivial
  | succ n ih =>
    intro p
    unfold Map.searchPages
    refine (Errs.scanPage hS hD ..).bind fun r => ?_
    split
    · exact (Errs.noticeKey ..).bind fun _ => .pure _
    · refine (Errs.pageStateCached ..).bind fun st => ?_
      split
      · exact .pure _
      · exact ih _

theorem fetchLoc (g : Geo) (kc : KeyCodec K) (k : K) : Errs P (fetchLoc g kc k) := by
  unfold Map.fetchLoc
  refine Errs.check.bind fun _ => (Errs.fetchCached hS ..).bind fun r => ?_
  split
  · exact .pure _
  · refine (Errs.lastUsed g).bind fun r => ?_
    split
    · exact Errs.unmark.bind fun _ => .pure _
    · refine (Errs.searchPages hS hD ..).bind fun r => ?_
      split
      · exact Errs.unmark.bind fun _ => .pure _
      · refine Errs.unmark.bind fun _ => (Errs.readHeader ..).bind fun r => ?_
        split
        · exact .throw trivial
        · refine (Errs.readItem hS ..).bind fun r => ?_
          split
          · exact .pure _
          · exact .throw trivial
          · exact .throw trivial

theorem migrateLoop (g : Geo) (kc : KeyCodec K) (e n : Nat) : ∀ a w, Errs P (migrateLoop g kc e n a w) := by
  induction n with
  | zero => intro a w; exact .throw trivial
  | succ n ih =>
    intro a w
    unfold Map.migrateLoop
    refine (Errs.itemNext hS ..).bind fun r => ?_
    split
    · exact .pure _
    · refine Errs.get.bind fun s => (Errs.liftSer hD _).bind fun kl => Errs.unmark.bind fun _ => (Errs.fetchLoc hS hD ..).bind fun r => ?_
      split
      · exact .throw trivial
      · refine Errs.get.bind fun s => ?_
        split
        · exact .throw trivial
        · split
          · exact (Errs.noticeKey ..).bind fun _ => (Errs.writeRaw ..).bind fun _ => ih _ _
          · exact ih _ _

theorem migrate (g : Geo) (kc : KeyCodec K) (a b : Nat) : Errs P (migrate g kc a b) :=
  (Errs.migrateLoop hS hD ..).bind fun _ => .openPage ..

theorem mapRepair (g : Geo) (kc : KeyCodec K) : Errs P (Map.tryRepair g kc) := by
  unfold Map.tryRepair
  refine (Errs.modifyCache _).bind fun _ => (Errs.generalRepair g).bind fun _ => (Errs.findFirst ..).bind fun r => ?_
  split
  · exact .pure _
  · refine (Errs.pageStateCached ..).bind fun st => ?_
    split
    · exact .pure _
    · exact (Errs.openPage ..).bind fun _ => (Errs.partialClose ..).bind fun _ => .migrate hS hD ..

theorem fetchItem (g : Geo) (kc : KeyCodec K) (vc : ValCodec V) (k : K) : Errs P (Map.fetchItem g kc vc k) := by
  unfold Map.fetchItem
  refine (Errs.repair (.fetchLoc hS hD ..) (.mapRepair hS hD ..)).bind fun r => ?_
  split
  · exact .pure _
  · refine Errs.get.bind fun s => ?_
    rename_i h _ x
    have : ∀ n, Errs P (K := K) (if h.len.toNat < n then M.throw .panic else do
        let (v, _) ← Map.liftSer (vc.de ((s.buf.take h.len.toNat).drop n))
        Pure.pure (some v)) := by
      intro n
      split
      · exact .throw trivial
      · exact (Errs.liftSer hD _).bind fun _ => .pure _
    dsimp only
    split
    · exact this _
    · exact (Errs.liftSer hD _).bind this

theorem removePage (g : Geo) (kc : KeyCodec K) (k? : Option K) (e n : Nat) : ∀ a, Errs P (Map.removePage g kc k? e n a) := by
  induction n with
  | zero => intro a; exact .throw trivial
  | succ n ih =>
    intro a
    unfold Map.removePage
    refine (Errs.traverse ..).bind fun r => ?_
    split
    · exact .pure _
    · refine (Errs.readItem hS ..).bind fun r => ?_
      split
      · refine Errs.get.bind fun s => ?_
        rename_i nxt _ _ _
        dsimp only
        split
        · refine (Errs.liftSer hD _).bind fun kl => ?_
          refine (Errs.pure _).bind fun hit => ?_
          split
          · exact (Errs.eraseItem ..).bind fun _ => ih _
          · exact ih _
        · exact (Errs.eraseItem ..).bind fun _ => ih _
      · exact ih _

theorem removeIn (g : Geo) (kc : KeyCodec K) (k? : Option K) (l : List Nat) : Errs P (Map.removeIn g kc k? l) := by
  induction l with
  | nil => exact .pure _
  | cons i l ih =>
    unfold Map.removeIn
    refine (Errs.pageStateCached ..).bind fun st => ?_
    split
    · exact ih
    · exact (Errs.removePage hS hD ..).bind fun _ => ih

theorem removeInner (g : Geo) (kc : KeyCodec K) (k? : Option K) : Errs P (Map.removeInner g kc k?) := by
  unfold Map.removeInner
  have h2 : ∀ n, Errs P (K := K) (do Map.removeIn g kc k? (g.pages (g.nextPage n)); unmarkDirty) :=
    fun n => (Errs.removeIn hS hD ..).bind fun _ => .unmark
  have h1 : Errs P (K := K) (do
      let last ← match ← findFirstPage g 0 .partialOpen with
        | some p => Pure.pure p
        | none => do
          let r ← findLastPage g 0 .closed
          Pure.pure (r.getD 0)
      Map.removeIn g kc k? (g.pages (g.nextPage last))
      unmarkDirty) := by
    refine (Errs.findFirst ..).bind fun r => ?_
    split
    · exact h2 _
    · exact (Errs.findLastIn ..).bind fun _ => h2 _
  split
  · exact (Errs.modifyCache _).bind fun _ => h1
  · exact (Errs.modifyCache _).bind fun _ => h1

theorem fetchAll (g : Geo) (kc : KeyCodec K) : Errs P (Map.fetchAll g kc) := by
  unfold Map.fetchAll
  have hl : ∀ r : Except Err Nat, (∀ e, r = .error e → Base e) → Errs P (K := K) (do
      let first ← M.lift r
      M.modify fun s => { s with mit := ⟨first, first, g.dataStart first, g.dataEnd first⟩ }) :=
    fun r hr => (Errs.lift hr).bind fun _ => .modify fun _ => rfl
  refine (Errs.fetchAllFirst g).bindGives (gives_fetchAll g) fun r hr => ?_
  dsimp only
  split
  · exact (Errs.mapRepair hS hD ..).bind fun _ => (Errs.fetchAllFirst g).bindGives (gives_fetchAll g) fun r hr => hl r hr
  · exact hl _ hr

omit hD in
theorem iterItem (g : Geo) (n : Nat) : Errs P (iterItem g n : M K _) := by
  induction n with
  | zero => exact .throw trivial
  | succ n ih =>
    unfold Map.iterItem
    refine Errs.get.bind fun s => (Errs.traverse ..).bind fun r => ?_
    split
    · refine Errs.modifyBind (fun _ => rfl) fun _ => (Errs.readItem hS ..).bind fun r => ?_
      split
      · exact .pure _
      · exact ih
    · exact Errs.modifyBind (fun _ => rfl) fun _ => .pure _

omit hS hD in
theorem iterPage (g : Geo) (n : Nat) : Errs P (iterPage g n : M K _) := by
  induction n with
  | zero => exact .throw trivial
  | succ n ih =>
    unfold Map.iterPage
    refine Errs.modifyBind (fun _ => rfl) fun _ => Errs.get.bind fun s => ?_
    split
    · exact .pure _
    · refine (Errs.pageStateCached ..).attempt fun r hr => ?_
      split
      · exact .throw trivial
      · exact Errs.modifyBind (fun _ => rfl) fun _ => .pure _
      · exact Errs.modifyBind (fun _ => rfl) fun _ => .pure _
      · exact ih

omit hD in
theorem iterLoop (g : Geo) (n : Nat) : Errs P (iterLoop g n : M K _) := by
  induction n with
  | zero => exact .throw trivial
  | succ n ih =>
    unfold Map.iterLoop
    refine (Errs.iterItem hS ..).bind fun r => ?_
    split
    · exact .pure _
    · refine (Errs.iterPage ..).bind fun r => ?_
      split
      · exact ih
      · exact .pure _

theorem mapNext (g : Geo) (kc : KeyCodec K) (vc : ValCodec V) : Errs P (Map.iterNext g kc vc) := by
  unfold Map.iterNext
  refine (Errs.iterLoop hS ..).bind fun r => ?_
  split
  · exact .pure _
  · refine Errs.get.bind fun s => (Errs.liftSer hD _).bind fun _ => ?_
    dsimp only
    split
    · exact .throw trivial
    · exact (Errs.liftSer hD _).bind fun _ => .pure _

/-! Storing. -/

section
variable {k : K} {kc : KeyCodec K} {vser : Nat → Except SerErr (List Byte)} {g : Geo}
  (hk : ∀ n kb, kc.ser k n = .ok kb → kb.length ≤ n) (hv : ∀ n vb, vser n = .ok vb → vb.length ≤ n)
include hk hv

omit hS in
theorem serialize : Errs P (Map.serializeItem kc k vser) := by
  constructor
  intro s
  unfold Map.serializeItem
  cases h1 : kc.ser k s.buf.length with
  | error e =>
    have : (Map.liftSer (K := K) (.error e : Except SerErr (List Byte)) s) = (.error (.serialization e), s) := rfl
    simp only [bind_run, get_run, h1, this]
    exact ⟨trivial, by intro e' h; cases h; exact hD _ _⟩
  | ok kb =>
    have hkl := hk _ _ h1
    cases h2 : vser (s.buf.length - kb.length) with
    | error e =>
      simp only [bind_run, get_run, h1, h2, Map.liftSer, M.lift, M.modify]
      refine ⟨?_, by intro e' h; cases h; exact hD _ _⟩
      rw [List.length_append, List.length_drop]; omega
    | ok vb =>
      have hvl := hv _ _ h2
      simp only [bind_run, get_run, h1, h2, Map.liftSer, M.lift, M.modify]
      refine ⟨?_, by intro e' h; cases h⟩
      change (kb ++ vb ++ (kb ++ s.buf.drop kb.length).drop (kb.length + vb.length)).length = _
      simp only [List.length_append, List.length_drop]; omega

omit hS hk hv hD in
theorem serialize_ok {s : St K} {d : List Byte} (h : (Map.serializeItem kc k vser s).1 = .ok d) :
    ∃ kb vb, kc.ser k s.buf.length = .ok kb ∧ vser (s.buf.length - kb.length) = .ok vb ∧ d = kb ++ vb := by
  unfold Map.serializeItem at h
  cases h1 : kc.ser k s.buf.length with
  | error e =>
    simp only [bind_run, get_run, h1, Map.liftSer, M.lift] at h
    cases h
  | ok kb =>
    cases h2 : vser (s.buf.length - kb.length) with
    | error e =>
      simp only [bind_run, get_run, h1, h2, Map.liftSer, M.lift, M.modify] at h
      cases h
    | ok vb =>
      simp only [bind_run, get_run, h1, h2, Map.liftSer, M.lift, M.modify] at h
      cases h
      exact ⟨kb, vb, rfl, h2, rfl⟩

variable (hB : ∀ n kb vb, kc.ser k n = .ok kb → vser (n - kb.length) = .ok vb → g.tooBig (kb ++ vb).length = true → P.ok n .itemTooBig)
include hB

theorem storeRound : Errs P (Map.storeRound g kc k vser) := by
  unfold Map.storeRound
  refine (Errs.findFirst ..).bind fun r => ?_
  split
  · rename_i p
    refine (Errs.pageStateCached ..).bind fun st => ?_
    split
    · exact .throw trivial
    · refine (Errs.serialize hD hk hv).known fun s d hd s' hs' => ?_
      split
      · rename_i hbig
        obtain ⟨kb, vb, h1, h2, rfl⟩ := serialize_ok hd
        rw [← hs'] at h1 h2
        exact ⟨rfl, by intro e h; cases h; exact hB _ _ _ h1 h2 hbig⟩
      · refine Errs.out (P := P) ?_ s'
        refine (Errs.freeSpot ..).bind fun sp => ?_
        split
        · exact (Errs.noticeKey ..).bind fun _ => (Errs.writeNew ..).bind fun _ => Errs.unmark.bind fun _ => .pure _
        · refine (Errs.closePage ..).bind fun _ => Errs.bind ?_ fun _ => .pure _
          unfold Map.storeAdvance
          refine (Errs.pageStateCached ..).bind fun st => ?_
          split
          · exact .throw trivial
          · refine (Errs.partialClose ..).bind fun _ => (Errs.pageStateCached ..).bind fun _ => ?_
            split
            · exact .pure _
            · exact .migrate hS hD ..
  · refine (Errs.findFirst ..).bind fun r => ?_
    split
    · exact .throw trivial
    · exact (Errs.partialClose ..).bind fun _ => .pure _

theorem store (hF : ∀ n, P.ok n .fullStorage) : Errs P (withRepair (Map.storeInner g kc k vser) (Map.tryRepair g kc)) := by
  refine .repair (Errs.check.bind fun _ => ?_) (.mapRepair hS hD ..)
  generalize g.pageCount = n
  induction n with
  | zero => exact Errs.unmark.bind fun _ => .throwP hF
  | succ n ih =>
    unfold Map.storeLoop
    refine (Errs.storeRound hS hD hk hv hB).bind fun r => ?_
    split
    · exact .pure _
    · exact ih
end
end
end
end Errs
end SeqStorage
