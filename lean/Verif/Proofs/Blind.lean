import Verif.Proofs.CutQueue
/-
The contents of the buffer that is handed to a call of the queue do not matter.
-/
set_option linter.unusedSectionVars false

namespace SeqStorage.Blind
open SeqStorage M Spec Proofs

variable {K : Type} [DecidableEq K] {α β : Type} {g : Geo}

/-- The function neither looks at the buffer nor changes it. -/
def Off (m : M K α) : Prop :=
  ∀ s, (m s).2.buf = s.buf ∧ ∀ b, m { s with buf := b } = ((m s).1, { (m s).2 with buf := b })

/-- With another buffer of the same length, with the same first `n` bytes, the function does the same; then the first `E a` bytes of
the buffers are the same. -/
def On (n : Nat) (E : α → Nat) (m : M K α) : Prop :=
  ∀ s b, b.length = s.buf.length → b.take n = s.buf.take n →
    ∃ b', m { s with buf := b } = ((m s).1, { (m s).2 with buf := b' }) ∧ b'.length = (m s).2.buf.length ∧
      ∀ a, (m s).1 = .ok a → b'.take (E a) = (m s).2.buf.take (E a)

theorem take_mono {b c : List Byte} {n k : Nat} (h : b.take n = c.take n) (hk : k ≤ n) : b.take k = c.take k := by
  have := congrArg (List.take k) h
  simpa [List.take_take, Nat.min_eq_left hk] using this

theorem Off.on {m : M K α} (h : Off m) {n : Nat} {E : α → Nat} (hE : ∀ a, E a ≤ n) : On n E m := by
  intro s b hb hn
  refine ⟨b, (h s).2 b, ?_, fun a _ => ?_⟩
  · rw [(h s).1]; exact hb
  · rw [(h s).1]; exact take_mono hn (hE a)

theorem On.weaken {m : M K α} {n : Nat} {E : α → Nat} (h : On 0 E m) : On n E m := fun s b hb _ => h s b hb (by simp)

theorem On.bind {m : M K α} {f : α → M K β} {n : Nat} {E : α → Nat} {E' : β → Nat} (hm : On n E m) (hf : ∀ a, On (E a) E' (f a)) :
    On n E' (m >>= f) := by
  intro s b hb hn
  obtain ⟨b', h1, h2, h3⟩ := hm s b hb hn
  change ∃ b', M.bind m f _ = ((M.bind m f s).1, { (M.bind m f s).2 with buf := b' }) ∧ b'.length = (M.bind m f s).2.buf.length ∧
    ∀ a, (M.bind m f s).1 = .ok a → b'.take (E' a) = (M.bind m f s).2.buf.take (E' a)
  unfold M.bind
  rw [h1]
  rcases hr : m s with ⟨r, t⟩
  rw [hr] at h2 h3
  cases r with
  | error e => exact ⟨b', rfl, h2, fun a h => by simp at h⟩
  | ok a => exact hf a t b' h2 (h3 a rfl)

theorem Off.pure (a : α) : Off (K := K) (pure a : M K α) := fun _ => ⟨rfl, fun _ => rfl⟩
theorem Off.throw (e : Err) : Off (K := K) (M.throw e : M K α) := fun _ => ⟨rfl, fun _ => rfl⟩
theorem Off.lift (r : Except Err α) : Off (K := K) (M.lift r : M K α) := fun _ => ⟨rfl, fun _ => rfl⟩

theorem On.throw (n : Nat) (E : α → Nat) (e : Err) : On (K := K) n E (M.throw e : M K α) :=
  fun _ b hb _ => ⟨b, rfl, hb, fun _ h => by simp [M.throw] at h⟩

theorem On.pure {n : Nat} {E : α → Nat} {a : α} (h : E a ≤ n) : On (K := K) n E (pure a : M K α) :=
  fun _ b hb hn => ⟨b, rfl, hb, fun a' h' => by
    obtain rfl : a = a' := by simpa [Pure.pure, M.pure] using h'
    exact take_mono hn h⟩

theorem Off.bind {m : M K α} {f : α → M K β} (hm : Off m) (hf : ∀ a, Off (f a)) : Off (m >>= f) := by
  intro s
  obtain ⟨h1, h2⟩ := hm s
  show (M.bind m f s).2.buf = _ ∧ ∀ b, M.bind m f _ = ((M.bind m f s).1, { (M.bind m f s).2 with buf := b })
  unfold M.bind
  rcases hr : m s with ⟨r, t⟩
  rw [hr] at h1 h2
  cases r with
  | error e => exact ⟨h1, fun b => by rw [h2]⟩
  | ok a =>
    obtain ⟨i1, i2⟩ := hf a t
    exact ⟨i1.trans h1, fun b => by rw [h2]; exact i2 b⟩

theorem Off.attempt {m : M K α} (hm : Off m) : Off (M.attempt m) := by
  intro s
  obtain ⟨h1, h2⟩ := hm s
  refine ⟨h1, fun b => ?_⟩
  unfold M.attempt; rw [h2]

theorem Off.get {f : St K → M K β} (hf : ∀ (s : St K) (b : List Byte), f { s with buf := b } = f s) (h : ∀ s, Off (f s)) : Off (M.get >>= f) := by
  intro s
  refine ⟨(h s s).1, fun b => ?_⟩
  show f { s with buf := b } { s with buf := b } = _
  rw [hf]
  exact (h s s).2 b

theorem Off.modifyCache (f : Cache K → Cache K) : Off (SeqStorage.modifyCache f) := fun _ => ⟨rfl, fun _ => rfl⟩
theorem Off.setIter (f : QIter → QIter) : Off (K := K) (Queue.setIter f) := fun _ => ⟨rfl, fun _ => rfl⟩

theorem Off.updateCache (f : Cache K → Except Err (Cache K)) : Off (SeqStorage.updateCache f) := by
  intro s
  unfold SeqStorage.updateCache
  dsimp only
  cases f s.cache with
  | ok c => exact ⟨rfl, fun _ => rfl⟩
  | error e => exact ⟨rfl, fun _ => rfl⟩

theorem Off.flashRead (a n : Nat) : Off (K := K) (flashRead g a n) := by
  intro s
  unfold SeqStorage.flashRead
  dsimp only
  cases s.fl.read g a n with
  | ok c => exact ⟨rfl, fun _ => rfl⟩
  | error e => exact ⟨rfl, fun _ => rfl⟩

theorem Off.flashWrite (a : Nat) (bs : List Byte) : Off (K := K) (flashWrite g a bs) := fun _ => ⟨rfl, fun _ => rfl⟩
theorem Off.flashErase (a b : Nat) : Off (K := K) (flashErase g a b) := fun _ => ⟨rfl, fun _ => rfl⟩

theorem On.withRepair {f : M K α} {r : M K Unit} {n : Nat} {E : α → Nat} (hf : On 0 E f) (hr : Off r) : On n E (SeqStorage.withRepair f r) := by
  refine .weaken ?_
  intro s b hb hn
  obtain ⟨b', h1, h2, h3⟩ := hf s b hb hn
  rw [Short.withRepair_eq, Short.withRepair_eq, h1]
  rcases hq : f s with ⟨q, t⟩
  rw [hq] at h2 h3
  rcases q with e | a
  · cases e
    case corrupted => exact ((hr.on (n := 0) (E := fun _ => 0) (fun _ => Nat.le_refl _)).bind fun _ => hf) t b' h2 (by simp)
    all_goals exact ⟨b', rfl, h2, fun _ h => by simp [Short.afterTry] at h⟩
  · exact ⟨b', rfl, h2, h3⟩

theorem Off.withRepair {f : M K α} {r : M K Unit} (hf : Off f) (hr : Off r) : Off (SeqStorage.withRepair f r) := by
  intro s
  obtain ⟨h1, h2⟩ := hf s
  suffices h : (Short.afterTry f r (f s)).2.buf = s.buf ∧
      ∀ b, Short.afterTry f r (f { s with buf := b }) = ((Short.afterTry f r (f s)).1, { (Short.afterTry f r (f s)).2 with buf := b }) by
    refine ⟨?_, fun b => ?_⟩
    · rw [Short.withRepair_eq]; exact h.1
    · rw [Short.withRepair_eq, Short.withRepair_eq]; exact h.2 b
  rcases hq : f s with ⟨q, t⟩
  rw [hq] at h1 h2
  rcases q with e | a
  · cases e
    case corrupted =>
      obtain ⟨i1, i2⟩ := (hr.bind fun _ => hf) t
      exact ⟨i1.trans h1, fun b => by rw [h2]; exact i2 b⟩
    all_goals exact ⟨h1, fun _ => by rw [h2]; rfl⟩
  · exact ⟨h1, fun _ => by rw [h2]; rfl⟩

/-- One step through the body of a function. -/
syntax "off_step" : tactic

macro_rules | `(tactic| off_step) => `(tactic| split)
macro_rules | `(tactic| off_step) => `(tactic| with_reducible refine Off.bind ?_ fun _ => ?_)
macro_rules | `(tactic| off_step) => `(tactic| with_reducible refine Off.attempt ?_)
macro_rules | `(tactic| off_step) => `(tactic| with_reducible refine Off.withRepair ?_ ?_)
macro_rules | `(tactic| off_step) => `(tactic| (with_reducible refine Off.get ?_ fun _ => ?_); focus (intros; rfl))
macro_rules | `(tactic| off_step) => `(tactic| with_reducible exact Off.lift _)
macro_rules | `(tactic| off_step) => `(tactic| with_reducible exact Off.throw _)
macro_rules | `(tactic| off_step) => `(tactic| with_reducible exact Off.pure _)
macro_rules | `(tactic| off_step) => `(tactic| with_reducible exact Off.setIter _)
macro_rules | `(tactic| off_step) => `(tactic| with_reducible exact Off.flashRead _ _)
macro_rules | `(tactic| off_step) => `(tactic| with_reducible exact Off.flashWrite _ _)
macro_rules | `(tactic| off_step) => `(tactic| with_reducible exact Off.flashErase _ _)
macro_rules | `(tactic| off_step) => `(tactic| with_reducible exact Off.modifyCache _)

/-- Go through the body of a function. -/
macro "offs" : tactic =>
  `(tactic| ((try dsimp only); repeat' (first | with_reducible assumption | off_step | with_reducible apply_assumption | dsimp only)))

theorem Off.unmarkDirty : Off (K := K) SeqStorage.unmarkDirty := Off.modifyCache _
macro_rules | `(tactic| off_step) => `(tactic| with_reducible exact Off.unmarkDirty)
theorem Off.checkDirty : Off (K := K) SeqStorage.checkDirty := Off.modifyCache _
macro_rules | `(tactic| off_step) => `(tactic| with_reducible exact Off.checkDirty)
theorem Off.noticePage (i : Nat) (st : PageState) (d : Bool) : Off (K := K) (SeqStorage.noticePage i st d) := Off.updateCache _
macro_rules | `(tactic| off_step) => `(tactic| with_reducible exact Off.noticePage _ _ _)

theorem Off.getPageState (i : Nat) : Off (K := K) (SeqStorage.getPageState g i) := by
  unfold SeqStorage.getPageState; offs
macro_rules | `(tactic| off_step) => `(tactic| with_reducible exact Off.getPageState _)

theorem Off.getPageStateCached (i : Nat) : Off (K := K) (SeqStorage.getPageStateCached g i) := by
  unfold SeqStorage.getPageStateCached; offs
macro_rules | `(tactic| off_step) => `(tactic| with_reducible exact Off.getPageStateCached _)

theorem Off.openPage (i : Nat) : Off (K := K) (SeqStorage.openPage g i) := by
  unfold SeqStorage.openPage; offs
macro_rules | `(tactic| off_step) => `(tactic| with_reducible exact Off.openPage _)

theorem Off.partialClosePage (i : Nat) : Off (K := K) (SeqStorage.partialClosePage g i) := by
  unfold SeqStorage.partialClosePage; offs
macro_rules | `(tactic| off_step) => `(tactic| with_reducible exact Off.partialClosePage _)

theorem Off.closePage (i : Nat) : Off (K := K) (SeqStorage.closePage g i) := by
  unfold SeqStorage.closePage; offs
macro_rules | `(tactic| off_step) => `(tactic| with_reducible exact Off.closePage _)

theorem Off.findFirstIn (st : PageState) (l : List Nat) : Off (K := K) (SeqStorage.findFirstIn g st l) := by
  induction l with
  | nil => exact .pure _
  | cons i l ih => unfold SeqStorage.findFirstIn; offs

theorem Off.findFirstPage (i : Nat) (st : PageState) : Off (K := K) (SeqStorage.findFirstPage g i st) := .findFirstIn _ _
macro_rules | `(tactic| off_step) => `(tactic| with_reducible exact Off.findFirstPage _ _)

theorem Off.generalRepairIn (l : List Nat) : Off (K := K) (SeqStorage.generalRepairIn g l) := by
  induction l with
  | nil => exact .pure _
  | cons i l ih => unfold SeqStorage.generalRepairIn; offs

theorem Off.readHeader (a e : Nat) : Off (K := K) (SeqStorage.readHeader g a e) := by
  unfold SeqStorage.readHeader; offs
macro_rules | `(tactic| off_step) => `(tactic| with_reducible exact Off.readHeader _ _)

theorem Off.writeNew (a : Nat) (d : List Byte) : Off (K := K) (SeqStorage.writeNew g a d) := by
  unfold SeqStorage.writeNew SeqStorage.writeRaw SeqStorage.writeHeader; offs
macro_rules | `(tactic| off_step) => `(tactic| with_reducible exact Off.writeNew _ _)

theorem Off.eraseItem (h : Header) (a : Nat) : Off (K := K) (SeqStorage.eraseItem g h a) := by
  unfold SeqStorage.eraseItem SeqStorage.writeHeader; offs
macro_rules | `(tactic| off_step) => `(tactic| with_reducible exact Off.eraseItem _ _)

theorem Off.traverse (e : Nat) (skip : Header → Bool) (n a : Nat) : Off (K := K) (SeqStorage.traverse g e skip n a) := by
  induction n generalizing a with
  | zero => exact .throw _
  | succ n ih => unfold SeqStorage.traverse; offs
macro_rules | `(tactic| off_step) => `(tactic| with_reducible exact Off.traverse _ _ _ _)

theorem Off.findFreeSpot (a e n : Nat) : Off (K := K) (SeqStorage.findFreeSpot g a e n) := by
  unfold SeqStorage.findFreeSpot; offs
macro_rules | `(tactic| off_step) => `(tactic| with_reducible exact Off.findFreeSpot _ _ _)

theorem Off.isPageEmpty (i : Nat) (st : PageState) : Off (K := K) (SeqStorage.isPageEmpty g i st) := by
  unfold SeqStorage.isPageEmpty; offs
macro_rules | `(tactic| off_step) => `(tactic| with_reducible exact Off.isPageEmpty _ _)

/-! ### The queue -/

theorem Off.findYoungest : Off (K := K) (Queue.findYoungest g) := by
  unfold Queue.findYoungest; offs
macro_rules | `(tactic| off_step) => `(tactic| with_reducible exact Off.findYoungest)

theorem Off.findOldest : Off (K := K) (Queue.findOldest g) := by
  unfold Queue.findOldest; offs
macro_rules | `(tactic| off_step) => `(tactic| with_reducible exact Off.findOldest)

theorem Off.tryRepair : Off (K := K) (Queue.tryRepair g) := (Off.modifyCache _).bind fun _ => .generalRepairIn _
macro_rules | `(tactic| off_step) => `(tactic| with_reducible exact Off.tryRepair)

theorem Off.advancePage (c : Nat) (o : Bool) : Off (K := K) (Queue.advancePage g c o) := by
  unfold Queue.advancePage; offs
macro_rules | `(tactic| off_step) => `(tactic| with_reducible exact Off.advancePage _ _)

theorem Off.push (d : List Byte) (o : Bool) : Off (K := K) (Queue.push g d o) := by
  unfold Queue.push Queue.pushInner; offs

theorem Off.nextItemAddress (i : Nat) : Off (K := K) (Queue.nextItemAddress g i) := by
  unfold Queue.nextItemAddress; offs
macro_rules | `(tactic| off_step) => `(tactic| with_reducible exact Off.nextItemAddress _)

theorem Off.findMaxFit : Off (K := K) (Queue.findMaxFit g) := by
  unfold Queue.findMaxFit Queue.findMaxFitInner; offs

theorem Off.spaceLeftPage (i : Nat) : Off (K := K) (Queue.spaceLeftPage g i) := by
  unfold Queue.spaceLeftPage; offs
macro_rules | `(tactic| off_step) => `(tactic| with_reducible exact Off.spaceLeftPage _)

theorem Off.spaceLeftIn (n : Nat) (l : List Nat) : Off (K := K) (Queue.spaceLeftIn g n l) := by
  induction l generalizing n with
  | nil => exact .pure _
  | cons i l ih => unfold Queue.spaceLeftIn; offs
macro_rules | `(tactic| off_step) => `(tactic| with_reducible exact Off.spaceLeftIn _ _)

theorem Off.spaceLeft : Off (K := K) (Queue.spaceLeft g) := by
  unfold Queue.spaceLeft Queue.spaceLeftInner; offs

theorem Off.iterNew : Off (K := K) (Queue.iterNew g) := by
  have h : ∀ q : QIter, Off (K := K) (M.modify fun s => { s with qit := q }) := fun _ _ => ⟨rfl, fun _ => rfl⟩
  unfold Queue.iterNew Queue.findStart; offs

theorem Off.entryPop (h : Header) (a : Nat) : Off (K := K) (Queue.entryPop g h a) := by
  unfold Queue.entryPop; offs

/-! ### Reading an item -/

/-- The bytes of the buffer that a read item stands for. -/
def used : MaybeItem → Nat
  | .present h => h.len.toNat
  | _ => 0

theorem On.get {f : St K → M K β} {n : Nat} {E : β → Nat}
    (hf : ∀ (s : St K) (b : List Byte), b.length = s.buf.length → b.take n = s.buf.take n → f { s with buf := b } = f s)
    (h : ∀ s, On n E (f s)) : On n E (M.get >>= f) := by
  intro s b hb hn
  show ∃ b', f { s with buf := b } { s with buf := b } = ((f s s).1, { (f s s).2 with buf := b' }) ∧ b'.length = (f s s).2.buf.length ∧
    ∀ a, (f s s).1 = .ok a → b'.take (E a) = (f s s).2.buf.take (E a)
  rw [hf s b hb hn]
  exact h s s b hb hn

theorem On.readIntoBuf (a n : Nat) : On (K := K) 0 (fun _ => n) (SeqStorage.readIntoBuf g a n) := by
  unfold SeqStorage.readIntoBuf
  split
  · next h => exact .pure (by omega)
  intro s b hb _
  show ∃ b', M.bind (flashRead g a n) (fun bs => M.modify fun s => { s with buf := bs ++ s.buf.drop n }) { s with buf := b } = _ ∧ _
  have e1 : ∀ t : St K, (flashRead g a n >>= fun bs => M.modify fun s => { s with buf := bs ++ s.buf.drop n }) t =
      match t.fl.read g a n with
      | .ok bs => (.ok (), { t with buf := bs ++ t.buf.drop n })
      | .error e => (.error e, { t with fl := t.fl.fault }) := by
    intro t
    show M.bind _ _ t = _
    unfold M.bind flashRead M.modify
    cases t.fl.read g a n <;> rfl
  change ∃ b', (flashRead g a n >>= fun bs => M.modify fun s => { s with buf := bs ++ s.buf.drop n }) { s with buf := b } = _ ∧ _
  simp only [e1]
  cases hr : s.fl.read g a n with
  | error e => exact ⟨b, rfl, hb, fun _ h => by simp at h⟩
  | ok bs =>
    have hl := Short.read_length hr
    refine ⟨bs ++ b.drop n, rfl, by simp [hb], fun _ _ => ?_⟩
    simp [List.take_append_of_le_length (Nat.le_of_eq hl.symm)]

theorem On.readItem (w : g.WF) (h : Header) (a e : Nat) : On (K := K) 0 used (SeqStorage.readItem g h a e) := by
  have hle := w.le_roundUp h.len.toNat
  unfold SeqStorage.readItem
  split
  · exact .pure (Nat.le_refl _)
  split
  · exact .pure (Nat.le_refl _)
  refine .get (fun s b hb _ => by dsimp only; rw [hb]) fun s => ?_
  split
  · exact On.throw (K := K) _ _ _
  refine (On.readIntoBuf _ _).bind fun _ => .get (fun s b _ hn => by dsimp only; rw [take_mono hn hle]) fun s => ?_
  split
  · exact .pure hle
  · exact .pure (Nat.zero_le _)

/-- The same for the iterator. -/
def held : Option (Header × Nat) → Nat
  | some (h, _) => h.len.toNat
  | none => 0

theorem Off.keep {m : M K α} (h : Off m) {n : Nat} : On n (fun _ => n) m := h.on fun _ => Nat.le_refl _

theorem On.nextScan (w : g.WF) (p a : Nat) : On (K := K) 0 held (Queue.nextScan g p a) := by
  unfold Queue.nextScan
  refine (Off.traverse _ _ _ _).keep.bind fun r => ?_
  split
  · refine (On.readItem w _ _ _).bind fun r => ?_
    split
    · exact (Off.setIter _).keep.bind fun _ => .pure (Nat.zero_le _)
    · exact On.throw (K := K) _ _ _
    · exact (Off.setIter _).keep.bind fun _ => (Off.setIter _).keep.bind fun _ => Off.unmarkDirty.keep.bind fun _ => .pure (Nat.le_refl _)
  · exact (Off.setIter _).keep.bind fun _ => .pure (Nat.zero_le _)

theorem On.nextLoop (w : g.WF) (n : Nat) : On (K := K) 0 held (Queue.nextLoop g n) := by
  induction n with
  | zero => exact On.throw (K := K) _ _ _
  | succ n ih =>
    have h1 : ∀ p a, On (K := K) 0 held (do
        match ← Queue.nextScan g p a with
        | some r => Pure.pure (some r)
        | none => Queue.nextLoop g n) := fun p a => (On.nextScan w p a).bind fun r => by
      cases r with
      | some r => exact .pure (Nat.le_refl _)
      | none => exact .weaken ih
    unfold Queue.nextLoop
    refine .get (fun _ _ _ _ => rfl) fun s => ?_
    split
    · refine (Off.getPageStateCached _).keep.bind fun _ => ?_
      split
      · exact Off.unmarkDirty.keep.bind fun _ => .pure (Nat.zero_le _)
      · split
        · exact (Off.openPage _).keep.bind fun _ => (Off.setIter _).keep.bind fun _ => h1 _ _
        · exact (Off.setIter _).keep.bind fun _ => h1 _ _
    · exact h1 _ _

theorem On.iterNext (w : g.WF) : On (K := K) 0 (fun _ => 0) (Queue.iterNext g) := by
  unfold Queue.iterNext
  refine (Off.setIter _).keep.bind fun _ => ?_
  refine (On.withRepair (Off.checkDirty.keep.bind fun _ => On.nextLoop w _) Off.tryRepair).bind fun r => ?_
  split
  · refine .get (fun s b hb hn => ?_) fun s => ?_
    · have hn : b.take _ = s.buf.take _ := hn
      dsimp only [held] at hn ⊢
      rw [hb, hn]
    · split
      · exact On.throw (K := K) _ _ _
      · exact .pure (Nat.zero_le _)
  · exact .pure (Nat.zero_le _)

theorem On.peek (w : g.WF) : On (K := K) 0 (fun _ => 0) (Queue.peek g) := by
  unfold Queue.peek
  refine Off.iterNew.keep.bind fun _ => (On.iterNext w).bind fun r => ?_
  split <;> exact .pure (Nat.zero_le _)

theorem On.pop (w : g.WF) : On (K := K) 0 (fun _ => 0) (Queue.pop g) := by
  unfold Queue.pop
  refine Off.iterNew.keep.bind fun _ => (On.iterNext w).bind fun r => ?_
  split
  · exact (Off.entryPop _ _).keep.bind fun _ => .pure (Nat.zero_le _)
  · exact .pure (Nat.zero_le _)

end SeqStorage.Blind
