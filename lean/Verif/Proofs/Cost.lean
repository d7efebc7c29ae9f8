import Verif.Proofs.Leaves
import Verif.Proofs.SafeMap
/-
How often a call erases a page, on whatever flash.
-/

set_option linter.unusedSectionVars false

namespace SeqStorage
open M Spec

variable {K : Type} [DecidableEq K] {α β V : Type} {g : Geo}

/-- The flash was not erased. -/
def SameErases : FlashRel := ⟨fun f f' => f'.erases = f.erases, fun _ => rfl, fun _ _ _ h1 h2 => h2.trans h1, fun _ => rfl⟩

/-- From this state the function erases at most `k` times. -/
def CostAt (m : M K α) (k : Nat) (s : St K) : Prop := (m s).2.fl.erases.length ≤ s.fl.erases.length + k

/-- The function erases at most `k` times. -/
structure Cost (m : M K α) (k : Nat) : Prop where
  out : ∀ s, CostAt m k s

namespace Cost

theorem free {m : M K α} {k : Nat} (h : Leaves SameErases m) : Cost m k :=
  ⟨fun s => by have : (m s).2.fl.erases = s.fl.erases := h.out s; unfold CostAt; rw [this]; omega⟩

theorem mono {m : M K α} {k k' : Nat} (h : Cost m k) (hk : k ≤ k') : Cost m k' :=
  ⟨fun s => Nat.le_trans (h.out s) (Nat.add_le_add_left hk _)⟩

theorem pure {k : Nat} (a : α) : Cost (pure a : M K α) k := free (.pure a)
theorem throw {k : Nat} (e : Err) : Cost (M.throw e : M K α) k := free (.throw e)

theorem bind {m : M K α} {f : α → M K β} {k l : Nat} (h : Cost m k) (hf : ∀ a, Cost (f a) l) : Cost (m >>= f) (k + l) := by
  constructor
  intro s
  unfold CostAt
  rw [bind_run]
  have hm := h.out s
  unfold CostAt at hm
  generalize m s = r at hm ⊢
  obtain ⟨r, s1⟩ := r
  cases r with
  | ok a =>
    have := (hf a).out s1
    unfold CostAt at this
    dsimp only at hm ⊢
    omega
  | error e => dsimp only at hm ⊢; omega

/-- Something free, and then the rest. -/
theorem after {m : M K α} {f : α → M K β} {k : Nat} (h : Leaves SameErases m) (hf : ∀ a, Cost (f a) k) : Cost (m >>= f) k := by
  have := (free (k := 0) h).bind hf
  rwa [Nat.zero_add] at this

/-- Something free at the end. -/
theorem then' {m : M K α} {f : α → M K β} {k : Nat} (h : Cost m k) (hf : ∀ a, Leaves SameErases (f a)) : Cost (m >>= f) k :=
  h.bind (l := 0) fun a => free (hf a)

theorem attempt {m : M K α} {f : Except Err α → M K β} {k l : Nat} (h : Cost m k) (hf : ∀ r, Cost (f r) l) :
    Cost (M.attempt m >>= f) (k + l) := by
  constructor
  intro s
  unfold CostAt
  rw [bind_ok (attempt_run m s)]
  have h1 := h.out s
  have h2 := (hf (m s).1).out (m s).2
  unfold CostAt at h1 h2
  omega

theorem repair {m : M K α} {r : M K Unit} {k l : Nat} (h : Cost m k) (hr : Cost r l) : Cost (withRepair m r) (k + (l + k)) := by
  unfold withRepair
  refine h.attempt fun x => ?_
  split
  · exact hr.bind fun _ => h
  · exact free (.lift _)

end Cost

namespace Leaves

theorem keepWrite (g : Geo) (a : Nat) (bs : List Byte) : Leaves SameErases (flashWrite g a bs : M K Unit) := by
  constructor
  intro s
  change (s.fl.write g a bs).2.erases = s.fl.erases
  unfold Flash.write
  split
  · rfl
  · split
    · rfl
    · rfl

theorem keepPartial (g : Geo) (i : Nat) : Leaves SameErases (partialClosePage g i : M K PageState) := by
  unfold partialClosePage
  refine (Leaves.pageStateCached g i).bind fun cur => ?_
  split
  · exact .pure _
  · exact (Leaves.noticePage ..).bind fun _ => (Leaves.keepWrite ..).bind fun _ => .pure _

theorem keepClose (g : Geo) (i : Nat) : Leaves SameErases (closePage g i : M K Unit) := by
  unfold SeqStorage.closePage
  refine (Leaves.keepPartial g i).bind fun cur => ?_
  split
  · exact .pure _
  · exact (Leaves.noticePage ..).bind fun _ => .keepWrite ..

theorem keepRaw (g : Geo) (h : Header) (d : List Byte) (a : Nat) : Leaves SameErases (writeRaw g h d a : M K Unit) := by
  unfold SeqStorage.writeRaw
  refine (Leaves.modifyCache _).bind fun _ => (Leaves.keepWrite ..).bind fun _ => ?_
  dsimp only
  have : ∀ u : Unit, Leaves SameErases (K := K) (if (d.drop (g.roundDown d.length)).length ≠ 0 then
      flashWrite g (a + g.hl + g.roundDown d.length) (d.drop (g.roundDown d.length) ++ List.replicate (g.roundUp (d.drop (g.roundDown d.length)).length - (d.drop (g.roundDown d.length)).length) 0#8)
      else Pure.pure ()) := by
    intro _
    split
    · exact .keepWrite ..
    · exact .pure _
  split
  · exact (Leaves.keepWrite ..).bind this
  · exact this ()

theorem keepEraseItem (g : Geo) (h : Header) (a : Nat) : Leaves SameErases (eraseItem g h a : M K Unit) :=
  (Leaves.modifyCache _).bind fun _ => .keepWrite ..

theorem findLastIn {R : FlashRel} (g : Geo) (st : PageState) (l : List Nat) : ∀ x, Leaves R (findLastIn g st x l : M K (Option Nat)) := by
  induction l with
  | nil => intro x; exact .pure _
  | cons i l ih =>
    intro x
    unfold SeqStorage.findLastIn
    refine (Leaves.pageStateCached g i).bind fun cur => ?_
    split
    · exact ih _
    · split
      · exact .pure _
      · exact ih _

theorem freeSpot {R : FlashRel} (g : Geo) (a e n : Nat) : Leaves R (findFreeSpot g a e n : M K _) := by
  unfold findFreeSpot
  refine Leaves.get.bind fun s => ?_
  dsimp only
  split
  · refine (Leaves.pure _).bind fun _ => ?_
    split
    · split <;> exact .pure _
    · exact .pure _
  · refine (Leaves.traverse ..).bind fun _ => (Leaves.pure _).bind fun _ => ?_
    split
    · split <;> exact .pure _
    · exact .pure _

end Leaves

namespace Cost

theorem openPage (g : Geo) (i : Nat) : Cost (openPage g i : M K Unit) 1 := by
  refine after (.noticePage ..) fun _ => ⟨fun s => ?_⟩
  change (s.fl.erase g _ _).2.erases.length ≤ _
  unfold Flash.erase
  split
  · exact Nat.le_succ _
  · split
    · exact Nat.le_succ _
    · split
      · exact Nat.le_succ _
      · exact Nat.le_refl _

theorem generalRepair (g : Geo) : Cost (tryGeneralRepair g : M K Unit) g.pageCount := by
  have : ∀ l : List Nat, Cost (K := K) (generalRepairIn g l) l.length := by
    intro l
    induction l with
    | nil => exact pure _
    | cons i l ih =>
      unfold generalRepairIn
      have := (free (k := 0) (Leaves.pageState (K := K) (R := SameErases) g i)).attempt (l := l.length + 1) (f := fun r =>
        match r with
        | .error .corrupted => do
          SeqStorage.openPage g i
          generalRepairIn g l
        | _ => generalRepairIn g l) fun r => by
          split
          · exact ((openPage g i).bind fun _ => ih).mono (by omega)
          · exact ih.mono (by omega)
      rw [Nat.zero_add] at this
      exact this
  have h := this (g.pages 0)
  rwa [show (g.pages 0).length = g.pageCount by simp [Geo.pages]] at h

/-! ### The queue -/

section
open Queue

theorem queueRepair (g : Geo) : Cost (Queue.tryRepair g : M K Unit) g.pageCount :=
  after (.modifyCache _) fun _ => generalRepair g

theorem advance (g : Geo) (cur : Nat) (o : Bool) : Cost (advancePage g cur o : M K Nat) 1 := by
  unfold advancePage
  refine after (.pageStateCached ..) fun st => ?_
  dsimp only
  have close : ∀ u : Unit, Leaves SameErases (K := K) (do
      let _ ← partialClosePage g (g.nextPage cur)
      Pure.pure (g.dataStart (g.nextPage cur))) := fun _ => (Leaves.keepPartial ..).bind fun _ => .pure _
  have go : ∀ single : Bool, Cost (K := K) (do
      SeqStorage.openPage g (g.nextPage cur)
      if single then Pure.pure () else closePage g cur
      let _ ← partialClosePage g (g.nextPage cur)
      Pure.pure (g.dataStart (g.nextPage cur))) 1 := by
    intro single
    refine (openPage g _).then' fun _ => ?_
    dsimp only
    split
    · exact (Leaves.pure ()).bind close
    · exact (Leaves.keepClose ..).bind close
  have rest : ∀ (single : Bool) (empty : Bool), Cost (K := K) (if empty = false then (do
        unmarkDirty
        M.throw .fullStorage) else do
      SeqStorage.openPage g (g.nextPage cur)
      if single then Pure.pure () else closePage g cur
      let _ ← partialClosePage g (g.nextPage cur)
      Pure.pure (g.dataStart (g.nextPage cur))) 1 := by
    intro single empty
    split
    · exact free (Leaves.unmark.bind fun _ => .throw _)
    · exact go single
  split
  · exact free ((Leaves.keepClose ..).bind close)
  · exact throw _
  · split
    · exact after (.pure _) fun e => rest _ e
    · exact after (.isPageEmpty ..) fun e => rest _ e

theorem push (g : Geo) (d : List Byte) (o : Bool) : Cost (Queue.push g d o : M K Unit) (g.pageCount + 2) := by
  have h : Cost (K := K) (pushInner g d o) 1 := by
    unfold pushInner
    refine after .check fun _ => ?_
    split
    · exact free (Leaves.unmark.bind fun _ => .throw _)
    · refine after (.youngest g) fun cur => after (.keepPartial ..) fun _ => after (.freeSpot ..) fun spot => ?_
      have e : ∀ a : Nat, Leaves SameErases (K := K) (do writeNew g a d; unmarkDirty) := fun a =>
        (Leaves.keepRaw ..).bind fun _ => .unmark
      dsimp only
      split
      · exact after (.pure _) fun a => free (e a)
      · exact (advance g cur o).then' e
  exact (h.repair (queueRepair g)).mono (by omega)

theorem iterNew (g : Geo) : Cost (Queue.iterNew g : M K Unit) g.pageCount := by
  unfold Queue.iterNew
  refine then' ((free (k := 0) ?_).repair (queueRepair g) |>.mono (by omega)) fun _ => .modify (fun _ => rfl)
  exact Leaves.check.bind fun _ => (Leaves.oldest g).bind fun _ => Leaves.get.bind fun _ => .pure _

theorem maxFit (g : Geo) : Cost (Queue.findMaxFit g : M K _) g.pageCount :=
  ((free (k := 0) (.maxFitInner g)).repair (queueRepair g)).mono (by omega)

theorem space (g : Geo) : Cost (Queue.spaceLeft g : M K _) g.pageCount :=
  ((free (k := 0) (.spaceInner g)).repair (queueRepair g)).mono (by omega)

end

/-! ### The map -/

section
open Map

theorem migrateLoop (g : Geo) (kc : KeyCodec K) (e n : Nat) : ∀ a w, Leaves SameErases (migrateLoop g kc e n a w) := by
  induction n with
  | zero => intro a w; exact .throw _
  | succ n ih =>
    intro a w
    unfold Map.migrateLoop
    refine (Leaves.itemNext ..).bind fun r => ?_
    split
    · exact .pure _
    · refine Leaves.get.bind fun s => (Leaves.liftSer _).bind fun r => Leaves.unmark.bind fun _ => (Leaves.fetchLoc ..).bind fun r => ?_
      split
      · exact .throw _
      · refine Leaves.get.bind fun s => ?_
        split
        · exact .throw _
        · split
          · exact (Leaves.noticeKey ..).bind fun _ => (Leaves.keepRaw ..).bind fun _ => ih _ _
          · exact ih _ _

theorem migrate (g : Geo) (kc : KeyCodec K) (a b : Nat) : Cost (Map.migrate g kc a b) 1 :=
  after (migrateLoop ..) fun _ => openPage g a

theorem mapRepair (g : Geo) (kc : KeyCodec K) : Cost (Map.tryRepair g kc) (g.pageCount + 2) := by
  unfold Map.tryRepair
  refine after (.modifyCache _) fun _ => (generalRepair g).bind fun _ => after (.findFirst ..) fun r => ?_
  split
  · exact pure _
  · refine after (.pageStateCached ..) fun st => ?_
    split
    · exact pure _
    · exact (openPage g _).bind (l := 1) fun _ => after (.keepPartial ..) fun _ => migrate ..

theorem fetch (g : Geo) (kc : KeyCodec K) (vc : ValCodec V) (k : K) : Cost (Map.fetchItem g kc vc k) (g.pageCount + 2) := by
  unfold Map.fetchItem
  refine then' ((free (k := 0) (.fetchLoc ..)).repair (mapRepair g kc) |>.mono (by omega)) fun r => ?_
  split
  · exact .pure _
  · refine Leaves.get.bind fun s => ?_
    dsimp only
    have e : ∀ n : Nat, ∀ h : Header, Leaves SameErases (K := K) (if h.len.toNat < n then M.throw .panic
        else do
          let (v, _) ← liftSer (vc.de ((s.buf.take h.len.toNat).drop n))
          Pure.pure (some v)) := by
      intro n h
      split
      · exact .throw _
      · exact (Leaves.liftSer _).bind fun _ => .pure _
    split
    · exact (Leaves.pure _).bind fun n => e n _
    · exact (Leaves.liftSer _).bind fun n => e n _

theorem storeRound (g : Geo) (kc : KeyCodec K) (k : K) (vs : Nat → Except SerErr (List Byte)) : Cost (Map.storeRound g kc k vs) 1 := by
  unfold Map.storeRound
  refine after (.findFirst ..) fun r => ?_
  split
  · refine after (.pageStateCached ..) fun st => ?_
    split
    · exact throw _
    · refine after ?_ fun data => ?_
      · unfold serializeItem
        exact Leaves.get.bind fun s => (Leaves.liftSer _).bind fun _ => Leaves.modifyBind (fun _ => rfl) fun _ => (Leaves.liftSer _).bind fun _ =>
          Leaves.modifyBind (fun _ => rfl) fun _ => .pure _
      · split
        · exact free (Leaves.unmark.bind fun _ => .throw _)
        · refine after (.freeSpot ..) fun r => ?_
          split
          · exact free ((Leaves.noticeKey ..).bind fun _ => (Leaves.keepRaw ..).bind fun _ => Leaves.unmark.bind fun _ => .pure _)
          · refine after (.keepClose ..) fun _ => then' ?_ fun _ => .pure _
            unfold storeAdvance
            refine after (.pageStateCached ..) fun st => ?_
            split
            · exact throw _
            · refine after (.keepPartial ..) fun _ => after (.pageStateCached ..) fun st => ?_
              split
              · exact pure _
              · exact migrate ..
  · refine after (.findFirst ..) fun r => ?_
    split
    · exact throw _
    · exact free ((Leaves.keepPartial ..).bind fun _ => .pure _)

theorem storeLoop (g : Geo) (kc : KeyCodec K) (k : K) (vs : Nat → Except SerErr (List Byte)) (n : Nat) :
    Cost (Map.storeLoop g kc k vs n) n := by
  induction n with
  | zero => exact free (Leaves.unmark.bind fun _ => .throw _)
  | succ n ih =>
    unfold Map.storeLoop
    refine ((storeRound g kc k vs).bind (l := n) fun b => ?_).mono (by omega)
    split
    · exact pure _
    · exact ih

theorem store (g : Geo) (kc : KeyCodec K) (vc : ValCodec V) (k : K) (v : V) : Cost (Map.storeItem g kc vc k v) (3 * g.pageCount + 2) := by
  have h : Cost (storeInner g kc k (vc.ser v)) g.pageCount := after .check fun _ => storeLoop ..
  exact (h.repair (mapRepair g kc)).mono (by omega)

theorem remove (g : Geo) (kc : KeyCodec K) (k? : Option K) : Leaves SameErases (removeInner g kc k?) := by
  have hp : ∀ e n a, Leaves SameErases (removePage g kc k? e n a) := by
    intro e n
    induction n with
    | zero => intro a; exact .throw _
    | succ n ih =>
      intro a
      unfold removePage
      refine (Leaves.traverse ..).bind fun r => ?_
      split
      · exact .pure _
      · refine (Leaves.readItem ..).bind fun r => ?_
        split
        · refine Leaves.get.bind fun s => ?_
          dsimp only
          have rest : ∀ (h : Header) (addr nxt : Nat) (hit : Bool), Leaves SameErases (do
              if hit = true then eraseItem g h addr else Pure.pure ()
              removePage g kc k? e n nxt) := by
            intro h addr nxt hit
            dsimp only
            split
            · exact (Leaves.keepEraseItem ..).bind fun _ => ih _
            · exact (Leaves.pure _).bind fun _ => ih _
          split
          · exact (Leaves.liftSer _).bind fun _ => (Leaves.pure _).bind fun b => rest _ _ _ b
          · exact (Leaves.pure _).bind fun b => rest _ _ _ b
        · exact ih _
  have hl : ∀ l, Leaves SameErases (removeIn g kc k? l) := by
    intro l
    induction l with
    | nil => exact .pure _
    | cons i l ih =>
      unfold removeIn
      refine (Leaves.pageStateCached ..).bind fun st => ?_
      split
      · exact ih
      · exact (hp _ _ _).bind fun _ => ih
  unfold removeInner
  have rest : ∀ last : Nat, Leaves SameErases (do
      removeIn g kc k? (g.pages (g.nextPage last))
      unmarkDirty) := fun last => (hl _).bind fun _ => .unmark
  have rest2 : ∀ u : Unit, Leaves SameErases (do
      let last ← match ← findFirstPage g 0 .partialOpen with
        | some p => Pure.pure p
        | none => do
          let r ← findLastPage g 0 .closed
          Pure.pure (r.getD 0)
      removeIn g kc k? (g.pages (g.nextPage last))
      unmarkDirty) := by
    intro _
    refine (Leaves.findFirst ..).bind fun r => ?_
    dsimp only
    split
    · exact (Leaves.pure _).bind rest
    · exact (Leaves.findLastIn ..).bind fun _ => (Leaves.pure _).bind rest
  split
  · exact (Leaves.modifyCache _).bind rest2
  · exact (Leaves.modifyCache _).bind rest2

theorem fetchAll (g : Geo) (kc : KeyCodec K) : Cost (Map.fetchAll g kc) (g.pageCount + 2) := by
  unfold Map.fetchAll
  refine after (.fetchAllFirst g) fun r => ?_
  dsimp only
  split
  · exact (mapRepair g kc).then' fun _ => (Leaves.fetchAllFirst g).bind fun _ => (Leaves.lift _).bind fun _ => .modify fun _ => rfl
  · exact free ((Leaves.lift _).bind fun _ => .modify fun _ => rfl)

end
end Cost

/-! ### Iterating over a queue -/

namespace CostAt
open Queue

variable {mp : Bool} {s : St K} {I : St K → Prop}

/-- A step, and then the rest. -/
theorem bindSat {m : M K α} {f : α → M K β} {Q : α → St K → Prop} {k l : Nat} (h : SatI I m s Q) (hm : CostAt m k s)
    (hf : ∀ a s', I s' → Q a s' → CostAt (f a) l s') : CostAt (m >>= f) (k + l) s := by
  unfold CostAt at hm ⊢
  rcases h.cases with ⟨a, s1, hr, h1⟩ | ⟨e, s1, hr, h1⟩
  · rw [hr] at hm
    rw [bind_run, hr]
    have := hf a s1 h1.1 h1.2
    unfold CostAt at this
    dsimp only at hm ⊢
    omega
  · rw [hr] at hm
    rw [bind_run, hr]
    dsimp only at hm ⊢
    omega

/-- A step that erases nothing, and then the rest. -/
theorem afterSat {m : M K α} {f : α → M K β} {Q : α → St K → Prop} {k : Nat} (h : SatI I m s Q) (hm : Leaves SameErases m)
    (hf : ∀ a s', I s' → Q a s' → CostAt (f a) k s') : CostAt (m >>= f) k s := by
  have := bindSat h ((Cost.free (k := 0) hm).out s) hf
  rwa [Nat.zero_add] at this

theorem step {m : M K α} {f : α → M K β} {a : α} {s' : St K} {k : Nat} (h : m s = (.ok a, s')) (he : s'.fl = s.fl)
    (hf : CostAt (f a) k s') : CostAt (m >>= f) k s := by
  unfold CostAt at hf ⊢
  rw [bind_run, h]
  rw [he] at hf
  exact hf

theorem nextLoop (w : g.WF) (rounds : Nat) : ∀ {s : St K} {m : Nat}, QInv mp g s → QLeft g s.qit m →
    CostAt (nextLoop g rounds) (m / (g.eraseSize + 1)) s := by
  induction rounds with
  | zero => intro s m _ _; exact (Cost.throw _).out s
  | succ rounds ih =>
    intro s m h hm
    unfold Queue.nextLoop
    refine step (get_run s) rfl ?_
    have scan : ∀ (s1 : St K) (i a m' : Nat), QInv mp g s1 → i < g.pageCount → At g i a →
        ringLeft g.pageCount s1.qit.oldest i * (g.eraseSize + 1) + (g.dataEnd i - a) + 1 ≤ m' + 1 →
        CostAt (do
          match ← nextScan g i a with
          | some r => Pure.pure (some r)
          | none => Queue.nextLoop g rounds) (m' / (g.eraseSize + 1)) s1 := by
      intro s1 i a m' hI1 hi ha hm'
      refine afterSat (nextScan_safe w hI1 hi ha hm') (.nextScan ..) fun r s2 hI2 hq => ?_
      cases r with
      | some r => exact (Cost.pure _).out _
      | none => exact ih hI2 (hq.1 rfl)
    rcases hm with ⟨a, i, hn, hi, ha, hm⟩ | ⟨p, hn, hp, hm⟩
    · rw [hn]
      simp only
      rw [ha.index w]
      have := scan s i a (m - 1) h hi ha (by omega)
      exact Nat.le_trans this (Nat.add_le_add_left (Nat.div_le_div_right (by omega)) _)
    · rw [hn]
      simp only
      have hnl : g.nextPage p < g.pageCount := w.next_lt
      refine afterSat ((look_safe w h.1 hnl).toQ h.2) (.pageStateCached ..) fun st s1 hI1 hq1 => ?_
      split
      · exact (Cost.free (Leaves.unmark.bind fun _ => .pure _)).out _
      · rename_i hstop
        simp only [Bool.or_eq_true, decide_eq_true_eq, not_or] at hstop
        have hd := ringLeft_next h.2.oldest hp hstop.2
        have hquot : ringLeft g.pageCount s.qit.oldest (g.nextPage p) + 1 ≤ m / (g.eraseSize + 1) := by
          rw [← hd]
          exact (Nat.le_div_iff_mul_le (by omega)).2 hm
        have go : ∀ s2 : St K, QInv mp g s2 → s2.qit.oldest = s.qit.oldest → CostAt (do
            setIter fun it => { it with next := .address (g.dataStart (g.nextPage p)) }
            match ← nextScan g (g.nextPage p) (g.dataStart (g.nextPage p)) with
            | some r => Pure.pure (some r)
            | none => Queue.nextLoop g rounds) (ringLeft g.pageCount s.qit.oldest (g.nextPage p)) s2 := by
          intro s2 hI2 ho
          refine step (setIter_run _ s2) rfl ?_
          have hlt : g.dataEnd (g.nextPage p) - g.dataStart (g.nextPage p) < g.eraseSize + 1 := by
            have := w.dataEnd_add (g.nextPage p)
            have := w.pageEnd_eq (g.nextPage p)
            unfold Geo.dataStart
            omega
          have := scan { s2 with qit := { s2.qit with next := .address (g.dataStart (g.nextPage p)) } } (g.nextPage p)
            (g.dataStart (g.nextPage p)) (ringLeft g.pageCount s.qit.oldest (g.nextPage p) * (g.eraseSize + 1) +
              (g.dataEnd (g.nextPage p) - g.dataStart (g.nextPage p))) ⟨hI2.1.setQit, hI2.2.oldest, fun a ha => by
                simp only [NextAddr.address.injEq] at ha
                subst ha
                exact ⟨_, hnl, At.start _ w⟩, by simp⟩ hnl (At.start _ w) (by simp only [ho]; omega)
          rwa [Nat.mul_comm, Nat.mul_add_div (by omega), Nat.div_eq_of_lt hlt, Nat.add_zero] at this
        by_cases hpv : s.qit.prev = .allPopped
        · rw [if_pos hpv]
          have := bindSat ((openPage_safe w hI1.1 hp).toQ hI1.2) ((Cost.openPage g p).out s1)
            fun _ s2 hI2 hq2 => go s2 hI2 (by rw [hq2.1, hq1.1])
          exact Nat.le_trans this (Nat.add_le_add_left (by omega) _)
        · rw [if_neg hpv]
          have := go s1 hI1 (by rw [hq1.1])
          exact Nat.le_trans this (Nat.add_le_add_left (by omega) _)

theorem nextInner (w : g.WF) (h : QInv mp g s) : CostAt (nextInner g) (g.pageCount - 1) s := by
  unfold Queue.nextInner
  refine afterSat ((checkDirty_safe h.1).toQ h.2) .check fun _ s1 h1 _ => ?_
  have hr : ∀ p, p < g.pageCount → ringLeft g.pageCount s1.qit.oldest p * (g.eraseSize + 1) ≤ (g.pageCount - 1) * (g.eraseSize + 1) := by
    intro p hp
    refine Nat.mul_le_mul_right _ ?_
    have := h1.2.oldest
    unfold ringLeft
    split <;> omega
  have hl : QLeft g s1.qit ((g.pageCount - 1) * (g.eraseSize + 1) + g.eraseSize) := by
    cases hn : s1.qit.next with
    | address a =>
      obtain ⟨i, hi, ha⟩ := h1.2.addr a hn
      refine Or.inl ⟨a, i, hn, hi, ha, ?_⟩
      have := hr i hi
      have := ha.lo
      have := ha.hi
      have := w.dataEnd_add i
      have := w.pageEnd_eq i
      have := w.word_pos
      have hs : g.dataStart i = g.pageAddr i + g.word := rfl
      omega
    | pageAfter p => exact Or.inr ⟨p, hn, h1.2.after p hn, by have := hr p (h1.2.after p hn); omega⟩
  have := nextLoop w (loopRounds g) h1 hl
  rwa [Nat.mul_comm, Nat.mul_add_div (by omega), Nat.div_eq_of_lt (by omega), Nat.add_zero] at this

theorem iterRest (w : g.WF) {s0 : St K} (h0 : QInv mp g s0) : CostAt (do
    match ← withRepair (Queue.nextInner g) (Queue.tryRepair g) with
    | some (h, a) => do
      let s ← M.get
      if s.buf.length < h.len.toNat then M.throw .logicBug
      else Pure.pure (some (h, a, s.buf.take h.len.toNat))
    | none => Pure.pure none) (3 * g.pageCount - 2) s0 := by
  have hpos : 1 ≤ g.pageCount := by have := h0.2.oldest; omega
  have hrep : CostAt (withRepair (Queue.nextInner g) (Queue.tryRepair g)) (3 * g.pageCount - 2) s0 := by
    have c1 := nextInner w h0
    unfold withRepair
    unfold CostAt at c1 ⊢
    rw [bind_ok (attempt_run _ s0)]
    rcases (nextInner_safe w h0).cases with ⟨a, s1, hr, h1⟩ | ⟨e, s1, hr, h1⟩
    · rw [hr] at c1 ⊢
      change s1.fl.erases.length ≤ _
      dsimp only at c1
      omega
    · rw [hr] at c1 ⊢
      dsimp only at c1 ⊢
      by_cases he : e = .corrupted
      · subst he
        have c2 := bindSat ((tryRepair_safe w h1.1.1).toQ h1.1.2) ((Cost.queueRepair g).out s1) fun _ s2 h2 _ => nextInner w h2
        refine Nat.le_trans c2 ?_
        omega
      · cases e <;> first | exact absurd rfl he | (change s1.fl.erases.length ≤ _; omega)
  unfold CostAt at hrep ⊢
  rw [bind_run]
  revert hrep
  generalize withRepair (Queue.nextInner g) (Queue.tryRepair g) s0 = x
  obtain ⟨x, s1⟩ := x
  intro hrep
  cases x with
  | error e => exact hrep
  | ok r =>
    cases r with
    | none => exact hrep
    | some r =>
      change ((if s1.buf.length < r.1.len.toNat then M.throw .logicBug
        else Pure.pure (some (r.1, r.2, s1.buf.take r.1.len.toNat)) : M K _) s1).2.fl.erases.length ≤ _
      split <;> exact hrep

theorem iterNext (w : g.WF) (h : QInv mp g s) : CostAt (Queue.iterNext g) (3 * g.pageCount - 2) s := by
  unfold Queue.iterNext
  refine step (setIter_run _ s) rfl ?_
  have h0 : QInv mp g { s with qit := if s.qit.prev = .allButCurrentPopped then { s.qit with prev := .unpopped } else s.qit } := by
    refine ⟨h.1.setQit, ?_⟩
    simp only
    split
    · exact ⟨h.2.oldest, h.2.addr, h.2.after⟩
    · exact h.2
  exact iterRest w h0

theorem entryPop (g : Geo) (h : Header) (a : Nat) : Leaves SameErases (Queue.entryPop g h a : M K Unit) :=
  (Leaves.setIter _).bind fun _ => (Leaves.keepEraseItem ..).bind fun _ => .unmark

theorem iterSteps (w : g.WF) (steps : List (List Byte × Bool)) : ∀ {s : St K}, QInv mp g s →
    CostAt (iterSteps g steps) (steps.length * (3 * g.pageCount - 2)) s := by
  induction steps with
  | nil => intro s _; exact (Cost.pure _).out s
  | cons x rest ih =>
    intro s h
    obtain ⟨b, p⟩ := x
    unfold SeqStorage.iterSteps
    refine step (modify_run _ s) rfl ?_
    have h0 : QInv mp g { s with buf := b } := ⟨h.1.setBuf b, h.2⟩
    have more : ∀ (s : St K) (x : Except Err (Option (List Byte))), QInv mp g s →
        CostAt (do
          let l ← SeqStorage.iterSteps g rest
          Pure.pure (x :: l)) (rest.length * (3 * g.pageCount - 2)) s := by
      intro s x hs
      exact bindSat (l := 0) (iterSteps_safe w rest hs) (ih hs) fun l s1 _ _ => (Cost.pure _).out s1
    have c := iterNext w h0
    unfold CostAt at c ⊢
    rw [bind_ok (attempt_run _ _), List.length_cons, Nat.succ_mul]
    rcases (iterNext_safe w h0).cases with ⟨r, s1, hr, h1⟩ | ⟨e, s1, hr, h1⟩
    · rw [hr] at c ⊢
      dsimp only at c
      cases r with
      | none => have := more s1 (.ok none) h1.1; unfold CostAt at this; simp only; omega
      | some r =>
        obtain ⟨hd, a, d⟩ := r
        simp only
        by_cases hp : p
        · rw [if_pos hp]
          have := afterSat (entryPop_safe w h1.1 (h1.2 hd a d rfl)) (entryPop ..) fun _ s2 h2 _ => more s2 (.ok (some d)) h2
          refine Nat.le_trans this ?_
          omega
        · rw [if_neg hp]
          have := more s1 (.ok (some d)) h1.1
          refine Nat.le_trans this ?_
          omega
    · rw [hr] at c ⊢
      dsimp only at c
      cases e with
      | bufferTooSmall n => have := more s1 (.error (.bufferTooSmall n)) h1.1; unfold CostAt at this; simp only; omega
      | _ => change s1.fl.erases.length ≤ _; dsimp only; omega

theorem peek (w : g.WF) (h : SInv mp g s) : CostAt (Queue.peek g) (4 * g.pageCount - 2) s := by
  unfold Queue.peek
  have := bindSat (l := 3 * g.pageCount - 2) (iterNew_safe w h) ((Cost.iterNew g).out s) (f := fun _ => do
    match ← Queue.iterNext g with
    | some (_, _, d) => Pure.pure (some d)
    | none => Pure.pure none) fun _ s1 h1 hq => by
      refine bindSat (l := 0) (iterNext_safe w ⟨h1, hq⟩) (iterNext w ⟨h1, hq⟩) fun r s2 _ _ => ?_
      cases r <;> exact (Cost.pure _).out s2
  exact Nat.le_trans this (Nat.add_le_add_left (by have := w.pageCount_pos; omega) _)

theorem pop (w : g.WF) (h : SInv mp g s) : CostAt (Queue.pop g) (4 * g.pageCount - 2) s := by
  unfold Queue.pop
  have := bindSat (l := 3 * g.pageCount - 2) (iterNew_safe w h) ((Cost.iterNew g).out s) (f := fun _ => do
    match ← Queue.iterNext g with
    | some (h, a, d) => do
      Queue.entryPop g h a
      Pure.pure (some d)
    | none => Pure.pure none) fun _ s1 h1 hq => by
      refine bindSat (l := 0) (iterNext_safe w ⟨h1, hq⟩) (iterNext w ⟨h1, hq⟩) fun r s2 _ _ => ?_
      cases r with
      | none => exact (Cost.pure _).out s2
      | some r => exact (Cost.free ((entryPop ..).bind fun _ => .pure _)).out s2
  exact Nat.le_trans this (Nat.add_le_add_left (by have := w.pageCount_pos; omega) _)

end CostAt
end SeqStorage
