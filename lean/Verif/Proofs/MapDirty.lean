import Verif.Proofs.Dirty
import Verif.Model.MapUse
/-
The cache is marked dirty before the flash is written, and without a limit power is never lost: the map.
-/

namespace SeqStorage
open M Spec Map

variable {K : Type} [DecidableEq K] {α β V : Type} {R : Rule K}

theorem liftSer_errs (r : Except SerErr α) (s : St K) : (liftSer r s : Except Err α × St K).1 ≠ .error .shutoff := by
  cases r <;> simp [liftSer]

theorem Marks.liftSer (r : Except SerErr α) : Marks R (Map.liftSer r : M K α) := by
  refine .calm (liftSer_errs r) ?_
  intro s; cases r <;> rfl

theorem Marks.modifyBind {f : St K → St K} {k : Unit → M K β} (h : ∀ s, (f s).fl = s.fl) (hk : ∀ a, Marks R (k a)) :
    Marks R (M.modify f >>= k) := (Marks.modify h).bind hk

/-! ### Reading never loses power -/

/-- It never ends with a loss of power. -/
structure Quiet (m : M K α) : Prop where
  out : ∀ s, (m s).1 ≠ .error .shutoff

theorem Quiet.pure (a : α) : Quiet (pure a : M K α) := ⟨fun _ => by simp⟩
theorem Quiet.throw {e : Err} (h : e ≠ .shutoff) : Quiet (M.throw e : M K α) := ⟨fun _ => by simpa using h⟩
theorem Quiet.lift {r : Except Err α} (h : r ≠ .error .shutoff) : Quiet (M.lift r : M K α) := ⟨fun _ => h⟩
theorem Quiet.get : Quiet (M.get : M K (St K)) := ⟨fun _ => by simp⟩
theorem Quiet.modify (f : St K → St K) : Quiet (M.modify f) := ⟨fun _ => by simp⟩
theorem Quiet.liftSer (r : Except SerErr α) : Quiet (Map.liftSer r : M K α) := ⟨liftSer_errs r⟩

theorem Quiet.bind {m : M K α} {f : α → M K β} (h : Quiet m) (hf : ∀ a, Quiet (f a)) : Quiet (m >>= f) := by
  constructor
  intro s
  rw [bind_run]
  have hm := h.out s
  generalize m s = r at hm ⊢
  obtain ⟨r, s1⟩ := r
  cases r with
  | ok a => exact (hf a).out s1
  | error e => simpa using hm

theorem Quiet.attempt {m : M K α} {f : Except Err α → M K β} (h : Quiet m) (h1 : ∀ r, r ≠ .error .shutoff → Quiet (f r)) :
    Quiet (M.attempt m >>= f) := by
  constructor
  intro s
  rw [bind_ok (attempt_run m s)]
  exact (h1 _ (h.out s)).out _

theorem Quiet.read (g : Geo) (a n : Nat) : Quiet (flashRead g a n : M K (List Byte)) := by
  constructor
  intro s
  unfold flashRead
  have := read_errs g s.fl a n
  split
  · simp
  · rename_i e he
    rw [he] at this
    simpa using this

theorem Quiet.update {f : Cache K → Except Err (Cache K)} (h : ∀ c, f c ≠ .error .shutoff) : Quiet (updateCache f) := by
  constructor
  intro s
  unfold updateCache
  have := h s.cache
  split
  · simp
  · rename_i e he; rw [he] at this; simpa using this

theorem Quiet.pageStateCached (g : Geo) (i : Nat) : Quiet (getPageStateCached g i : M K PageState) := by
  unfold getPageStateCached
  refine Quiet.get.bind fun s => (Quiet.lift (psGet_errs _ _)).bind fun r => ?_
  split
  · exact .pure _
  · refine Quiet.bind ⟨pageState_errs g i⟩ fun st => Quiet.bind (.update fun c => ?_) fun _ => .pure _
    unfold Cache.noticePage
    have := psNotice_errs c.ps i st
    split
    · rename_i e he; rw [he] at this; simpa using this
    · simp

theorem Quiet.readHeader (g : Geo) (a e : Nat) : Quiet (readHeader g a e : M K (Option Header)) := by
  unfold SeqStorage.readHeader
  split
  · exact .pure _
  · refine (Quiet.read ..).bind fun bs => ?_
    refine (Quiet.lift ?_).bind fun r => ?_
    · intro h; have := decodeHeader_err h; simp at this
    · split
      · exact .pure _
      · split
        · exact .throw (by simp)
        · exact .pure _

theorem Quiet.readItem (g : Geo) (h : Header) (a e : Nat) : Quiet (readItem g h a e : M K MaybeItem) := by
  unfold SeqStorage.readItem
  split
  · exact .pure _
  · split
    · exact .pure _
    · refine Quiet.get.bind fun s => ?_
      split
      · exact .throw (by simp)
      · refine Quiet.bind ?_ fun _ => Quiet.get.bind fun s => ?_
        · unfold readIntoBuf
          split
          · exact .pure _
          · exact (Quiet.read ..).bind fun _ => .modify _
        · split <;> exact .pure _

theorem Quiet.traverse (g : Geo) (e : Nat) (skip : Header → Bool) (rounds : Nat) :
    ∀ a, Quiet (traverse g e skip rounds a : M K _) := by
  induction rounds with
  | zero => intro a; exact .throw (by simp)
  | succ n ih =>
    intro a
    unfold SeqStorage.traverse
    refine (Quiet.readHeader g a e).attempt ?_
    intro r hr
    split
    · split
      · exact ih _
      · exact .pure _
    · exact .pure _
    · exact ih _
    · exact .throw (by intro h; subst h; exact hr rfl)

theorem Quiet.iterItem (g : Geo) (n : Nat) : Quiet (iterItem g n : M K _) := by
  induction n with
  | zero => exact .throw (by simp)
  | succ n ih =>
    unfold Map.iterItem
    refine Quiet.get.bind fun s => (Quiet.traverse ..).bind fun r => ?_
    split
    · refine (Quiet.modify _).bind fun _ => (Quiet.readItem ..).bind fun r => ?_
      split
      · exact .pure _
      · exact ih
    · exact (Quiet.modify _).bind fun _ => .pure _

theorem Quiet.iterPage (g : Geo) (n : Nat) : Quiet (iterPage g n : M K _) := by
  induction n with
  | zero => exact .throw (by simp)
  | succ n ih =>
    unfold Map.iterPage
    refine (Quiet.modify _).bind fun _ => Quiet.get.bind fun s => ?_
    split
    · exact .pure _
    · refine (Quiet.pageStateCached ..).attempt fun r _ => ?_
      split
      · exact .throw (by simp)
      · exact (Quiet.modify _).bind fun _ => .pure _
      · exact (Quiet.modify _).bind fun _ => .pure _
      · exact ih

theorem Quiet.iterLoop (g : Geo) (n : Nat) : Quiet (iterLoop g n : M K _) := by
  induction n with
  | zero => exact .throw (by simp)
  | succ n ih =>
    unfold Map.iterLoop
    refine (Quiet.iterItem ..).bind fun r => ?_
    split
    · exact .pure _
    · refine (Quiet.iterPage ..).bind fun r => ?_
      split
      · exact ih
      · exact .pure _

theorem mapNext_errs (g : Geo) (kc : KeyCodec K) (vc : ValCodec V) : ∀ s, (Map.iterNext g kc vc s).1 ≠ .error .shutoff := by
  apply Quiet.out
  unfold Map.iterNext
  refine (Quiet.iterLoop ..).bind fun r => ?_
  split
  · exact .pure _
  · refine Quiet.get.bind fun s => (Quiet.liftSer _).bind fun _ => ?_
    dsimp only
    split
    · exact .throw (by simp)
    · exact (Quiet.liftSer _).bind fun _ => .pure _

/-! ### The map -/

theorem Marks.fetchCached (g : Geo) (k : K) : Marks R (fetchCached g k) := by
  unfold Map.fetchCached
  refine Marks.get.bind fun s => ?_
  split
  · exact .pure _
  · refine (Marks.readHeader ..).bind fun r => ?_
    split
    · exact (Marks.modifyCache _).bind fun _ => .pure _
    · refine (Marks.readItem ..).bind fun r => ?_
      split
      · exact .pure _
      · exact (Marks.modifyCache _).bind fun _ => .pure _

theorem Marks.lastUsed (g : Geo) : Marks R (lastUsedPage g : M K _) := by
  unfold lastUsedPage
  refine (Marks.findFirst ..).bind fun r => ?_
  split
  · exact .pure _
  · refine (Marks.findFirst ..).bind fun r => ?_
    split
    · refine (Marks.pageStateCached ..).bind fun st => ?_
      split <;> exact .pure _
    · exact .throw (by simp)

theorem Marks.scanPage (g : Geo) (kc : KeyCodec K) (k : K) (e n : Nat) : ∀ a f, Marks R (scanPage g kc k e n a f) := by
  induction n with
  | zero => intro a f; exact .throw (by simp)
  | succ n ih =>
    intro a f
    unfold Map.scanPage
    refine (Marks.itemNext ..).bind fun r => ?_
    split
    · exact .pure _
    · exact Marks.get.bind fun s => (Marks.liftSer _).bind fun r => ih _ _

theorem Marks.searchPages (g : Geo) (kc : KeyCodec K) (k : K) (n : Nat) : ∀ p, Marks R (searchPages g kc k n p) := by
  induction n with
  | zero => intro p; exact .throw (by simp)
  | succ n ih =>
    intro p
    unfold Map.searchPages
    refine (Marks.scanPage ..).bind fun r => ?_
    split
    · exact (Marks.noticeKey ..).bind fun _ => .pure _
    · refine (Marks.pageStateCached ..).bind fun st => ?_
      split
      · exact .pure _
      · exact ih _

theorem Marks.fetchLoc (g : Geo) (kc : KeyCodec K) (k : K) : Marks R (fetchLoc g kc k) := by
  unfold Map.fetchLoc
  refine Marks.check.bind fun _ => (Marks.fetchCached ..).bind fun r => ?_
  split
  · exact .pure _
  · refine (Marks.lastUsed g).bind fun r => ?_
    split
    · exact Marks.unmark.bind fun _ => .pure _
    · refine (Marks.searchPages ..).bind fun r => ?_
      split
      · exact Marks.unmark.bind fun _ => .pure _
      · refine Marks.unmark.bind fun _ => (Marks.readHeader ..).bind fun r => ?_
        split
        · exact .throw (by simp)
        · refine (Marks.readItem ..).bind fun r => ?_
          split
          · exact .pure _
          · exact .throw (by simp)
          · exact .throw (by simp)

theorem Marks.migrateLoop (g : Geo) (kc : KeyCodec K) (e n : Nat) : ∀ a w, Marks R (migrateLoop g kc e n a w) := by
  induction n with
  | zero => intro a w; exact .throw (by simp)
  | succ n ih =>
    intro a w
    unfold Map.migrateLoop
    refine (Marks.itemNext ..).bind fun r => ?_
    split
    · exact .pure _
    · refine Marks.get.bind fun s => (Marks.liftSer _).bind fun x => ?_
      refine Marks.unmark.bind fun _ => (Marks.fetchLoc ..).bind fun r => ?_
      split
      · exact .throw (by simp)
      · refine Marks.get.bind fun s => ?_
        split
        · exact .throw (by simp)
        · split
          · exact (Marks.noticeKey ..).bind fun _ => (Marks.writeRaw ..).bind fun _ => ih _ _
          · exact ih _ _

theorem Marks.migrate (g : Geo) (kc : KeyCodec K) (a b : Nat) : Marks R (migrate g kc a b) := by
  unfold Map.migrate
  exact (Marks.migrateLoop ..).bind fun _ => .openPage ..

theorem Marks.mapRepair (g : Geo) (kc : KeyCodec K) : Marks R (Map.tryRepair g kc) := by
  unfold Map.tryRepair
  refine (Marks.modifyCache _).bind fun _ => Marks.bind (Marks.generalIn ..) fun _ => (Marks.findFirst ..).bind fun r => ?_
  split
  · exact .pure _
  · refine (Marks.pageStateCached ..).bind fun st => ?_
    split
    · exact .pure _
    · exact (Marks.openPage ..).bind fun _ => (Marks.partialClose ..).bind fun _ => .migrate ..

theorem Marks.serialize (kc : KeyCodec K) (k : K) (f : Nat → Except SerErr (List Byte)) : Marks R (serializeItem kc k f) := by
  unfold serializeItem
  refine Marks.get.bind fun s => (Marks.liftSer _).bind fun _ => Marks.modifyBind (fun _ => rfl) fun _ => ?_
  exact (Marks.liftSer _).bind fun _ => Marks.modifyBind (fun _ => rfl) fun _ => .pure _

theorem Marks.storeAdvance (g : Geo) (kc : KeyCodec K) (n : Nat) : Marks R (storeAdvance g kc n) := by
  unfold Map.storeAdvance
  refine (Marks.pageStateCached ..).bind fun st => ?_
  dsimp only
  split
  · exact .throw (by simp)
  · refine (Marks.partialClose ..).bind fun _ => (Marks.pageStateCached ..).bind fun st => ?_
    split
    · exact .pure _
    · exact .migrate ..

theorem Marks.storeRound (g : Geo) (kc : KeyCodec K) (k : K) (f : Nat → Except SerErr (List Byte)) :
    Marks R (storeRound g kc k f) := by
  unfold Map.storeRound
  refine (Marks.findFirst ..).bind fun r => ?_
  split
  · refine (Marks.pageStateCached ..).bind fun st => ?_
    split
    · exact .throw (by simp)
    · refine (Marks.serialize ..).bind fun d => ?_
      split
      · exact Marks.unmark.bind fun _ => .throw (by simp)
      · refine (Marks.freeSpot ..).bind fun r => ?_
        split
        · exact (Marks.noticeKey ..).bind fun _ => (Marks.writeNew ..).bind fun _ => Marks.unmark.bind fun _ => .pure _
        · exact (Marks.closePage ..).bind fun _ => (Marks.storeAdvance ..).bind fun _ => .pure _
  · refine (Marks.findFirst ..).bind fun r => ?_
    split
    · exact .throw (by simp)
    · exact (Marks.partialClose ..).bind fun _ => .pure _

theorem Marks.storeLoop (g : Geo) (kc : KeyCodec K) (k : K) (f : Nat → Except SerErr (List Byte)) (n : Nat) :
    Marks R (storeLoop g kc k f n) := by
  induction n with
  | zero => exact Marks.unmark.bind fun _ => .throw (by simp)
  | succ n ih =>
    unfold Map.storeLoop
    refine (Marks.storeRound ..).bind fun r => ?_
    split
    · exact .pure _
    · exact ih

theorem Marks.storeItem (g : Geo) (kc : KeyCodec K) (vc : ValCodec V) (k : K) (v : V) : Marks R (storeItem g kc vc k v) := by
  unfold Map.storeItem Map.storeInner
  exact Marks.repair (Marks.check.bind fun _ => .storeLoop ..) (.mapRepair ..)

theorem Marks.fetchItem (g : Geo) (kc : KeyCodec K) (vc : ValCodec V) (k : K) : Marks R (fetchItem g kc vc k) := by
  unfold Map.fetchItem
  refine Marks.bind (Marks.repair (.fetchLoc ..) (.mapRepair ..)) fun r => ?_
  split
  · exact .pure _
  · refine Marks.get.bind fun s => ?_
    have main : ∀ (h : Header) (klen : Nat), Marks (R := R) (if h.len.toNat < klen then M.throw .panic else do
        let (v, _) ← Map.liftSer (vc.de ((s.buf.take h.len.toNat).drop klen))
        Pure.pure (some v)) := by
      intro h klen
      split
      · exact .throw (by simp)
      · exact (Marks.liftSer _).bind fun _ => .pure _
    dsimp only
    split
    · exact (Marks.pure _).bind fun _ => main ..
    · exact (Marks.liftSer _).bind fun _ => main ..

theorem Marks.removePage (g : Geo) (kc : KeyCodec K) (k : Option K) (e n : Nat) : ∀ a, Marks R (removePage g kc k e n a) := by
  induction n with
  | zero => intro a; exact .throw (by simp)
  | succ n ih =>
    intro a
    unfold Map.removePage
    refine (Marks.traverse ..).bind fun r => ?_
    split
    · exact .pure _
    · refine (Marks.readItem ..).bind fun r => ?_
      split
      · refine Marks.get.bind fun s => ?_
        have main : ∀ (hit : Bool) (h : Header) (addr nxt : Nat), Marks (R := R) (do
            if hit then SeqStorage.eraseItem g h addr else Pure.pure ()
            Map.removePage g kc k e n nxt) := by
          intro hit h addr nxt
          dsimp only
          split
          · exact (Marks.eraseItem ..).bind fun _ => ih _
          · exact (Marks.pure _).bind fun _ => ih _
        split
        · exact (Marks.liftSer _).bind fun _ => (Marks.pure _).bind fun _ => main ..
        · exact (Marks.pure _).bind fun _ => main ..
      · exact ih _

theorem Marks.removeIn (g : Geo) (kc : KeyCodec K) (k : Option K) (l : List Nat) : Marks R (removeIn g kc k l) := by
  induction l with
  | nil => exact .pure _
  | cons i l ih =>
    unfold Map.removeIn
    refine (Marks.pageStateCached ..).bind fun st => ?_
    split
    · exact ih
    · exact (Marks.removePage ..).bind fun _ => ih

theorem Marks.removeInner (g : Geo) (kc : KeyCodec K) (k : Option K) : Marks R (removeInner g kc k) := by
  have main : Marks R (do
      let last ← match ← findFirstPage g 0 .partialOpen with
        | some p => Pure.pure p
        | none => do
          let r ← findLastPage g 0 .closed
          Pure.pure (r.getD 0)
      Map.removeIn g kc k (g.pages (g.nextPage last))
      unmarkDirty) := by
    refine (Marks.findFirst ..).bind fun r => ?_
    split
    · exact (Marks.pure _).bind fun _ => (Marks.removeIn ..).bind fun _ => .unmark
    · exact Marks.bind (Marks.findLastIn ..) fun r => (Marks.pure _).bind fun _ => (Marks.removeIn ..).bind fun _ => .unmark
  unfold Map.removeInner
  cases k with
  | some k => exact (Marks.modifyCache _).bind fun _ => main
  | none => exact (Marks.modifyCache _).bind fun _ => main

theorem fetchAllFirst_errs (g : Geo) : ∀ s : St K, ∀ r, (fetchAllFirst g s).1 = .ok r → r ≠ .error .shutoff := by
  intro s r h
  unfold fetchAllFirst at h
  rw [bind_run] at h
  generalize findFirstPage g 0 .partialOpen s = x at h
  obtain ⟨x, s1⟩ := x
  cases x with
  | error e => simp at h
  | ok x =>
    cases x with
    | some p => simp at h; subst h; simp
    | none =>
      simp only at h
      rw [bind_run] at h
      generalize findFirstPage g 0 .open s1 = x at h
      obtain ⟨x, s2⟩ := x
      cases x with
      | error e => simp at h
      | ok x =>
        cases x with
        | none => simp at h; subst h; simp
        | some p =>
          simp only at h
          rw [bind_run] at h
          generalize getPageStateCached g (g.prevPage p) s2 = x at h
          obtain ⟨x, s3⟩ := x
          cases x with
          | error e => simp at h
          | ok x =>
            simp only at h
            split at h
            · simp at h; subst h; simp
            · rw [bind_run] at h
              generalize (unmarkDirty s3 : Except Err Unit × St K) = y at h
              obtain ⟨y, s4⟩ := y
              cases y with
              | error e => simp at h
              | ok y => simp at h; subst h; simp

theorem Marks.fetchAllFirst (g : Geo) : Marks R (fetchAllFirst g : M K _) := by
  unfold Map.fetchAllFirst
  refine (Marks.findFirst ..).bind fun r => ?_
  split
  · exact .pure _
  · refine (Marks.findFirst ..).bind fun r => ?_
    split
    · refine (Marks.pageStateCached ..).bind fun st => ?_
      split
      · exact .pure _
      · exact Marks.unmark.bind fun _ => .pure _
    · exact .pure _

/-- Like `Marks.bind`, when something is known of the result. -/
theorem Marks.bindOk {m : M K α} {f : α → M K β} {p : α → Prop} (h : Marks R m) (hp : ∀ s a, (m s).1 = .ok a → p a)
    (hf : ∀ a, p a → Marks R (f a)) : Marks R (m >>= f) := by
  constructor
  intro s hs
  rw [bind_run]
  have hm := h.out s hs
  have hp := hp s
  generalize m s = r at hm hp ⊢
  obtain ⟨r, s1⟩ := r
  cases r with
  | ok a => exact (hf a (hp a rfl)).out s1 (hm.1 (by simp))
  | error e => exact ⟨fun h => hm.1 (by simpa using h), fun h => hm.2 (by simpa using h)⟩

theorem Marks.fetchAll (g : Geo) (kc : KeyCodec K) : Marks R (fetchAll g kc) := by
  unfold Map.fetchAll
  refine (Marks.fetchAllFirst g).bindOk (fetchAllFirst_errs g) fun r hr => ?_
  have hl : ∀ r : Except Err Nat, r ≠ .error .shutoff → Marks R (do
      let first ← M.lift r
      M.modify fun s => { s with mit := ⟨first, first, g.dataStart first, g.dataEnd first⟩ }) :=
    fun r hr => (Marks.lift hr).bind fun _ => .modify fun _ => rfl
  split
  · exact (Marks.mapRepair ..).bind fun _ => (Marks.fetchAllFirst g).bindOk (fetchAllFirst_errs g) fun r hr => hl _ hr
  · exact hl _ hr

theorem Marks.iterItem (g : Geo) (n : Nat) : Marks R (iterItem g n : M K _) := by
  induction n with
  | zero => exact .throw (by simp)
  | succ n ih =>
    unfold Map.iterItem
    refine Marks.get.bind fun s => (Marks.traverse ..).bind fun r => ?_
    split
    · refine Marks.modifyBind (fun _ => rfl) fun _ => (Marks.readItem ..).bind fun r => ?_
      split
      · exact .pure _
      · exact ih
    · exact Marks.modifyBind (fun _ => rfl) fun _ => .pure _

theorem Marks.iterPage (g : Geo) (n : Nat) : Marks R (iterPage g n : M K _) := by
  induction n with
  | zero => exact .throw (by simp)
  | succ n ih =>
    unfold Map.iterPage
    refine Marks.modifyBind (fun _ => rfl) fun _ => Marks.get.bind fun s => ?_
    split
    · exact .pure _
    · refine (Marks.pageStateCached ..).attemptQuiet (Quiet.pageStateCached g s.mit.page).out fun r => ?_
      split
      · exact .throw (by simp)
      · exact Marks.modifyBind (fun _ => rfl) fun _ => .pure _
      · exact Marks.modifyBind (fun _ => rfl) fun _ => .pure _
      · exact ih

theorem Marks.iterLoop (g : Geo) (n : Nat) : Marks R (iterLoop g n : M K _) := by
  induction n with
  | zero => exact .throw (by simp)
  | succ n ih =>
    unfold Map.iterLoop
    refine (Marks.iterItem ..).bind fun r => ?_
    split
    · exact .pure _
    · refine (Marks.iterPage ..).bind fun r => ?_
      split
      · exact ih
      · exact .pure _

theorem Marks.mapNext (g : Geo) (kc : KeyCodec K) (vc : ValCodec V) : Marks R (Map.iterNext g kc vc) := by
  unfold Map.iterNext
  refine (Marks.iterLoop ..).bind fun r => ?_
  split
  · exact .pure _
  · refine Marks.get.bind fun s => (Marks.liftSer _).bind fun _ => ?_
    dsimp only
    split
    · exact .throw (by simp)
    · exact (Marks.liftSer _).bind fun _ => .pure _

theorem Marks.mapSteps (g : Geo) (kc : KeyCodec K) (vc : ValCodec V) (steps : List (List Byte)) : Marks R (mapSteps g kc vc steps) := by
  induction steps with
  | nil => exact .pure _
  | cons b steps ih =>
    unfold SeqStorage.mapSteps
    refine (Marks.setBuf b).bind fun _ => (Marks.mapNext g kc vc).attemptQuiet (mapNext_errs g kc vc) fun r => ih.bind fun _ => .pure _

/-- Every call on a map. -/
theorem Marks.mcall (g : Geo) (kc : KeyCodec K) (vc : ValCodec V) (c : MCall K V (Cache K)) : Marks R (mcall g kc vc c) := by
  cases c with
  | store k v b => exact (Marks.setBuf b).bind fun _ => (Marks.storeItem ..).bind fun _ => .pure _
  | fetch k b => exact (Marks.setBuf b).bind fun _ => (Marks.fetchItem ..).bind fun _ => .pure _
  | remove k b =>
    refine (Marks.setBuf b).bind fun _ => Marks.bind ?_ fun _ => .pure _
    exact Marks.repair (.removeInner ..) (.mapRepair ..)
  | removeAll b =>
    refine (Marks.setBuf b).bind fun _ => Marks.bind ?_ fun _ => .pure _
    exact Marks.repair (.removeInner ..) (.mapRepair ..)
  | fetchAll b steps => exact (Marks.setBuf b).bind fun _ => (Marks.fetchAll ..).bind fun _ => (Marks.mapSteps ..).bind fun _ => .pure _
  | restart c => exact (Marks.modifyCache _).bind fun _ => .pure _

theorem mcall_dirty (g : Geo) (kc : KeyCodec K) (vc : ValCodec V) (c : MCall K V (Cache K)) (s : St K)
    (h : (mcall g kc vc c s).1 = .error .shutoff) : (mcall g kc vc c s).2.cache.dirty = true :=
  ((Marks.mcall (R := dirtyRule K) g kc vc c).out s trivial).2 h

theorem mcall_powered (g : Geo) (kc : KeyCodec K) (vc : ValCodec V) (c : MCall K V (Cache K)) (s : St K) (h : s.fl.fuel = none) :
    (mcall g kc vc c s).1 ≠ .error .shutoff ∧ (mcall g kc vc c s).2.fl.fuel = none := by
  have := (Marks.mcall (R := powerRule K) g kc vc c).out s h
  have h1 : (mcall g kc vc c s).1 ≠ .error .shutoff := fun hx => this.2 hx
  exact ⟨h1, this.1 h1⟩

/-! ### A dirty cache is as good as none -/

theorem Cleans.fetchLoc (g : Geo) (kc : KeyCodec K) (k : K) : Cleans (Map.fetchLoc g kc k) := .check _

/-- Storing and fetching look at the mark. -/
theorem Cleans.store (g : Geo) (kc : KeyCodec K) (vc : ValCodec V) (k : K) (v : V) (b : List Byte) :
    Cleans (mcall g kc vc (.store k v b)) := (((Cleans.check _).repair _).bind _).afterBuf b

theorem Cleans.fetch (g : Geo) (kc : KeyCodec K) (vc : ValCodec V) (k : K) (b : List Byte) :
    Cleans (mcall g kc vc (.fetch k b)) := ((((Cleans.fetchLoc g kc k).repair _).bind _).bind _).afterBuf b

end SeqStorage
