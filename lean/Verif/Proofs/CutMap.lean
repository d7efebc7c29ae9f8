import Verif.Proofs.Cut
/-
The calls of the map with a too small buffer.
-/
set_option linter.unusedSectionVars false

namespace SeqStorage.Short
open SeqStorage M Spec Proofs

variable {K : Type} [DecidableEq K] {V : Type}

/-- A key type that serializes and deserializes the same with a longer buffer. -/
structure KeyExt (kc : KeyCodec K) : Prop where
  ser : ∀ k n bs, kc.ser k n = .ok bs → bs.length ≤ n ∧ ∀ n', n ≤ n' → kc.ser k n' = .ok bs
  de : ∀ b r x, kc.de b = .ok r → kc.de (b ++ x) = .ok r

/-- A value that serializes the same with a longer buffer. -/
def SerExt (vs : Nat → Except SerErr (List Byte)) : Prop :=
  ∀ n bs, vs n = .ok bs → bs.length ≤ n ∧ ∀ n', n ≤ n' → vs n' = .ok bs

section
variable {g : Geo} {α β : Type} {P : St K → Prop} {kc : KeyCodec K}

theorem Steady.of {m : M K α} {b : Nat} (h : Needs g m b) : Steady m := fun s hs =>
  let ⟨h1, n, _, h3⟩ := h s hs
  ⟨h1, n, h3⟩

theorem Dead.get {f : St K → M K β} (h : ∀ s, Dead (f s)) : Dead (M.get >>= f) := fun s hs => h s s hs

theorem Dead.modify {f : St K → St K} (h : ∀ s, (f s).fl = s.fl) : Dead (M.modify f) := fun s hs => by
  refine ⟨?_, .inl ?_⟩
  · show (f s).fl.mem = _
    rw [h]
  · show (f s).fl.fuel = _
    rw [h]; exact hs

theorem Plain.dead {m : M K α} (h : Plain m) : Dead m := (h.cut (P := fun _ => True)).dead

theorem Plain.liftSer (r : Except SerErr α) : Plain (K := K) (Map.liftSer r) := .lift _

theorem Post.bind {m : M K α} {f : α → M K β} {Q : β → St K → Prop} (h : ∀ a, Post (f a) Q) : Post (m >>= f) Q := by
  intro s b hb
  change (M.bind m f s).1 = _ at hb
  show Q b (M.bind m f s).2
  unfold M.bind at hb ⊢
  rcases hr : m s with ⟨r, t⟩
  rw [hr] at hb
  cases r with
  | error e => simp at hb
  | ok a => exact h a t b hb

theorem Post.bindPost {m : M K α} {f : α → M K β} {R : α → St K → Prop} {Q : β → St K → Prop} (hm : Post m R)
    (h : ∀ a s b, R a s → (f a s).1 = .ok b → Q b (f a s).2) : Post (m >>= f) Q := by
  intro s b hb
  have hs := hm s
  change (M.bind m f s).1 = _ at hb
  show Q b (M.bind m f s).2
  unfold M.bind at hb ⊢
  rcases hr : m s with ⟨r, t⟩
  rw [hr] at hb hs
  cases r with
  | error e => simp at hb
  | ok a => exact h a t b (hs a rfl) hb

theorem Post.throw {e : Err} {Q : α → St K → Prop} : Post (M.throw e : M K α) Q := fun s a h => by simp [M.throw] at h

theorem Post.pure {a : α} {Q : α → St K → Prop} (h : ∀ s, Q a s) : Post (pure a : M K α) Q := fun s b hb => by
  have : a = b := by
    change Except.ok a = Except.ok b at hb
    simpa using hb
  subst this
  exact h s

/-! ### Reading items -/

theorem read_length {f : Flash} {a n : Nat} {bs : List Byte} (h : f.read g a n = .ok bs) : bs.length = n := by
  unfold Flash.read at h
  split at h
  · simp at h
  · split at h
    · simp at h
    · simp only [Except.ok.injEq] at h
      subst h
      simp [readBytes]

theorem readIntoBuf_ext (a : Nat) {n : Nat} {s : St K} (hn : n ≤ s.buf.length) (x : List Byte) :
    readIntoBuf g a n (ext s x) = ((readIntoBuf g a n s).1, ext (readIntoBuf g a n s).2 x) ∧
      ((readIntoBuf g a n s).1 = .ok () → (readIntoBuf g a n s).2.buf.length = s.buf.length) := by
  unfold readIntoBuf
  split
  · exact ⟨rfl, fun _ => rfl⟩
  · show M.bind _ _ _ = ((M.bind _ _ _).1, ext (M.bind _ _ _).2 x) ∧ ((M.bind _ _ _).1 = _ → (M.bind _ _ _).2.buf.length = _)
    unfold M.bind flashRead
    rw [show (ext s x).fl = s.fl from rfl]
    cases hr : s.fl.read g a n with
    | error e => exact ⟨rfl, fun h => by simp at h⟩
    | ok bs =>
      have hl := read_length hr
      refine ⟨?_, fun _ => ?_⟩
      · simp only [M.modify, ext, List.drop_append_of_le_length hn, List.append_assoc]
      · simp only [M.modify, List.length_append, List.length_drop, hl]
        omega

theorem Plain.readIntoBuf_dead (a n : Nat) : Dead (K := K) (readIntoBuf g a n) := by
  unfold readIntoBuf
  split
  · exact (Plain.pure _).dead
  · exact (Plain.flashRead _ _).dead.bind fun _ => .modify fun _ => rfl

theorem Cut.readItem (w : g.WF) (h : Header) (a e : Nat) : CutOn (K := K) P (SeqStorage.readItem g h a e) := by
  refine ⟨Steady.of (Needs.readItem h a e), ?_, ?_⟩
  · unfold SeqStorage.readItem
    split
    · exact (Plain.pure _).dead
    · split
      · exact (Plain.pure _).dead
      · refine .get fun s => ?_
        split
        · exact (Plain.throw _).dead
        · refine (Plain.readIntoBuf_dead _ _).bind fun _ => .get fun s => ?_
          split
          · exact (Plain.pure _).dead
          · exact (Plain.pure _).dead
  · intro s x hs _
    have hd : Dead (K := K) (SeqStorage.readItem g h a e) := by
      unfold SeqStorage.readItem
      split
      · exact (Plain.pure _).dead
      · split
        · exact (Plain.pure _).dead
        · refine .get fun s => ?_
          split
          · exact (Plain.throw _).dead
          · refine (Plain.readIntoBuf_dead _ _).bind fun _ => .get fun s => ?_
            split
            · exact (Plain.pure _).dead
            · exact (Plain.pure _).dead
    by_cases c1 : h.crc = 0#32
    · left; simp only [SeqStorage.readItem, if_pos c1]; rfl
    by_cases c2 : a + g.hl + g.roundUp h.len.toNat > e
    · left; simp only [SeqStorage.readItem, if_neg c1, if_pos c2]; rfl
    have e1 : ∀ t : St K, SeqStorage.readItem g h a e t =
        (if t.buf.length < g.roundUp h.len.toNat then (M.throw (.bufferTooSmall (g.roundUp h.len.toNat)) : M K MaybeItem) else do
          readIntoBuf g (a + g.hl) (g.roundUp h.len.toNat)
          let s ← M.get
          if adaptedCrc32 (s.buf.take h.len.toNat) = h.crc then Pure.pure (.present h) else Pure.pure (.corrupted h)) t := by
      intro t
      simp only [SeqStorage.readItem, if_neg c1, if_neg c2]
      rfl
    by_cases c3 : s.buf.length < g.roundUp h.len.toNat
    · refine Rel.complains (e := .bufferTooSmall (g.roundUp h.len.toNat)) hd trivial ?_ ?_
      · rw [e1, if_pos c3]; rfl
      · rw [e1, if_pos c3]; rfl
    · left
      have c4 : ¬(ext s x).buf.length < g.roundUp h.len.toNat := by simp only [ext, List.length_append]; omega
      rw [e1, e1, if_neg c3, if_neg c4]
      obtain ⟨i1, i2⟩ := readIntoBuf_ext (g := g) (a + g.hl) (Nat.le_of_not_lt c3) x
      show M.bind _ _ _ = ((M.bind _ _ _).1, ext (M.bind _ _ _).2 x)
      unfold M.bind
      rw [i1]
      rcases hr : readIntoBuf g (a + g.hl) (g.roundUp h.len.toNat) s with ⟨r, t⟩
      rw [hr] at i2
      cases r with
      | error e => rfl
      | ok u =>
        have hl := i2 rfl
        dsimp only at hl ⊢
        have hle : h.len.toNat ≤ t.buf.length := by have := w.le_roundUp h.len.toNat; omega
        show (if adaptedCrc32 ((t.buf ++ x).take h.len.toNat) = h.crc then (Pure.pure (.present h) : M K MaybeItem) else Pure.pure (.corrupted h)) (ext t x) =
          (((if adaptedCrc32 (t.buf.take h.len.toNat) = h.crc then (Pure.pure (.present h) : M K MaybeItem) else Pure.pure (.corrupted h)) t).1,
            ext ((if adaptedCrc32 (t.buf.take h.len.toNat) = h.crc then (Pure.pure (.present h) : M K MaybeItem) else Pure.pure (.corrupted h)) t).2 x)
        rw [List.take_append_of_le_length hle]
        split <;> rfl

/-- The data of a present item is in the buffer. -/
theorem readItem_holds (w : g.WF) (h : Header) (a e : Nat) : Post (K := K) (readItem g h a e)
    (fun r t => ∀ h', r = .present h' → h'.len.toNat ≤ t.buf.length) := by
  unfold readItem
  split
  · exact .pure fun _ _ h => by simp at h
  · split
    · exact .pure fun _ _ h => by simp at h
    · intro s r hr
      change ((if s.buf.length < g.roundUp h.len.toNat then (M.throw (.bufferTooSmall (g.roundUp h.len.toNat)) : M K MaybeItem) else do
          readIntoBuf g (a + g.hl) (g.roundUp h.len.toNat)
          let s ← M.get
          if adaptedCrc32 (s.buf.take h.len.toNat) = h.crc then Pure.pure (.present h) else Pure.pure (.corrupted h)) s).1 = _ at hr
      show ∀ h', r = .present h' → h'.len.toNat ≤ ((if s.buf.length < g.roundUp h.len.toNat then (M.throw (.bufferTooSmall (g.roundUp h.len.toNat)) : M K MaybeItem) else do
          readIntoBuf g (a + g.hl) (g.roundUp h.len.toNat)
          let s ← M.get
          if adaptedCrc32 (s.buf.take h.len.toNat) = h.crc then Pure.pure (.present h) else Pure.pure (.corrupted h)) s).2.buf.length
      by_cases c3 : s.buf.length < g.roundUp h.len.toNat
      · rw [if_pos c3] at hr; simp [M.throw] at hr
      · rw [if_neg c3] at hr ⊢
        obtain ⟨_, i2⟩ := readIntoBuf_ext (g := g) (a + g.hl) (Nat.le_of_not_lt c3) []
        change (M.bind _ _ _).1 = _ at hr
        show ∀ h', _ → _ ≤ (M.bind _ _ _).2.buf.length
        unfold M.bind at hr ⊢
        rcases hq : readIntoBuf g (a + g.hl) (g.roundUp h.len.toNat) s with ⟨q, t⟩
        rw [hq] at i2 hr
        cases q with
        | error e => simp at hr
        | ok u =>
          have hl := i2 rfl
          dsimp only at hl hr ⊢
          have hle : h.len.toNat ≤ t.buf.length := by have := w.le_roundUp h.len.toNat; omega
          change ((if adaptedCrc32 (t.buf.take h.len.toNat) = h.crc then (Pure.pure (.present h) : M K MaybeItem) else Pure.pure (.corrupted h)) t).1 = _ at hr
          show ∀ h', _ → _ ≤ ((if adaptedCrc32 (t.buf.take h.len.toNat) = h.crc then (Pure.pure (.present h) : M K MaybeItem) else Pure.pure (.corrupted h)) t).2.buf.length
          intro h' e'
          split at hr
          · change Except.ok (MaybeItem.present h) = Except.ok r at hr
            simp only [Except.ok.injEq] at hr
            rw [e'] at hr
            simp only [MaybeItem.present.injEq] at hr
            rw [if_pos ‹_›, ← hr]
            exact hle
          · change Except.ok (MaybeItem.corrupted h) = Except.ok r at hr
            simp only [Except.ok.injEq] at hr
            rw [e'] at hr
            simp at hr

theorem Cut.itemNext (w : g.WF) (e n a : Nat) : Cut (K := K) (SeqStorage.itemNext g e n a) := by
  have hi := fun h a e P => Cut.readItem (K := K) (P := P) w h a e
  induction n generalizing a with
  | zero => exact (Plain.throw _).cut
  | succ n ih =>
    unfold SeqStorage.itemNext
    cuts

/-- Decoding the key at the start of the buffer. -/
theorem Cut.decode (hk : KeyExt kc) {f : K × Nat → M K β} (hf : ∀ r, Cut (f r)) :
    CutOn P (M.get >>= fun s => Map.liftSer (kc.de s.buf) >>= f) where
  steady s hs := by
    obtain ⟨h1, n, h3⟩ := ((Plain.liftSer (kc.de s.buf)).cut (P := fun _ => True)).steady.bind (fun r => (hf r).steady) s hs
    exact ⟨h1, n, h3⟩
  dead := .get fun s => (Plain.liftSer _).dead.bind fun r => (hf r).dead
  rel s x hs _ := by
    cases hd : kc.de s.buf with
    | error er =>
      refine Rel.complains (e := .serialization er) (.get fun s => (Plain.liftSer _).dead.bind fun r => (hf r).dead) trivial ?_ ?_
      · show ((Map.liftSer (kc.de s.buf) >>= f) s).1 = _
        rw [hd]; rfl
      · show ((Map.liftSer (kc.de s.buf) >>= f) s).2.fl.mem = _
        rw [hd]; rfl
    | ok r =>
      have hx := hk.de _ r x hd
      have e1 : (M.get >>= fun s => Map.liftSer (kc.de s.buf) >>= f) s = f r s := by
        show (Map.liftSer (kc.de s.buf) >>= f) s = _
        rw [hd]; rfl
      have e2 : ∀ fu : Option Nat, (M.get >>= fun s => Map.liftSer (kc.de s.buf) >>= f) (withFuel (ext s x) fu) = f r (withFuel (ext s x) fu) := by
        intro fu
        show (Map.liftSer (kc.de (s.buf ++ x)) >>= f) (withFuel (ext s x) fu) = _
        rw [hx]; rfl
      have e3 : (M.get >>= fun s => Map.liftSer (kc.de s.buf) >>= f) (ext s x) = f r (ext s x) := by
        show (Map.liftSer (kc.de (s.buf ++ x)) >>= f) (ext s x) = _
        rw [hx]; rfl
      unfold Rel
      simp only [e1, e2, e3]
      exact (hf r).rel s x hs trivial

/-! ### Fetching -/

theorem Cut.noticeKey (k : K) (a : Nat) (d : Bool) : CutOn (K := K) P (Map.noticeKey k a d) := (Plain.updateCache _).cut
macro_rules | `(tactic| cut_step) => `(tactic| with_reducible exact Cut.noticeKey _ _ _)
macro_rules | `(tactic| cut_step) => `(tactic| with_reducible exact Plain.cut (Plain.liftSer _))

theorem Cut.fetchCached (w : g.WF) (k : K) : CutOn (K := K) P (Map.fetchCached g k) := by
  have hi := fun h a e P => Cut.readItem (K := K) (P := P) w h a e
  unfold Map.fetchCached
  cuts

theorem Cut.lastUsedPage : CutOn (K := K) P (Map.lastUsedPage g) := by
  unfold Map.lastUsedPage
  cuts
macro_rules | `(tactic| cut_step) => `(tactic| with_reducible exact Cut.lastUsedPage)

theorem Cut.scanPage (w : g.WF) (hk : KeyExt kc) (k : K) (e n a : Nat) (f : Option (Nat × Nat)) : Cut (K := K) (Map.scanPage g kc k e n a f) := by
  induction n generalizing a f with
  | zero => exact (Plain.throw _).cut
  | succ n ih =>
    unfold Map.scanPage
    refine (Cut.itemNext w _ _ _).bind fun r => ?_
    split
    · exact (Plain.pure _).cut
    · exact .decode hk fun r => ih _ _

theorem Cut.searchPages (w : g.WF) (hk : KeyExt kc) (k : K) (n p : Nat) : Cut (K := K) (Map.searchPages g kc k n p) := by
  have hi := fun e n a f => Cut.scanPage (K := K) w hk k e n a f
  induction n generalizing p with
  | zero => exact (Plain.throw _).cut
  | succ n ih =>
    unfold Map.searchPages
    cuts

theorem Cut.fetchLoc (w : g.WF) (hk : KeyExt kc) (k : K) : Cut (K := K) (Map.fetchLoc g kc k) := by
  have hi := fun h a e P => Cut.readItem (K := K) (P := P) w h a e
  have hj := fun P k => Cut.fetchCached (K := K) (P := P) w k
  have hl := fun n p => Cut.searchPages (K := K) w hk k n p
  unfold Map.fetchLoc
  cuts

/-- The data of the item that was found is in the buffer. -/
theorem fetchLoc_holds (w : g.WF) (k : K) : Post (K := K) (Map.fetchLoc g kc k)
    (fun r t => ∀ h a l, r = some (h, a, l) → h.len.toNat ≤ t.buf.length) := by
  unfold Map.fetchLoc
  refine .bind fun _ => ?_
  refine .bindPost (R := fun r t => ∀ h a, r = some (h, a) → h.len.toNat ≤ t.buf.length) ?_ ?_
  · unfold Map.fetchCached
    refine .bind fun s => ?_
    split
    · exact .pure fun _ _ _ h => by simp at h
    · refine .bind fun r => ?_
      split
      · exact .bind fun _ => .pure fun _ _ _ h => by simp at h
      · refine .bindPost (readItem_holds w _ _ _) ?_
        intro r t b hR hb h a hh
        split at hb
        · change Except.ok _ = Except.ok b at hb
          simp only [Except.ok.injEq] at hb
          rw [← hb] at hh
          simp only [Option.some.injEq, Prod.mk.injEq] at hh
          rw [← hh.1]
          exact hR _ rfl
        · change Except.ok none = Except.ok b at hb
          simp only [Except.ok.injEq] at hb
          rw [← hb] at hh
          simp at hh
  · intro r t b hR hb
    split at hb
    · change Except.ok _ = Except.ok b at hb
      simp only [Except.ok.injEq] at hb
      intro h a l hh
      rw [← hb] at hh
      simp only [Option.some.injEq, Prod.mk.injEq] at hh
      rw [← hh.1]
      exact hR _ _ rfl
    · revert hb
      generalize hm : (Map.lastUsedPage g >>= fun x => _ : M K (Option (Header × Nat × Option Nat))) = m
      have : Post m (fun r t => ∀ h a l, r = some (h, a, l) → h.len.toNat ≤ t.buf.length) := by
        subst hm
        refine .bind fun p => ?_
        split
        · exact .bind fun _ => .pure fun _ _ _ _ h => by simp at h
        · refine .bind fun q => ?_
          split
          · exact .bind fun _ => .pure fun _ _ _ _ h => by simp at h
          · refine .bind fun _ => .bind fun o => ?_
            split
            · exact .throw
            · refine .bindPost (readItem_holds w _ _ _) ?_
              intro r t b hR hb
              split at hb
              · change Except.ok _ = Except.ok b at hb
                simp only [Except.ok.injEq] at hb
                intro h a l hh
                rw [← hb] at hh
                simp only [Option.some.injEq, Prod.mk.injEq] at hh
                rw [← hh.1]
                exact hR _ rfl
              · simp [M.throw] at hb
              · simp [M.throw] at hb
      exact this t b

/-! ### Migrating -/

theorem Cut.migrateLoop (w : g.WF) (hk : KeyExt kc) (e n a t : Nat) : Cut (K := K) (Map.migrateLoop g kc e n a t) := by
  induction n generalizing a t with
  | zero => exact (Plain.throw _).cut
  | succ n ih =>
    unfold Map.migrateLoop
    refine (Cut.itemNext w _ _ _).bind fun r => ?_
    split
    · exact (Plain.pure _).cut
    · refine .decode hk fun r => ?_
      dsimp only
      refine Cut.unmarkDirty.bind fun _ => (Cut.fetchLoc w hk _).bindPost (fetchLoc_holds w _) fun l => ?_
      split
      · exact (Plain.throw _).cut
      · rename_i h found x
        refine .get (fun _ _ => rfl) (fun s x hs => ?_) fun s => ?_
        · have hl := hs _ _ _ rfl
          have c1 : ¬s.buf.length + x.length < h.len.toNat := by omega
          have c2 : ¬s.buf.length < h.len.toNat := by omega
          simp only [ext, List.take_append_of_le_length hl, List.length_append, if_neg c1, if_neg c2]
        · cuts

theorem Cut.migrate (w : g.WF) (hk : KeyExt kc) (a b : Nat) : Cut (K := K) (Map.migrate g kc a b) :=
  (Cut.migrateLoop w hk _ _ _ _).bind fun _ => .openPage w _

theorem Cut.tryRepair (w : g.WF) (hk : KeyExt kc) : Cut (K := K) (Map.tryRepair g kc) := by
  have h1 := Cut.generalRepairIn (K := K) w (g.pages 0)
  have h2 := fun P i => Cut.openPage (K := K) (P := P) w i
  have h3 := fun a b => Cut.migrate (K := K) w hk a b
  unfold Map.tryRepair SeqStorage.tryGeneralRepair
  cuts

theorem Post.withRepair {f : M K α} {r : M K Unit} {Q : α → St K → Prop} (h : Post f Q) : Post (SeqStorage.withRepair f r) Q := by
  intro s a
  rw [withRepair_eq]
  have hs := h s
  rcases hr : f s with ⟨q, t⟩
  rw [hr] at hs
  rcases q with e | b
  · cases e
    case corrupted => exact Post.bind (m := r) (fun _ => h) t a
    all_goals exact fun hh => by simp [afterTry] at hh
  · exact fun hh => hs a hh

theorem Cut.fetchItem (w : g.WF) (hk : KeyExt kc) (vc : ValCodec V) (k : K) : Cut (K := K) (Map.fetchItem g kc vc k) := by
  unfold Map.fetchItem
  refine (Cut.withRepair (Cut.fetchLoc w hk k) (Cut.tryRepair w hk)).bindPost (fetchLoc_holds w k).withRepair fun l => ?_
  split
  · exact (Plain.pure _).cut
  · refine .get (fun _ _ => rfl) (fun s x hs => ?_) fun s => ?_
    · have hl := hs _ _ _ rfl
      simp only [ext, List.take_append_of_le_length hl]
    · cuts

/-- Serializing an item into the buffer. -/
theorem Cut.serializeItem (g : Geo) (hk : KeyExt kc) (k : K) {vs : Nat → Except SerErr (List Byte)} (hv : SerExt vs) :
    CutOn (K := K) P (Map.serializeItem kc k vs) := by
  have hd : Dead (K := K) (Map.serializeItem kc k vs) := by
    unfold Map.serializeItem
    refine .get fun s => (Plain.liftSer _).dead.bind fun kb => Dead.bind (.modify ?_) fun _ => (Plain.liftSer _).dead.bind fun vb =>
      Dead.bind (.modify ?_) fun _ => (Plain.pure _).dead
    · intros; rfl
    · intros; rfl
  refine ⟨Steady.of (g := g) (Needs.serializeItem kc k vs), hd, fun s x hs _ => ?_⟩
  have e1 : ∀ t : St K, Map.serializeItem kc k vs t = match kc.ser k t.buf.length with
      | .error e => (.error (.serialization e), t)
      | .ok kb => match vs (t.buf.length - kb.length) with
        | .error e => (.error (.serialization e), { t with buf := kb ++ t.buf.drop kb.length })
        | .ok vb => (.ok (kb ++ vb), { t with buf := kb ++ vb ++ (kb ++ t.buf.drop kb.length).drop (kb.length + vb.length) }) := by
    intro t
    show (M.bind (Map.liftSer (kc.ser k t.buf.length)) _) t = _
    unfold M.bind Map.liftSer M.lift
    cases kc.ser k t.buf.length with
    | error e => rfl
    | ok kb =>
      show (M.bind (Map.liftSer (vs (t.buf.length - kb.length))) _) _ = _
      unfold M.bind Map.liftSer M.lift
      dsimp only
      cases vs (t.buf.length - kb.length) with
      | error e => rfl
      | ok vb => rfl
  cases h1 : kc.ser k s.buf.length with
  | error er => exact Rel.complains (e := .serialization er) hd trivial (by rw [e1, h1]) (by rw [e1, h1])
  | ok kb =>
    obtain ⟨l1, m1⟩ := hk.ser _ _ _ h1
    cases h2 : vs (s.buf.length - kb.length) with
    | error er => exact Rel.complains (e := .serialization er) hd trivial (by rw [e1, h1]; simp only [h2]) (by rw [e1, h1]; simp only [h2])
    | ok vb =>
      obtain ⟨l2, m2⟩ := hv _ _ h2
      left
      have h3 : kc.ser k (ext s x).buf.length = .ok kb := m1 _ (by simp only [ext, List.length_append]; omega)
      have h4 : vs ((ext s x).buf.length - kb.length) = .ok vb := m2 _ (by simp only [ext, List.length_append]; omega)
      rw [e1, e1, h1, h3]
      simp only [h2, h4]
      simp only [ext]
      have h5 : (s.buf ++ x).drop kb.length = s.buf.drop kb.length ++ x := List.drop_append_of_le_length l1
      have h6 : (kb ++ (s.buf.drop kb.length ++ x)).drop (kb.length + vb.length) = (kb ++ s.buf.drop kb.length).drop (kb.length + vb.length) ++ x := by
        rw [← List.append_assoc]
        exact List.drop_append_of_le_length (by simp only [List.length_append, List.length_drop]; omega)
      rw [h5, h6]
      simp only [List.append_assoc]

theorem Cut.storeAdvance (w : g.WF) (hk : KeyExt kc) (p : Nat) : Cut (K := K) (Map.storeAdvance g kc p) := by
  have h3 := fun a b => Cut.migrate (K := K) w hk a b
  unfold Map.storeAdvance
  cuts

theorem Cut.storeRound (w : g.WF) (hk : KeyExt kc) (k : K) {vs : Nat → Except SerErr (List Byte)} (hv : SerExt vs) :
    Cut (K := K) (Map.storeRound g kc k vs) := by
  have h3 := fun p => Cut.storeAdvance (K := K) w hk p
  have h4 := fun P => Cut.serializeItem (K := K) (P := P) g hk k hv
  unfold Map.storeRound
  cuts

theorem Cut.storeLoop (w : g.WF) (hk : KeyExt kc) (k : K) {vs : Nat → Except SerErr (List Byte)} (hv : SerExt vs) (n : Nat) :
    Cut (K := K) (Map.storeLoop g kc k vs n) := by
  have h := Cut.storeRound (K := K) w hk k hv
  induction n with
  | zero => exact Cut.unmarkDirty.bind fun _ => (Plain.throw _).cut
  | succ n ih =>
    unfold Map.storeLoop
    cuts

theorem Cut.storeItem (w : g.WF) (hk : KeyExt kc) (vc : ValCodec V) (k : K) (v : V) (hv : SerExt (vc.ser v)) :
    Cut (K := K) (Map.storeItem g kc vc k v) :=
  Cut.withRepair (Cut.checkDirty.bind fun _ => Cut.storeLoop w hk k hv _) (Cut.tryRepair w hk)

/-! ### Removing -/

theorem Cut.removePage (w : g.WF) (hk : KeyExt kc) (k : Option K) (e n a : Nat) : Cut (K := K) (Map.removePage g kc k e n a) := by
  have hi := fun h a e P => Cut.readItem (K := K) (P := P) w h a e
  induction n generalizing a with
  | zero => exact (Plain.throw _).cut
  | succ n ih =>
    unfold Map.removePage
    refine (Cut.traverse _ _ _ _).bind fun r => ?_
    split
    · exact (Plain.pure _).cut
    · rename_i h addr nxt
      refine (hi _ _ _ _).bind fun m => ?_
      split
      · rename_i h'
        have rest : ∀ hit : Bool, Cut (K := K) (do
            if hit then SeqStorage.eraseItem g h' addr else Pure.pure ()
            Map.removePage g kc k e n nxt) := by
          intro hit
          cuts
        cases k with
        | none => exact CutOn.get (fun _ _ => rfl) (fun _ _ _ => rfl) fun s => (Plain.pure _).cut.bind rest
        | some k => exact .decode hk fun r => (Plain.pure _).cut.bind rest
      · exact ih _

theorem Cut.removeIn (w : g.WF) (hk : KeyExt kc) (k : Option K) (l : List Nat) : Cut (K := K) (Map.removeIn g kc k l) := by
  have h := fun e n a => Cut.removePage (K := K) w hk k e n a
  induction l with
  | nil => exact (Plain.pure _).cut
  | cons i l ih =>
    unfold Map.removeIn
    cuts

theorem Cut.removeInner (w : g.WF) (hk : KeyExt kc) (k : Option K) : Cut (K := K) (Map.removeInner g kc k) := by
  have h := fun l => Cut.removeIn (K := K) w hk k l
  unfold Map.removeInner
  cuts

theorem Cut.removeItem (w : g.WF) (hk : KeyExt kc) (k : K) : Cut (K := K) (Map.removeItem g kc k) :=
  Cut.withRepair (Cut.removeInner w hk _) (Cut.tryRepair w hk)

theorem Cut.removeAll (w : g.WF) (hk : KeyExt kc) : Cut (K := K) (Map.removeAll g kc) :=
  Cut.withRepair (Cut.removeInner w hk _) (Cut.tryRepair w hk)

/-! ### Starting an iteration -/

theorem Cut.fetchAllFirst : Cut (K := K) (Map.fetchAllFirst g) := by
  unfold Map.fetchAllFirst
  cuts

theorem Cut.fetchAll (w : g.WF) (hk : KeyExt kc) : Cut (K := K) (Map.fetchAll g kc) := by
  have h1 := Cut.fetchAllFirst (K := K) (g := g)
  have h2 : ∀ i : MIter, Cut (K := K) (M.modify fun s => { s with mit := i }) := fun i =>
    Plain.cut fun _ => ⟨rfl, rfl, fun _ => rfl, fun _ => rfl⟩
  unfold Map.fetchAll
  refine h1.bind fun r => ?_
  split
  · exact (Cut.tryRepair w hk).bind fun _ => h1.bind fun _ => (Plain.lift _).cut.bind fun _ => h2 _
  · exact (Plain.lift _).cut.bind fun _ => h2 _

end

end SeqStorage.Short
