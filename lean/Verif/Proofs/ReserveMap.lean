import Verif.Model.MapUse
import Verif.Proofs.Reserve
import Verif.Proofs.Run
/-
How much power a call of the map uses.
-/
set_option linter.unusedSectionVars false

namespace SeqStorage.Proofs
open SeqStorage M Spec

variable {K : Type} [DecidableEq K] {V : Type} {g : Geo}

section

theorem Needs.noticeKey {b : Nat} (k : K) (a : Nat) (d : Bool) : Needs (K := K) g (Map.noticeKey k a d) b := .updateCache _
macro_rules | `(tactic| needs_step) => `(tactic| with_reducible exact Needs.noticeKey _ _ _)

theorem Needs.repair {α : Type} {f : M K α} {r : M K Unit} {b c : Nat} (hf : Needs g f b) (hr : Needs g r c) :
    Needs g (SeqStorage.withRepair f r) (b + (c + b)) := by
  unfold SeqStorage.withRepair
  refine hf.attempt.bindTwo fun x => ?_
  split
  · exact hr.bindTwo fun _ => hf
  · exact .lift _

/-- The rest may rely on what the first part answers. -/
theorem Needs.bindPost {α β : Type} {m : M K α} {f : α → M K β} {b c : Nat} {P : α → Prop} (hm : Needs g m b)
    (hP : ∀ s a s', m s = (.ok a, s') → P a) (hf : ∀ a, P a → Needs g (f a) c) : Needs g (m >>= f) (b + c) := by
  intro s hs
  obtain ⟨h1, n, h2, h3⟩ := hm s hs
  show (M.bind m f s).2.fl.fuel = none ∧ ∃ n, n + g.eraseSize * s.fl.erases.length ≤
    g.eraseSize * (M.bind m f s).2.fl.erases.length + (b + c) ∧
    ∀ k, n ≤ k → M.bind m f (withFuel s (some k)) = ((M.bind m f s).1, withFuel (M.bind m f s).2 (some (k - n)))
  unfold M.bind
  rcases hr : m s with ⟨r, t⟩
  rw [hr] at h1 h2 h3
  cases r with
  | error e =>
    refine ⟨h1, n, by dsimp only at h2 ⊢; omega, fun k hk => ?_⟩
    rw [h3 k hk]
  | ok a =>
    obtain ⟨i1, n', i2, i3⟩ := hf a (hP s a t hr) t h1
    refine ⟨i1, n + n', by dsimp only at h2 ⊢; omega, fun k hk => ?_⟩
    rw [h3 k (by omega)]
    dsimp only
    rw [i3 (k - n) (by omega), Nat.sub_sub]

/-- Something that always fails, and nothing after it. -/
theorem Needs.bindFail {α β : Type} {m : M K α} {f : α → M K β} {b : Nat} (hm : Needs g m b)
    (hP : ∀ s a s', m s ≠ (.ok a, s')) : Needs g (m >>= f) b :=
  hm.bindPost (c := 0) (P := fun _ => False) (fun s a s' h => hP s a s' h) fun _ h => h.elim

/-! ### The map -/

theorem Needs.liftSer {α : Type} (r : Except SerErr α) : Needs (K := K) g (Map.liftSer r) 0 := Needs.lift _
macro_rules | `(tactic| needs_step) => `(tactic| with_reducible exact Needs.liftSer _)

theorem Needs.fetchCached (k : K) : Needs (K := K) g (Map.fetchCached g k) 0 := by
  unfold Map.fetchCached
  needs
macro_rules | `(tactic| needs_step) => `(tactic| with_reducible exact Needs.fetchCached _)

theorem Needs.lastUsedPage : Needs (K := K) g (Map.lastUsedPage g) 0 := by
  unfold Map.lastUsedPage
  needs
macro_rules | `(tactic| needs_step) => `(tactic| with_reducible exact Needs.lastUsedPage)

theorem Needs.scanPage (kc : KeyCodec K) (k : K) (e n a : Nat) (f : Option (Nat × Nat)) : Needs (K := K) g (Map.scanPage g kc k e n a f) 0 := by
  induction n generalizing a f with
  | zero => exact Needs.throw _
  | succ n ih =>
    unfold Map.scanPage
    needs
macro_rules | `(tactic| needs_step) => `(tactic| with_reducible exact Needs.scanPage _ _ _ _ _ _)

theorem Needs.searchPages (kc : KeyCodec K) (k : K) (n p : Nat) : Needs (K := K) g (Map.searchPages g kc k n p) 0 := by
  induction n generalizing p with
  | zero => exact Needs.throw _
  | succ n ih =>
    unfold Map.searchPages
    needs
macro_rules | `(tactic| needs_step) => `(tactic| with_reducible exact Needs.searchPages _ _ _ _)

theorem Needs.fetchLoc (kc : KeyCodec K) (k : K) : Needs (K := K) g (Map.fetchLoc g kc k) 0 := by
  unfold Map.fetchLoc
  needs
macro_rules | `(tactic| needs_step) => `(tactic| with_reducible exact Needs.fetchLoc _ _)

theorem bind_inv {α β : Type} {m : M K α} {f : α → M K β} {s s' : St K} {b : β} (h : (m >>= f) s = (.ok b, s')) :
    ∃ a s1, m s = (.ok a, s1) ∧ f a s1 = (.ok b, s') := by
  rw [bind_run] at h
  rcases hm : m s with ⟨r, s1⟩
  rw [hm] at h
  cases r with
  | ok a => exact ⟨a, s1, rfl, h⟩
  | error e => cases h

/-- A write that does not fit into the range fails. -/
theorem flashWrite_ok {a : Nat} {bs : List Byte} {s s' : St K} {u : Unit} (h : flashWrite g a bs s = (.ok u, s')) :
    g.start ≤ a ∧ a + bs.length ≤ g.stop := by
  have h1 : (s.fl.write g a bs).1 = .ok u := congrArg Prod.fst h
  unfold Flash.write at h1
  split at h1
  · cases h1
  · split at h1
    · cases h1
    · omega

/-- An item that is written fits into the range. -/
theorem writeRaw_ok (w : g.WF) {h : Header} {d : List Byte} {a : Nat} {s s' : St K} {u : Unit}
    (hr : SeqStorage.writeRaw g h d a s = (.ok u, s')) : a + g.hl + g.roundUp d.length ≤ g.stop := by
  unfold SeqStorage.writeRaw at hr
  obtain ⟨_, _, _, hr⟩ := bind_inv hr
  obtain ⟨_, _, h1, hr⟩ := bind_inv hr
  have b1 := flashWrite_ok h1
  rw [encode_length w] at b1
  have hd := w.roundDown_le d.length
  have hz := w.roundUp_zero
  have hu := w.le_roundUp (d.drop (g.roundDown d.length)).length
  rw [w.roundDown_add_tail d.length]
  have tail : ∀ {s : St K}, a + g.hl + g.roundDown d.length ≤ g.stop → (if (d.drop (g.roundDown d.length)).length ≠ 0 then
      SeqStorage.flashWrite g (a + g.hl + g.roundDown d.length) (d.drop (g.roundDown d.length) ++
        List.replicate (g.roundUp (d.drop (g.roundDown d.length)).length - (d.drop (g.roundDown d.length)).length) 0#8)
      else Pure.pure () : M K Unit) s = (.ok u, s') →
      a + g.hl + (g.roundDown d.length + g.roundUp (d.length - g.roundDown d.length)) ≤ g.stop := by
    intro s b2 h
    split at h
    · have b3 := flashWrite_ok h
      rw [List.length_append, List.length_replicate, Nat.add_sub_cancel' hu, List.length_drop] at b3
      omega
    · rename_i h0
      rw [List.length_drop] at h0
      rw [show d.length - g.roundDown d.length = 0 by omega, hz]
      omega
  dsimp only at hr
  split at hr
  · obtain ⟨_, _, h2, hr⟩ := bind_inv hr
    have b2 := flashWrite_ok h2
    rw [List.length_take] at b2
    exact tail (by omega) hr
  · exact tail (by omega) hr

/-- Writing an item takes no more than there is in the range. -/
theorem Needs.writeRawRange (w : g.WF) (h : Header) (d : List Byte) (a : Nat) :
    Needs (K := K) g (SeqStorage.writeRaw g h d a) (g.stop - a) := by
  have range : ∀ (a : Nat) (bs : List Byte), Needs (K := K) g (SeqStorage.flashWrite g a bs) (g.stop - a) := by
    intro a bs
    by_cases hb : a + bs.length ≤ g.stop
    · exact .flashWrite _ _ (by omega)
    · refine .free fun s f => ?_
      unfold SeqStorage.flashWrite Flash.write
      by_cases c1 : a % g.writeSize ≠ 0 ∨ bs.length = 0 ∨ bs.length % g.writeSize ≠ 0
      · simp only [if_pos c1]
        exact ⟨rfl, rfl, rfl⟩
      · simp only [if_neg c1, if_pos (show a < g.start ∨ g.stop < a + bs.length by omega)]
        exact ⟨rfl, rfl, rfl⟩
  unfold SeqStorage.writeRaw
  refine (Needs.modifyCache _).bind fun _ => ?_
  dsimp only
  have tail : ∀ _ : Unit, Needs (K := K) g (if (d.drop (g.roundDown d.length)).length ≠ 0 then
      SeqStorage.flashWrite g (a + g.hl + g.roundDown d.length) (d.drop (g.roundDown d.length) ++
        List.replicate (g.roundUp (d.drop (g.roundDown d.length)).length - (d.drop (g.roundDown d.length)).length) 0#8)
      else Pure.pure ()) (g.stop - (a + g.hl + g.roundDown d.length)) := by
    intro _
    split
    · exact range _ _
    · exact .pure _
  have hd := w.roundDown_le d.length
  by_cases h1 : a + g.hl ≤ g.stop
  · refine ((Needs.writeHeader w h a).bindTwo (c := g.stop - (a + g.hl)) fun _ => ?_).mono (by omega)
    split
    · by_cases h2 : a + g.hl + g.roundDown d.length ≤ g.stop
      · exact (((Needs.flashWrite (b := g.roundDown d.length) _ _ (by rw [List.length_take]; omega)).bindTwo tail).mono (by omega))
      · refine (range _ _).bindFail fun s u s' hr => h2 ?_
        have := flashWrite_ok hr
        rw [List.length_take] at this
        omega
    · exact (tail ()).mono (by omega)
  · refine (range _ _).bindFail fun s u s' hr => h1 ?_
    have := flashWrite_ok hr
    rw [encode_length w] at this
    omega

theorem Needs.migrateLoop (wf : g.WF) (kc : KeyCodec K) (e n a w : Nat) : Needs (K := K) g (Map.migrateLoop g kc e n a w) (g.stop - w) := by
  induction n generalizing a w with
  | zero => exact Needs.throw _
  | succ n ih =>
    unfold Map.migrateLoop
    refine (Needs.itemNext _ _ _).bind fun r => ?_
    split
    · exact .pure _
    · refine .get (fun _ _ => rfl) fun s => (Needs.liftSer _).bind fun kl => ?_
      dsimp only
      refine Needs.unmarkDirty.bind fun _ => (Needs.fetchLoc _ _).bind fun l => ?_
      split
      · exact .throw _
      · rename_i h found x
        refine .get (fun _ _ => rfl) fun s => ?_
        split
        · exact .throw _
        · rename_i hlen
          split
          · refine (Needs.noticeKey _ _ _).bind fun _ => ?_
            have hl : (s.buf.take h.len.toNat).length = h.len.toNat := by rw [List.length_take]; omega
            by_cases hfit : w + g.hl + g.roundUp h.len.toNat ≤ g.stop
            · have h1 := Needs.writeRaw (K := K) wf h (s.buf.take h.len.toNat) w
              rw [hl] at h1
              exact (h1.bindTwo fun _ => ih _ (h.next g w)).mono (by unfold Header.next; omega)
            · exact (Needs.writeRawRange wf _ _ _).bindFail fun s1 u s2 hr => hfit (hl ▸ writeRaw_ok wf hr)
          · exact ih _ _

theorem Needs.migrate (w : g.WF) (kc : KeyCodec K) (a b : Nat) : Needs (K := K) g (Map.migrate g kc a b) (g.stop - g.start) := by
  unfold Map.migrate
  refine ((Needs.migrateLoop w kc _ _ _ _).bindTwo (c := 0) fun _ => .openPage _).mono ?_
  have : g.start ≤ g.dataStart b := by unfold Geo.dataStart Geo.pageAddr; omega
  omega

theorem Needs.mtryRepair (w : g.WF) (kc : KeyCodec K) : Needs (K := K) g (Map.tryRepair g kc) (g.word + (g.stop - g.start)) := by
  unfold Map.tryRepair
  refine Needs.invalidate.bind fun _ => Needs.tryGeneralRepair.bind fun _ => (Needs.findFirstPage _ _).bind fun r => ?_
  split
  · exact .pure _
  · dsimp only
    refine (Needs.getPageStateCached _).bind fun st => ?_
    split
    · exact .pure _
    · exact (Needs.openPage _).bind fun _ => (Needs.partialClosePage _).bindTwo fun _ => .migrate w _ _ _

theorem Needs.fetchItem (w : g.WF) (kc : KeyCodec K) (vc : ValCodec V) (k : K) :
    Needs (K := K) g (Map.fetchItem g kc vc k) (g.word + (g.stop - g.start)) := by
  unfold Map.fetchItem
  refine (((Needs.fetchLoc kc k).repair (Needs.mtryRepair w kc)).mono (b' := g.word + (g.stop - g.start)) (by omega)).bindTwo (c := 0) fun r => ?_
  needs

theorem Needs.serializeItem (kc : KeyCodec K) (k : K) (vs : Nat → Except SerErr (List Byte)) : Needs (K := K) g (Map.serializeItem kc k vs) 0 := by
  unfold Map.serializeItem
  needs
macro_rules | `(tactic| needs_step) => `(tactic| with_reducible exact Needs.serializeItem _ _ _)

theorem Needs.storeAdvance (w : g.WF) (kc : KeyCodec K) (p : Nat) :
    Needs (K := K) g (Map.storeAdvance g kc p) (g.word + (g.stop - g.start)) := by
  unfold Map.storeAdvance
  refine (Needs.getPageStateCached _).bind fun st => ?_
  split
  · exact .throw _
  · refine (Needs.partialClosePage _).bindTwo fun _ => ?_
    dsimp only
    refine (Needs.getPageStateCached _).bind fun st => ?_
    split
    · exact .pure _
    · exact .migrate w _ _ _

theorem Needs.storeRound (w : g.WF) (kc : KeyCodec K) (k : K) (vs : Nat → Except SerErr (List Byte)) :
    Needs (K := K) g (Map.storeRound g kc k vs) (3 * g.word + (g.stop - g.start)) := by
  unfold Map.storeRound
  refine (Needs.findFirstPage _ _).bind fun r => ?_
  split
  · refine (Needs.getPageStateCached _).bind fun st => ?_
    split
    · exact .throw _
    · refine (Needs.serializeItem _ _ _).bind fun d => ?_
      split
      · exact Needs.unmarkDirty.bind fun _ => .throw _
      · rename_i htb
        refine (Needs.findFreeSpot _ _ _).bind fun spot => ?_
        split
        · refine (Needs.noticeKey _ _ _).bind fun _ => ?_
          refine Needs.mono (((Needs.writeNew w _ d).bindTwo (c := 0) fun _ => Needs.unmarkDirty.bind fun _ => .pure _)) ?_
          have h1 := w.roundUp_lt d.length
          have h2 := w.fits
          have h3 := w.stop_eq
          have h4 := Nat.mul_le_mul_left g.eraseSize w.pageCount_pos
          simp only [Geo.tooBig, Geo.pageSize, Bool.or_eq_true, decide_eq_true_eq, not_or, Nat.not_lt, gt_iff_lt] at htb
          have h5 := htb.2
          omega
        · refine Needs.mono ((Needs.closePage _).bindTwo fun _ => (Needs.storeAdvance w kc _).bindTwo (c := 0) fun _ => .pure _) (by omega)
  · refine (Needs.findFirstPage _ _).bind fun r => ?_
    split
    · exact .throw _
    · exact ((Needs.partialClosePage _).bindTwo (c := 0) fun _ => .pure _).mono (by omega)

theorem Needs.storeLoop (w : g.WF) (kc : KeyCodec K) (k : K) (vs : Nat → Except SerErr (List Byte)) (n : Nat) :
    Needs (K := K) g (Map.storeLoop g kc k vs n) (n * (3 * g.word + (g.stop - g.start))) := by
  induction n with
  | zero =>
    unfold Map.storeLoop
    exact Needs.unmarkDirty.bind fun _ => .throw _
  | succ n ih =>
    unfold Map.storeLoop
    rw [Nat.succ_mul, Nat.add_comm]
    refine (Needs.storeRound w kc k vs).bindTwo fun r => ?_
    split
    · exact .pure _
    · exact ih

theorem Needs.storeInner (w : g.WF) (kc : KeyCodec K) (k : K) (vs : Nat → Except SerErr (List Byte)) :
    Needs (K := K) g (Map.storeInner g kc k vs) (g.pageCount * (3 * g.word + (g.stop - g.start))) :=
  Needs.checkDirty.bind fun _ => .storeLoop w kc k vs _

/-- Where a header that is found is. -/
theorem traverse_out {e : Nat} {skip : Header → Bool} {n a : Nat} {s s' : St K} {h : Header} {addr nxt : Nat}
    (hr : SeqStorage.traverse g e skip n a s = (.ok (some h, addr, nxt), s')) : a ≤ addr ∧ nxt = h.next g addr ∧ nxt ≤ e := by
  induction n generalizing a s with
  | zero => cases hr
  | succ n ih =>
    unfold SeqStorage.traverse at hr
    rw [bind_ok (attempt_run _ _)] at hr
    rcases hm : SeqStorage.readHeader g a e s with ⟨r, s1⟩
    rw [hm] at hr
    cases r with
    | ok o =>
      cases o with
      | none => cases hr
      | some h' =>
        have hn : h'.next g a ≤ e := by
          unfold SeqStorage.readHeader at hm
          split at hm
          · cases hm
          · obtain ⟨_, _, _, hm⟩ := bind_inv hm
            obtain ⟨x, _, _, hm⟩ := bind_inv hm
            cases x with
            | none => cases hm
            | some y =>
              dsimp only at hm
              split at hm
              · cases hm
              · cases hm
                omega
        dsimp only at hr
        split at hr
        · have := ih hr
          exact ⟨Nat.le_trans (by unfold Header.next; omega) this.1, this.2⟩
        · cases hr
          exact ⟨Nat.le_refl _, rfl, hn⟩
    | error er =>
      cases er with
      | corrupted =>
        have := ih hr
        exact ⟨Nat.le_trans (by omega) this.1, this.2⟩
      | _ => cases hr

theorem Needs.removePage (w : g.WF) (kc : KeyCodec K) (k : Option K) (e n a : Nat) :
    Needs (K := K) g (Map.removePage g kc k e n a) (e - a) := by
  induction n generalizing a with
  | zero => exact Needs.throw _
  | succ n ih =>
    unfold Map.removePage
    have h0 := (Needs.traverse (K := K) (g := g) e (fun _ => false) g.rounds a).bindPost (c := e - a)
      (P := fun r => ∀ h, r.1 = some h → a ≤ r.2.1 ∧ r.2.2 = h.next g r.2.1 ∧ r.2.2 ≤ e)
      (fun s r s' hr h hh => by
        obtain ⟨r1, r2, r3⟩ := r
        simp only at hh
        subst hh
        exact traverse_out hr)
      (f := fun r => match r with
        | (none, _, _) => Pure.pure ()
        | (some h, addr, nxt) => do
          match ← SeqStorage.readItem g h addr e with
          | .present h => do
            let s ← M.get
            let hit ← match k with
              | some k => do
                let (k', _) ← Map.liftSer (kc.de s.buf)
                Pure.pure (decide (k' = k))
              | none => Pure.pure true
            if hit then SeqStorage.eraseItem g h addr else Pure.pure ()
            Map.removePage g kc k e n nxt
          | _ => Map.removePage g kc k e n nxt) ?_
    · rwa [Nat.zero_add] at h0
    · intro r hr
      obtain ⟨r1, addr, nxt⟩ := r
      cases r1 with
      | none => exact .pure _
      | some h =>
        obtain ⟨p1, p2, p3⟩ := hr h rfl
        dsimp only at p1 p2 p3 ⊢
        unfold Header.next at p2
        refine (Needs.readItem _ _ _).bind fun m => ?_
        split
        · refine .get (fun _ _ => rfl) fun s => ?_
          rename_i h'
          have rest : ∀ hit : Bool, Needs (K := K) g (do
              if hit then SeqStorage.eraseItem g h' addr else Pure.pure ()
              Map.removePage g kc k e n nxt) (e - a) := by
            intro hit
            split
            · exact ((Needs.eraseItem w _ _).bindTwo fun _ => ih nxt).mono (by omega)
            · exact (ih nxt).mono (by omega)
          split
          · exact (Needs.liftSer _).bind fun _ => (Needs.pure _).bind rest
          · exact (Needs.pure _).bind rest
        · exact (ih nxt).mono (by omega)

theorem Needs.removeIn (w : g.WF) (kc : KeyCodec K) (k : Option K) (l : List Nat) :
    Needs (K := K) g (Map.removeIn g kc k l) (l.length * g.eraseSize) := by
  induction l with
  | nil => exact Needs.pure _
  | cons i l ih =>
    unfold Map.removeIn
    rw [List.length_cons, Nat.succ_mul, Nat.add_comm]
    refine (Needs.getPageStateCached _).bind fun st => ?_
    split
    · exact ih.mono (by omega)
    · refine Needs.bindTwo ((Needs.removePage w kc k _ _ _).mono ?_) fun _ => ih
      have := w.dataEnd_eq i
      unfold Geo.pageSize at this
      omega

theorem Needs.noticeKeyErased (k : K) : Needs (K := K) g (SeqStorage.modifyCache fun c => c.noticeKeyErased k) 0 := .modifyCache _
macro_rules | `(tactic| needs_step) => `(tactic| with_reducible exact Needs.noticeKeyErased _)

theorem Needs.removeInner (w : g.WF) (kc : KeyCodec K) (k : Option K) :
    Needs (K := K) g (Map.removeInner g kc k) (g.pageCount * g.eraseSize) := by
  unfold Map.removeInner
  have rest : ∀ p : Nat, Needs (K := K) g (do
      Map.removeIn g kc k (g.pages (g.nextPage p))
      SeqStorage.unmarkDirty) (g.pageCount * g.eraseSize) := fun p => by
    have h := Needs.removeIn (K := K) w kc k (g.pages (g.nextPage p))
    rw [show (g.pages (g.nextPage p)).length = g.pageCount by simp [Geo.pages]] at h
    exact h.bindTwo (c := 0) fun _ => .unmarkDirty
  have find : Needs (K := K) g (do
      let last ← match ← SeqStorage.findFirstPage g 0 .partialOpen with
        | some p => Pure.pure p
        | none => do
          let r ← SeqStorage.findLastPage g 0 .closed
          Pure.pure (r.getD 0)
      Map.removeIn g kc k (g.pages (g.nextPage last))
      SeqStorage.unmarkDirty) (g.pageCount * g.eraseSize) := by
    refine (Needs.findFirstPage _ _).bind fun r => ?_
    split
    · exact (Needs.pure _).bind rest
    · exact (Needs.findLastPage _ _).bind fun _ => (Needs.pure _).bind rest
  split
  · exact (Needs.modifyCache _).bind fun _ => find
  · exact (Needs.modifyCache _).bind fun _ => find

theorem Needs.fetchAllFirst : Needs (K := K) g (Map.fetchAllFirst g) 0 := by
  unfold Map.fetchAllFirst
  needs
macro_rules | `(tactic| needs_step) => `(tactic| with_reducible exact Needs.fetchAllFirst)

theorem Needs.fetchAll (w : g.WF) (kc : KeyCodec K) : Needs (K := K) g (Map.fetchAll g kc) (g.word + (g.stop - g.start)) := by
  unfold Map.fetchAll
  refine Needs.fetchAllFirst.bind fun r => ?_
  have fin : ∀ first : Nat, Needs (K := K) g (M.modify fun s => { s with mit := ⟨first, first, g.dataStart first, g.dataEnd first⟩ }) 0 :=
    fun first => .modify fun _ _ => rfl
  split
  · exact (Needs.mtryRepair w kc).bindTwo (c := 0) fun _ => Needs.fetchAllFirst.bind fun _ => (Needs.lift _).bind fin
  · exact (Needs.lift _).bind fun a => (fin a).mono (by omega)

theorem Needs.iterItem (n : Nat) : Needs (K := K) g (Map.iterItem g n) 0 := by
  induction n with
  | zero => exact Needs.throw _
  | succ n ih =>
    unfold Map.iterItem
    needs
macro_rules | `(tactic| needs_step) => `(tactic| with_reducible exact Needs.iterItem _)

theorem Needs.iterPage (n : Nat) : Needs (K := K) g (Map.iterPage g n) 0 := by
  induction n with
  | zero => exact Needs.throw _
  | succ n ih =>
    unfold Map.iterPage
    needs
macro_rules | `(tactic| needs_step) => `(tactic| with_reducible exact Needs.iterPage _)

theorem Needs.iterLoop (n : Nat) : Needs (K := K) g (Map.iterLoop g n) 0 := by
  induction n with
  | zero => exact Needs.throw _
  | succ n ih =>
    unfold Map.iterLoop
    needs
macro_rules | `(tactic| needs_step) => `(tactic| with_reducible exact Needs.iterLoop _)

theorem Needs.miterNext (kc : KeyCodec K) (vc : ValCodec V) : Needs (K := K) g (Map.iterNext g kc vc) 0 := by
  unfold Map.iterNext
  needs
macro_rules | `(tactic| needs_step) => `(tactic| with_reducible exact Needs.miterNext _ _)

theorem Needs.mapSteps (kc : KeyCodec K) (vc : ValCodec V) (l : List (List Byte)) : Needs (K := K) g (SeqStorage.mapSteps g kc vc l) 0 := by
  induction l with
  | nil => exact Needs.pure _
  | cons b l ih =>
    unfold SeqStorage.mapSteps
    needs
macro_rules | `(tactic| needs_step) => `(tactic| with_reducible exact Needs.mapSteps _ _ _)

end
end SeqStorage.Proofs
