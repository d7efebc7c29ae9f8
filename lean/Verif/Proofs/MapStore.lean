import Verif.Proofs.MapRepair
/-
Storing an item in a map.
-/

set_option linter.unusedSectionVars false

namespace SeqStorage
open M

variable {K V : Type} [DecidableEq K] {kc : KeyCodec K} {vc : ValCodec V}
variable {md : Mode} {g : Geo} {σ : Shape} {P : Nat → PK} {F F' : K → Prop} {big : Bool}

/-- What a store writes, with a buffer of `n` bytes. -/
def encode (kc : KeyCodec K) (vc : ValCodec V) (k : K) (v : V) (n : Nat) : Except SerErr (List Byte) :=
  match kc.ser k n with
  | .error e => .error e
  | .ok kb =>
    match vc.ser v (n - kb.length) with
    | .error e => .error e
    | .ok vb => .ok (kb ++ vb)

theorem encode_enc {k : K} {v : V} {n : Nat} {d : List Byte} (h : encode kc vc k v n = .ok d) : Enc kc vc d k v := by
  unfold encode at h
  cases h1 : kc.ser k n with
  | error e => rw [h1] at h; simp at h
  | ok kb =>
    rw [h1] at h
    simp only at h
    cases h2 : vc.ser v (n - kb.length) with
    | error e => rw [h2] at h; simp at h
    | ok vb =>
      rw [h2] at h
      simp only [Except.ok.injEq] at h
      exact ⟨n, _, kb, vb, h1, h2, h.symm⟩

theorem serialize_sat (L : Lawful kc vc) (k : K) (v : V) (s : St K) :
    Sat (Map.serializeItem kc k (vc.ser v)) s
      (fun d s' => BufOnly s s' ∧ encode kc vc k v s.buf.length = .ok d)
      (fun e s' => BufOnly s s' ∧ ∃ e', e = .serialization e' ∧ encode kc vc k v s.buf.length = .error e') := by
  unfold Map.serializeItem
  refine Sat.bind_eq (get_run s) ?_
  cases h1 : kc.ser k s.buf.length with
  | error e =>
    exact Sat.of_err (bind_err (liftSer_err rfl s)) ⟨.refl s, e, rfl, by unfold encode; rw [h1]⟩
  | ok kb =>
    refine Sat.bind_eq (liftSer_ok rfl s) ?_
    have hk := (L.key k _ kb h1).1
    refine Sat.bind_eq (modify_run _ _) ?_
    have hl : (kb ++ s.buf.drop kb.length).length = s.buf.length := by simp; omega
    cases h2 : vc.ser v (s.buf.length - kb.length) with
    | error e =>
      refine Sat.of_err (bind_err (liftSer_err rfl _)) ⟨⟨rfl, rfl, hl, rfl, rfl⟩, e, rfl, by unfold encode; rw [h1]; simp [h2]⟩
    | ok vb =>
      refine Sat.bind_eq (liftSer_ok rfl _) ?_
      have hv := (L.val v _ vb h2).1
      refine Sat.bind_eq (modify_run _ _) ?_
      refine Sat.pure ⟨⟨rfl, rfl, ?_, rfl, rfl⟩, by unfold encode; rw [h1]; simp [h2]⟩
      simp
      omega

/-- Why a store is refused before anything is written. -/
def Refuses (g : Geo) (kc : KeyCodec K) (vc : ValCodec V) (k : K) (v : V) (n : Nat) (e : Err) : Prop :=
  (∃ e', e = .serialization e' ∧ encode kc vc k v n = .error e') ∨
  (e = .itemTooBig ∧ ∃ d, encode kc vc k v n = .ok d ∧ g.tooBig d.length = true)

/-- The item is in the map. -/
structure Put (kc : KeyCodec K) (vc : ValCodec V) (g : Geo) (its : List It) (k : K) (v : V) (σ' : Shape) (P' : Nat → PK) : Prop where
  put : ∀ k', lookV kc vc k' (icontent g.pageCount σ' P') = if k' = k then some v else lookV kc vc k' its

/-! ### What a store does to the pages, when nothing goes wrong -/

/-- The next page is taken into use. -/
def openA (g : Geo) (σ : Shape) (P : Nat → PK) : Shape × (Nat → PK) :=
  (σ.openFront, upd P (σ.front g.pageCount) (.used false [] (g.dataStart (σ.front g.pageCount))))

/-- The page that is written to is closed. -/
def closeA (g : Geo) (σ : Shape) (P : Nat → PK) : Shape × (Nat → PK) :=
  (σ.closeFront, upd P (σ.front g.pageCount) (match P (σ.front g.pageCount) with
    | .used _ its f => .used true its f
    | pk => pk))

/-- The current items of the oldest page are moved to the newest one. -/
def migrateA (kc : KeyCodec K) (g : Geo) (σ : Shape) (P : Nat → PK) : Shape × (Nat → PK) :=
  (σ.dropOldest g.pageCount, upd (upd P (σ.front g.pageCount)
    (.used false (copyA kc g (older g.pageCount σ P) (P σ.o).its ([], g.dataStart (σ.front g.pageCount))).1
      (copyA kc g (older g.pageCount σ P) (P σ.o).its ([], g.dataStart (σ.front g.pageCount))).2)) σ.o .blank)

/-- The page that is written to is full. -/
def turnA (kc : KeyCodec K) (g : Geo) (σ : Shape) (P : Nat → PK) : Shape × (Nat → PK) :=
  if σ.m + 1 < g.pageCount then openA g (closeA g σ P).1 (closeA g σ P).2
  else migrateA kc g (openA g (closeA g σ P).1 (closeA g σ P).2).1 (openA g (closeA g σ P).1 (closeA g σ P).2).2

/-- The data is written behind the last item. -/
def putA (g : Geo) (σ : Shape) (P : Nat → PK) (d : List Byte) : Option (Nat → PK) :=
  match P (σ.front g.pageCount) with
  | .used _ its f =>
    if Fits g (σ.front g.pageCount) f d.length then
      some (upd P (σ.front g.pageCount) (.used false (its ++ [⟨f, Header.ofData d, d⟩]) ((Header.ofData d).next g f)))
    else none
  | _ => none

/-- One round of a store: is the item stored? -/
def roundA (kc : KeyCodec K) (g : Geo) (d : List Byte) (σ : Shape) (P : Nat → PK) : Bool × Shape × (Nat → PK) :=
  if σ.part = true then
    match putA g σ P d with
    | some P' => (true, σ, P')
    | none => (false, turnA kc g σ P)
  else (false, openA g σ P)

/-- All rounds. The data is only looked at once there is a page to write to. -/
def loopA (kc : KeyCodec K) (g : Geo) (d : Except SerErr (List Byte)) : Nat → Shape → (Nat → PK) → Except Err Unit × Shape × (Nat → PK)
  | 0, σ, P => (.error .fullStorage, σ, P)
  | left + 1, σ, P =>
    if σ.part = true then
      match d with
      | .error e => (.error (.serialization e), σ, P)
      | .ok d' =>
        if g.tooBig d'.length = true then (.error .itemTooBig, σ, P)
        else if (roundA kc g d' σ P).1 = true then (.ok (), (roundA kc g d' σ P).2)
        else loopA kc g d left (roundA kc g d' σ P).2.1 (roundA kc g d' σ P).2.2
    else loopA kc g d left (openA g σ P).1 (openA g σ P).2

/-- The data can be stored: it is allowed, and is not too long for the buffers. -/
def Storable (md : Mode) (g : Geo) (d : List Byte) : Prop :=
  md.Allows g d ∧ ∀ n, md.lim = some n → g.roundUp d.length ≤ n

/-- Between calls with large buffers and no power loss no garbage collection is pending. -/
def Settled (big : Bool) (n : Nat) (σ : Shape) : Prop := big = true → σ.m < n ∧ (σ.part = false → σ.m = 0)

theorem MG.not_corr {s : St K} (h : MG kc vc md g big s σ P F) (hb : big = true) : σ.corr = false :=
  h.good.fs.torn_free (h.log hb).1

theorem MG.not_small {s : St K} {e : Err} (h : MG kc vc md g big s σ P F) (ht : TooSmall md s e) : big = false := by
  cases hb : big with
  | false => rfl
  | true =>
    obtain ⟨n, h1, h2⟩ := (h.log hb).2.2
    have := ht.len n h1; omega

/-- A step that changes flash and page caches but no item. -/
theorem MG.step {s s' : St K} {σ' : Shape} {P' : Nat → PK} (h : MG kc vc md g big s σ P F) (hg : Good md g s' σ' P')
    (hf : Frame s s') (hmp : MP kc vc md g σ' P' F')
    (hc : icontent g.pageCount σ' P' = icontent g.pageCount σ P) (he : s'.fl.erases = s.fl.erases) (ho : σ'.o = σ.o)
    (hd : σ'.d = σ.d := by rfl) : MG kc vc md g big s' σ' P' F' :=
  ⟨hg, hmp, by rw [hf.kp]; exact h.kpok, by rw [hf.kp, hc]; exact h.kp, by unfold Turns; rw [he, ho, hd, hf.buf]; exact h.log⟩

theorem MP.closeFront_mp (h : MP kc vc md g σ P F) (wf : σ.WF g.pageCount) (hp : σ.part = true) (hm : σ.m < g.pageCount)
    (hc : σ.corr = false) {its : List It} {f f' : Nat} (hpk : P (σ.front g.pageCount) = .used false its f) :
    MP kc vc md g σ.closeFront (upd P (σ.front g.pageCount) (.used true its f')) F' := by
  have e := icontent_closeFront (P := P) (f' := f') wf hp hpk
  refine ⟨MP.upd_front_nojunk h.nojunk (by simp), h.shape, by simp [Shape.closeFront, hc], ?_, ?_, ?_⟩
  · rw [e]; exact h.enc
  · rw [e]; exact h.nt
  · simp only [Shape.closeFront]; omega

/-- The ring is ready when the next page is open. -/
theorem ready_iff (h : MP kc vc md g σ P F) (wf : σ.WF g.pageCount) (hp : σ.part = true) (w : g.WF) :
    (Ready g.pageCount σ ∧ σ.st g.pageCount ((σ.front g.pageCount + 1) % g.pageCount) = .ok .open) ∨
    (σ.corr = true ∧ σ.st g.pageCount ((σ.front g.pageCount + 1) % g.pageCount) = .error .corrupted) ∨
    (σ.m = g.pageCount ∧ (σ.st g.pageCount ((σ.front g.pageCount + 1) % g.pageCount) = .ok .closed ∨
      σ.st g.pageCount ((σ.front g.pageCount + 1) % g.pageCount) = .ok .partialOpen)) := by
  have hnx := next_front w wf hp
  have hml := wf.m_le
  cases hc : σ.corr with
  | true =>
    have hcc := h.corr hc
    right; left
    refine ⟨rfl, ?_⟩
    rw [Shape.st_err, (hnx.1 (by omega)).1]
    exact ⟨rfl, Nat.le_refl _, hc, by omega⟩
  | false =>
    rcases Nat.lt_or_ge σ.m g.pageCount with hm | hm
    · left
      refine ⟨⟨hp, hm, hc⟩, ?_⟩
      rw [Shape.st_open, (hnx.1 hm).1, hc]
      exact ⟨Nat.le_refl _, by simp⟩
    · right; right
      have hm : σ.m = g.pageCount := by omega
      refine ⟨hm, ?_⟩
      rw [hnx.2 hm, Shape.st_closed, Shape.st_part]
      have : ringPos g.pageCount σ.o σ.o = 0 := by unfold ringPos; simp
      have := wf.part_pos hp
      by_cases h1 : σ.m = 1
      · exact Or.inr ⟨hp, by omega⟩
      · exact Or.inl ⟨by omega, fun h => by omega⟩

variable (w : g.WF)
include w

/-- Writing the item. -/
theorem putItem_sat (L : Lawful kc vc) (hmd : md.OK g) {s : St K} (h : MG kc vc md g big s σ P F)
    (hr : Ready g.pageCount σ) {its : List It} {f : Nat} (hpk : P (σ.front g.pageCount) = .used false its f)
    {k : K} {v : V} {d : List Byte} (henc : Enc kc vc d k v) (hst : Storable md g d) (hl : d.length ≤ 65535)
    (hfit : Fits g (σ.front g.pageCount) f d.length) :
    Sat (do Map.noticeKey k f true; writeNew g f d; unmarkDirty; pure true) s
      (fun r s' => s'.buf.length = s.buf.length ∧ r = true ∧ ∃ P', MG kc vc md g big s' σ P' (fun _ => False) ∧
        Put kc vc g (icontent g.pageCount σ P) k v σ P' ∧ putA g σ P d = some P')
      (fun e s' => s'.buf.length = s.buf.length ∧ e = .shutoff ∧ ∃ P', MD kc vc md g s' σ P' (fun _ => False) ∧
        (Kept kc vc g (icontent g.pageCount σ P) σ P' ∨ Put kc vc g (icontent g.pageCount σ P) k v σ P')) := by
  have wf := h.good.fs.wf
  have hfl := Shape.front_lt wf
  have hlen := ofData_len hl
  have hlow := Props.stored_checksum_low_byte d
  have hnx : (Header.ofData d).next g f ≤ g.dataEnd (σ.front g.pageCount) := by
    unfold Header.next; rw [← hlen]; exact hfit
  have hits' : (P (σ.front g.pageCount)).its = its := by rw [hpk]; rfl
  have hf0 : f ≠ 0 := by
    have hpgs := h.good.fs.pages _ hfl
    rw [hpk] at hpgs
    have u : Used md g s.fl (σ.front g.pageCount) false its f := hpgs
    have := u.bounds w
    have := page_order w (σ.front g.pageCount)
    have := w.word_pos
    omega
  have hpr : (⟨f, Header.ofData d, d⟩ : It).present = true := ofData_present f d
  have hkey : keyOf kc ⟨f, Header.ofData d, d⟩ = some k := Enc.keyOf L (it := ⟨f, Header.ofData d, d⟩) henc
  have hval : valOf kc vc ⟨f, Header.ofData d, d⟩ = some v := Enc.valOf L (it := ⟨f, Header.ofData d, d⟩) henc
  have hhit : hits kc k ⟨f, Header.ofData d, d⟩ = true := hits_iff.2 ⟨hpr, hkey⟩
  have hmiss : ∀ k', k' ≠ k → hits kc k' ⟨f, Header.ofData d, d⟩ = false := by
    intro k' hk'
    cases hh : hits kc k' ⟨f, Header.ofData d, d⟩ with
    | false => rfl
    | true => exact absurd (hits_unique hh hhit) hk'
  have hic : ∀ pk : PK, icontent g.pageCount σ (upd P (σ.front g.pageCount) pk) = older g.pageCount σ P ++ pk.its :=
    fun pk => icontent_upd_front wf hr.part pk
  have hic0 : icontent g.pageCount σ P = older g.pageCount σ P ++ its := by
    rw [icontent_front wf hr.part, hits']
  -- the contents with the item
  have hput : ∀ f', Put kc vc g (icontent g.pageCount σ P) k v σ
      (upd P (σ.front g.pageCount) (.used false (its ++ [⟨f, Header.ofData d, d⟩]) f')) := by
    intro f'
    refine ⟨fun k' => ?_⟩
    rw [hic, show (PK.used false (its ++ [⟨f, Header.ofData d, d⟩]) f').its = its ++ [⟨f, Header.ofData d, d⟩] from rfl,
      ← List.append_assoc, ← hic0]
    unfold lookV
    by_cases hk : k' = k
    · subst hk
      rw [if_pos rfl, look_snoc_hit hhit]
      exact hval
    · rw [if_neg hk, look_snoc_miss (hmiss k' hk)]
  have hmp : ∀ {its' : List It} {f' : Nat},
      (∀ z ∈ its', z.present = true → z ∈ its ∨ z.data = d) →
      MP kc vc md g σ (upd P (σ.front g.pageCount) (.used false its' f')) (fun _ => False) := by
    intro its' f' hz
    refine h.mp.setFront wf hr.part ?_ (fun hm => by have := hr.room; omega)
    intro z hz1 hz2
    rcases hz z hz1 hz2 with hz' | hz'
    · left; rw [hits']; exact hz'
    · right; rw [hz']; exact ⟨⟨k, v, henc⟩, hst.1⟩
  have hfull : ∀ z ∈ its ++ [(⟨f, Header.ofData d, d⟩ : It)], z.present = true → z ∈ its ∨ z.data = d := by
    intro z hz _
    rcases List.mem_append.1 hz with hz | hz
    · exact Or.inl hz
    · simp only [List.mem_singleton] at hz; rw [hz]; exact Or.inr rfl
  obtain ⟨c', hn1, hn2, hn3, hn4⟩ := noticeKey_run h.kpok k hf0 true
  refine Sat.bind_eq hn1 ?_
  have hg1 : Good md g { s with cache := { s.cache with dirty := s.cache.dirty || true, kp := c' } } σ P :=
    ⟨h.good.fs, h.good.ps, h.good.pp⟩
  unfold writeNew
  rcases (writeItem w hg1 hmd hfl hpk hlen hlow.1 hlow.2 hnx hst.2 (fun _ _ => ⟨_, hst.1.2, rfl⟩)).cases with
    ⟨_, s2, he2, hfr2, her2, _, hg2⟩ | ⟨e, s2, he2, rfl, hfr2, her2, hdead⟩
  · refine Sat.bind_eq he2 ?_
    have h2 : MG kc vc md g big s2 σ (upd P (σ.front g.pageCount)
        (.used false (its ++ [⟨f, Header.ofData d, d⟩]) ((Header.ofData d).next g f))) (fun _ => False) := by
      refine ⟨hg2, hmp hfull, by rw [hfr2.kp]; exact hn2, ?_, ?_⟩
      · rw [hfr2.kp]
        intro k' b hb
        rw [hic, show (PK.used false (its ++ [⟨f, Header.ofData d, d⟩]) ((Header.ofData d).next g f)).its =
          its ++ [⟨f, Header.ofData d, d⟩] from rfl, ← List.append_assoc, ← hic0]
        by_cases hk : k' = k
        · subst hk
          exact ⟨_, look_snoc_hit hhit, (hn3 b hb).symm⟩
        · rw [look_snoc_miss (hmiss k' hk)]
          exact h.kp k' b (hn4 k' hk b hb)
      · intro hb
        rw [her2, hfr2.buf]
        exact h.log hb
    rcases h2.unmark_sat.cases with ⟨_, s3, he3, h3, hc3, _, _⟩ | ⟨_, _, _, hF⟩
    · refine Sat.bind_eq he3 (Sat.pure ⟨by rw [hc3.len, hfr2.buf], rfl, _, h3, hput _, by unfold putA; rw [hpk]; simp only; rw [if_pos hfit]⟩)
    · exact hF.elim
  · refine Sat.of_err (bind_err he2) ⟨by rw [hfr2.buf], rfl, ?_⟩
    rcases hdead with ⟨f', hd'⟩ | ⟨kk, hd'⟩
    · refine ⟨_, ⟨hd'.fs, hmp (fun z hz _ => Or.inl hz), hd'.crash⟩, Or.inl ⟨fun k' => ?_⟩⟩
      rw [hic, hic0]; rfl
    · refine ⟨_, ⟨hd'.fs, ?_, hd'.crash⟩, ?_⟩
      · apply hmp
        intro z hz hzp
        rcases List.mem_append.1 hz with hz | hz
        · exact Or.inl hz
        · simp only [List.mem_singleton] at hz
          rw [hz] at hzp ⊢
          rcases torn_item (a := f) (hd := Header.ofData d) (of_decide_eq_true hpr) (hst.1.1 hd'.crash) kk with ht | ht
          · rw [ht] at hzp; simp at hzp
          · rw [ht]; exact Or.inr rfl
      · rcases torn_item (a := f) (hd := Header.ofData d) (of_decide_eq_true hpr) (hst.1.1 hd'.crash) kk with ht | ht
        · left
          refine ⟨fun k' => lookV_congr ?_⟩
          rw [hic, hic0]
          rw [show (PK.used false (its ++ [⟨f, Header.ofData d, tornData d kk⟩]) ((Header.ofData d).next g f)).its =
            its ++ [⟨f, Header.ofData d, tornData d kk⟩] from rfl, ← List.append_assoc]
          exact look_snoc_absent ht
        · right
          rw [ht]
          exact hput _

/-- Moving on to the next page. -/
theorem turnOver_sat (L : Lawful kc vc) (hn : 2 ≤ g.pageCount) (hmd : md.OK g) {s : St K} (h : MG kc vc md g big s σ P F)
    (hr : Ready g.pageCount σ) (han : Anchored (σ.front g.pageCount) s.cache.ps)
    (hk : Knows ((σ.front g.pageCount + 1) % g.pageCount) .open s.cache.ps) :
    Sat (do closePage g (σ.front g.pageCount); Map.storeAdvance g kc (g.nextPage (σ.front g.pageCount)); pure false) s
      (fun r s' => s'.buf.length = s.buf.length ∧ r = false ∧ ∃ σ' P', MG kc vc md g big s' σ' P' (fun _ => False) ∧
        Kept kc vc g (icontent g.pageCount σ P) σ' P' ∧ Ready g.pageCount σ' ∧ Tidy kc g σ' P' ∧ (σ', P') = turnA kc g σ P)
      (fun e s' => s'.buf.length = s.buf.length ∧
        ((TooSmall md s e ∧ ∃ σ' P', MG kc vc md g big s' σ' P' (fun _ => False) ∧
            Kept kc vc g (icontent g.pageCount σ P) σ' P') ∨
         (e = .shutoff ∧ ∃ σ' P', MD kc vc md g s' σ' P' (fun _ => False) ∧
            Kept kc vc g (icontent g.pageCount σ P) σ' P'))) := by
  have wf := h.good.fs.wf
  have hfl := Shape.front_lt wf
  have hm := hr.room
  obtain ⟨its, f, hpk⟩ := h.mp.frontUsed h.good.fs hr.part
  have hnx := next_front w wf hr.part
  have hcf := (hnx.1 hm).2
  have mp1 : MP kc vc md g σ.closeFront (upd P (σ.front g.pageCount) (.used true its f)) (fun _ => False) :=
    h.mp.closeFront_mp wf hr.part hm hr.corr hpk
  have hic1 := icontent_closeFront (P := P) (f' := f) wf hr.part hpk
  have hkept1 : Kept kc vc g (icontent g.pageCount σ P) σ.closeFront (upd P (σ.front g.pageCount) (.used true its f)) :=
    ⟨fun k => by rw [hic1]⟩
  rcases (closeFront w h.good hr.part hm han hk hpk).cases with ⟨_, s1, he1, hf1, her1, hg1⟩ | ⟨e, s1, he1, rfl, hf1, her1, hD⟩
  rotate_left
  · refine Sat.of_err (bind_err he1) ⟨by rw [hf1.buf], Or.inr ⟨rfl, ?_⟩⟩
    rcases hD with hD | hD
    · exact ⟨_, _, ⟨hD.fs, h.mp.anyF hm, hD.crash⟩, ⟨fun _ => rfl⟩⟩
    · exact ⟨_, _, ⟨hD.fs, mp1, hD.crash⟩, hkept1⟩
  refine Sat.bind_eq he1 ?_
  have h1 := h.step hg1 hf1 mp1 hic1 her1 rfl
  have hcl0 : closeA g σ P = (σ.closeFront, upd P (σ.front g.pageCount) (.used true its f)) := by
    unfold closeA; rw [hpk]
  generalize hP1 : upd P (σ.front g.pageCount) (.used true its f) = P1 at *
  have wf1 := h1.good.fs.wf
  have hp1 : σ.closeFront.part = false := rfl
  have hc1 : σ.closeFront.corr = false := hr.corr
  have hm1 : σ.closeFront.m = σ.m := rfl
  have hnext : g.nextPage (σ.front g.pageCount) = σ.closeFront.front g.pageCount := hcf.symm
  have hfl1 := Shape.front_lt wf1
  rw [hnext]
  suffices hadv : Sat (Map.storeAdvance g kc (σ.closeFront.front g.pageCount)) s1
      (fun _ s' => s'.buf.length = s.buf.length ∧ ∃ σ' P', MG kc vc md g big s' σ' P' (fun _ => False) ∧
        Kept kc vc g (icontent g.pageCount σ P) σ' P' ∧ Ready g.pageCount σ' ∧ Tidy kc g σ' P' ∧ (σ', P') = turnA kc g σ P)
      (fun e s' => s'.buf.length = s.buf.length ∧
        ((TooSmall md s e ∧ ∃ σ' P', MG kc vc md g big s' σ' P' (fun _ => False) ∧
            Kept kc vc g (icontent g.pageCount σ P) σ' P') ∨
         (e = .shutoff ∧ ∃ σ' P', MD kc vc md g s' σ' P' (fun _ => False) ∧
            Kept kc vc g (icontent g.pageCount σ P) σ' P'))) by
    rcases hadv.cases with ⟨_, s', he, hq⟩ | ⟨e, s', he, hE⟩
    · exact Sat.bind_eq he (Sat.pure ⟨hq.1, rfl, hq.2⟩)
    · exact Sat.of_err (bind_err he) hE
  unfold Map.storeAdvance
  have hfp1 := CalcOk.front_pos wf1
  rw [hp1] at hfp1
  simp only [Bool.false_eq_true, if_false] at hfp1
  have hst1 : σ.closeFront.st g.pageCount (σ.closeFront.front g.pageCount) = .ok .open := by
    rw [Shape.st_open, hc1]; exact ⟨by omega, by simp⟩
  rcases (getCached w h1.good hfl1).cases with ⟨st, s2, he2, hst, hg2, hs2, _⟩ | ⟨e, s2, _, _, hst⟩
  rotate_left
  · rw [hst1] at hst; simp at hst
  rw [hst1] at hst
  injection hst with hst
  subst hst
  have h2 := h1.same hg2 hs2
  have hl2 : s2.buf.length = s.buf.length := by rw [hs2.buf, hf1.buf]
  refine Sat.bind_eq he2 ?_
  rw [if_neg (by simp [PageState.isOpen])]
  have hpo : σ.closeFront.openFront.part = true := rfl
  have hco : σ.closeFront.openFront.corr = false := hr.corr
  have hmo : σ.closeFront.openFront.m = σ.m + 1 := rfl
  have hoo : σ.closeFront.openFront.o = σ.o := rfl
  have hfo : σ.closeFront.openFront.front g.pageCount = σ.closeFront.front g.pageCount := CalcOk.openFront_front hp1
  have mp3 : MP kc vc md g σ.closeFront.openFront (upd P1 (σ.closeFront.front g.pageCount)
      (.used false [] (g.dataStart (σ.closeFront.front g.pageCount)))) (fun _ => False) := mp1.openFront_mp wf1 hp1 hc1
  have hic3 := icontent_openFront (P := P1) (pk := .used false [] (g.dataStart (σ.closeFront.front g.pageCount))) wf1 hp1 rfl
  rcases (partialFront w h2.good (fun _ => Or.inl (h2.mp.frontBlank h2.good.fs hp1))).cases with
    ⟨st, s3, he3, _, hf3, her3, _, _, hg3⟩ | ⟨e, s3, he3, hf3, her3, _, hE⟩
  rotate_left
  · refine Sat.of_err (bind_err he3) ⟨by rw [hf3.buf]; exact hl2, Or.inr ?_⟩
    rcases hE with ⟨_, hE, _⟩ | ⟨rfl, hE⟩
    · rw [hc1] at hE; simp at hE
    · refine ⟨rfl, ?_⟩
      rcases hE with hE | hE
      · exact ⟨_, _, ⟨hE.fs, mp1, hE.crash⟩, hkept1⟩
      · exact ⟨_, _, ⟨hE.fs, mp3, hE.crash⟩, ⟨fun k => by rw [hic3, hic1]⟩⟩
  refine Sat.bind_eq he3 ?_
  obtain ⟨_, hg3⟩ := hg3 hp1
  have h3 := h2.step hg3 hf3 mp3 hic3 (by rw [her3]) rfl
  have hl3 : s3.buf.length = s.buf.length := by rw [hf3.buf]; exact hl2
  have hop0 : openA g (closeA g σ P).1 (closeA g σ P).2 = (σ.closeFront.openFront, upd P1 (σ.closeFront.front g.pageCount)
      (.used false [] (g.dataStart (σ.closeFront.front g.pageCount)))) := by rw [hcl0]; rfl
  generalize hP3 : upd P1 (σ.closeFront.front g.pageCount)
      (.used false [] (g.dataStart (σ.closeFront.front g.pageCount))) = P3 at *
  generalize hσ3 : σ.closeFront.openFront = σ3 at *
  have hP3f : P3 (σ3.front g.pageCount) = .used false [] (g.dataStart (σ3.front g.pageCount)) := by
    rw [hfo, ← hP3, upd_same]
  have wf3 := h3.good.fs.wf
  have hnx3 := next_front w wf3 hpo
  have hnl3 : (σ3.front g.pageCount + 1) % g.pageCount < g.pageCount := Nat.mod_lt _ (by omega)
  rw [← hfo]
  rcases (getCached w h3.good hnl3).cases with ⟨st, s4, he4, hst, hg4, hs4, _⟩ | ⟨e, s4, _, _, hst⟩
  rotate_left
  · have := (Shape.st_err.1 hst).2.2.1
    rw [hco] at this; simp at this
  refine Sat.bind_eq he4 ?_
  have h4 := h3.same hg4 hs4
  have hl4 : s4.buf.length = s.buf.length := by rw [hs4.buf]; exact hl3
  rcases Nat.lt_or_ge (σ.m + 1) g.pageCount with hlt | hge
  · have hop : σ3.st g.pageCount ((σ3.front g.pageCount + 1) % g.pageCount) = .ok .open := by
      rw [Shape.st_open, (hnx3.1 (by omega)).1, hco]
      exact ⟨Nat.le_refl _, by simp⟩
    rw [hop] at hst
    injection hst with hst
    subst hst
    rw [if_pos (show PageState.open.isOpen = true from rfl)]
    exact Sat.pure ⟨hl4, σ3, P3, h4, ⟨fun k => by rw [hic3, hic1]⟩,
      ⟨hpo, by omega, hco⟩, ⟨[], _, hP3f, by simp, by simp⟩, by unfold turnA; rw [if_pos hlt, hop0]⟩
  · have hmn : σ3.m = g.pageCount := by omega
    have hno := hnx3.2 hmn
    have hcl : σ3.st g.pageCount σ3.o = .ok .closed := CalcOk.st_oldest (by omega)
    rw [hno, hcl] at hst
    injection hst with hst
    subst hst
    rw [if_neg (by simp [PageState.isOpen])]
    have hno' : g.nextPage (σ3.front g.pageCount) = σ3.o := hno
    rw [hno']
    have hold : older g.pageCount σ3 P3 = icontent g.pageCount σ P := by
      rw [← hic1, ← hσ3, ← hP3]
      exact older_openFront wf1 hp1 _
    refine (migrate_sat w L hn hmd hmn h4 hP3f).mono ?_ ?_
    · rintro _ s5 ⟨hl5, cps, f5, h5, hk5, ht5, hcp5⟩
      refine ⟨hl5.trans hl4, _, _, h5, ?_, ?_, ht5, by
        unfold turnA
        rw [if_neg (by omega), hop0]
        unfold migrateA
        simp only [← hcp5]⟩
      · rw [← hold]; exact hk5
      · refine ⟨hpo, ?_, hco⟩
        simp only [Shape.dropOldest]; omega
    · rintro e s5 ⟨hl5, hE⟩
      refine ⟨hl5.trans hl4, ?_⟩
      rcases hE with ⟨hE, P', h5, hk5⟩ | ⟨hE, σ', P', h5, hk5⟩
      · exact Or.inl ⟨hE.of_len hl4, σ3, P', h5, by rw [← hold]; exact hk5⟩
      · exact Or.inr ⟨hE, σ', P', h5, by rw [← hold]; exact hk5⟩

/-! ### How much is alive -/

omit [DecidableEq K] w in
/-- The space the current items take, for keys in `ks`. -/
def weight (g : Geo) (size : K → V → Nat) (m : K → Option V) (ks : List K) : Nat :=
  (ks.map fun k => match m k with
    | some v => g.hl + g.roundUp (size k v)
    | none => 0).sum

/-- The current items and the new one fit into one page. -/
def Roomy (g : Geo) (size : K → V → Nat) (m : K → Option V) (k : K) (v : V) : Prop :=
  ∃ ks : List K, (∀ k', m k' ≠ none → k' ∈ ks) ∧ weight g size m ks + (g.hl + g.roundUp (size k v)) ≤ g.pageSize

omit [DecidableEq K] w in
theorem weight_mono {size : K → V → Nat} {m m' : K → Option V} (h : ∀ k, m' k = m k ∨ m' k = none) (ks : List K) :
    weight g size m' ks ≤ weight g size m ks := by
  unfold weight
  induction ks with
  | nil => simp
  | cons k ks ih =>
    simp only [List.map_cons, List.sum_cons]
    rcases h k with h' | h'
    · rw [h']; omega
    · rw [h']; simp only; omega

omit [DecidableEq K] w in
theorem Roomy.mono {size : K → V → Nat} {m m' : K → Option V} (h : ∀ k, m' k = m k ∨ m' k = none) {k : K} {v : V}
    (hr : Roomy g size m k v) : Roomy g size m' k v := by
  obtain ⟨ks, h1, h2⟩ := hr
  refine ⟨ks, fun k' hk' => h1 k' (fun h0 => ?_), ?_⟩
  · rcases h k' with h' | h'
    · rw [h', h0] at hk'; simp at hk'
    · exact hk' h'
  · have := weight_mono (g := g) (size := size) h ks; omega

omit w in
theorem sum_inj {α : Type} (key : α → K) (u : α → Nat) (f : K → Nat) :
    ∀ (l : List α) (ks : List K), l.Nodup → (∀ a ∈ l, ∀ b ∈ l, key a = key b → a = b) →
      (∀ a ∈ l, key a ∈ ks) → (∀ a ∈ l, u a ≤ f (key a)) → (l.map u).sum ≤ (ks.map f).sum := by
  intro l
  induction l with
  | nil => intro ks _ _ _ _; simp
  | cons a l ih =>
    intro ks hnd hinj hmem hle
    have hk := hmem a (by simp)
    have hp := (List.perm_cons_erase hk).map f
    have hs := hp.sum_nat
    rw [List.map_cons, List.sum_cons] at hs ⊢
    rw [hs]
    rw [List.nodup_cons] at hnd
    have h1 := ih (ks.erase (key a)) hnd.2 (fun x hx y hy => hinj x (by simp [hx]) y (by simp [hy]))
      (fun x hx => (List.mem_erase_of_ne (fun he => by
        have := hinj x (by simp [hx]) a (by simp) he
        subst this
        exact hnd.1 hx)).2 (hmem x (by simp [hx])))
      (fun x hx => hle x (by simp [hx]))
    have h2 := hle a (by simp)
    omega

theorem Layout.nodup {cf : Bool} {mem : Nat → Byte} {e a f : Nat} {its : List It} (l : Layout cf g mem e a its f) :
    its.Nodup := by
  induction l with
  | done h => simp
  | gap _ _ _ ih => exact ih
  | @item a f its hd h t ih =>
    rw [List.nodup_cons]
    refine ⟨fun hm => ?_, ih⟩
    have := (t.mem_item w hm).1
    have := Layout.next_gt w hd a
    simp only at *
    omega

theorem tidy_fits (L : Lawful kc vc) {size : K → V → Nat} (hsz : ∀ d k v, Enc kc vc d k v → d.length = size k v)
    {s : St K} (h : MG kc vc md g big s σ P F) (ht : Tidy kc g σ P) {its : List It} {f : Nat}
    (hpk : P (σ.front g.pageCount) = .used false its f) {k : K} {v : V} {d : List Byte} (henc : Enc kc vc d k v)
    (hr : Roomy g size (fun k => lookV kc vc k (icontent g.pageCount σ P)) k v) :
    Fits g (σ.front g.pageCount) f d.length := by
  have hfl := Shape.front_lt h.good.fs.wf
  obtain ⟨cps, f', hpk', hsum, hcur⟩ := ht
  rw [hpk] at hpk'
  simp only [PK.used.injEq, true_and] at hpk'
  obtain ⟨rfl, rfl⟩ := hpk'
  obtain ⟨ks, hks, hw⟩ := hr
  have hpg := h.good.fs.pages _ hfl
  rw [hpk] at hpg
  have u : Used md g s.fl (σ.front g.pageCount) false its f := hpg
  have hnd := u.layout.nodup w
  have hlen : ∀ c ∈ its, ∃ v', keyOf kc c = some (((keyOf kc c).getD k)) ∧
      look kc ((keyOf kc c).getD k) (icontent g.pageCount σ P) = some c ∧
      lookV kc vc ((keyOf kc c).getD k) (icontent g.pageCount σ P) = some v' ∧
      footI g c = g.hl + g.roundUp (size ((keyOf kc c).getD k) v') := by
    intro c hc
    obtain ⟨kk, hk⟩ := hcur c hc
    obtain ⟨hm1, hm2, hm3⟩ := look_some hk
    obtain ⟨k2, v2, he2⟩ := h.mp.enc c hm1 hm2
    have hko := he2.keyOf L
    rw [hm3] at hko
    injection hko with hko
    subst hko
    have hv := he2.valOf L
    rw [hm3]
    refine ⟨v2, rfl, hk, ?_, ?_⟩
    · unfold lookV; simp only [Option.getD_some]; rw [hk]; exact hv
    · have hmi := (u.layout.mem_item w hc).2.2.2
      have hdl : c.data.length = c.hdr.len.toNat := by rw [hmi, dataAt_length]
      unfold footI
      rw [← hdl, hsz _ _ _ he2]
      rfl
  have hle := sum_inj (fun c : It => (keyOf kc c).getD k) (footI g)
    (fun k => match lookV kc vc k (icontent g.pageCount σ P) with
      | some v => g.hl + g.roundUp (size k v)
      | none => 0) its ks hnd
    (fun a ha b hb hab => by
      obtain ⟨_, _, h1, _⟩ := hlen a ha
      obtain ⟨_, _, h2, _⟩ := hlen b hb
      rw [hab, h2] at h1
      exact (Option.some.inj h1).symm)
    (fun a ha => by
      obtain ⟨v', _, _, h1, _⟩ := hlen a ha
      exact hks _ (by simp only; rw [h1]; simp))
    (fun a ha => by
      obtain ⟨v', _, _, h1, h2⟩ := hlen a ha
      rw [h1, h2]; exact Nat.le_refl _)
  have hde := w.dataEnd_eq (σ.front g.pageCount)
  unfold Fits
  rw [hsz _ _ _ henc]
  have hw' : (ks.map (fun k => match lookV kc vc k (icontent g.pageCount σ P) with
      | some v => g.hl + g.roundUp (size k v)
      | none => 0)).sum + (g.hl + g.roundUp (size k v)) ≤ g.pageSize := hw
  omega

/-- One round of storing. -/
theorem storeRound_sat (L : Lawful kc vc) (hn : 2 ≤ g.pageCount) (hmd : md.OK g) {s : St K} (h : MG kc vc md g big s σ P F)
    (hse : Settled big g.pageCount σ) (k : K) (v : V)
    (hnt : ∀ d, encode kc vc k v s.buf.length = .ok d → g.tooBig d.length = false → Storable md g d)
    {size : K → V → Nat} (hsz : ∀ d k v, Enc kc vc d k v → d.length = size k v) :
    Sat (Map.storeRound g kc k (vc.ser v)) s
      (fun r s' => s'.buf.length = s.buf.length ∧ ∃ σ' P', MG kc vc md g big s' σ' P' (fun _ => False) ∧
        Settled big g.pageCount σ' ∧
        ((r = true ∧ Ready g.pageCount σ' ∧ Put kc vc g (icontent g.pageCount σ P) k v σ' P' ∧
            ∃ d, encode kc vc k v s.buf.length = .ok d ∧ g.tooBig d.length = false ∧ σ.part = true ∧ roundA kc g d σ P = (true, σ', P')) ∨
         (r = false ∧ Kept kc vc g (icontent g.pageCount σ P) σ' P' ∧
            ((Ready g.pageCount σ' ∧ Tidy kc g σ' P') ∨ (¬ Ready g.pageCount σ ∧ σ'.m = g.pageCount)) ∧
            ((Ready g.pageCount σ ∧ Tidy kc g σ P) ∨ σ.m = g.pageCount → ¬ Roomy g size (fun k => lookV kc vc k (icontent g.pageCount σ P)) k v) ∧
            ((σ.part = false ∧ (σ', P') = openA g σ P) ∨ (σ.part = true ∧
              ∃ d, encode kc vc k v s.buf.length = .ok d ∧ g.tooBig d.length = false ∧ roundA kc g d σ P = (false, σ', P'))))))
      (fun e s' => s'.buf.length = s.buf.length ∧
        ((e = .corrupted ∧ big = false ∧ σ.part = true ∧ (σ.corr = true ∨ σ.m = g.pageCount) ∧ MG kc vc md g big s' σ P F) ∨
         ((Refuses g kc vc k v s.buf.length e ∨ TooSmall md s e) ∧ ∃ σ' P', MG kc vc md g big s' σ' P' (fun _ => False) ∧
            Settled big g.pageCount σ' ∧ Kept kc vc g (icontent g.pageCount σ P) σ' P' ∧
            (TooSmall md s e ∨ (σ.part = true ∧ σ' = σ ∧ P' = P ∧ Refuses g kc vc k v s.buf.length e))) ∨
         (e = .shutoff ∧ ∃ σ' P', MD kc vc md g s' σ' P' (fun _ => False) ∧
            (Kept kc vc g (icontent g.pageCount σ P) σ' P' ∨ Put kc vc g (icontent g.pageCount σ P) k v σ' P')))) := by
  have wf := h.good.fs.wf
  have hfl := Shape.front_lt wf
  have h0 : 0 < g.pageCount := by omega
  have hbad : σ.corr = true ∨ σ.m = g.pageCount → big = false := by
    intro hh
    cases hb : big with
    | false => rfl
    | true =>
      have h1 := h.not_corr hb
      have h2 := (hse hb).1
      rcases hh with hh | hh
      · rw [h1] at hh; simp at hh
      · omega
  have hset : ∀ {σ' : Shape}, Ready g.pageCount σ' → Settled big g.pageCount σ' := by
    intro σ' hr _
    exact ⟨hr.room, fun hp => by rw [hr.part] at hp; simp at hp⟩
  unfold Map.storeRound
  rcases (findPart_sat w h hn).cases with ⟨r, s1, he1, h1, hs1, hr⟩ | ⟨e, s1, he1, rfl, hc, h1, hs1⟩
  rotate_left
  · exact Sat.of_err (bind_err he1) ⟨by rw [hs1.buf], Or.inl ⟨rfl, hbad (Or.inl hc), (h.mp.corr hc).1, Or.inl hc, h1⟩⟩
  refine Sat.bind_eq he1 ?_
  rcases hr with ⟨hp, rfl, han⟩ | ⟨hp, rfl⟩
  · -- there is a page to write to
    simp only
    have hnl : (σ.front g.pageCount + 1) % g.pageCount < g.pageCount := Nat.mod_lt _ h0
    rcases (getCached w h1.good hnl).cases with ⟨st, s2, he2, hst, hg2, hs2, _, hkn, _⟩ | ⟨e, s2, he2, rfl, hst⟩
    rotate_left
    · have hst' := Shape.st_err.1 hst
      obtain ⟨rfl, _, hc, _⟩ := hst'
      exact Sat.of_err (bind_err he2) ⟨by rw [hs1.buf], Or.inl ⟨rfl, hbad (Or.inl hc), hp, Or.inl hc, h1⟩⟩
    refine Sat.bind_eq he2 ?_
    have h2 := h1.same hg2 hs2
    have hl2 : s2.buf.length = s.buf.length := by rw [hs2.buf, hs1.buf]
    rcases ready_iff h.mp wf hp w with ⟨hready, ho⟩ | ⟨_, ho⟩ | ⟨hm, ho⟩
    · rw [ho] at hst
      injection hst with hst
      subst hst
      rw [if_neg (by simp [PageState.isOpen])]
      have hse' : Settled big g.pageCount σ := hset hready
      rcases (serialize_sat L k v s2).cases with ⟨d, s3, he3, hb3, hd⟩ | ⟨e, s3, he3, hb3, e', rfl, hd⟩
      rotate_left
      · rw [hl2] at hd
        exact Sat.of_err (bind_err he3) ⟨by rw [hb3.len]; exact hl2, Or.inr (Or.inl ⟨Or.inl (Or.inl ⟨e', rfl, hd⟩),
          σ, P, (h2.bufOnly hb3).anyF hready.room, hse', ⟨fun _ => rfl⟩, Or.inr ⟨hp, rfl, rfl, Or.inl ⟨e', rfl, hd⟩⟩⟩)⟩
      rw [hl2] at hd
      refine Sat.bind_eq he3 ?_
      have h3 := h2.bufOnly hb3
      have hl3 : s3.buf.length = s.buf.length := by rw [hb3.len]; exact hl2
      cases htb : g.tooBig d.length with
      | true =>
        rw [if_pos rfl]
        rcases h3.unmark_sat.cases with ⟨_, s4, he4, h4, hc4, _, _⟩ | ⟨_, _, _, hF⟩
        · exact Sat.bind_eq he4 (Sat.of_err (throw_run _ _) ⟨by rw [hc4.len]; exact hl3,
            Or.inr (Or.inl ⟨Or.inl (Or.inr ⟨rfl, d, hd, htb⟩), σ, P, h4.anyF hready.room, hse', ⟨fun _ => rfl⟩, Or.inr ⟨hp, rfl, rfl, Or.inr ⟨rfl, d, hd, htb⟩⟩⟩)⟩)
        · exact hF.elim
      | false =>
        rw [if_neg (by simp)]
        obtain ⟨its, f, hpk⟩ := h3.mp.frontUsed h3.good.fs hp
        have hrun := findFreeSpot_run w h3.good hfl hpk d.length
        refine Sat.bind_eq hrun ?_
        have hlen := (notTooBig w htb (σ.front g.pageCount)).1
        by_cases hfit : Fits g (σ.front g.pageCount) f d.length
        · rw [if_pos hfit]
          simp only
          refine (putItem_sat w L hmd h3 hready hpk (encode_enc hd) (hnt d hd htb) hlen hfit).mono ?_ ?_
          · rintro r s' ⟨q1, q2, P', q3, q4, q5⟩
            exact ⟨q1.trans hl3, σ, P', q3, hse', Or.inl ⟨q2, hready, q4, d, hd, htb, hp, by
              unfold roundA; rw [if_pos hp, q5]⟩⟩
          · rintro e s' ⟨q1, q2, P', q3, q4⟩
            exact ⟨q1.trans hl3, Or.inr (Or.inr ⟨q2, σ, P', q3, q4⟩)⟩
        · rw [if_neg hfit]
          simp only
          have hkn2 := hkn _ han
          have hc3 : s3.cache = s2.cache := hb3.cache
          refine (turnOver_sat w L hn hmd h3 hready (by rw [hc3]; exact hkn2.1) (by rw [hc3]; exact hkn2.2)).mono ?_ ?_
          · rintro r s' ⟨q1, q2, σ', P', q3, q4, q5, q6, q7⟩
            refine ⟨q1.trans hl3, σ', P', q3, hset q5, Or.inr ⟨q2, q4, Or.inl ⟨q5, q6⟩, fun ht hro => hfit ?_, Or.inr ⟨hp, d, hd, htb, ?_⟩⟩⟩
            rotate_left
            · unfold roundA putA; rw [if_pos hp, hpk]; simp only; rw [if_neg hfit, q7]
            rcases ht with ⟨_, ht⟩ | ht
            · exact tidy_fits w L hsz h3 ht hpk (encode_enc hd) hro
            · have := hready.room; omega
          · rintro e s' ⟨q1, q2⟩
            refine ⟨q1.trans hl3, Or.inr ?_⟩
            rcases q2 with ⟨hE, σ', P', q3, q4⟩ | ⟨hE, σ', P', q3, q4⟩
            · refine Or.inl ⟨Or.inr (hE.of_len hl3), σ', P', q3, ?_, q4, Or.inl (hE.of_len hl3)⟩
              intro hb
              have := h3.not_small hE
              rw [hb] at this; simp at this
            · exact Or.inr ⟨hE, σ', P', q3, Or.inl q4⟩
    · rw [ho] at hst; simp at hst
    · have hno : st.isOpen = false := by
        rcases ho with ho | ho <;> (rw [ho] at hst; injection hst with hst; subst hst; rfl)
      rw [if_pos hno]
      exact Sat.of_err (throw_run _ _) ⟨hl2, Or.inl ⟨rfl, hbad (Or.inr hm), hp, Or.inr hm, h2⟩⟩
  · -- no page is open for writing
    simp only
    have hpf := h.mp.part_false h.good.fs hp
    have hfb := h1.mp.frontBlank h1.good.fs hp
    have hfp := CalcOk.front_pos wf
    rw [hp] at hfp
    simp only [Bool.false_eq_true, if_false] at hfp
    have hnr : ¬ Ready g.pageCount σ := fun hr => by have := hr.part; rw [hp] at this; simp at this
    have hop : ∀ i, i < g.pageCount → i < σ.front g.pageCount → σ.st g.pageCount i ≠ .ok .open := by
      intro i hi hlt hst
      rw [Shape.st_open] at hst
      have hfr := ringPage_pos wf.o_lt hfl
      rw [hfp] at hfr
      have hsh := h.mp.shape
      have hol := wf.o_lt
      unfold ringPage at hfr
      unfold ringPos at hst
      by_cases hm2 : σ.m + 1 < g.pageCount
      · have ho0 := hsh hm2
        rw [ho0] at hst hfr
        split at hst <;> split at hfr <;> omega
      · split at hst <;> split at hfr <;> omega
    have hstf : σ.st g.pageCount (σ.front g.pageCount) = .ok .open := by
      rw [Shape.st_open, hpf.1]; exact ⟨by omega, by simp⟩
    rcases (findFirst_sat w h1.good h0 .open).cases with ⟨r, s2, he2, hg2, hs2, _, _, hfind, _⟩ | ⟨e, s2, _, _, hc, _⟩
    rotate_left
    · rw [hpf.1] at hc; simp at hc
    refine Sat.bind_eq he2 ?_
    have hr : r = some (σ.front g.pageCount) := by
      have e0 : ∀ i, i < g.pageCount → ringPage g.pageCount 0 i = i := by
        intro i hi; unfold ringPage; rw [if_pos (by omega)]; omega
      have := (hfind (σ.front g.pageCount) hfl (fun j hj h' => by
        rw [e0 j (by omega)] at h'
        exact hop j (by omega) hj h')).2
      rw [e0 _ hfl] at this
      exact this hstf
    subst hr
    simp only
    have h2 := h1.same hg2 hs2
    have hl2 : s2.buf.length = s.buf.length := by rw [hs2.buf, hs1.buf]
    have mp3 : MP kc vc md g σ.openFront (upd P (σ.front g.pageCount)
      (.used false [] (g.dataStart (σ.front g.pageCount)))) (fun _ => False) := h.mp.openFront_mp wf hp hpf.1
    have hic3 := icontent_openFront (P := P) (pk := .used false [] (g.dataStart (σ.front g.pageCount))) wf hp rfl
    rcases (partialFront w h2.good (fun _ => Or.inl hfb)).cases with
      ⟨st, s3, he3, _, hf3, her3, _, _, hg3⟩ | ⟨e, s3, he3, hf3, her3, _, hE⟩
    · refine Sat.bind_eq he3 ?_
      obtain ⟨_, hg3⟩ := hg3 hp
      have h3 := h2.step hg3 hf3 mp3 hic3 (by rw [her3]) rfl
      have hmo : σ.openFront.m = σ.m + 1 := rfl
      refine Sat.pure ⟨by rw [hf3.buf]; exact hl2, _, _, h3, ?_, Or.inr ⟨rfl, ⟨fun k => by rw [hic3]⟩, ?_,
        fun hr => ?_, Or.inl ⟨hp, rfl⟩⟩⟩
      · intro hb
        have := (hse hb).2 hp
        exact ⟨by omega, fun hx => by simp [Shape.openFront] at hx⟩
      · rcases Nat.lt_or_ge (σ.m + 1) g.pageCount with hlt | hge
        · left
          refine ⟨⟨rfl, by omega, hpf.1⟩, [], g.dataStart (σ.front g.pageCount), ?_, ?_, by simp⟩
          · rw [CalcOk.openFront_front hp, upd_same]
          · rw [CalcOk.openFront_front hp]; simp
        · right
          exact ⟨hnr, by omega⟩
      · rcases hr with hr | hr
        · exact absurd hr.1 hnr
        · have := hpf.2; omega
    · refine Sat.of_err (bind_err he3) ⟨by rw [hf3.buf]; exact hl2, Or.inr (Or.inr ?_)⟩
      rcases hE with ⟨_, hE, _⟩ | ⟨rfl, hE⟩
      · rw [hpf.1] at hE; simp at hE
      · refine ⟨rfl, ?_⟩
        rcases hE with hE | hE
        · exact ⟨_, _, ⟨hE.fs, h.mp.anyF hpf.2, hE.crash⟩, Or.inl ⟨fun _ => rfl⟩⟩
        · exact ⟨_, _, ⟨hE.fs, mp3, hE.crash⟩, Or.inl ⟨fun k => by rw [hic3]⟩⟩

omit w in
theorem Kept.trans {its : List It} {σ1 σ2 : Shape} {P1 P2 : Nat → PK} (h : Kept kc vc g its σ1 P1)
    (h' : Kept kc vc g (icontent g.pageCount σ1 P1) σ2 P2) : Kept kc vc g its σ2 P2 :=
  ⟨fun k => (h'.same k).trans (h.same k)⟩

omit w in
theorem Kept.put {its : List It} {σ1 σ2 : Shape} {P1 P2 : Nat → PK} {k : K} {v : V} (h : Kept kc vc g its σ1 P1)
    (h' : Put kc vc g (icontent g.pageCount σ1 P1) k v σ2 P2) : Put kc vc g its k v σ2 P2 :=
  ⟨fun k' => by rw [h'.put k', h.same k']⟩

omit w in
theorem Kept.drift {its : List It} {σ1 : Shape} {P1 : Nat → PK} (h : Kept kc vc g its σ1 P1) :
    Drift kc vc F its (icontent g.pageCount σ1 P1) := Drift.of_eq h.same

/-- All rounds of storing. -/
theorem storeLoop_sat (L : Lawful kc vc) (hn : 2 ≤ g.pageCount) (hmd : md.OK g) (k : K) (v : V)
    {size : K → V → Nat} (hsz : ∀ d k v, Enc kc vc d k v → d.length = size k v) :
    ∀ (left : Nat) {s : St K} {σ : Shape} {P : Nat → PK}, MG kc vc md g big s σ P F → Settled big g.pageCount σ →
      (∀ d, encode kc vc k v s.buf.length = .ok d → g.tooBig d.length = false → Storable md g d) →
    Sat (Map.storeLoop g kc k (vc.ser v) left) s
      (fun _ s' => s'.buf.length = s.buf.length ∧ ∃ σ' P', MG kc vc md g big s' σ' P' (fun _ => False) ∧
        Ready g.pageCount σ' ∧ Put kc vc g (icontent g.pageCount σ P) k v σ' P' ∧
        (∃ d, encode kc vc k v s.buf.length = .ok d ∧ g.tooBig d.length = false) ∧
        loopA kc g (encode kc vc k v s.buf.length) left σ P = (.ok (), σ', P'))
      (fun e s' => s'.buf.length = s.buf.length ∧
        ((e = .corrupted ∧ big = false ∧ ¬ Ready g.pageCount σ ∧ ∃ σ' P', MG kc vc md g big s' σ' P' F ∧ σ'.part = true ∧
            (σ'.corr = true ∨ σ'.m = g.pageCount) ∧ Kept kc vc g (icontent g.pageCount σ P) σ' P') ∨
         ((Refuses g kc vc k v s.buf.length e ∨ TooSmall md s e ∨
            (e = .fullStorage ∧ ((2 ≤ left ∨ (1 ≤ left ∧ ((Ready g.pageCount σ ∧ Tidy kc g σ P) ∨ σ.m = g.pageCount))) →
              ¬ Roomy g size (fun k => lookV kc vc k (icontent g.pageCount σ P)) k v))) ∧
            ∃ σ' P', MG kc vc md g big s' σ' P' F ∧
            Settled big g.pageCount σ' ∧ Kept kc vc g (icontent g.pageCount σ P) σ' P' ∧
            (big = true → loopA kc g (encode kc vc k v s.buf.length) left σ P = (.error e, σ', P'))) ∨
         (e = .shutoff ∧ ∃ σ' P', MD kc vc md g s' σ' P' (fun _ => False) ∧
            (Kept kc vc g (icontent g.pageCount σ P) σ' P' ∨ Put kc vc g (icontent g.pageCount σ P) k v σ' P')))) := by
  intro left
  induction left with
  | zero =>
    intro s σ P h hse _
    unfold Map.storeLoop
    rcases h.unmark_sat.cases with ⟨_, s1, he1, h1, hc1, _, _⟩ | ⟨_, _, _, hF⟩
    · refine Sat.bind_eq he1 (Sat.of_err (throw_run _ _) ⟨hc1.len, Or.inr (Or.inl ⟨Or.inr (Or.inr ⟨rfl, ?_⟩),
        σ, P, h1, hse, ⟨fun _ => rfl⟩, fun _ => rfl⟩)⟩)
      intro hx; omega
    · exact hF.elim
  | succ left ih =>
    intro s σ P h hse hnt
    unfold Map.storeLoop
    rcases (storeRound_sat w L hn hmd h hse k v hnt hsz).cases with ⟨r, s1, he1, hl1, σ1, P1, h1, hse1, hr⟩ | ⟨e, s1, he1, hl1, hE⟩
    · refine Sat.bind_eq he1 ?_
      rcases hr with ⟨rfl, hready, hput, d, hd, htb, hp, hrA⟩ | ⟨rfl, hkept, hshape, hnoroom, hstep⟩
      · rw [if_pos rfl]
        exact Sat.pure ⟨hl1, σ1, P1, h1, hready, hput, ⟨d, hd, htb⟩, by
          unfold loopA; rw [if_pos hp, hd]; simp only; rw [if_neg (by rw [htb]; simp), hrA, if_pos rfl]⟩
      · rw [if_neg (by simp)]
        have hlk : (fun k => lookV kc vc k (icontent g.pageCount σ1 P1)) =
            fun k => lookV kc vc k (icontent g.pageCount σ P) := funext hkept.same
        have hloop : loopA kc g (encode kc vc k v s.buf.length) (left + 1) σ P =
            loopA kc g (encode kc vc k v s.buf.length) left σ1 P1 := by
          rw [loopA.eq_def]; simp only
          rcases hstep with ⟨hp, he⟩ | ⟨hp, d, hd, htb, he⟩
          · rw [if_neg (by rw [hp]; simp), ← he]
          · rw [if_pos hp, hd]; simp only; rw [if_neg (by rw [htb]; simp), he, if_neg (by simp)]
        refine (ih (h1.mono (by simp)) hse1 (by rw [hl1]; exact hnt)).mono ?_ ?_
        · rintro _ s' ⟨q1, σ', P', q2, q3, q4, q5, q6⟩
          exact ⟨q1.trans hl1, σ', P', q2, q3, hkept.put q4, by rw [← hl1]; exact q5, by rw [hloop, ← hl1]; exact q6⟩
        · rintro e s' ⟨q1, hE⟩
          refine ⟨q1.trans hl1, ?_⟩
          rcases hE with ⟨rfl, hb, hnr, σ', P', q2, q3, q4, q5⟩ | ⟨hc, σ', P', q2, q3, q4, qA⟩ | ⟨rfl, σ', P', q2, q3⟩
          · refine Or.inl ⟨rfl, hb, ?_, σ', P', q2, q3, q4, hkept.trans q5⟩
            rcases hshape with ⟨hs, _⟩ | ⟨hs, _⟩
            · exact absurd hs hnr
            · exact hs
          · refine Or.inr (Or.inl ⟨?_, σ', P', q2, q3, hkept.trans q4, fun hb => by rw [hloop, ← hl1]; exact qA hb⟩)
            rw [hl1] at hc
            rcases hc with hc | hc | ⟨hc, hfull⟩
            · exact Or.inl hc
            · exact Or.inr (Or.inl (hc.of_len hl1))
            · refine Or.inr (Or.inr ⟨hc, fun hx => ?_⟩)
              rw [hlk] at hfull
              rcases hx with hx | ⟨_, hx⟩
              · refine hfull (Or.inr ⟨by omega, ?_⟩)
                rcases hshape with hs | ⟨_, hs⟩
                · exact Or.inl hs
                · exact Or.inr hs
              · exact hnoroom hx
          · refine Or.inr (Or.inr ⟨rfl, σ', P', q2, ?_⟩)
            rcases q3 with q3 | q3
            · exact Or.inl (hkept.trans q3)
            · exact Or.inr (hkept.put q3)
    · refine Sat.of_err (bind_err he1) ⟨hl1, ?_⟩
      rcases hE with ⟨rfl, hb, hp, hbad, h1⟩ | ⟨hc, σ', P', q2, q3, q4, qA⟩ | ⟨rfl, σ', P', q2, q3⟩
      · refine Or.inl ⟨rfl, hb, fun hr => ?_, σ, P, h1, hp, hbad, ⟨fun _ => rfl⟩⟩
        rcases hbad with hbad | hbad
        · rw [hr.corr] at hbad; simp at hbad
        · have := hr.room; omega
      · refine Or.inr (Or.inl ⟨?_, σ', P', q2.mono (by simp), q3, q4, fun hb => by
          rcases qA with hs | ⟨hp, rfl, rfl, hr⟩
          · have := h.not_small hs; rw [hb] at this; simp at this
          · rw [loopA.eq_def]; simp only; rw [if_pos hp]
            rcases hr with ⟨e', rfl, hd⟩ | ⟨rfl, d, hd, htb⟩
            · rw [hd]
            · rw [hd]; simp only; rw [if_pos htb]⟩)
        rcases hc with hc | hc
        · exact Or.inl hc
        · exact Or.inr (Or.inl hc)
      · exact Or.inr (Or.inr ⟨rfl, σ', P', q2, q3⟩)

/-- One attempt at storing. -/
theorem storeInner_sat (L : Lawful kc vc) (hn : 2 ≤ g.pageCount) (hmd : md.OK g) {s : St K} (h : MG kc vc md g big s σ P F)
    (hse : Settled big g.pageCount σ) (k : K) (v : V)
    (hnt : ∀ d, encode kc vc k v s.buf.length = .ok d → g.tooBig d.length = false → Storable md g d)
    {size : K → V → Nat} (hsz : ∀ d k v, Enc kc vc d k v → d.length = size k v) :
    Sat (Map.storeInner g kc k (vc.ser v)) s
      (fun _ s' => s'.buf.length = s.buf.length ∧ ∃ σ' P', MG kc vc md g big s' σ' P' (fun _ => False) ∧
        Ready g.pageCount σ' ∧ Put kc vc g (icontent g.pageCount σ P) k v σ' P' ∧
        (∃ d, encode kc vc k v s.buf.length = .ok d ∧ g.tooBig d.length = false) ∧
        loopA kc g (encode kc vc k v s.buf.length) g.pageCount σ P = (.ok (), σ', P'))
      (fun e s' => s'.buf.length = s.buf.length ∧
        ((e = .corrupted ∧ big = false ∧ ¬ Ready g.pageCount σ ∧ ∃ σ' P', MG kc vc md g big s' σ' P' F ∧ σ'.part = true ∧
            (σ'.corr = true ∨ σ'.m = g.pageCount) ∧ Kept kc vc g (icontent g.pageCount σ P) σ' P') ∨
         ((Refuses g kc vc k v s.buf.length e ∨ TooSmall md s e ∨
            (e = .fullStorage ∧ ¬ Roomy g size (fun k => lookV kc vc k (icontent g.pageCount σ P)) k v)) ∧
            ∃ σ' P', MG kc vc md g big s' σ' P' F ∧
            Settled big g.pageCount σ' ∧ Kept kc vc g (icontent g.pageCount σ P) σ' P' ∧
            (big = true → loopA kc g (encode kc vc k v s.buf.length) g.pageCount σ P = (.error e, σ', P'))) ∨
         (e = .shutoff ∧ ∃ σ' P', MD kc vc md g s' σ' P' (fun _ => False) ∧
            (Kept kc vc g (icontent g.pageCount σ P) σ' P' ∨ Put kc vc g (icontent g.pageCount σ P) k v σ' P')))) := by
  unfold Map.storeInner
  rcases h.checkDirty_sat.cases with ⟨_, s1, he1, h1, hc1, hb1⟩ | ⟨_, _, _, hF⟩
  rotate_left
  · exact hF.elim
  refine Sat.bind_eq he1 ?_
  have hl1 := hc1.len
  refine (storeLoop_sat w L hn hmd k v hsz g.pageCount h1 hse (by rw [hl1]; exact hnt)).mono ?_ ?_
  · rintro _ s' ⟨q1, σ', P', q2, q3, q4, q5, q6⟩
    exact ⟨q1.trans hl1, σ', P', q2, q3, q4, by rw [← hl1]; exact q5, by rw [← hl1]; exact q6⟩
  · rintro e s' ⟨q1, hE⟩
    refine ⟨q1.trans hl1, ?_⟩
    rcases hE with hE | ⟨hc, hE⟩ | hE
    · exact Or.inl hE
    · rw [hl1] at hE
      refine Or.inr (Or.inl ⟨?_, hE⟩)
      rw [hl1] at hc
      rcases hc with hc | hc | ⟨hc, hfull⟩
      · exact Or.inl hc
      · exact Or.inr (Or.inl (hc.of_len hl1))
      · exact Or.inr (Or.inr ⟨hc, hfull (Or.inl hn)⟩)
    · exact Or.inr (Or.inr hE)

/-- `store_item`. -/
theorem storeItem_sat (L : Lawful kc vc) (hn : 2 ≤ g.pageCount) (hmd : md.OK g) {s : St K} (h : MG kc vc md g big s σ P F)
    (hse : Settled big g.pageCount σ) (k : K) (v : V)
    (hnt : ∀ d, encode kc vc k v s.buf.length = .ok d → g.tooBig d.length = false → Storable md g d)
    {size : K → V → Nat} (hsz : ∀ d k v, Enc kc vc d k v → d.length = size k v) :
    Sat (Map.storeItem g kc vc k v) s
      (fun _ s' => s'.buf.length = s.buf.length ∧ ∃ its σ' P', MG kc vc md g big s' σ' P' (fun _ => False) ∧
        Settled big g.pageCount σ' ∧ Drift kc vc F (icontent g.pageCount σ P) its ∧ Put kc vc g its k v σ' P' ∧
        (∃ d, encode kc vc k v s.buf.length = .ok d ∧ g.tooBig d.length = false) ∧
        (big = true → loopA kc g (encode kc vc k v s.buf.length) g.pageCount σ P = (.ok (), σ', P')))
      (fun e s' => s'.buf.length = s.buf.length ∧
        (((Refuses g kc vc k v s.buf.length e ∨ TooSmall md s e ∨
            (e = .fullStorage ∧ ¬ Roomy g size (fun k => lookV kc vc k (icontent g.pageCount σ P)) k v)) ∧
            ∃ σ' P', MG kc vc md g big s' σ' P' F ∧ Settled big g.pageCount σ' ∧
              Drift kc vc F (icontent g.pageCount σ P) (icontent g.pageCount σ' P') ∧
              (big = true → loopA kc g (encode kc vc k v s.buf.length) g.pageCount σ P = (.error e, σ', P'))) ∨
         (e = .shutoff ∧ md.cf = false ∧ (Spoiled g s'.fl ∨
           (∃ σ' P', MD kc vc md g s' σ' P' F ∧ Drift kc vc F (icontent g.pageCount σ P) (icontent g.pageCount σ' P')) ∨
           (∃ its σ' P', MD kc vc md g s' σ' P' (fun _ => False) ∧ Drift kc vc F (icontent g.pageCount σ P) its ∧
              Put kc vc g its k v σ' P'))))) := by
  have hset : ∀ {σ' : Shape}, Ready g.pageCount σ' → Settled big g.pageCount σ' := by
    intro σ' hr _
    exact ⟨hr.room, fun hp => by rw [hr.part] at hp; simp at hp⟩
  unfold Map.storeItem
  refine withRepair_sat (C := fun s' => s'.buf.length = s.buf.length ∧ big = false ∧ ∃ σ' P', MG kc vc md g big s' σ' P' F ∧
    σ'.part = true ∧ (σ'.corr = true ∨ σ'.m = g.pageCount) ∧ Kept kc vc g (icontent g.pageCount σ P) σ' P') ?_ ?_
  · refine (storeInner_sat w L hn hmd h hse k v hnt hsz).mono ?_ ?_
    · rintro _ s' ⟨q1, σ', P', q2, q3, q4, q5, q6⟩
      exact ⟨q1, _, σ', P', q2, hset q3, Drift.refl, q4, q5, fun _ => q6⟩
    · rintro e s' ⟨q1, hE⟩
      rcases hE with ⟨rfl, hb, _, hE⟩ | ⟨hc, σ', P', q2, q3, q4, qA⟩ | ⟨rfl, σ', P', q2, q3⟩
      · exact Or.inr ⟨rfl, q1, hb, hE⟩
      · refine Or.inl ⟨?_, q1, Or.inl ⟨hc, σ', P', q2, q3, q4.drift, qA⟩⟩
        rintro rfl
        rcases hc with (⟨_, hc, _⟩ | ⟨hc, _⟩) | hc | ⟨hc, _⟩
        · simp at hc
        · simp at hc
        · obtain ⟨n, hc⟩ := hc.err; simp at hc
        · simp at hc
      · refine Or.inl ⟨by simp, q1, Or.inr ⟨rfl, q2.crash, Or.inr ?_⟩⟩
        rcases q3 with q3 | q3
        · exact Or.inl ⟨σ', P', q2.mono (by simp), q3.drift⟩
        · exact Or.inr ⟨_, σ', P', q2, Drift.refl, q3⟩
  · rintro s1 ⟨hl1, rfl, σ1, P1, h1, hp1, hbad1, hk1⟩
    rcases (mapRepair_sat w L hn hmd h1).cases with ⟨_, s2, he2, hl2, σ2, P2, h2, hm2, hc2, hd2, hp2, _⟩ | ⟨e, s2, he2, hl2, hE⟩
    · refine Sat.bind_eq he2 ?_
      have hr2 : Ready g.pageCount σ2 := ⟨hp2 hp1, hm2, hc2⟩
      have hl : s2.buf.length = s.buf.length := hl2.trans hl1
      have hdr : Drift kc vc F (icontent g.pageCount σ P) (icontent g.pageCount σ2 P2) := hk1.drift.trans hd2
      refine (storeInner_sat w L hn hmd h2 (hset hr2) k v (by rw [hl]; exact hnt) hsz).mono ?_ ?_
      · rintro _ s' ⟨q1, σ', P', q2, q3, q4, q5, -⟩
        exact ⟨q1.trans hl, _, σ', P', q2, hset q3, hdr, q4, by rw [← hl]; exact q5, by simp⟩
      · rintro e s' ⟨q1, hE⟩
        refine ⟨q1.trans hl, ?_⟩
        rcases hE with ⟨_, _, hnr, _⟩ | ⟨hc, σ', P', q2, q3, q4, qA⟩ | ⟨rfl, σ', P', q2, q3⟩
        · exact absurd hr2 hnr
        · refine Or.inl ⟨?_, σ', P', q2.mono (by simp), q3, hdr.trans q4.drift, by simp⟩
          rw [hl] at hc
          rcases hc with hc | hc | ⟨hc, hfull⟩
          · exact Or.inl hc
          · exact Or.inr (Or.inl (hc.of_len hl))
          · refine Or.inr (Or.inr ⟨hc, fun hro => hfull (hro.mono (fun k => ?_))⟩)
            rcases hdr k with h' | h'
            · exact Or.inl h'
            · exact Or.inr h'.2
        · refine Or.inr ⟨rfl, q2.crash, Or.inr ?_⟩
          rcases q3 with q3 | q3
          · exact Or.inl ⟨σ', P', q2.mono (by simp), hdr.trans q3.drift⟩
          · exact Or.inr ⟨_, σ', P', q2, hdr, q3⟩
    · refine Sat.of_err (bind_err he2) ⟨hl2.trans hl1, ?_⟩
      rcases hE with ⟨hE, σ', P', q1, q2⟩ | ⟨rfl, hcf, hE⟩
      · exact Or.inl ⟨Or.inr (Or.inl (hE.of_len hl1)), σ', P', q1.mono (by simp), by simp [Settled], hk1.drift.trans q2, by simp⟩
      · refine Or.inr ⟨rfl, hcf, ?_⟩
        rcases hE with hE | ⟨σ', P', q1, q2⟩
        · exact Or.inl hE
        · exact Or.inr (Or.inl ⟨σ', P', q1, hk1.drift.trans q2⟩)

end SeqStorage
