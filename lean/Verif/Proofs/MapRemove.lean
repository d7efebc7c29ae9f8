import Verif.Proofs.MapStore
/-
Fetching and removing.
-/

set_option linter.unusedSectionVars false

namespace SeqStorage
open M

variable {K V : Type} [DecidableEq K] {kc : KeyCodec K} {vc : ValCodec V}
variable {md : Mode} {g : Geo} {σ : Shape} {P P0 : Nat → PK} {F F' T : K → Prop} {big : Bool}

/-! ### Removing items from a list, front to back -/

/-- Items of the keys in `T` were removed, from the front on. -/
inductive Cut (kc : KeyCodec K) (T : K → Prop) : List It → List It → Prop
  | same (l : List It) : Cut kc T l l
  | keep {x : It} {a b : List It} : (∀ k, T k → hits kc k x = false) → Cut kc T a b → Cut kc T (x :: a) (x :: b)
  | drop {x x' : It} {a b : List It} : x'.present = false → (∃ k, T k ∧ keyOf kc x = some k) → Cut kc T a b →
      Cut kc T (x :: a) (x' :: b)

/-- No present item of a key in `T`. -/
def Free (kc : KeyCodec K) (T : K → Prop) (its : List It) : Prop := ∀ it ∈ its, ∀ k, T k → hits kc k it = false

theorem Free.look {its : List It} (h : Free kc T its) {k : K} (hk : T k) : look kc k its = none := by
  rw [look_none]
  intro it hi hp he
  have := h it hi k hk
  rw [hits_iff.2 ⟨hp, he⟩] at this; simp at this

theorem Free.append {a b : List It} : Free kc T (a ++ b) ↔ Free kc T a ∧ Free kc T b := by
  unfold Free
  simp only [List.mem_append]
  exact ⟨fun h => ⟨fun x hx => h x (Or.inl hx), fun x hx => h x (Or.inr hx)⟩,
    fun h x hx => hx.elim (h.1 x) (h.2 x)⟩

theorem Free.single {x : It} (h : ∀ k, T k → hits kc k x = false) : Free kc T [x] := by
  intro y hy; rw [List.mem_singleton.1 hy]; exact h

theorem hits_gone {x : It} (h : x.present = false) (k : K) : hits kc k x = false := by
  unfold hits; rw [h]; rfl

namespace Cut

theorem look_other {a b : List It} (h : Cut kc T a b) {k : K} (hk : ¬ T k) : look kc k b = look kc k a := by
  induction h with
  | same => rfl
  | keep _ _ ih => rw [look_cons, look_cons, ih]
  | @drop x x' a b h1 h2 _ ih =>
    rw [look_cons, look_cons, ih]
    have e1 : hits kc k x' = false := hits_gone h1 k
    have e2 : hits kc k x = false := by
      cases hh : hits kc k x with
      | false => rfl
      | true =>
        obtain ⟨k', h3, h4⟩ := h2
        have := (hits_iff.1 hh).2
        rw [h4] at this
        simp only [Option.some.injEq] at this
        exact absurd (this ▸ h3) hk
    rw [e1, e2]; rfl

theorem look_in {a b : List It} (h : Cut kc T a b) (k : K) : look kc k b = look kc k a ∨ look kc k b = none := by
  induction h with
  | same => exact Or.inl rfl
  | @keep x a b hx _ ih =>
    rw [look_cons, look_cons]
    rcases ih with ih | ih
    · rw [ih]; exact Or.inl rfl
    · by_cases hk : hits kc k x = true
      · have hT : ¬ T k := fun hT => by rw [hx k hT] at hk; simp at hk
        rename_i hc
        rw [hc.look_other hT]; exact Or.inl rfl
      · rw [ih, if_neg hk]; exact Or.inr rfl
  | @drop x x' a b h1 _ _ ih =>
    rw [look_cons, look_cons, hits_gone h1 k]
    rcases ih with ih | ih
    · rw [ih]
      cases hl : look kc k a with
      | none => exact Or.inr rfl
      | some y => exact Or.inl rfl
    · rw [ih]; exact Or.inr rfl

theorem mem {a b : List It} (h : Cut kc T a b) {x : It} (hx : x ∈ b) (hp : x.present = true) : x ∈ a := by
  induction h with
  | same => exact hx
  | keep _ _ ih =>
    rcases List.mem_cons.1 hx with rfl | hx
    · simp
    · exact List.mem_cons_of_mem _ (ih hx)
  | drop h1 _ _ ih =>
    rcases List.mem_cons.1 hx with rfl | hx
    · rw [h1] at hp; simp at hp
    · exact List.mem_cons_of_mem _ (ih hx)

/-- One more item is removed. -/
theorem remove {c pre post : List It} {x x' : It} (h : Cut kc T c (pre ++ x :: post)) (hpre : Free kc T pre)
    (hx : ∃ k, T k ∧ keyOf kc x = some k) (hp : x.present = true) (hp' : x'.present = false) :
    Cut kc T c (pre ++ x' :: post) := by
  have hhit : ∃ k, T k ∧ hits kc k x = true := by
    obtain ⟨k, h1, h2⟩ := hx
    exact ⟨k, h1, hits_iff.2 ⟨hp, h2⟩⟩
  induction pre generalizing c with
  | nil =>
    generalize hb : ([] ++ x :: post) = b at h
    simp only [List.nil_append] at hb
    cases h with
    | same => rw [← hb]; exact .drop hp' hx (.same _)
    | keep h1 h2 =>
      simp only [List.cons.injEq] at hb
      obtain ⟨rfl, rfl⟩ := hb
      obtain ⟨k, h3, h4⟩ := hhit
      rw [h1 k h3] at h4; simp at h4
    | drop h1 h2 h3 =>
      simp only [List.cons.injEq] at hb
      obtain ⟨rfl, rfl⟩ := hb
      rw [h1] at hp; simp at hp
  | cons y pre ih =>
    have hy : ∀ k, T k → hits kc k y = false := hpre y (by simp)
    have hpre' : Free kc T pre := fun z hz => hpre z (by simp [hz])
    generalize hb : (y :: pre ++ x :: post) = b at h
    simp only [List.cons_append] at hb
    cases h with
    | same => rw [← hb]; exact .keep hy (ih (.same _) hpre')
    | keep h1 h2 =>
      simp only [List.cons.injEq] at hb
      obtain ⟨rfl, rfl⟩ := hb
      exact .keep hy (ih h2 hpre')
    | drop h1 h2 h3 =>
      simp only [List.cons.injEq] at hb
      obtain ⟨rfl, rfl⟩ := hb
      exact .drop h1 h2 (ih h3 hpre')

theorem front {a b a1 a2 b1 b2 : List It} (h : Cut kc T a b) (ha : a = a1 ++ a2) (hb : b = b1 ++ b2)
    (hl : a1.length = b1.length) : Cut kc T a1 b1 := by
  induction h generalizing a1 b1 with
  | same =>
    have := List.append_inj_left (ha.symm.trans hb) hl
    rw [this]; exact .same _
  | keep h1 _ ih =>
    cases a1 with
    | nil => rw [List.length_nil] at hl; rw [List.eq_nil_of_length_eq_zero hl.symm]; exact .same _
    | cons z a1 =>
      cases b1 with
      | nil => simp at hl
      | cons z' b1 =>
        simp only [List.cons_append, List.cons.injEq] at ha hb
        obtain ⟨rfl, ha⟩ := ha
        obtain ⟨rfl, hb⟩ := hb
        exact .keep h1 (ih ha hb (by simpa using hl))
  | drop h1 h2 _ ih =>
    cases a1 with
    | nil => rw [List.length_nil] at hl; rw [List.eq_nil_of_length_eq_zero hl.symm]; exact .same _
    | cons z a1 =>
      cases b1 with
      | nil => simp at hl
      | cons z' b1 =>
        simp only [List.cons_append, List.cons.injEq] at ha hb
        obtain ⟨rfl, ha⟩ := ha
        obtain ⟨rfl, hb⟩ := hb
        exact .drop h1 h2 (ih ha hb (by simpa using hl))

theorem drift {a b : List It} (h : Cut kc T a b) : Drift kc vc T a b := by
  intro k
  by_cases hk : T k
  · rcases h.look_in k with h' | h'
    · exact Or.inl (lookV_congr h')
    · exact Or.inr ⟨hk, by unfold lookV; rw [h']; rfl⟩
  · exact Or.inl (lookV_congr (h.look_other hk))

end Cut

theorem iseg_length {P P' : Nat → PK} {n o a len : Nat} (h : ∀ i, (P' i).its.length = (P i).its.length) :
    (iseg n o P' a len).length = (iseg n o P a len).length := by
  unfold iseg
  rw [List.length_flatMap, List.length_flatMap]
  congr 1
  apply List.map_congr_left
  intro j _
  exact h _

/-- The pages after some items were removed. -/
theorem MP.cut {P' : Nat → PK} (h : MP kc vc md g σ P F) (hj : ∀ i, i < g.pageCount → P' i ≠ .junk)
    (hl : ∀ i, (P' i).its.length = (P i).its.length)
    (hc : Cut kc T (icontent g.pageCount σ P) (icontent g.pageCount σ P')) :
    MP kc vc md g σ P' (fun k => F k ∨ T k) ∧ (Free kc T (icontent g.pageCount σ P') → MP kc vc md g σ P' F) := by
  have hold : ∀ Q : Nat → PK, ∃ r, icontent g.pageCount σ Q = older g.pageCount σ Q ++ r := by
    intro Q
    refine ⟨iseg g.pageCount σ.o Q (0 + (σ.m - 1)) (σ.m - (σ.m - 1)), ?_⟩
    unfold icontent older
    rw [← iseg_add]
    congr 1; omega
  obtain ⟨r, hr⟩ := hold P
  obtain ⟨r', hr'⟩ := hold P'
  have hco : Cut kc T (older g.pageCount σ P) (older g.pageCount σ P') := hc.front hr hr' (iseg_length hl).symm
  have key : ∀ Fr : Prop, (Fr → Free kc T (icontent g.pageCount σ P')) → σ.m = g.pageCount →
      Drift kc vc (fun k => F k ∨ (T k ∧ ¬ Fr)) (icontent g.pageCount σ P') (older g.pageCount σ P') := by
    intro Fr hfree hm k
    by_cases hk : T k
    · by_cases hf : Fr
      · left
        have h1 := (hfree hf).look hk
        have h2 := (Free.append.1 (hr' ▸ hfree hf)).1.look hk
        exact lookV_congr (h2.trans h1.symm)
      · cases hlo : look kc k (older g.pageCount σ P') with
        | none => right; exact ⟨Or.inr ⟨hk, hf⟩, by unfold lookV; rw [hlo]; rfl⟩
        | some x =>
          have h1 : look kc k (older g.pageCount σ P) = some x := by
            rcases hco.look_in k with h' | h'
            · rw [← h', hlo]
            · rw [hlo] at h'; simp at h'
          have h2 : look kc k (icontent g.pageCount σ P') = look kc k (icontent g.pageCount σ P) := by
            rcases hc.look_in k with h' | h'
            · exact h'
            · obtain ⟨q1, q2, q3⟩ := look_some hlo
              exact absurd q3 (look_none.1 h' x (by rw [hr']; simp [q1]) q2)
          rcases h.dup hm k with h' | ⟨h', h''⟩
          · left
            rw [show lookV kc vc k (older g.pageCount σ P') = lookV kc vc k (older g.pageCount σ P) from
              lookV_congr (hlo.trans h1.symm), h', lookV_congr h2]
          · right
            exact ⟨Or.inl h', by rw [← h'']; exact lookV_congr (hlo.trans h1.symm)⟩
    · rw [lookV_congr (hc.look_other hk), lookV_congr (hco.look_other hk)]
      rcases h.dup hm k with h' | ⟨h', h''⟩
      · exact Or.inl h'
      · exact Or.inr ⟨Or.inl h', h''⟩
  refine ⟨⟨hj, h.shape, h.corr, fun it hi hp => h.enc it (hc.mem hi hp) hp, fun it hi hp => h.nt it (hc.mem hi hp) hp,
    fun hm => (key False False.elim hm).mono ?_⟩, fun hfree => ⟨hj, h.shape, h.corr, fun it hi hp => h.enc it (hc.mem hi hp) hp,
    fun it hi hp => h.nt it (hc.mem hi hp) hp, fun hm => (key True (fun _ => hfree) hm).mono ?_⟩⟩
  · rintro k (h' | ⟨h', _⟩)
    · exact Or.inl h'
    · exact Or.inr h'
  · rintro k (h' | ⟨_, h'⟩)
    · exact h'
    · exact absurd trivial h'

/-! ### The invariant while removing -/

/-- While items of keys in `T` are being removed. -/
structure RM (kc : KeyCodec K) (T : K → Prop) (md : Mode) (g : Geo) (big : Bool) (s : St K) (σ : Shape) (P0 P : Nat → PK) : Prop where
  good : Good md g s σ P
  kpok : KPOk s.cache.kp
  keys : ∀ k a, s.cache.kp.location k = some a → ¬ T k ∧ ∃ it, look kc k (icontent g.pageCount σ P0) = some it ∧ it.addr = a
  log : big = true → md.cf = true ∧ Turns g s.fl.erases σ ∧ Wide md s.buf.length
  nojunk : ∀ i, i < g.pageCount → P i ≠ .junk
  len : ∀ i, (P i).its.length = (P0 i).its.length
  cut : Cut kc T (icontent g.pageCount σ P0) (icontent g.pageCount σ P)

/-- What is left when the power fails while removing. -/
structure RD (kc : KeyCodec K) (T : K → Prop) (md : Mode) (g : Geo) (s : St K) (σ : Shape) (P0 P : Nat → PK) : Prop where
  fs : FS md g s.fl σ P
  nojunk : ∀ i, i < g.pageCount → P i ≠ .junk
  len : ∀ i, (P i).its.length = (P0 i).its.length
  cut : Cut kc T (icontent g.pageCount σ P0) (icontent g.pageCount σ P)
  crash : md.cf = false

theorem RM.mg {s : St K} (h : RM kc T md g big s σ P0 P) (hm : MP kc vc md g σ P0 F) :
    MG kc vc md g big s σ P (fun k => F k ∨ T k) :=
  ⟨h.good, (hm.cut h.nojunk h.len h.cut).1, h.kpok, fun k a hk => by
    obtain ⟨h1, h2⟩ := h.keys k a hk
    rw [h.cut.look_other h1]; exact h2, h.log⟩

theorem RM.done {s : St K} (h : RM kc T md g big s σ P0 P) (hm : MP kc vc md g σ P0 F)
    (hf : Free kc T (icontent g.pageCount σ P)) : MG kc vc md g big s σ P F :=
  ⟨h.good, (hm.cut h.nojunk h.len h.cut).2 hf, h.kpok, fun k a hk => by
    obtain ⟨h1, h2⟩ := h.keys k a hk
    rw [h.cut.look_other h1]; exact h2, h.log⟩

theorem RD.dead {s : St K} (h : RD kc T md g s σ P0 P) (hm : MP kc vc md g σ P0 F) :
    MD kc vc md g s σ P (fun k => F k ∨ T k) := ⟨h.fs, (hm.cut h.nojunk h.len h.cut).1, h.crash⟩

theorem RM.calm {s s' : St K} (h : RM kc T md g big s σ P0 P) (hg : Good md g s' σ P) (hk : s'.cache.kp = s.cache.kp)
    (hc : Calm s s') : RM kc T md g big s' σ P0 P :=
  ⟨hg, by rw [hk]; exact h.kpok, by rw [hk]; exact h.keys, fun hb => by rw [hc.fl, hc.len]; exact h.log hb,
    h.nojunk, h.len, h.cut⟩

/-- Which keys a call removes. -/
def Tgt (k? : Option K) (k : K) : Prop :=
  match k? with
  | some k' => k = k'
  | none => True

/-- An item after an interrupted removal. -/
theorem clearIt_present (k : Nat) (it : It) : (clearIt k it).present = false ∨ clearIt k it = it := by
  by_cases hk : 0 < k
  · left
    cases hp : (clearIt k it).present with
    | false => rfl
    | true => exact absurd (clearedCrc_low it.hdr.crc hk) (present_low hp).2
  · right
    have : k = 0 := by omega
    subst this
    rfl

theorem cleared_absent {it : It} : (⟨it.addr, { it.hdr with crc := 0#32 }, it.data⟩ : It).present = false := by
  unfold It.present
  exact decide_eq_false (adapted_ne_zero _)

/-- An item after a removal. -/
def wipe (kc : KeyCodec K) (k? : Option K) (it : It) : It :=
  if (match k? with | some k => hits kc k it | none => it.present) = true then ⟨it.addr, { it.hdr with crc := 0#32 }, it.data⟩ else it

/-- A page after a removal. -/
def wipePage (kc : KeyCodec K) (k? : Option K) : PK → PK
  | .used c its f => .used c (its.map (wipe kc k?)) f
  | pk => pk

/-- `len` pages from the `j`-th one after a removal. -/
def wipeSeg (kc : KeyCodec K) (k? : Option K) (n o : Nat) : Nat → Nat → (Nat → PK) → (Nat → PK)
  | 0, _, P => P
  | len + 1, j, P => wipeSeg kc k? n o len (j + 1) (upd P (ringPage n o j) (wipePage kc k? (P (ringPage n o j))))

theorem wipe_miss {k? : Option K} {it : It} (h : ∀ k, Tgt k? k → hits kc k it = false) (hk : it.present = true → ∃ k, keyOf kc it = some k) :
    wipe kc k? it = it := by
  unfold wipe
  rw [if_neg]
  cases k? with
  | some k => simp only; rw [h k rfl]; simp
  | none =>
    simp only
    intro hp
    obtain ⟨k, hk⟩ := hk hp
    have := h k trivial
    rw [hits_iff.2 ⟨hp, hk⟩] at this
    simp at this

theorem wipe_hit {k? : Option K} {it : It} {k : K} (hk : Tgt k? k) (h : hits kc k it = true) :
    wipe kc k? it = ⟨it.addr, { it.hdr with crc := 0#32 }, it.data⟩ := by
  unfold wipe
  rw [if_pos]
  cases k? with
  | some k' => simp only; have : k = k' := hk; rw [← this]; exact h
  | none => exact (hits_iff.1 h).1

variable (w : g.WF)
include w

/-- The rest of a page after some of its items. -/
theorem layout_tail {fl : Flash} (h : FS md g fl σ P) {j : Nat} (hj : j < σ.m) {c : Bool} {pre post : List It} {it : It} {f : Nat}
    (hpk : P (ringPage g.pageCount σ.o j) = .used c (pre ++ it :: post) f) :
    Layout md.cf g fl.mem (g.dataEnd (ringPage g.pageCount σ.o j)) (it.hdr.next g it.addr) post f ∧
      g.dataStart (ringPage g.pageCount σ.o j) + 8 ≤ it.hdr.next g it.addr ∧ g.word ∣ it.hdr.next g it.addr ∧
      it.hdr.next g it.addr ≤ g.dataEnd (ringPage g.pageCount σ.o j) := by
  obtain ⟨c', f', hpk', hlt, l⟩ := page_layout w h hj
  have hf : f' = f := by rw [hpk] at hpk'; simp only [PK.used.injEq] at hpk'; exact hpk'.2.2.symm
  subst hf
  rw [hpk] at l
  have l' : Layout md.cf g fl.mem (g.dataEnd (ringPage g.pageCount σ.o j)) (g.dataStart (ringPage g.pageCount σ.o j))
    (pre ++ it :: post) f' := l
  have hs := l'.suffix w
  have ho := page_order w (ringPage g.pageCount σ.o j)
  have hmi := l'.mem_item w (it := it) (by simp)
  have hfe := l'.le_end w (by omega) (w.dataStart_word _)
  have hn := Layout.next_gt w it.hdr it.addr
  exact ⟨hs, by omega, Layout.next_dvd w (l'.mem_dvd w (w.dataStart_word _) (by simp)), by omega⟩

theorem removePage_sat (L : Lawful kc vc) (hmd : md.OK g) (hnp : md.np = false) {k? : Option K}
    (hm : MP kc vc md g σ P0 F) {j : Nat} (hj : j < σ.m) :
    ∀ {rounds a : Nat} {s : St K} {P : Nat → PK} {pre rest : List It} {c : Bool} {f : Nat},
      RM kc (Tgt k?) md g big s σ P0 P →
      P (ringPage g.pageCount σ.o j) = .used c (pre ++ rest) f → Free kc (Tgt k?) (iseg g.pageCount σ.o P 0 j) →
      Free kc (Tgt k?) pre → Layout md.cf g s.fl.mem (g.dataEnd (ringPage g.pageCount σ.o j)) a rest f →
      g.dataStart (ringPage g.pageCount σ.o j) ≤ a → g.word ∣ a →
      g.dataEnd (ringPage g.pageCount σ.o j) < a + rounds → 0 < rounds →
    Sat (Map.removePage g kc k? (g.dataEnd (ringPage g.pageCount σ.o j)) rounds a) s
      (fun _ s' => s'.buf.length = s.buf.length ∧ ∃ P', RM kc (Tgt k?) md g big s' σ P0 P' ∧
        Free kc (Tgt k?) (iseg g.pageCount σ.o P' 0 (j + 1)) ∧
        P' = upd P (ringPage g.pageCount σ.o j) (.used c (pre ++ rest.map (wipe kc k?)) f))
      (fun e s' => s'.buf.length = s.buf.length ∧
        ((TooSmall md s e ∧ ∃ P', RM kc (Tgt k?) md g big s' σ P0 P') ∨
         (e = .shutoff ∧ ∃ P', RD kc (Tgt k?) md g s' σ P0 P'))) := by
  intro rounds
  induction rounds with
  | zero => intro a s P pre rest c f _ _ _ _ _ _ _ _ h0; omega
  | succ r ih =>
    intro a s P pre rest c f h hpk hA hpre l ha hd hr h0
    have wf := h.good.fs.wf
    have hml := wf.m_le
    have hlt := ringPage_lt (n := g.pageCount) wf.o_lt (by omega : j < g.pageCount)
    have hro := rounds_ok w (ringPage g.pageCount σ.o j) ha
    have ho := page_order w (ringPage g.pageCount σ.o j)
    unfold Map.removePage
    refine Sat.bind_eq (traverse_run w s l hd (by omega) (page_stop w hlt) _ hro.1 hro.2) ?_
    cases rest with
    | nil =>
      simp only [scanResult, List.dropWhile_nil]
      refine Sat.pure ⟨rfl, P, h, ?_, by
        rw [List.map_nil, ← hpk]; funext i; unfold upd; split
        · rename_i hi; rw [hi]
        · rfl⟩
      rw [iseg_add, iseg_one, Nat.zero_add, hpk]
      exact Free.append.2 ⟨hA, by simpa [PK.its] using hpre⟩
    | cons it post =>
      simp only [scanResult, List.dropWhile_cons, Bool.false_eq_true, if_false]
      obtain ⟨hs, hn1, hnd, hn2⟩ := layout_tail w h.good.fs hj hpk
      have hmi := l.mem_item w (it := it) (by simp)
      have hn := Layout.next_gt w it.hdr it.addr
      have hsh : Short md g (it :: post) := (page_short w h.good.fs hj).sub (by rw [hpk]; simp [PK.its])
      rcases (readIt_sat w hlt l hsh ha hd (it := it) (by simp)).cases with ⟨x, s1, he, hb, hx⟩ | ⟨e, s1, he, hE, rfl, _⟩
      · refine Sat.bind_eq he ?_
        have h1 := h.calm (h.good.bufOnly hb) (by rw [hb.cache]) hb.calm
        -- going on without a removal
        have next : (∀ k, Tgt k? k → hits kc k it = false) → wipe kc k? it = it →
            Sat (Map.removePage g kc k? (g.dataEnd (ringPage g.pageCount σ.o j)) r (it.hdr.next g it.addr)) s1
            (fun _ s' => s'.buf.length = s.buf.length ∧ ∃ P', RM kc (Tgt k?) md g big s' σ P0 P' ∧
              Free kc (Tgt k?) (iseg g.pageCount σ.o P' 0 (j + 1)) ∧
              P' = upd P (ringPage g.pageCount σ.o j) (.used c (pre ++ (it :: post).map (wipe kc k?)) f))
            (fun e s' => s'.buf.length = s.buf.length ∧
              ((TooSmall md s e ∧ ∃ P', RM kc (Tgt k?) md g big s' σ P0 P') ∨
              (e = .shutoff ∧ ∃ P', RD kc (Tgt k?) md g s' σ P0 P'))) := by
          intro hmiss hwipe
          refine (ih (pre := pre ++ [it]) (rest := post) (c := c) (f := f) h1 (by rw [hpk]; simp) hA
            (Free.append.2 ⟨hpre, .single hmiss⟩) (by rw [hb.fl]; exact hs) (by omega) hnd (by omega) (by omega)).mono ?_ ?_
          · rintro _ s' ⟨q1, q2⟩
            refine ⟨q1.trans hb.len, ?_⟩
            rw [List.append_assoc] at q2
            rw [List.map_cons, hwipe]; exact q2
          · rintro e s' ⟨q1, q2⟩
            refine ⟨q1.trans hb.len, ?_⟩
            rcases q2 with ⟨q2, q3⟩ | q2
            · exact Or.inl ⟨q2.of_len hb.len, q3⟩
            · exact Or.inr q2
        rcases hx with ⟨rfl, hp, hh⟩ | ⟨hx, hp⟩
        · simp only
          refine Sat.bind_eq (get_run s1) ?_
          have hmem0 : it ∈ icontent g.pageCount σ P0 := h.cut.mem (mem_icontent.2 ⟨j, hj, by rw [hpk]; simp [PK.its]⟩) hp
          obtain ⟨k', v, henc⟩ := hm.enc it hmem0 hp
          obtain ⟨n, hk1, hk2, _, _⟩ := henc.de L
          have hde : kc.de s1.buf = .ok (k', n) := by rw [hh.split]; exact hk2 _
          have hk' := henc.keyOf L
          have main : ∀ b : Bool, (b = true ↔ Tgt k? k') → Sat (do
              if b = true then eraseItem g it.hdr it.addr else pure ()
              Map.removePage g kc k? (g.dataEnd (ringPage g.pageCount σ.o j)) r (it.hdr.next g it.addr)) s1
            (fun _ s' => s'.buf.length = s.buf.length ∧ ∃ P', RM kc (Tgt k?) md g big s' σ P0 P' ∧
              Free kc (Tgt k?) (iseg g.pageCount σ.o P' 0 (j + 1)) ∧
              P' = upd P (ringPage g.pageCount σ.o j) (.used c (pre ++ (it :: post).map (wipe kc k?)) f))
            (fun e s' => s'.buf.length = s.buf.length ∧
              ((TooSmall md s e ∧ ∃ P', RM kc (Tgt k?) md g big s' σ P0 P') ∨
              (e = .shutoff ∧ ∃ P', RD kc (Tgt k?) md g s' σ P0 P'))) := by
            intro b hb2
            cases b with
            | false =>
              rw [if_neg (by simp)]
              suffices hmiss : ∀ k, Tgt k? k → hits kc k it = false by
                exact Sat.bind_eq (pure_run _ s1) (next hmiss (wipe_miss hmiss (fun _ => ⟨k', hk'⟩)))
              intro k hk
              cases hh' : hits kc k it with
              | false => rfl
              | true =>
                have := (hits_iff.1 hh').2
                rw [hk'] at this
                simp only [Option.some.injEq] at this
                subst this
                have := hb2.2 hk
                simp at this
            | true =>
              rw [if_pos rfl]
              have hT : Tgt k? k' := hb2.1 rfl
              have hpick := icontent_pick (g := g) (P := P) hj
              have hcut := h.cut
              rw [hpick, hpk] at hcut
              have hcut' : Cut kc (Tgt k?) (icontent g.pageCount σ P0) ((iseg g.pageCount σ.o P 0 j ++ pre) ++ it ::
                  (post ++ iseg g.pageCount σ.o P (j + 1) (σ.m - (j + 1)))) := by
                simpa [PK.its] using hcut
              have hcon : ∀ x : It, icontent g.pageCount σ (upd P (ringPage g.pageCount σ.o j) (.used c (pre ++ x :: post) f)) =
                  (iseg g.pageCount σ.o P 0 j ++ pre) ++ x :: (post ++ iseg g.pageCount σ.o P (j + 1) (σ.m - (j + 1))) := by
                intro x
                rw [icontent_upd wf hj]
                simp [PK.its]
              have hcutx : ∀ x : It, x.present = false → Cut kc (Tgt k?) (icontent g.pageCount σ P0)
                  (icontent g.pageCount σ (upd P (ringPage g.pageCount σ.o j) (.used c (pre ++ x :: post) f))) := by
                intro x hx
                rw [hcon]
                exact hcut'.remove (Free.append.2 ⟨hA, hpre⟩) ⟨k', hT, hk'⟩ hp hx
              have hlen : ∀ x : It, ∀ i, (upd P (ringPage g.pageCount σ.o j) (.used c (pre ++ x :: post) f) i).its.length =
                  (P0 i).its.length := by
                intro x i
                rw [← h.len i]
                unfold upd
                split
                · rename_i hi; rw [hi, hpk]; simp [PK.its]
                · rfl
              have hnj : ∀ x : It, ∀ i, i < g.pageCount →
                  upd P (ringPage g.pageCount σ.o j) (.used c (pre ++ x :: post) f) i ≠ .junk := by
                intro x i hi
                unfold upd
                split
                · simp
                · exact h.nojunk i hi
              rcases (removeItem w h1.good hmd hnp hlt hpk (present_low hp).2).cases with
                ⟨_, s2, he2, hf2, her2, hps2, hg2⟩ | ⟨e, s2, he2, rfl, hf2, her2, n', hD⟩
              · refine Sat.bind_eq he2 ?_
                have h2 : RM kc (Tgt k?) md g big s2 σ P0 (upd P (ringPage g.pageCount σ.o j)
                    (.used c (pre ++ { it with hdr := { it.hdr with crc := 0#32 } } :: post) f)) :=
                  ⟨hg2, by rw [hf2.kp]; exact h1.kpok, by rw [hf2.kp]; exact h1.keys,
                    by rw [her2, hf2.buf]; exact h1.log, hnj _, hlen _, hcutx _ cleared_absent⟩
                obtain ⟨hs', _⟩ := layout_tail w hg2.fs hj (by rw [upd_same])
                have hl2 : s2.buf.length = s.buf.length := by rw [hf2.buf]; exact hb.len
                refine (ih (pre := pre ++ [{ it with hdr := { it.hdr with crc := 0#32 } }]) (rest := post) (c := c) (f := f) (a := it.hdr.next g it.addr) h2
                  (by rw [upd_same]; simp) ?_ (Free.append.2 ⟨hpre, .single (fun k _ => hits_gone cleared_absent k)⟩)
                  hs' (by omega) hnd (by omega) (by omega)).mono ?_ ?_
                · rw [iseg_upd]
                  · exact hA
                  · intro t _ h2 he
                    have := ringPage_inj wf.o_lt (by omega) (by omega) he
                    omega
                · rintro _ s' ⟨q1, q2⟩
                  refine ⟨q1.trans hl2, ?_⟩
                  rw [List.append_assoc, upd_upd] at q2
                  rw [List.map_cons, wipe_hit hT (hits_iff.2 ⟨hp, hk'⟩)]; exact q2
                · rintro e s' ⟨q1, q2⟩
                  refine ⟨q1.trans hl2, ?_⟩
                  rcases q2 with ⟨q2, q3⟩ | q2
                  · exact Or.inl ⟨q2.of_len hl2, q3⟩
                  · exact Or.inr q2
              · refine Sat.of_err (bind_err he2) ⟨by rw [hf2.buf]; exact hb.len, Or.inr ⟨rfl, ?_⟩⟩
                rcases clearIt_present n' it with hx | hx
                · exact ⟨_, hD.fs, hnj _, hlen _, hcutx _ hx, hD.crash⟩
                · refine ⟨_, hD.fs, hnj _, hlen _, ?_, hD.crash⟩
                  rw [hcon, hx]; exact hcut'
          cases k? with
          | none => exact main true (by simp [Tgt])
          | some k =>
            refine Sat.bind_eq (liftSer_ok hde s1) ?_
            exact main (decide (k' = k)) (by simp [Tgt])
        · have := next (fun k _ => hits_gone hp k) (wipe_miss (fun k _ => hits_gone hp k) (fun h => by rw [hp] at h; simp at h))
          rcases hx with rfl | rfl <;> exact this
      · exact Sat.of_err (bind_err he) ⟨rfl, Or.inl ⟨hE, P, h⟩⟩

/-! ### All pages, oldest first -/

theorem removeUsed_sat (L : Lawful kc vc) (hmd : md.OK g) (hnp : md.np = false) {k? : Option K}
    (hm : MP kc vc md g σ P0 F) :
    ∀ (len : Nat) {j : Nat} {s : St K} {P : Nat → PK}, j + len = σ.m → RM kc (Tgt k?) md g big s σ P0 P →
      Free kc (Tgt k?) (iseg g.pageCount σ.o P 0 j) →
    Sat (Map.removeIn g kc k? ((List.range' j len).map (ringPage g.pageCount σ.o))) s
      (fun _ s' => s'.buf.length = s.buf.length ∧ ∃ P', RM kc (Tgt k?) md g big s' σ P0 P' ∧
        Free kc (Tgt k?) (icontent g.pageCount σ P') ∧ P' = wipeSeg kc k? g.pageCount σ.o len j P)
      (fun e s' => s'.buf.length = s.buf.length ∧
        ((TooSmall md s e ∧ ∃ P', RM kc (Tgt k?) md g big s' σ P0 P') ∨
         (e = .shutoff ∧ ∃ P', RD kc (Tgt k?) md g s' σ P0 P'))) := by
  intro len
  induction len with
  | zero =>
    intro j s P hj h hA
    refine Sat.pure ⟨rfl, P, h, ?_, rfl⟩
    unfold icontent; rw [← hj]; exact hA
  | succ len ih =>
    intro j s P hj h hA
    have wf := h.good.fs.wf
    have hml := wf.m_le
    have hjm : j < σ.m := by omega
    have hlt := ringPage_lt (n := g.pageCount) wf.o_lt (by omega : j < g.pageCount)
    rw [List.range'_succ, List.map_cons]
    unfold Map.removeIn
    rcases (getCached w h.good hlt).cases with ⟨st, s1, he, hst, hg1, hs1, _⟩ | ⟨e, s1, he, _, hst⟩
    · refine Sat.bind_eq he ?_
      have hno : st.isOpen = false := by
        cases st with
        | «open» =>
          have := (Shape.st_open.1 hst).1
          rw [ringPos_page wf.o_lt (by omega)] at this; omega
        | _ => rfl
      rw [if_neg (by rw [hno]; simp)]
      have h1 := h.calm hg1 hs1.kp hs1.calm
      obtain ⟨c, f, hpk, _, l⟩ := page_layout w hg1.fs hjm
      have hro := rounds_ok w (ringPage g.pageCount σ.o j) (Nat.le_refl _)
      rcases (removePage_sat w L hmd hnp hm hjm (pre := []) h1 hpk hA (by intro x hx; simp at hx) l (Nat.le_refl _)
        (w.dataStart_word _) hro.1 hro.2).cases with ⟨_, s2, he2, hl2, P2, h2, hA2, hP2⟩ | ⟨e, s2, he2, hl2, hE⟩
      · refine Sat.bind_eq he2 ?_
        have hl : s2.buf.length = s.buf.length := hl2.trans hs1.calm.len
        refine (ih (by omega) h2 hA2).mono ?_ ?_
        · rintro _ s' ⟨q1, P', q2, q3, q4⟩
          refine ⟨q1.trans hl, P', q2, q3, ?_⟩
          rw [q4, hP2, wipeSeg, hpk]; rfl
        · rintro e s' ⟨q1, q2⟩
          refine ⟨q1.trans hl, ?_⟩
          rcases q2 with ⟨q2, q3⟩ | q2
          · exact Or.inl ⟨q2.of_len hl, q3⟩
          · exact Or.inr q2
      · refine Sat.of_err (bind_err he2) ⟨hl2.trans hs1.calm.len, ?_⟩
        rcases hE with ⟨q2, q3⟩ | q2
        · exact Or.inl ⟨q2.of_len hs1.calm.len, q3⟩
        · exact Or.inr q2
    · have := (Shape.st_err.1 hst).2.1
      rw [ringPos_page wf.o_lt (by omega)] at this; omega

theorem removeOpen_sat {k? : Option K} {Q : Unit → St K → Prop} {E : Err → St K → Prop} {rest : List Nat} :
    ∀ (l : List Nat) {s : St K}, (∀ i ∈ l, i < g.pageCount ∧ σ.st g.pageCount i = .ok .open) →
      RM kc (Tgt k?) md g big s σ P0 P →
      (∀ s', RM kc (Tgt k?) md g big s' σ P0 P → s'.buf.length = s.buf.length → Sat (Map.removeIn g kc k? rest) s' Q E) →
    Sat (Map.removeIn g kc k? (l ++ rest)) s Q E := by
  intro l
  induction l with
  | nil => intro s _ h hr; exact hr s h rfl
  | cons i l ih =>
    intro s hl h hr
    rw [List.cons_append]
    unfold Map.removeIn
    rcases (getCached w h.good (hl i (by simp)).1).cases with ⟨st, s1, he, hst, hg1, hs1, _⟩ | ⟨e, s1, he, _, hst⟩
    · refine Sat.bind_eq he ?_
      rw [(hl i (by simp)).2] at hst
      simp only [Except.ok.injEq] at hst
      subst hst
      rw [if_pos (show PageState.open.isOpen = true from rfl)]
      have hl1 := hs1.calm.len
      exact ih (fun x hx => hl x (by simp [hx])) (h.calm hg1 hs1.kp hs1.calm)
        (fun s' q1 q2 => hr s' q1 (q2.trans hl1))
    · rw [(hl i (by simp)).2] at hst; simp at hst

omit w in
/-- The order of the pages. -/
theorem pages_ring (ho : σ.o < g.pageCount) (hm : σ.m ≤ g.pageCount) {start : Nat} (hs : start < g.pageCount)
    (hst : (σ.m < g.pageCount → ringPos g.pageCount σ.o start = σ.m) ∧ (σ.m = g.pageCount → start = σ.o)) :
    g.pages start = (List.range' σ.m (g.pageCount - σ.m)).map (ringPage g.pageCount σ.o) ++
      (List.range' 0 σ.m).map (ringPage g.pageCount σ.o) := by
  rw [pages_eq hs]
  have h1 : List.range g.pageCount = List.range' 0 (g.pageCount - σ.m) ++ List.range' (g.pageCount - σ.m) σ.m := by
    rw [List.range_eq_range']
    have := List.range'_append_1 (s := 0) (m := g.pageCount - σ.m) (n := σ.m)
    rw [Nat.zero_add] at this
    rw [this]; congr 1; omega
  rw [h1, List.map_append]
  have h2 : List.range' σ.m (g.pageCount - σ.m) = (List.range' 0 (g.pageCount - σ.m)).map (σ.m + ·) := by
    rw [List.map_add_range']; rfl
  have h3 : List.range' (g.pageCount - σ.m) σ.m = (List.range' 0 σ.m).map ((g.pageCount - σ.m) + ·) := by
    rw [List.map_add_range']; rfl
  rw [h2, h3, List.map_map, List.map_map]
  have hp : ∀ j, j < g.pageCount → ringPage g.pageCount start j =
      ringPage g.pageCount σ.o (if ringPos g.pageCount σ.o start + j < g.pageCount then ringPos g.pageCount σ.o start + j
        else ringPos g.pageCount σ.o start + j - g.pageCount) := by
    intro j hj
    have h4 := ringPos_ringPage ho hs hj
    rw [← h4]
    unfold ringPos ringPage
    repeat' split
    all_goals omega
  congr 1
  · apply List.map_congr_left
    intro j hj
    rw [List.mem_range'_1] at hj
    rw [hp j (by omega), hst.1 (by omega), if_pos (by omega)]; rfl
  · apply List.map_congr_left
    intro j hj
    rw [List.mem_range'_1] at hj
    simp only [Function.comp_apply]
    rw [hp _ (by omega)]
    congr 1
    rcases Nat.lt_or_ge σ.m g.pageCount with hlt | hge
    · rw [hst.1 hlt]; split <;> omega
    · have : start = σ.o := hst.2 (by omega)
      rw [this]
      have : ringPos g.pageCount σ.o σ.o = 0 := by unfold ringPos; split <;> omega
      rw [this]; split <;> omega

/-- The last page of the first run of closed pages. -/
theorem findLastIn_sat (hc : σ.corr = false) :
    ∀ (l : List Nat) (last : Option Nat) {s : St K}, Good md g s σ P → (∀ i ∈ l, i < g.pageCount) →
    Sat (findLastIn g .closed last l) s
      (fun r s' => Good md g s' σ P ∧ Same s s' ∧
        (∀ pre run x post, l = pre ++ (run ++ x :: post) → last = none → (∀ i ∈ pre, σ.st g.pageCount i ≠ .ok .closed) →
          (∀ i ∈ run, σ.st g.pageCount i = .ok .closed) → σ.st g.pageCount x = .ok .closed →
          (∀ y post', post = y :: post' → σ.st g.pageCount y ≠ .ok .closed) → r = some x) ∧
        (∀ run x post, l = run ++ x :: post → (∀ i ∈ run, σ.st g.pageCount i = .ok .closed) → σ.st g.pageCount x = .ok .closed →
          (∀ y post', post = y :: post' → σ.st g.pageCount y ≠ .ok .closed) → r = some x) ∧
        (∀ x post, last = some x → l = post → (∀ y post', post = y :: post' → σ.st g.pageCount y ≠ .ok .closed) → r = some x) ∧
        (last = none → (∀ i ∈ l, σ.st g.pageCount i ≠ .ok .closed) → r = none))
      (fun _ _ => False) := by
  intro l
  induction l with
  | nil =>
    intro last s hg _
    refine Sat.pure ⟨hg, .refl s, ?_, ?_, ?_, ?_⟩
    · intro pre run x post hl; simp at hl
    · intro run x post hl; simp at hl
    · intro x post hx _ _; exact hx
    · intro hx _; exact hx
  | cons i l ih =>
    intro last s hg hl
    unfold findLastIn
    rcases (getCached w hg (hl i (by simp))).cases with ⟨st, s1, he, hst, hg1, hs1, _⟩ | ⟨e, s1, he, _, hst⟩
    · refine Sat.bind_eq he ?_
      have hl' : ∀ x ∈ l, x < g.pageCount := fun x hx => hl x (by simp [hx])
      by_cases hcl : PageState.closed = st
      · subst hcl
        rw [if_pos rfl]
        refine (ih (some i) hg1 hl').mono ?_ (fun _ _ h => h)
        rintro r s' ⟨q1, q2, _, q4, q5, _⟩
        have mid : ∀ run x post, i :: l = run ++ x :: post → (∀ i ∈ run, σ.st g.pageCount i = .ok .closed) →
          σ.st g.pageCount x = .ok .closed → (∀ y post', post = y :: post' → σ.st g.pageCount y ≠ .ok .closed) → r = some x := by
          intro run x post hl hrun hx hpost
          cases run with
          | nil =>
            simp only [List.nil_append, List.cons.injEq] at hl
            obtain ⟨rfl, rfl⟩ := hl
            exact q5 i l rfl rfl hpost
          | cons y run =>
            simp only [List.cons_append, List.cons.injEq] at hl
            exact q4 run x post hl.2 (fun z hz => hrun z (by simp [hz])) hx hpost
        refine ⟨q1, hs1.trans q2, ?_, mid, ?_, ?_⟩
        · intro pre run x post hl _ hpre hrun hx hpost
          cases pre with
          | nil => exact mid run x post hl hrun hx hpost
          | cons y pre =>
            simp only [List.cons_append, List.cons.injEq] at hl
            exact absurd (hl.1 ▸ hst) (hpre y (by simp))
        · intro x post _ hl hpost
          exact absurd hst (hpost i l hl.symm)
        · intro _ hno
          exact absurd hst (hno i (by simp))
      · rw [if_neg hcl]
        have hne : σ.st g.pageCount i ≠ .ok .closed := by
          intro h'; rw [h'] at hst; simp only [Except.ok.injEq] at hst; exact hcl hst
        cases last with
        | some x =>
          rw [if_pos (by simp)]
          refine Sat.pure ⟨hg1, hs1, ?_, ?_, ?_, ?_⟩
          · intro _ _ _ _ _ h; simp at h
          · intro run x post hl hrun hx _
            cases run with
            | nil => simp only [List.nil_append, List.cons.injEq] at hl; exact absurd (hl.1 ▸ hx) hne
            | cons y run => simp only [List.cons_append, List.cons.injEq] at hl; exact absurd (hl.1 ▸ hrun y (by simp)) hne
          · intro x' _ h _ _; exact h
          · intro h; simp at h
        | none =>
          rw [if_neg (by simp)]
          refine (ih none hg1 hl').mono ?_ (fun _ _ h => h)
          rintro r s' ⟨q1, q2, q3, q4, _, q6⟩
          refine ⟨q1, hs1.trans q2, ?_, ?_, ?_, ?_⟩
          · intro pre run x post hl _ hpre hrun hx hpost
            cases pre with
            | nil =>
              cases run with
              | nil => simp only [List.nil_append, List.cons.injEq] at hl; exact absurd (hl.1 ▸ hx) hne
              | cons y run =>
                simp only [List.nil_append, List.cons_append, List.cons.injEq] at hl
                exact absurd (hl.1 ▸ hrun y (by simp)) hne
            | cons y pre =>
              simp only [List.cons_append, List.cons.injEq] at hl
              exact q3 pre run x post hl.2 rfl (fun z hz => hpre z (by simp [hz])) hrun hx hpost
          · intro run x post hl hrun hx _
            cases run with
            | nil => simp only [List.nil_append, List.cons.injEq] at hl; exact absurd (hl.1 ▸ hx) hne
            | cons y run => simp only [List.cons_append, List.cons.injEq] at hl; exact absurd (hl.1 ▸ hrun y (by simp)) hne
          · intro _ _ h; simp at h
          · intro _ hno
            exact q6 rfl (fun z hz => hno z (by simp [hz]))
    · have := (Shape.st_err.1 hst).2.2.1
      rw [hc] at this; simp at this

omit w in
theorem range_split3 {n a x : Nat} (h1 : a ≤ x) (h2 : x < n) : List.range n =
    List.range' 0 a ++ (List.range' a (x - a) ++ x :: List.range' (x + 1) (n - x - 1)) := by
  rw [← List.range'_succ, List.range_eq_range']
  have e1 := List.range'_append_1 (s := a) (m := x - a) (n := n - x - 1 + 1)
  have e2 := List.range'_append_1 (s := 0) (m := a) (n := x - a + (n - x - 1 + 1))
  rw [show a + (x - a) = x from by omega] at e1
  rw [Nat.zero_add] at e2
  rw [e1, e2]
  congr 1; omega

/-- With no page partly filled: the newest page. -/
theorem findLast_sat {s : St K} (h : Good md g s σ P) (hm : MP kc vc md g σ P0 F) (hn : 2 ≤ g.pageCount) (hp : σ.part = false) :
    Sat (findLastPage g 0 .closed) s
      (fun r s' => Good md g s' σ P ∧ Same s s' ∧
        ((σ.m = 0 ∧ r = none) ∨ (0 < σ.m ∧ r = some (ringPage g.pageCount σ.o (σ.m - 1)))))
      (fun _ _ => False) := by
  have wf := h.fs.wf
  have ho := wf.o_lt
  have hml := wf.m_le
  have hc : σ.corr = false := by
    cases hc : σ.corr with
    | false => rfl
    | true => have := (hm.corr hc).1; rw [hp] at this; simp at this
  have hmn : σ.m < g.pageCount := by
    rcases Nat.lt_or_ge σ.m g.pageCount with h | h
    · exact h
    · have := (wf.full (by omega)).1; rw [hp] at this; simp at this
  have hsh := hm.shape
  have h0 : 0 < g.pageCount := by omega
  unfold findLastPage
  refine (findLastIn_sat w hc (g.pages 0) none h (fun i hi => (mem_pages h0).1 hi)).mono ?_ (fun _ _ h => h)
  rintro r s' ⟨q1, q2, q3, _, _, q6⟩
  refine ⟨q1, q2, ?_⟩
  have hpz : g.pages 0 = List.range g.pageCount := by
    rw [pages_eq h0]
    conv => rhs; rw [← List.map_id (List.range g.pageCount)]
    apply List.map_congr_left
    intro j hj
    rw [List.mem_range] at hj
    unfold ringPage; rw [if_pos (by omega)]; simp
  rw [hpz] at q3 q6
  have hcl : ∀ i, σ.st g.pageCount i = .ok .closed ↔ ringPos g.pageCount σ.o i < σ.m := by
    intro i; rw [Shape.st_closed, hp]; simp
  simp only [ne_eq, hcl] at q3 q6
  by_cases hm0 : σ.m = 0
  · left
    exact ⟨hm0, q6 trivial (fun i _ => by omega)⟩
  · right
    refine ⟨by omega, ?_⟩
    have hx : ringPage g.pageCount σ.o (σ.m - 1) < g.pageCount := ringPage_lt ho (by omega)
    have ha : (if σ.o = 1 ∧ σ.m + 1 = g.pageCount then 1 else 0) ≤ ringPage g.pageCount σ.o (σ.m - 1) := by
      unfold ringPage; repeat' split
      all_goals omega
    refine q3 _ _ _ _ (range_split3 ha hx) trivial ?_ ?_ ?_ ?_
    · intro i hi
      rw [List.mem_range'_1] at hi
      unfold ringPos
      repeat' (split at hi)
      all_goals split
      all_goals omega
    · intro i hi
      rw [List.mem_range'_1] at hi
      unfold ringPage at hi
      unfold ringPos
      repeat' (split at hi)
      all_goals split
      all_goals omega
    · rw [ringPos_page ho (by omega)]; omega
    · intro y post' hy
      have : g.pageCount - ringPage g.pageCount σ.o (σ.m - 1) - 1 ≠ 0 := by
        intro h'; rw [h'] at hy; simp at hy
      obtain ⟨z, hz⟩ := Nat.exists_eq_succ_of_ne_zero this
      rw [hz, List.range'_succ] at hy
      simp only [List.cons.injEq] at hy
      rw [← hy.1]
      unfold ringPage at hz ⊢
      unfold ringPos
      repeat' (split at hz)
      all_goals repeat' split
      all_goals omega

/-- `remove_item_inner`. -/
theorem removeInner_sat (L : Lawful kc vc) (hn : 2 ≤ g.pageCount) (hmd : md.OK g) (hnp : md.np = false) {s : St K}
    (h : MG kc vc md g big s σ P F) (k? : Option K) :
    Sat (Map.removeInner g kc k?) s
      (fun _ s' => s'.buf.length = s.buf.length ∧ ∃ P', MG kc vc md g big s' σ P' F ∧
        P' = wipeSeg kc k? g.pageCount σ.o σ.m 0 P ∧
        ∀ k, (Tgt k? k → lookV kc vc k (icontent g.pageCount σ P') = none) ∧
          (¬ Tgt k? k → lookV kc vc k (icontent g.pageCount σ P') = lookV kc vc k (icontent g.pageCount σ P)))
      (fun e s' => s'.buf.length = s.buf.length ∧
        ((e = .corrupted ∧ σ.corr = true ∧ MG kc vc md g big s' σ P F) ∨
         (TooSmall md s e ∧ ∃ P', MG kc vc md g big s' σ P' (fun k => F k ∨ Tgt k? k) ∧
           Drift kc vc (Tgt k?) (icontent g.pageCount σ P) (icontent g.pageCount σ P')) ∨
         (e = .shutoff ∧ ∃ P', MD kc vc md g s' σ P' (fun k => F k ∨ Tgt k? k) ∧
           Drift kc vc (Tgt k?) (icontent g.pageCount σ P) (icontent g.pageCount σ P')))) := by
  have wf := h.good.fs.wf
  have ho := wf.o_lt
  have hml := wf.m_le
  -- the removal itself, given the first page
  have body : ∀ {s1 : St K} (last : Nat), RM kc (Tgt k?) md g big s1 σ P P → s1.buf.length = s.buf.length →
      last < g.pageCount → (σ.m = 0 ∨ (σ.m < g.pageCount ∧ ringPos g.pageCount σ.o (g.nextPage last) = σ.m) ∨
        (σ.m = g.pageCount ∧ g.nextPage last = σ.o)) →
      Sat (do Map.removeIn g kc k? (g.pages (g.nextPage last)); unmarkDirty) s1
      (fun _ s' => s'.buf.length = s.buf.length ∧ ∃ P', MG kc vc md g big s' σ P' F ∧
        P' = wipeSeg kc k? g.pageCount σ.o σ.m 0 P ∧
        ∀ k, (Tgt k? k → lookV kc vc k (icontent g.pageCount σ P') = none) ∧
          (¬ Tgt k? k → lookV kc vc k (icontent g.pageCount σ P') = lookV kc vc k (icontent g.pageCount σ P)))
      (fun e s' => s'.buf.length = s.buf.length ∧
        ((e = .corrupted ∧ σ.corr = true ∧ MG kc vc md g big s' σ P F) ∨
         (TooSmall md s e ∧ ∃ P', MG kc vc md g big s' σ P' (fun k => F k ∨ Tgt k? k) ∧
           Drift kc vc (Tgt k?) (icontent g.pageCount σ P) (icontent g.pageCount σ P')) ∨
         (e = .shutoff ∧ ∃ P', MD kc vc md g s' σ P' (fun k => F k ∨ Tgt k? k) ∧
           Drift kc vc (Tgt k?) (icontent g.pageCount σ P) (icontent g.pageCount σ P')))) := by
    intro s1 last h1 hl1 hlast hcase
    have hnx : g.nextPage last < g.pageCount := Nat.mod_lt _ (by omega)
    have hrm : Sat (Map.removeIn g kc k? (g.pages (g.nextPage last))) s1
        (fun _ s' => s'.buf.length = s.buf.length ∧ ∃ P', RM kc (Tgt k?) md g big s' σ P P' ∧
          Free kc (Tgt k?) (icontent g.pageCount σ P') ∧ P' = wipeSeg kc k? g.pageCount σ.o σ.m 0 P)
        (fun e s' => s'.buf.length = s.buf.length ∧
          ((e = .corrupted ∧ σ.corr = true ∧ RM kc (Tgt k?) md g big s' σ P P) ∨
           (TooSmall md s e ∧ ∃ P', RM kc (Tgt k?) md g big s' σ P P') ∨
           (e = .shutoff ∧ ∃ P', RD kc (Tgt k?) md g s' σ P P'))) := by
      cases hc : σ.corr with
      | true =>
        obtain ⟨hp, hm1⟩ := h.mp.corr hc
        have hpos : ringPos g.pageCount σ.o (g.nextPage last) = σ.m := by
          rcases hcase with h' | h' | h'
          · omega
          · exact h'.2
          · omega
        have hst : σ.st g.pageCount (g.nextPage last) = .error .corrupted :=
          Shape.st_err.2 ⟨rfl, by omega, hc, by omega⟩
        have hpages : ∃ rest, g.pages (g.nextPage last) = g.nextPage last :: rest := by
          rw [pages_eq hnx]
          obtain ⟨post, hz⟩ := range_split (by omega : 0 < g.pageCount)
          rw [hz, List.range_zero, List.nil_append, List.map_cons]
          refine ⟨post.map (ringPage g.pageCount (g.nextPage last)), ?_⟩
          congr 1
          unfold ringPage; rw [if_pos (by omega)]; omega
        obtain ⟨rest, hrest⟩ := hpages
        rw [hrest]
        unfold Map.removeIn
        rcases (getCached w h1.good hnx).cases with ⟨st, s2, he, hst', _⟩ | ⟨e, s2, he, rfl, hst'⟩
        · rw [hst] at hst'; simp at hst'
        · rw [hst] at hst'
          simp only [Except.error.injEq] at hst'
          exact Sat.of_err (bind_err he) ⟨hl1, Or.inl ⟨hst'.symm, rfl, h1⟩⟩
      | false =>
        have hop : ∀ i, i < g.pageCount → σ.m ≤ ringPos g.pageCount σ.o i → σ.st g.pageCount i = .ok .open :=
          fun i _ hi => Shape.st_open.2 ⟨hi, by rw [hc]; simp⟩
        by_cases hm0 : σ.m = 0
        · have e0 : g.pages (g.nextPage last) = g.pages (g.nextPage last) ++ [] := by simp
          rw [e0]
          refine removeOpen_sat w (P0 := P) (P := P) _ (fun i hi => ?_) h1 ?_
          · have := (mem_pages hnx).1 hi
            exact ⟨this, hop i this (by omega)⟩
          · intro s2 h2 hl2
            refine Sat.pure ⟨hl2.trans hl1, P, h2, ?_, by rw [hm0]; rfl⟩
            unfold icontent; rw [hm0, iseg_zero]; intro x hx; simp at hx
        · rw [pages_ring ho hml hnx ⟨fun hlt => by
            rcases hcase with h' | h' | h'
            · omega
            · exact h'.2
            · omega, fun heq => by
            rcases hcase with h' | h' | h'
            · omega
            · omega
            · exact h'.2⟩]
          refine removeOpen_sat w (P0 := P) (P := P) _ (fun i hi => ?_) h1 ?_
          · obtain ⟨j, hj, rfl⟩ := List.mem_map.1 hi
            rw [List.mem_range'_1] at hj
            have := ringPage_lt (n := g.pageCount) ho (by omega : j < g.pageCount)
            exact ⟨this, hop _ this (by rw [ringPos_page ho (by omega)]; omega)⟩
          · intro s2 h2 hl2
            refine (removeUsed_sat w L hmd hnp h.mp σ.m (j := 0) (by omega) h2 (by intro x hx; simp at hx)).mono ?_ ?_
            · rintro _ s' ⟨q1, q2⟩; exact ⟨q1.trans (hl2.trans hl1), q2⟩
            · rintro e s' ⟨q1, q2⟩
              refine ⟨q1.trans (hl2.trans hl1), Or.inr ?_⟩
              rcases q2 with ⟨q2, q3⟩ | q2
              · exact Or.inl ⟨q2.of_len (hl2.trans hl1), q3⟩
              · exact Or.inr q2
    rcases hrm.cases with ⟨_, s2, he2, hl2, P', h2, hf2, hw2⟩ | ⟨e, s2, he2, hl2, hE⟩
    · refine Sat.bind_eq he2 ?_
      have hmg := h2.done h.mp hf2
      rcases hmg.unmark_sat.cases with ⟨_, s3, he3, h3, hc3, _⟩ | ⟨_, _, _, hF⟩
      · refine Sat.of_ok he3 ⟨hc3.len.trans hl2, P', h3, hw2, fun k => ⟨fun hk => ?_, fun hk => ?_⟩⟩
        · unfold lookV; rw [hf2.look hk]; rfl
        · exact lookV_congr (h2.cut.look_other hk)
      · exact hF.elim
    · refine Sat.of_err (bind_err he2) ⟨hl2, ?_⟩
      rcases hE with ⟨e1, e2, e3⟩ | ⟨e1, P', e3⟩ | ⟨e1, P', e3⟩
      · refine Or.inl ⟨e1, e2, e3.good, h.mp, e3.kpok, fun k a hk => (e3.keys k a hk).2, e3.log⟩
      · exact Or.inr (Or.inl ⟨e1, P', e3.mg h.mp, e3.cut.drift⟩)
      · exact Or.inr (Or.inr ⟨e1, P', e3.dead h.mp, e3.cut.drift⟩)
  -- the cache forgets the keys
  have start : ∃ s0, (match k? with
      | some k => modifyCache fun c => c.noticeKeyErased k
      | none => modifyCache Cache.invalidate : M K Unit) s = (.ok (), s0) ∧ RM kc (Tgt k?) md g big s0 σ P P ∧
      s0.buf.length = s.buf.length := by
    cases k? with
    | none =>
      obtain ⟨h1, h2⟩ := h.kpok.invalidate
      exact ⟨_, modifyCache_run _ _, ⟨h.invalid.good, h1, fun k a hk => (nomatch (h2 k).symm.trans hk), h.log, h.mp.nojunk,
        fun _ => rfl, .same _⟩, rfl⟩
    | some k =>
      obtain ⟨h1, h2, h3⟩ := h.kpok.erased k
      refine ⟨_, modifyCache_run _ _, ⟨⟨h.good.fs, h.good.ps, h.good.pp⟩, h1, fun k' a hk => ?_, h.log, h.mp.nojunk,
        fun _ => rfl, .same _⟩, rfl⟩
      by_cases hkk : k' = k
      · subst hkk; exact (nomatch h2.symm.trans hk)
      · exact ⟨hkk, h.kp k' a ((h3 k' hkk).symm.trans hk)⟩
  obtain ⟨s0, he0, h0, hl0⟩ := start
  have rest : Sat (do
      match ← findFirstPage g 0 .partialOpen with
        | some p => do
          Map.removeIn g kc k? (g.pages (g.nextPage p))
          unmarkDirty
        | none => do
          let r ← findLastPage g 0 .closed
          Map.removeIn g kc k? (g.pages (g.nextPage (r.getD 0)))
          unmarkDirty : M K Unit) s0
      (fun _ s' => s'.buf.length = s.buf.length ∧ ∃ P', MG kc vc md g big s' σ P' F ∧
        P' = wipeSeg kc k? g.pageCount σ.o σ.m 0 P ∧
        ∀ k, (Tgt k? k → lookV kc vc k (icontent g.pageCount σ P') = none) ∧
          (¬ Tgt k? k → lookV kc vc k (icontent g.pageCount σ P') = lookV kc vc k (icontent g.pageCount σ P)))
      (fun e s' => s'.buf.length = s.buf.length ∧
        ((e = .corrupted ∧ σ.corr = true ∧ MG kc vc md g big s' σ P F) ∨
         (TooSmall md s e ∧ ∃ P', MG kc vc md g big s' σ P' (fun k => F k ∨ Tgt k? k) ∧
           Drift kc vc (Tgt k?) (icontent g.pageCount σ P) (icontent g.pageCount σ P')) ∨
         (e = .shutoff ∧ ∃ P', MD kc vc md g s' σ P' (fun k => F k ∨ Tgt k? k) ∧
           Drift kc vc (Tgt k?) (icontent g.pageCount σ P) (icontent g.pageCount σ P')))) := by
    have hmg0 : MG kc vc md g big s0 σ P F := ⟨h0.good, h.mp, h0.kpok, fun k a hk => (h0.keys k a hk).2, h0.log⟩
    rcases (findPart_sat w hmg0 hn).cases with ⟨r, s1, he1, h1, hs1, hr⟩ | ⟨e, s1, he1, rfl, hc, h1, hs1⟩
    · refine Sat.bind_eq he1 ?_
      have hr1 := h0.calm h1.good hs1.kp hs1.calm
      rcases hr with ⟨hp, rfl, _⟩ | ⟨hp, rfl⟩
      · refine body _ hr1 (hs1.calm.len.trans hl0) (Shape.front_lt wf) (Or.inr ?_)
        have := next_front w wf hp
        rcases Nat.lt_or_ge σ.m g.pageCount with hlt | hge
        · exact Or.inl ⟨hlt, (this.1 hlt).1⟩
        · exact Or.inr ⟨by omega, this.2 (by omega)⟩
      · rcases (findLast_sat w hr1.good h.mp hn hp).cases with ⟨r, s2, he2, hg2, hs2, hr⟩ | ⟨_, _, _, hF⟩
        · refine Sat.bind_eq he2 ?_
          have hr2 := hr1.calm hg2 hs2.kp hs2.calm
          have hmn : σ.m < g.pageCount := by
            rcases Nat.lt_or_ge σ.m g.pageCount with h | h
            · exact h
            · have := (wf.full (by omega)).1; rw [hp] at this; simp at this
          refine body _ hr2 (hs2.calm.len.trans (hs1.calm.len.trans hl0)) ?_ ?_
          · rcases hr with ⟨_, rfl⟩ | ⟨_, rfl⟩
            · simp only [Option.getD_none]; omega
            · exact ringPage_lt ho (by omega)
          · rcases hr with ⟨hm0, _⟩ | ⟨hm0, rfl⟩
            · exact Or.inl hm0
            · right; left
              refine ⟨hmn, ?_⟩
              simp only [Option.getD_some]
              unfold Geo.nextPage
              have hlt := ringPage_lt (n := g.pageCount) ho (by omega : σ.m - 1 < g.pageCount)
              have : (ringPage g.pageCount σ.o (σ.m - 1) + 1) % g.pageCount = ringPage g.pageCount σ.o σ.m := by
                rcases Nat.lt_or_ge (ringPage g.pageCount σ.o (σ.m - 1) + 1) g.pageCount with h' | h'
                · rw [Nat.mod_eq_of_lt h']
                  unfold ringPage at h' ⊢
                  repeat' split
                  all_goals (repeat' (split at h')) <;> omega
                · rw [show ringPage g.pageCount σ.o (σ.m - 1) + 1 = g.pageCount from by omega, Nat.mod_self]
                  unfold ringPage at h' hlt ⊢
                  repeat' split
                  all_goals (repeat' (split at h')) <;> (repeat' (split at hlt)) <;> omega
              rw [this, ringPos_page ho hmn]
        · exact hF.elim
    · exact Sat.of_err (bind_err he1) ⟨hs1.calm.len.trans hl0, Or.inl ⟨rfl, hc, h1⟩⟩
  unfold Map.removeInner
  cases k? with
  | none => exact Sat.bind_eq he0 rest
  | some k => exact Sat.bind_eq he0 rest

end SeqStorage
