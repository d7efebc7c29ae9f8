import Verif.Proofs.MapScan
/-
Finding the newest item of a key in the whole map.
-/

set_option linter.unusedSectionVars false

namespace SeqStorage
open M

variable {K V : Type} [DecidableEq K] {kc : KeyCodec K} {vc : ValCodec V}
variable {md : Mode} {g : Geo} {σ : Shape} {P : Nat → PK} {F : K → Prop} {big : Bool}

/-- What a key lookup found. -/
def FoundAt (kc : KeyCodec K) (k : K) (its : List It) (s : St K) : Option (Header × Nat × Option Nat) → Prop
  | none => look kc k its = none
  | some (h, a, kl) => ∃ it n, look kc k its = some it ∧ h = it.hdr ∧ a = it.addr ∧ Holding s it ∧
      (∀ rest, kc.de (it.data ++ rest) = .ok (k, n)) ∧ (kl = none ∨ kl = some n)

/-- The buffer is refused because of an item. -/
def SmallFor (md : Mode) (g : Geo) (its : List It) (s : St K) (e : Err) : Prop :=
  TooSmall md s e ∧ ∃ x ∈ its, e = .bufferTooSmall (g.roundUp x.hdr.len.toNat)

/-! ### Caches -/

theorem noticeKey_run {s : St K} (h : KPOk s.cache.kp) (k : K) {a : Nat} (ha : a ≠ 0) (d : Bool) :
    ∃ c', Map.noticeKey k a d s = (.ok (), { s with cache := { s.cache with dirty := s.cache.dirty || d, kp := c' } }) ∧
      KPOk c' ∧ (∀ b, c'.location k = some b → b = a) ∧
      ∀ k', k' ≠ k → ∀ b, c'.location k' = some b → s.cache.kp.location k' = some b := by
  obtain ⟨c', h1, h2, h3, h4⟩ := h.notice k ha
  refine ⟨c', ?_, h2, h3, h4⟩
  simp only [Map.noticeKey, updateCache, Cache.noticeKey, h1]

theorem MG.checkDirty_sat {s : St K} (h : MG kc vc md g big s σ P F) :
    Sat checkDirty s (fun _ s' => MG kc vc md g big s' σ P F ∧ Calm s s' ∧ s'.buf = s.buf) (fun _ _ => False) := by
  unfold checkDirty
  refine Sat.of_ok (modifyCache_run _ _) ?_
  cases hd : s.cache.dirty with
  | false => rw [if_neg (by simp)]; exact ⟨h, .refl s, rfl⟩
  | true =>
    rw [if_pos rfl]
    obtain ⟨h1, h2⟩ := h.kpok.invalidate
    exact ⟨⟨⟨h.good.fs, PSOk.invalidate h.good.ps.sized σ, PPOk.invalidate⟩, h.mp, h1,
      fun k a hk => (nomatch (h2 k).symm.trans hk), h.log⟩, ⟨rfl, rfl, rfl, rfl⟩, rfl⟩

theorem MG.unmark_sat {s : St K} (h : MG kc vc md g big s σ P F) :
    Sat unmarkDirty s (fun _ s' => MG kc vc md g big s' σ P F ∧ Calm s s' ∧ s'.buf = s.buf ∧ s'.cache.dirty = false)
      (fun _ _ => False) := by
  unfold unmarkDirty
  exact Sat.of_ok (modifyCache_run _ _) ⟨⟨⟨h.good.fs, h.good.ps, h.good.pp⟩, h.mp, h.kpok, h.kp, h.log⟩,
    ⟨rfl, rfl, rfl, rfl⟩, rfl, rfl⟩

variable (w : g.WF)
include w

theorem MG.notice_sat {s : St K} (h : MG kc vc md g big s σ P F) {k : K} {it : It}
    (hl : look kc k (icontent g.pageCount σ P) = some it) (d : Bool) :
    Sat (Map.noticeKey k it.addr d) s (fun _ s' => MG kc vc md g big s' σ P F ∧ Calm s s' ∧ s'.buf = s.buf) (fun _ _ => False) := by
  have hz : it.addr ≠ 0 := by
    obtain ⟨j, c, f, _, _, _, _, _, h1, _⟩ := item_place w h.good.fs (look_some hl).1
    have := page_order w (ringPage g.pageCount σ.o j)
    have := w.word_pos
    omega
  obtain ⟨c', h1, h2, h3, h4⟩ := noticeKey_run h.kpok k hz d
  refine Sat.of_ok h1 ⟨⟨⟨h.good.fs, h.good.ps, h.good.pp⟩, h.mp, h2, ?_, h.log⟩, ⟨rfl, rfl, rfl, rfl⟩, rfl⟩
  intro k' a hk
  by_cases hkk : k' = k
  · subst hkk
    exact ⟨it, hl, (h3 a hk).symm⟩
  · exact h.kp k' a (h4 k' hkk a hk)

/-! ### The cached location -/

theorem fetchCached_sat (L : Lawful kc vc) {s : St K} (h : MG kc vc md g big s σ P F) (k : K) :
    Sat (Map.fetchCached g k) s
      (fun r s' => MG kc vc md g big s' σ P F ∧ Calm s s' ∧
        (r = none ∨ ∃ hd a, r = some (hd, a) ∧ FoundAt kc k (icontent g.pageCount σ P) s' (some (hd, a, none))))
      (fun e s' => MG kc vc md g big s' σ P F ∧ Calm s s' ∧ SmallFor md g (icontent g.pageCount σ P) s e) := by
  unfold Map.fetchCached
  refine Sat.bind_eq (get_run s) ?_
  cases hk : s.cache.kp.location k with
  | none => exact Sat.pure ⟨h, .refl s, Or.inl rfl⟩
  | some loc =>
    obtain ⟨it, hl, rfl⟩ := h.kp k loc hk
    obtain ⟨hm, hp, hkey⟩ := look_some hl
    obtain ⟨j, c, f, hj, hi, hlt, hpk, l, h1, h2, h3⟩ := item_place w h.good.fs hm
    have ho := page_order w (ringPage g.pageCount σ.o j)
    have hn := Layout.next_gt w it.hdr it.addr
    have hpi : g.pageIndex it.addr = ringPage g.pageCount σ.o j := w.pageIndex_of (by omega) (by omega)
    simp only [hpi]
    have hst := page_stop w hlt
    obtain ⟨_, hh, _, _⟩ := l.mem_item w hi
    have hrun := readHeader_run w (e := g.dataEnd (ringPage g.pageCount σ.o j)) s h3 (by omega) (by omega)
    rw [hh] at hrun
    refine Sat.bind_eq hrun ?_
    simp only
    rcases (readIt_sat w hlt l (page_short w h.good.fs hj) (Nat.le_refl _) (w.dataStart_word _) hi).cases with ⟨x, s1, he, hb, hx⟩ | ⟨e, s1, he, hE, rfl, y, hy, hE2⟩
    · refine Sat.bind_eq he ?_
      rcases hx with ⟨rfl, _, hhold⟩ | ⟨_, hnp⟩
      · refine Sat.pure ⟨h.bufOnly hb, hb.calm, Or.inr ⟨_, _, rfl, ?_⟩⟩
        obtain ⟨k', v, henc⟩ := h.mp.enc it hm hp
        have hk' := henc.keyOf L
        rw [hkey] at hk'
        simp only [Option.some.injEq] at hk'
        subst hk'
        obtain ⟨n, _, hde, _⟩ := henc.de L
        exact ⟨it, n, hl, rfl, rfl, hhold, hde, Or.inl rfl⟩
      · rw [hp] at hnp; simp at hnp
    · exact Sat.of_err (bind_err he) ⟨h, .refl _, hE, y, mem_icontent.2 ⟨j, hj, hy⟩, hE2⟩

/-! ### The pages, newest first -/

omit w in
theorem prev_ring (ho : σ.o < g.pageCount) {j : Nat} (hj : j < g.pageCount) :
    g.prevPage (ringPage g.pageCount σ.o j) =
      ringPage g.pageCount σ.o (if j = 0 then g.pageCount - 1 else j - 1) := by
  unfold Geo.prevPage ringPage
  split
  · rename_i h; repeat' split
    all_goals (repeat' (split at h)) <;> omega
  · rename_i h; repeat' split
    all_goals (repeat' (split at h)) <;> omega

/-- Finding the last used page. -/
theorem lastUsed_sat {s : St K} (h : MG kc vc md g big s σ P F) (hn : 2 ≤ g.pageCount) :
    Sat (Map.lastUsedPage g) s
      (fun r s' => MG kc vc md g big s' σ P F ∧ Same s s' ∧
        ((r = none ∧ σ.m = 0) ∨ (r = some (ringPage g.pageCount σ.o (σ.m - 1)) ∧ 0 < σ.m)))
      (fun e s' => e = .corrupted ∧ σ.corr = true ∧ MG kc vc md g big s' σ P F ∧ Same s s') := by
  have wf := h.good.fs.wf
  have ho := wf.o_lt
  have hml := wf.m_le
  have hfl := Shape.front_lt wf
  have hfp := CalcOk.front_pos wf
  have h0 : 0 < g.pageCount := by omega
  unfold Map.lastUsedPage
  rcases (findFirst_sat w h.good h0 .partialOpen).cases with ⟨r, s1, he, hg, hsame, _, _, hfind, hnone⟩ | ⟨e, s1, he, h1, h2, h3, h4⟩
  · refine Sat.bind_eq he ?_
    cases hp : σ.part with
    | true =>
      have hst := CalcOk.st_front wf (fun h => by rw [hp] at h; simp at h)
      rw [hp, if_pos rfl] at hst
      have hr : r = some (σ.front g.pageCount) := by
        have e0 : ringPage g.pageCount 0 (σ.front g.pageCount) = σ.front g.pageCount := by
          unfold ringPage; rw [if_pos (by omega)]; omega
        have := (hfind (σ.front g.pageCount) hfl (fun k hk h' => by
          have := CalcOk.front_of_part wf (ringPage_lt h0 (by omega)) h'
          rw [← e0] at this
          have := ringPage_inj h0 (by omega) hfl this
          omega)).2
        rw [e0] at this
        exact this hst
      subst hr
      exact Sat.pure ⟨h.same hg hsame, hsame, Or.inr ⟨by rw [front_eq hp], wf.part_pos hp⟩⟩
    | false =>
      have hnp : ∀ i, σ.st g.pageCount i ≠ .ok .partialOpen := by
        intro i hi; rw [Shape.st_part, hp] at hi; simp at hi
      have hr := hnone (fun j hj => hnp _)
      subst hr
      have hcorr : σ.corr = false := by
        cases hc : σ.corr with
        | false => rfl
        | true => have := (h.mp.corr hc).1; rw [hp] at this; simp at this
      have hm : σ.m < g.pageCount := by
        rcases Nat.lt_or_ge σ.m g.pageCount with h' | h'
        · exact h'
        · have := (wf.full (by omega)).1; rw [hp] at this; simp at this
      rw [hp] at hfp
      simp only [Bool.false_eq_true, if_false] at hfp
      rcases (findFirst_sat w hg h0 .open).cases with ⟨r, s2, he2, hg2, hsame2, _, _, hfind2, _⟩ | ⟨e, s2, _, hE2⟩
      · have hr : r = some (σ.front g.pageCount) := by
          have e0 : ringPage g.pageCount 0 (σ.front g.pageCount) = σ.front g.pageCount := by
            unfold ringPage; rw [if_pos (by omega)]; omega
          have := (hfind2 (σ.front g.pageCount) hfl (fun k hk h' => by
            rw [Shape.st_open] at h'
            have hk0 : ringPage g.pageCount 0 k = k := by unfold ringPage; rw [if_pos (by omega)]; omega
            rw [hk0] at h'
            have hsh := h.mp.shape
            have hfr := ringPage_pos ho hfl
            rw [hfp] at hfr
            by_cases hm2 : σ.m + 1 < g.pageCount
            · have ho0 := hsh hm2
              rw [ho0] at h' hfr
              have : ringPos g.pageCount 0 k = k := by unfold ringPos; simp
              rw [this] at h'
              have : ringPage g.pageCount 0 σ.m = σ.m := by unfold ringPage; rw [if_pos (by omega)]; omega
              omega
            · have hkl : k < g.pageCount := by omega
              have h5 := ringPos_lt ho hkl
              have h6 : ringPos g.pageCount σ.o k = ringPos g.pageCount σ.o (σ.front g.pageCount) := by rw [hfp]; omega
              have h7 := ringPage_pos ho hkl
              have h8 := ringPage_pos ho hfl
              rw [h6, h8] at h7
              omega)).2
          rw [e0] at this
          apply this
          rw [Shape.st_open, hfp]
          exact ⟨Nat.le_refl _, by simp [hcorr]⟩
        subst hr
        refine Sat.bind_eq he2 ?_
        simp only
        have hprev : g.prevPage (σ.front g.pageCount) =
            ringPage g.pageCount σ.o (if σ.m = 0 then g.pageCount - 1 else σ.m - 1) := by
          rw [front_eq_open hp]; exact prev_ring ho hm
        rw [hprev]
        have hpl : ringPage g.pageCount σ.o (if σ.m = 0 then g.pageCount - 1 else σ.m - 1) < g.pageCount :=
          ringPage_lt ho (by split <;> omega)
        rcases (getCached w hg2 hpl).cases with ⟨t, s3, he3, ht, hg3, hsame3, _⟩ | ⟨e, s3, he3, _, ht⟩
        · refine Sat.bind_eq he3 ?_
          have hsame' := (hsame.trans hsame2).trans hsame3
          by_cases hm0 : σ.m = 0
          · rw [if_pos hm0] at ht
            have : t = .open := by
              have h9 : σ.st g.pageCount (ringPage g.pageCount σ.o (g.pageCount - 1)) = .ok .open := by
                rw [Shape.st_open, ringPos_page ho (by omega)]
                exact ⟨by omega, by simp [hcorr]⟩
              rw [h9] at ht
              simp only [Except.ok.injEq] at ht
              exact ht.symm
            subst this
            exact Sat.pure ⟨h.same hg3 hsame', hsame', Or.inl ⟨rfl, hm0⟩⟩
          · rw [if_neg hm0] at ht ⊢
            have : t = .closed := by
              have h9 : σ.st g.pageCount (ringPage g.pageCount σ.o (σ.m - 1)) = .ok .closed := by
                rw [Shape.st_closed, ringPos_page ho (by omega)]
                exact ⟨by omega, by simp [hp]⟩
              rw [h9] at ht
              simp only [Except.ok.injEq] at ht
              exact ht.symm
            subst this
            exact Sat.pure ⟨h.same hg3 hsame', hsame', Or.inr ⟨rfl, by omega⟩⟩
        · have := (Shape.st_err.1 ht).2.2.1
          rw [hcorr] at this; simp at this
      · rw [hcorr] at hE2; simp at hE2
  · exact Sat.of_err (bind_err he) ⟨h1, h2, h.same h3 h4, h4⟩

theorem searchPages_sat (L : Lawful kc vc) (k : K) (hn : 2 ≤ g.pageCount) :
    ∀ {rounds j : Nat} {s : St K}, MG kc vc md g big s σ P F → j < σ.m → j < rounds →
      look kc k (iseg g.pageCount σ.o P (j + 1) (σ.m - (j + 1))) = none →
    Sat (Map.searchPages g kc k rounds (ringPage g.pageCount σ.o j)) s
      (fun r s' => MG kc vc md g big s' σ P F ∧ Calm s s' ∧
        match look kc k (icontent g.pageCount σ P) with
        | none => r = none
        | some it => ∃ n, (∀ rest, kc.de (it.data ++ rest) = .ok (k, n)) ∧ r = some (it.addr, n))
      (fun e s' => MG kc vc md g big s' σ P F ∧ Calm s s' ∧ (SmallFor md g (icontent g.pageCount σ P) s e ∨
        (e = .corrupted ∧ σ.corr = true))) := by
  intro rounds
  induction rounds with
  | zero => intro j s _ _ h0; omega
  | succ r ih =>
    intro j s h hj hjr hnew
    have wf := h.good.fs.wf
    have ho := wf.o_lt
    have hml := wf.m_le
    unfold Map.searchPages
    obtain ⟨c, f, hpk, hlt, l⟩ := page_layout w h.good.fs hj
    have hro := rounds_ok w (ringPage g.pageCount σ.o j) (Nat.le_refl _)
    have hpick := icontent_pick (g := g) (P := P) hj
    rcases (scanPage_sat w L k hlt (fun it hi hp => h.mp.enc it (mem_icontent.2 ⟨j, hj, hi⟩) hp) (page_short w h.good.fs hj) none l
      (Nat.le_refl _) (w.dataStart_word _) hro.1 hro.2).cases with ⟨x, s1, he, hb, hx⟩ | ⟨e, s1, he, hE, hb, y, hy, hE2⟩
    · refine Sat.bind_eq he ?_
      have h1 := h.bufOnly hb
      cases hlk : look kc k (P (ringPage g.pageCount σ.o j)).its with
      | some it =>
        rw [hlk] at hx
        obtain ⟨n, hn1, rfl⟩ := hx
        have hall : look kc k (icontent g.pageCount σ P) = some it := by
          rw [hpick]
          apply look_append_some
          rw [look_append_none hnew]; exact hlk
        rw [hall]
        simp only
        rcases (h1.notice_sat w hall false).cases with ⟨_, s2, he2, h2, hc2, _⟩ | ⟨e, s2, _, hF⟩
        · refine Sat.bind_eq he2 ?_
          exact Sat.pure ⟨h2, hb.calm.trans hc2, n, hn1, rfl⟩
        · exact hF.elim
      | none =>
        rw [hlk] at hx
        simp only at hx
        subst hx
        simp only
        rw [prev_ring ho (by omega)]
        have hpl : ringPage g.pageCount σ.o (if j = 0 then g.pageCount - 1 else j - 1) < g.pageCount :=
          ringPage_lt ho (by split <;> omega)
        have hnew' : look kc k ((P (ringPage g.pageCount σ.o j)).its ++
            iseg g.pageCount σ.o P (j + 1) (σ.m - (j + 1))) = none := by
          rw [look_append_none hnew]; exact hlk
        rcases (getCached w h1.good hpl).cases with ⟨t, s2, he2, ht, hg2, hsame2, _⟩ | ⟨e, s2, he2, rfl, ht⟩
        · refine Sat.bind_eq he2 ?_
          have h2 := h1.same hg2 hsame2
          by_cases hj0 : j = 0
          · have hall : look kc k (icontent g.pageCount σ P) = none := by
              rw [hpick, hj0, iseg_zero, List.nil_append, ← hj0]; exact hnew'
            rw [hall]
            have htc : t ≠ .closed := by
              rintro rfl
              rw [if_pos hj0, Shape.st_closed, ringPos_page ho (by omega)] at ht
              have := wf.full (by omega)
              exact ht.2 ⟨this.1, by omega⟩
            rw [if_pos htc]
            exact Sat.pure ⟨h2, hb.calm.trans hsame2.calm, rfl⟩
          · rw [if_neg hj0] at ht ⊢
            have htc : t = .closed := by
              have h9 : σ.st g.pageCount (ringPage g.pageCount σ.o (j - 1)) = .ok .closed := by
                rw [Shape.st_closed, ringPos_page ho (by omega)]
                exact ⟨by omega, by omega⟩
              rw [h9] at ht
              simp only [Except.ok.injEq] at ht
              exact ht.symm
            subst htc
            rw [if_neg (by simp)]
            refine Sat.mono (ih h2 (by omega) (by omega) ?_) ?_ ?_
            · have e1 : j - 1 + 1 = j := by omega
              rw [e1]
              have e2 : σ.m - j = 1 + (σ.m - (j + 1)) := by omega
              rw [e2, iseg_add, iseg_one]; exact hnew'
            · rintro r s' ⟨h3, h4, h5⟩
              exact ⟨h3, (hb.calm.trans hsame2.calm).trans h4, h5⟩
            · rintro e s' ⟨h3, h4, h5⟩
              refine ⟨h3, (hb.calm.trans hsame2.calm).trans h4, ?_⟩
              rcases h5 with ⟨h5, h6⟩ | h5
              · exact Or.inl ⟨h5.of_len ((hb.calm.trans hsame2.calm).len), h6⟩
              · exact Or.inr h5
        · have := Shape.st_err.1 ht
          exact Sat.of_err (bind_err he2) ⟨h1, hb.calm, Or.inr ⟨this.1, this.2.2.1⟩⟩
    · exact Sat.of_err (bind_err he) ⟨h.bufOnly hb, hb.calm, Or.inl ⟨hE, y, mem_icontent.2 ⟨j, hj, hy⟩, hE2⟩⟩

/-- `fetch_item_with_location`: the newest item of the key, without changing anything. -/
theorem fetchLoc_sat (L : Lawful kc vc) (hn : 2 ≤ g.pageCount) {s : St K} (h : MG kc vc md g big s σ P F) (k : K) :
    Sat (Map.fetchLoc g kc k) s
      (fun r s' => MG kc vc md g big s' σ P F ∧ Calm s s' ∧ FoundAt kc k (icontent g.pageCount σ P) s' r)
      (fun e s' => MG kc vc md g big s' σ P F ∧ Calm s s' ∧ (SmallFor md g (icontent g.pageCount σ P) s e ∨
        (e = .corrupted ∧ σ.corr = true))) := by
  unfold Map.fetchLoc
  rcases h.checkDirty_sat.cases with ⟨_, s1, he1, h1, hc1, _⟩ | ⟨e, s1, _, hF⟩
  · refine Sat.bind_eq he1 ?_
    rcases (fetchCached_sat w L h1 k).cases with ⟨r, s2, he2, h2, hc2, hr⟩ | ⟨e, s2, he2, h2, hc2, hE, hE2⟩
    · refine Sat.bind_eq he2 ?_
      have hc := hc1.trans hc2
      rcases hr with rfl | ⟨hd, a, rfl, hr⟩
      · rcases (lastUsed_sat w h2 hn).cases with ⟨r, s3, he3, h3, hc3, hr⟩ | ⟨e, s3, he3, hE, hE2, h3, hc3⟩
        · refine Sat.bind_eq he3 ?_
          have hc := hc.trans hc3.calm
          rcases hr with ⟨rfl, hm0⟩ | ⟨rfl, hm⟩
          · rcases h3.unmark_sat.cases with ⟨_, s4, he4, h4, hc4, _⟩ | ⟨e, s4, _, hF⟩
            · refine Sat.bind_eq he4 ?_
              refine Sat.pure ⟨h4, hc.trans hc4, ?_⟩
              show look kc k (icontent g.pageCount σ P) = none
              unfold icontent; rw [hm0]; rfl
            · exact hF.elim
          · have hml := h.good.fs.wf.m_le
            have hz : σ.m - (σ.m - 1 + 1) = 0 := by omega
            rcases (searchPages_sat w L k hn (rounds := g.pageCount + 1) h3 (by omega : σ.m - 1 < σ.m) (by omega)
              (by rw [hz]; rfl)).cases with ⟨r, s4, he4, h4, hc4, hr⟩ | ⟨e, s4, he4, h4, hc4, hE⟩
            · refine Sat.bind_eq he4 ?_
              have hc := hc.trans hc4
              cases hl : look kc k (icontent g.pageCount σ P) with
              | none =>
                rw [hl] at hr
                simp only at hr
                subst hr
                rcases h4.unmark_sat.cases with ⟨_, s5, he5, h5, hc5, _⟩ | ⟨e, s5, _, hF⟩
                · exact Sat.bind_eq he5 (Sat.pure ⟨h5, hc.trans hc5, hl⟩)
                · exact hF.elim
              | some it =>
                rw [hl] at hr
                obtain ⟨n, hde, rfl⟩ := hr
                simp only
                rcases h4.unmark_sat.cases with ⟨_, s5, he5, h5, hc5, _⟩ | ⟨e, s5, _, hF⟩
                · refine Sat.bind_eq he5 ?_
                  have hc := hc.trans hc5
                  obtain ⟨hm', hp, hkey⟩ := look_some hl
                  obtain ⟨j, c, f, hj, hi, hlt, hpk, l, hb1, hb2, hb3⟩ := item_place w h5.good.fs hm'
                  obtain ⟨_, hh, _, hdat⟩ := l.mem_item w hi
                  have ho := page_order w (ringPage g.pageCount σ.o j)
                  have hst := page_stop w hlt
                  have hu := w.u32
                  have hnx : it.hdr.next g it.addr = it.addr + g.hl + g.roundUp it.hdr.len.toNat := rfl
                  have hcut := hdrAt_some_iff.1 hh
                  have hh' : hdrAt g s5.fl.mem it.addr Map.u32Max = .ok (some it.hdr) := by
                    apply hdrAt_some_iff.2
                    unfold Map.u32Max
                    exact ⟨by omega, hcut.2.1, by omega⟩
                  have hrun := readHeader_run w (e := Map.u32Max) s5 hb3 (by omega) (by omega)
                  rw [hh'] at hrun
                  refine Sat.bind_eq hrun ?_
                  simp only
                  have hrun2 := readItem_run w (e := Map.u32Max) (h := it.hdr) s5 hb3 (by omega)
                    (by unfold Map.u32Max; omega) (by omega)
                  have hz : it.hdr.crc ≠ 0#32 := by
                    intro hz
                    unfold It.present at hp
                    rw [hz] at hp
                    exact adapted_ne_zero _ (of_decide_eq_true hp)
                  rw [if_neg hz] at hrun2
                  by_cases hbl : s5.buf.length < g.roundUp it.hdr.len.toNat
                  · rw [if_pos hbl] at hrun2
                    refine Sat.of_err (bind_err hrun2) ⟨h5, hc, Or.inl ⟨⟨⟨_, rfl⟩, fun n' hn' => ?_⟩, it, hm', rfl⟩⟩
                    obtain ⟨j', hj', hi'⟩ := mem_icontent.1 hm'
                    rw [← hc.len]
                    exact Nat.lt_of_lt_of_le hbl (page_short w h.good.fs hj' n' hn' it hi' hz)
                  · rw [if_neg hbl] at hrun2
                    have hpr : Present g s5.fl.mem it.addr it.hdr := by
                      apply present_iff.2
                      rw [← hdat]
                      exact of_decide_eq_true hp
                    rw [if_pos hpr] at hrun2
                    refine Sat.bind_eq hrun2 ?_
                    have hbo : BufOnly s5 { s5 with buf := bufAfter g s5.fl.mem it.addr it.hdr s5.buf } :=
                      ⟨rfl, rfl, bufAfter_length (by omega), rfl, rfl⟩
                    refine Sat.pure ⟨h5.bufOnly hbo, hc.trans hbo.calm, it, n, hl, rfl, rfl, ⟨?_, ?_⟩, hde, Or.inr rfl⟩
                    · have := w.le_roundUp it.hdr.len.toNat
                      rw [hbo.len]; omega
                    · show (bufAfter g s5.fl.mem it.addr it.hdr s5.buf).take it.hdr.len.toNat = it.data
                      rw [bufAfter_take w, hdat]
                · exact hF.elim
            · refine Sat.of_err (bind_err he4) ⟨h4, hc.trans hc4, ?_⟩
              rcases hE with ⟨hE, hE2⟩ | hE
              · exact Or.inl ⟨hE.of_len hc.len, hE2⟩
              · exact Or.inr hE
        · exact Sat.of_err (bind_err he3) ⟨h3, hc.trans hc3.calm, Or.inr ⟨hE, hE2⟩⟩
      · exact Sat.pure ⟨h2, hc, hr⟩
    · exact Sat.of_err (bind_err he2) ⟨h2, hc1.trans hc2, Or.inl ⟨hE.of_len hc1.len, hE2⟩⟩
  · exact hF.elim

end SeqStorage
