import Verif.Proofs.MapIter
/-
`fetch_all_items`: the iterator starts at the oldest item and passes all of them.
-/

set_option linter.unusedSectionVars false

namespace SeqStorage
open M

variable {K V : Type} [DecidableEq K] {kc : KeyCodec K} {vc : ValCodec V}
variable {md : Mode} {g : Geo} {σ : Shape} {P : Nat → PK} {F F' : K → Prop} {big : Bool}

/-- A page with anything on it reads as some items. -/
theorem Layout.total (w : g.WF) (mem : Nat → Byte) (e : Nat) : ∀ (n a : Nat), e < a + n → ∃ its f, Layout false g mem e a its f := by
  intro n
  induction n with
  | zero => intro a h; exact ⟨[], a, .done (by unfold hdrAt; rw [if_pos (by omega)])⟩
  | succ n ih =>
    intro a h
    cases hh : hdrAt g mem a e with
    | error x =>
      have hx : x = .corrupted := by
        unfold hdrAt at hh
        split at hh
        · simp at hh
        · split at hh
          · simp at hh
          · split at hh
            · simpa using hh.symm
            · simp at hh
          · simpa using hh.symm
      subst hx
      have := w.word_pos
      obtain ⟨its, f, l⟩ := ih (a + g.word) (by omega)
      exact ⟨its, f, .gap rfl hh l⟩
    | ok o =>
      cases o with
      | none => exact ⟨[], a, .done hh⟩
      | some hd =>
        have := Layout.next_gt w hd a
        obtain ⟨its, f, l⟩ := ih (hd.next g a) (by omega)
        exact ⟨_, f, .item hh l⟩

variable (w : g.WF)
include w

/-- Where the iteration starts: behind the newest page. -/
def StartsAt (g : Geo) (σ : Shape) (first : Nat) : Prop :=
  first < g.pageCount ∧ (σ.m < g.pageCount → ringPos g.pageCount σ.o first = σ.m) ∧ (σ.m = g.pageCount → first = σ.o)

theorem fetchFirst_sat {s : St K} (h : MG kc vc md g big s σ P F) (hn : 2 ≤ g.pageCount) :
    Sat (Map.fetchAllFirst g) s
      (fun r s' => ∃ first, r = .ok first ∧ MG kc vc md g big s' σ P F ∧ Calm s s' ∧ StartsAt g σ first)
      (fun e s' => e = .corrupted ∧ σ.corr = true ∧ MG kc vc md g big s' σ P F ∧ Calm s s') := by
  have wf := h.good.fs.wf
  have ho := wf.o_lt
  have hml := wf.m_le
  have hfl := Shape.front_lt wf
  have hfp := CalcOk.front_pos wf
  have h0 : 0 < g.pageCount := by omega
  unfold Map.fetchAllFirst
  rcases (findFirst_sat w h.good h0 .partialOpen).cases with ⟨r, s1, he, hg, hsame, _, _, hfind, hnone⟩ | ⟨e, s1, he, h1, h2, h3, h4⟩
  · refine Sat.bind_eq he ?_
    cases hp : σ.part with
    | true =>
      have hst := CalcOk.st_front wf (fun h => by rw [hp] at h; simp at h)
      rw [hp, if_pos rfl] at hst
      have hr : r = some (σ.front g.pageCount) := by
        have e0 : ringPage g.pageCount 0 (σ.front g.pageCount) = σ.front g.pageCount := by
          unfold ringPage; rw [if_pos (by omega)]; omega
        have := (hfind (σ.front g.pageCount) hfl (fun k hk h' => by
          have := CalcOk.front_of_part wf (ringPage_lt h0 (by omega)) h'
          rw [← e0] at this
          have := ringPage_inj h0 (by omega) hfl this
          omega)).2
        rw [e0] at this
        exact this hst
      subst hr
      have hnf := next_front w wf hp
      exact Sat.pure ⟨_, rfl, h.same hg hsame, hsame.calm, Nat.mod_lt _ h0, fun hm => (hnf.1 hm).1, hnf.2⟩
    | false =>
      have hnp : ∀ i, σ.st g.pageCount i ≠ .ok .partialOpen := by
        intro i hi; rw [Shape.st_part, hp] at hi; simp at hi
      have hr := hnone (fun j hj => hnp _)
      subst hr
      have hcorr : σ.corr = false := by
        cases hc : σ.corr with
        | false => rfl
        | true => have := (h.mp.corr hc).1; rw [hp] at this; simp at this
      have hm : σ.m < g.pageCount := by
        rcases Nat.lt_or_ge σ.m g.pageCount with h' | h'
        · exact h'
        · have := (wf.full (by omega)).1; rw [hp] at this; simp at this
      rw [hp] at hfp
      simp only [Bool.false_eq_true, if_false] at hfp
      rcases (findFirst_sat w hg h0 .open).cases with ⟨r, s2, he2, hg2, hsame2, _, _, hfind2, _⟩ | ⟨e, s2, _, hE2⟩
      · have hr : r = some (σ.front g.pageCount) := by
          have e0 : ringPage g.pageCount 0 (σ.front g.pageCount) = σ.front g.pageCount := by
            unfold ringPage; rw [if_pos (by omega)]; omega
          have := (hfind2 (σ.front g.pageCount) hfl (fun k hk h' => by
            rw [Shape.st_open] at h'
            have hk0 : ringPage g.pageCount 0 k = k := by unfold ringPage; rw [if_pos (by omega)]; omega
            rw [hk0] at h'
            have hsh := h.mp.shape
            have hfr := ringPage_pos ho hfl
            rw [hfp] at hfr
            by_cases hm2 : σ.m + 1 < g.pageCount
            · have ho0 := hsh hm2
              rw [ho0] at h' hfr
              have : ringPos g.pageCount 0 k = k := by unfold ringPos; simp
              rw [this] at h'
              have : ringPage g.pageCount 0 σ.m = σ.m := by unfold ringPage; rw [if_pos (by omega)]; omega
              omega
            · have hkl : k < g.pageCount := by omega
              have h5 := ringPos_lt ho hkl
              have h6 : ringPos g.pageCount σ.o k = ringPos g.pageCount σ.o (σ.front g.pageCount) := by rw [hfp]; omega
              have h7 := ringPage_pos ho hkl
              have h8 := ringPage_pos ho hfl
              rw [h6, h8] at h7
              omega)).2
          rw [e0] at this
          apply this
          rw [Shape.st_open, hfp]
          exact ⟨Nat.le_refl _, by simp [hcorr]⟩
        subst hr
        refine Sat.bind_eq he2 ?_
        simp only
        have hprev : g.prevPage (σ.front g.pageCount) =
            ringPage g.pageCount σ.o (if σ.m = 0 then g.pageCount - 1 else σ.m - 1) := by
          rw [front_eq_open hp]; exact prev_ring ho hm
        rw [hprev]
        have hpl : ringPage g.pageCount σ.o (if σ.m = 0 then g.pageCount - 1 else σ.m - 1) < g.pageCount :=
          ringPage_lt ho (by split <;> omega)
        rcases (getCached w hg2 hpl).cases with ⟨t, s3, he3, ht, hg3, hsame3, _⟩ | ⟨e, s3, he3, _, ht⟩
        · refine Sat.bind_eq he3 ?_
          have hsame' := (hsame.trans hsame2).trans hsame3
          have h3 := h.same hg3 hsame'
          by_cases hm0 : σ.m = 0
          · rw [if_pos hm0] at ht
            have : t = .open := by
              have h9 : σ.st g.pageCount (ringPage g.pageCount σ.o (g.pageCount - 1)) = .ok .open := by
                rw [Shape.st_open, ringPos_page ho (by omega)]
                exact ⟨by omega, by simp [hcorr]⟩
              rw [h9] at ht
              simp only [Except.ok.injEq] at ht
              exact ht.symm
            subst this
            rw [if_neg (by simp [PageState.isClosed])]
            rcases h3.unmark_sat.cases with ⟨_, s4, he4, h4, hc4, _⟩ | ⟨_, _, _, hF⟩
            · refine Sat.bind_eq he4 ?_
              have ho0 := h.mp.shape (by omega)
              exact Sat.pure ⟨0, rfl, h4, hsame'.calm.trans hc4, h0, fun _ => by rw [ho0, hm0]; unfold ringPos; simp, fun h => by omega⟩
            · exact hF.elim
          · rw [if_neg hm0] at ht
            have : t = .closed := by
              have h9 : σ.st g.pageCount (ringPage g.pageCount σ.o (σ.m - 1)) = .ok .closed := by
                rw [Shape.st_closed, ringPos_page ho (by omega)]
                exact ⟨by omega, by simp [hp]⟩
              rw [h9] at ht
              simp only [Except.ok.injEq] at ht
              exact ht.symm
            subst this
            rw [if_pos (by simp [PageState.isClosed])]
            exact Sat.pure ⟨_, rfl, h3, hsame'.calm, hfl, fun _ => hfp, fun h => by omega⟩
        · have := (Shape.st_err.1 ht).2.2.1
          rw [hcorr] at this; simp at this
      · rw [hcorr] at hE2; simp at hE2
  · exact Sat.of_err (bind_err he) ⟨h1, h2, h.same h3 h4, h4.calm⟩

theorem its_unused {fl : Flash} (h : FS md g fl σ P) {i : Nat} (hi : i < g.pageCount) (hm : σ.m ≤ ringPos g.pageCount σ.o i) :
    (P i).its = [] := by
  have hs := h.st i hi
  cases hpk : P i with
  | used c its f =>
    rw [hpk] at hs
    cases c
    · have := Shape.st_part.1 (show σ.st g.pageCount i = .ok .partialOpen from hs.symm)
      omega
    · have := Shape.st_closed.1 (show σ.st g.pageCount i = .ok .closed from hs.symm)
      omega
  | blank => rfl
  | junk => rfl
  | corr => rfl

/-- Starting behind the newest page, all pages in order hold the items from oldest to newest. -/
theorem iseg_all {fl : Flash} (h : FS md g fl σ P) {first : Nat} (hs : StartsAt g σ first) :
    iseg g.pageCount first P 0 g.pageCount = icontent g.pageCount σ P := by
  have ho := h.wf.o_lt
  have hml := h.wf.m_le
  have hr := pages_ring (σ := σ) ho hml hs.1 hs.2
  rw [pages_eq hs.1] at hr
  have e1 : iseg g.pageCount first P 0 g.pageCount =
      ((List.range g.pageCount).map (ringPage g.pageCount first)).flatMap (fun i => (P i).its) := by
    unfold iseg; rw [List.flatMap_map, List.range_eq_range']
  have e2 : ((List.range' σ.m (g.pageCount - σ.m)).map (ringPage g.pageCount σ.o)).flatMap (fun i => (P i).its) = [] := by
    rw [List.flatMap_eq_nil_iff]
    intro i hi
    obtain ⟨j, hj, rfl⟩ := List.mem_map.1 hi
    rw [List.mem_range'_1] at hj
    exact its_unused w h (ringPage_lt ho (by omega)) (by rw [ringPos_page ho (by omega)]; exact hj.1)
  rw [e1, hr, List.flatMap_append, e2, List.nil_append, List.flatMap_map]
  rfl

/-- As long as a page is unused, the page the iteration starts at holds no items. -/
theorem iseg_again {fl : Flash} (h : FS md g fl σ P) (hn : 2 ≤ g.pageCount) (hm : σ.m < g.pageCount) {first : Nat} (hs : StartsAt g σ first) :
    iseg g.pageCount first P 1 (g.pageCount - 1) = icontent g.pageCount σ P := by
  rw [← iseg_all w h hs]
  conv => rhs; rw [show g.pageCount = 1 + (g.pageCount - 1) from by omega, iseg_add, iseg_one]
  rw [show 1 + (g.pageCount - 1) = g.pageCount from by omega, ringPage_zero hs.1,
    its_unused w h hs.1 (by rw [hs.2.1 hm]; omega)]
  rfl

/-- `fetch_all_items`. -/
theorem fetchAll_sat {s : St K} (h : MG kc vc md g big s σ P F) (hn : 2 ≤ g.pageCount) :
    Sat (Map.fetchAll g kc) s
      (fun _ s' => MG kc vc md g big s' σ P F ∧ s'.fl = s.fl ∧ s'.buf.length = s.buf.length ∧
        StartsAt g σ s'.mit.first ∧
        ∃ lm ahead, (lm = none ∨ lm = md.lim) ∧ ItAt md lm g P s' ahead ∧
          (σ.corr = false → lm = md.lim ∧ ahead = icontent g.pageCount σ P))
      (fun e s' => e = .corrupted ∧ σ.corr = true ∧ MG kc vc md g big s' σ P F ∧ s'.fl = s.fl ∧ s'.buf.length = s.buf.length) := by
  unfold Map.fetchAll
  rcases (fetchFirst_sat w h hn).cases with ⟨r, s1, he, first, rfl, h1, hc1, hst⟩ | ⟨e, s1, he, q1, q2, q3, q4⟩
  · refine Sat.bind_eq he ?_
    refine Sat.bind_eq (lift_run _ _) ?_
    refine Sat.of_ok (modify_run _ _) ⟨h1.eqv rfl rfl rfl, hc1.fl, hc1.len, hst, ?_⟩
    have hpo := page_order w first
    have hgf := h1.good.fs
    have hlay : ∃ lm its f, (lm = none ∨ lm = md.lim) ∧ Layout md.cf g s1.fl.mem (g.dataEnd first) (g.dataStart first) its f ∧
        Short (md.upTo lm) g its ∧ (σ.corr = false → lm = md.lim ∧ its = (P first).its) := by
      cases hcor : σ.corr with
      | true =>
        have hcf : md.cf = false := by
          cases hcf : md.cf with
          | false => rfl
          | true => have := hgf.torn_free hcf; rw [hcor] at this; simp at this
        obtain ⟨its, f, l⟩ := Layout.total w s1.fl.mem (g.dataEnd first) (g.dataEnd first + 1) (g.dataStart first) (by omega)
        rw [hcf]
        exact ⟨none, its, f, Or.inl rfl, l, fun n hn => (nomatch hn), by simp⟩
      | false =>
        have hp := hgf.pages _ hst.1
        have hs := hgf.st _ hst.1
        cases hpk : P first with
        | used c its f =>
          rw [hpk] at hp
          have u : Used md g s1.fl _ c its f := hp
          exact ⟨md.lim, its, f, Or.inr rfl, u.layout, u.fit, fun _ => ⟨rfl, rfl⟩⟩
        | blank =>
          rw [hpk] at hp
          refine ⟨md.lim, [], _, Or.inr rfl, Layout.blank (fun x hx1 hx2 => hp.1 x ?_ ?_),
            fun n _ x hx => by simp at hx, fun _ => ⟨rfl, rfl⟩⟩ <;> omega
        | junk => exact absurd hpk (h.mp.nojunk _ hst.1)
        | corr =>
          rw [hpk] at hs
          have := (Shape.st_err.1 hs.symm).2.2.1
          rw [hcor] at this; simp at this
    obtain ⟨lm, its, f, hlm, l, hsh, hits⟩ := hlay
    refine ⟨lm, _, hlm, ⟨0, first, its, f, hst.1, by omega, (ringPage_zero hst.1).symm, hst.1, rfl, Nat.le_refl _, by show g.dataStart first ≤ _; omega,
      w.dataStart_word _, l, hsh, rfl⟩, fun hcor => ⟨(hits hcor).1, ?_⟩⟩
    rw [← iseg_all w hgf hst, (hits hcor).2, show g.pageCount = 1 + (g.pageCount - 1) from by omega, iseg_add, iseg_one]
    rw [show 1 + (g.pageCount - 1) = g.pageCount from by omega, ringPage_zero hst.1]
  · exact Sat.of_err (bind_err he) ⟨q1, q2, q3, q4.fl, q4.len⟩

end SeqStorage
