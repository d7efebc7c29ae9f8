import Verif.Proofs.MapMigrate
import Verif.Proofs.Push
/-
The repair of a map: finishing the erase of a page, and redoing an interrupted migration.
-/

set_option linter.unusedSectionVars false

namespace SeqStorage
open M

/-- A page that reads as erased by its markers but is not erased. -/
def Spoiled (g : Geo) (fl : Flash) : Prop :=
  ∃ i, i < g.pageCount ∧ AllFF fl.mem (g.pageAddr i) g.readSize ∧ AllFF fl.mem (g.pageEnd i - g.readSize) g.readSize ∧
    ¬ AllFF fl.mem (g.pageAddr i) g.eraseSize

section shape
variable {σ : Shape} {n i : Nat}

theorem dropFront_wf (wf : σ.WF n) (hm : σ.m = n) (hn : 2 ≤ n) : σ.dropFront.WF n := by
  have hc := (wf.full hm).2
  refine ⟨wf.o_lt, ?_, ?_, ?_, ?_⟩ <;> simp only [Shape.dropFront] <;> (try simp) <;> (try omega)

theorem dropFront_front (hp : σ.part = true) : σ.dropFront.front n = σ.front n := by
  unfold Shape.front Shape.dropFront
  simp [hp]

theorem dropFront_st (wf : σ.WF n) (hm : σ.m = n) (hi : i < n) (hne : i ≠ σ.front n) :
    σ.dropFront.st n i = σ.st n i := by
  have hp := (wf.full hm).1
  have hc := (wf.full hm).2
  have hfp := CalcOk.front_pos wf
  rw [hp, if_pos rfl] at hfp
  have hlt := ringPos_lt wf.o_lt hi
  have hpos : ringPos n σ.o i ≠ n - 1 := by
    intro h
    apply hne
    rw [← ringPage_pos wf.o_lt hi, h]; unfold Shape.front; rw [hp, if_pos rfl, hm]
  have e1 : σ.st n i = .ok .closed := by rw [Shape.st_closed]; omega
  rw [e1, Shape.st_closed]
  simp only [Shape.dropFront]
  refine ⟨by omega, by simp⟩

theorem dropFront_st_front (wf : σ.WF n) (hm : σ.m = n) : σ.dropFront.st n (σ.front n) = .ok .open := by
  have hp := (wf.full hm).1
  have hc := (wf.full hm).2
  have hfp := CalcOk.front_pos wf
  rw [hp, if_pos rfl] at hfp
  rw [Shape.st_open]
  simp only [Shape.dropFront, hc]
  refine ⟨by omega, by simp⟩

theorem openFront_dropFront (wf : σ.WF n) (hm : σ.m = n) (hn : 2 ≤ n) : σ.dropFront.openFront = σ := by
  have hp := (wf.full hm).1
  obtain ⟨o, m, part, corr⟩ := σ
  simp only [Shape.dropFront, Shape.openFront] at *
  subst hp
  congr
  omega

theorem CalcOk.dropFront {c : CalcPS} (wf : σ.WF n) (h : CalcOk σ n c) (hm : σ.m = n) (hn : 2 ≤ n) :
    ∃ c', c.notice (σ.front n) .open = .ok c' ∧ CalcOk σ.dropFront n c' := by
  have hp := (wf.full hm).1
  have hfl := Shape.front_lt wf
  have hfr := dropFront_front (n := n) hp
  have hsf := dropFront_st_front wf hm
  cases h with
  | fresh =>
    refine ⟨_, rfl, CalcOk.guess (n := n) (σ.front n) 1 hfl (by omega) (by omega) ?_⟩
    intro j hj hlt
    have : j = σ.front n := by unfold ringPos at hlt; split at hlt <;> omega
    rw [this]; exact hsf
  | guess a op ha h1 h2 hop =>
    exfalso
    have := hop a ha (by unfold ringPos; simp; omega)
    rw [Shape.st_open] at this
    have := ringPos_lt wf.o_lt ha
    omega
  | sure cp op h1 h2 hst hop hcl =>
    refine ⟨_, by simp only [CalcPS.notice, get_front, hp, if_true]; rfl, ?_⟩
    have := CalcOk.sure (σ := σ.dropFront) (n := n) cp op h1 h2 (fun _ => by rw [hfr]; exact hsf)
      (fun j hj hne hlt => by
        rw [hfr] at hne hlt
        rw [dropFront_st wf hm hj hne]; exact hop j hj hne hlt)
      (fun j hj hne hlt => by
        rw [hfr] at hne hlt
        rw [dropFront_st wf hm hj hne]; exact hcl j hj hne hlt)
    rw [hfr] at this
    exact this

theorem PSOk.dropFront {c : PSCache} (wf : σ.WF n) (h : PSOk σ n c) (hm : σ.m = n) (hn : 2 ≤ n) :
    ∃ c', c.notice (σ.front n) .open = .ok c' ∧ PSOk σ.dropFront n c' := by
  cases c with
  | uncached => exact ⟨_, rfl, trivial⟩
  | calculated c =>
    obtain ⟨c', h1, h2⟩ := CalcOk.dropFront wf h hm hn
    exact ⟨.calculated c', by simp only [PSCache.notice, h1]; rfl, h2⟩
  | table l =>
    have := PSOk.table_notice h (Shape.front_lt wf) (dropFront_st_front wf hm)
      (fun j hj hne => dropFront_st wf hm hj hne)
    exact ⟨_, this.1, this.2⟩

end shape

variable {K V : Type} [DecidableEq K] {kc : KeyCodec K} {vc : ValCodec V}
variable {md : Mode} {g : Geo} {σ : Shape} {P : Nat → PK} {F F' : K → Prop} {big : Bool}

theorem icontent_dropFront (wf : σ.WF g.pageCount) (hm : σ.m = g.pageCount) (pk : PK) :
    icontent g.pageCount σ.dropFront (upd P (σ.front g.pageCount) pk) = older g.pageCount σ P := by
  have := older_upd_front (P := P) wf (wf.full hm).1 pk
  rw [← this]
  rfl

/-- In a ring with an open page the set of fading keys does not matter. -/
theorem MP.anyF (h : MP kc vc md g σ P F) (hm : σ.m < g.pageCount) : MP kc vc md g σ P F' :=
  ⟨h.nojunk, h.shape, h.corr, h.enc, h.nt, fun h' => by omega⟩

theorem MG.anyF {s : St K} (h : MG kc vc md g big s σ P F) (hm : σ.m < g.pageCount) : MG kc vc md g big s σ P F' :=
  ⟨h.good, h.mp.anyF hm, h.kpok, h.kp, h.log⟩

theorem MG.mono {s : St K} (h : MG kc vc md g big s σ P F) (hF : ∀ k, F k → F' k) : MG kc vc md g big s σ P F' :=
  ⟨h.good, h.mp.mono hF, h.kpok, h.kp, h.log⟩

theorem MD.mono {s : St K} (h : MD kc vc md g s σ P F) (hF : ∀ k, F k → F' k) : MD kc vc md g s σ P F' :=
  ⟨h.fs, h.mp.mono hF, h.crash⟩

theorem MG.invalid {s : St K} (h : MG kc vc md g big s σ P F) :
    MG kc vc md g big { s with cache := s.cache.invalidate } σ P F := by
  obtain ⟨h1, h2⟩ := h.kpok.invalidate
  exact ⟨⟨h.good.fs, PSOk.invalidate h.good.ps.sized σ, PPOk.invalidate⟩, h.mp, h1,
      fun k a hk => (nomatch (h2 k).symm.trans hk), h.log⟩

theorem MP.frontBlank {fl : Flash} (h : MP kc vc md g σ P F) (fs : FS md g fl σ P) (hp : σ.part = false) :
    P (σ.front g.pageCount) = .blank := by
  have wf := fs.wf
  have hfl := Shape.front_lt wf
  have hst := fs.st _ hfl
  have hfp := CalcOk.front_pos wf
  rw [hp] at hfp
  simp only [Bool.false_eq_true, if_false] at hfp
  have hc : σ.corr = false := by
    cases hc : σ.corr with
    | false => rfl
    | true => have := (h.corr hc).1; rw [hp] at this; simp at this
  have ho : σ.st g.pageCount (σ.front g.pageCount) = .ok .open := by
    rw [Shape.st_open, hc]; exact ⟨by omega, by simp⟩
  rw [ho] at hst
  cases hpk : P (σ.front g.pageCount) with
  | blank => rfl
  | corr => rw [hpk] at hst; simp [PK.st] at hst
  | junk => exact absurd hpk (h.nojunk _ hfl)
  | used c _ _ => rw [hpk] at hst; cases c <;> simp [PK.st] at hst

theorem MP.frontUsed {fl : Flash} (_h : MP kc vc md g σ P F) (fs : FS md g fl σ P) (hp : σ.part = true) :
    ∃ its f, P (σ.front g.pageCount) = .used false its f := by
  have wf := fs.wf
  have hfl := Shape.front_lt wf
  have hst := fs.st _ hfl
  rw [CalcOk.st_front wf (fun h => by rw [hp] at h; simp at h), hp, if_pos rfl] at hst
  cases hpk : P (σ.front g.pageCount) with
  | used c its f =>
    cases c
    · exact ⟨its, f, rfl⟩
    · rw [hpk] at hst; simp [PK.st] at hst
  | _ => rw [hpk] at hst; simp [PK.st] at hst

theorem MP.part_false {fl : Flash} (h : MP kc vc md g σ P F) (fs : FS md g fl σ P) (hp : σ.part = false) :
    σ.corr = false ∧ σ.m < g.pageCount := by
  constructor
  · cases hc : σ.corr with
    | false => rfl
    | true => have := (h.corr hc).1; rw [hp] at this; simp at this
  · rcases Nat.lt_or_ge σ.m g.pageCount with h' | h'
    · exact h'
    · have := (fs.wf.full (by have := fs.wf.m_le; omega)).1; rw [hp] at this; simp at this

/-- Erasing the page that is written to. -/
theorem MP.dropFront_mp (h : MP kc vc md g σ P F) (wf : σ.WF g.pageCount) (hm : σ.m = g.pageCount) (hn : 2 ≤ g.pageCount) :
    MP kc vc md g σ.dropFront (upd P (σ.front g.pageCount) .blank) F' := by
  have e := icontent_dropFront (P := P) wf hm .blank
  have e3 := icontent_front (P := P) wf (wf.full hm).1
  have hc := (wf.full hm).2
  refine ⟨MP.upd_front_nojunk h.nojunk (by simp), ?_, ?_, ?_, ?_, ?_⟩
  · simp only [Shape.dropFront]; omega
  · simp only [Shape.dropFront, hc]; simp
  · rw [e]; intro it hi; exact h.enc it (by rw [e3]; simp [hi])
  · rw [e]; intro it hi; exact h.nt it (by rw [e3]; simp [hi])
  · simp only [Shape.dropFront]; omega

/-- Opening the blank page that follows. -/
theorem MP.openFront_mp (h : MP kc vc md g σ P F) (wf : σ.WF g.pageCount) (hp : σ.part = false) (hc : σ.corr = false)
    {f : Nat} : MP kc vc md g σ.openFront (upd P (σ.front g.pageCount) (.used false [] f)) F' := by
  have e := icontent_openFront (P := P) (pk := .used false [] f) wf hp rfl
  have e2 := older_openFront (P := P) wf hp (.used false [] f)
  refine ⟨MP.upd_front_nojunk h.nojunk (by simp), ?_, ?_, ?_, ?_, ?_⟩
  · simp only [Shape.openFront]; intro h'; exact h.shape (by omega)
  · simp only [Shape.openFront, hc]; simp
  · rw [e]; exact h.enc
  · rw [e]; exact h.nt
  · rw [e, e2]; intro _; exact Drift.refl

/-- Finishing the erase of the torn page. -/
theorem MP.fixCorr_mp (h : MP kc vc md g σ P F) (wf : σ.WF g.pageCount) (hc : σ.corr = true) :
    MP kc vc md g σ.fixCorr (upd P (σ.torn g.pageCount) .blank) F' := by
  have e := icontent_fixCorr (P := P) wf hc .blank
  have hcc := h.corr hc
  refine ⟨MP.upd_front_nojunk h.nojunk (by simp), h.shape, by simp [Shape.fixCorr], ?_, ?_, ?_⟩
  · rw [e]; exact h.enc
  · rw [e]; exact h.nt
  · simp only [Shape.fixCorr]; omega

/-- There is a page to write to and a page to go on with. -/
structure Ready (n : Nat) (σ : Shape) : Prop where
  part : σ.part = true
  room : σ.m < n
  corr : σ.corr = false

variable (w : g.WF)
include w

/-- Finding the page that is written to. -/
theorem findPart_sat {s : St K} (h : MG kc vc md g big s σ P F) (hn : 2 ≤ g.pageCount) :
    Sat (findFirstPage g 0 .partialOpen) s
      (fun r s' => MG kc vc md g big s' σ P F ∧ Same s s' ∧
        ((σ.part = true ∧ r = some (σ.front g.pageCount) ∧ Anchored (σ.front g.pageCount) s'.cache.ps) ∨
         (σ.part = false ∧ r = none)))
      (fun e s' => e = .corrupted ∧ σ.corr = true ∧ MG kc vc md g big s' σ P F ∧ Same s s') := by
  have wf := h.good.fs.wf
  have hfl := Shape.front_lt wf
  have h0 : 0 < g.pageCount := by omega
  refine (findFirst_sat w h.good h0 .partialOpen).mono ?_ ?_
  · rintro r s1 ⟨hg, hsame, _, hanc, hfind, hnone⟩
    refine ⟨h.same hg hsame, hsame, ?_⟩
    cases hp : σ.part with
    | true =>
      left
      have hst := CalcOk.st_front wf (fun h => by rw [hp] at h; simp at h)
      rw [hp, if_pos rfl] at hst
      have hr : r = some (σ.front g.pageCount) := by
        have e0 : ringPage g.pageCount 0 (σ.front g.pageCount) = σ.front g.pageCount := by
          unfold ringPage; rw [if_pos (by omega)]; omega
        have := (hfind (σ.front g.pageCount) hfl (fun k hk h' => by
          have := CalcOk.front_of_part wf (ringPage_lt h0 (by omega)) h'
          rw [← e0] at this
          have := ringPage_inj h0 (by omega) hfl this
          omega)).2
        rw [e0] at this
        exact this hst
      exact ⟨rfl, hr, hanc rfl _ hr⟩
    | false =>
      right
      refine ⟨rfl, hnone (fun j hj hi => ?_)⟩
      rw [Shape.st_part, hp] at hi; simp at hi
  · rintro e s1 ⟨h1, h2, h3, h4⟩
    exact ⟨h1, h2, h.same h3 h4, h4⟩

/-- Erasing the page that holds the copies. -/
theorem dropFront_sat {s : St K} (h : MG kc vc md g false s σ P F) (hn : 2 ≤ g.pageCount) (hm : σ.m = g.pageCount) :
    Sat (openPage g (σ.front g.pageCount)) s
      (fun _ s' => Good md g s' σ.dropFront (upd P (σ.front g.pageCount) .blank) ∧ Frame s s')
      (fun e s' => e = .shutoff ∧ Frame s s' ∧ (Spoiled g s'.fl ∨ MD kc vc md g s' σ P F ∨
        MD kc vc md g s' σ.dropFront (upd P (σ.front g.pageCount) .blank) F)) := by
  have wf := h.good.fs.wf
  have hfl := Shape.front_lt wf
  have hp := (wf.full hm).1
  obtain ⟨ps, h1, h2⟩ := h.good.ps.dropFront wf hm hn
  have hrun := openPage_run w hfl h1
  obtain ⟨its, f, hpk⟩ := h.mp.frontUsed h.good.fs hp
  have hpg := h.good.fs.pages _ hfl
  rw [hpk] at hpg
  have her := PageIs.erase w hpg h.good.fs.fuel
  have hwf := dropFront_wf wf hm hn
  have hblank : PageIs md g (s.fl.clr g (σ.front g.pageCount)) (σ.front g.pageCount) .blank →
      FS md g (s.fl.clr g (σ.front g.pageCount)) σ.dropFront (upd P (σ.front g.pageCount) .blank) := fun hb =>
    h.good.fs.clr w hb hwf (by rw [dropFront_st_front wf hm]; rfl) (fun j hj hne => dropFront_st wf hm hj hne)
  cases hall : s.fl.all g.eraseSize with
  | true =>
    rw [hall, if_pos rfl] at hrun
    exact Sat.of_ok hrun ⟨⟨hblank (her.1 hall), h2, h.good.pp.open _⟩, ⟨rfl, rfl, rfl, rfl⟩⟩
  | false =>
    rw [hall] at hrun
    simp only [Bool.false_eq_true, if_false] at hrun
    have hcr := crash_of_not_all w h.good.fs hall
    refine Sat.of_err hrun ⟨rfl, ⟨rfl, rfl, rfl, rfl⟩, ?_⟩
    rcases her.2 with hb | ⟨_, hb⟩
    · exact Or.inr (Or.inr ⟨hblank hb, h.mp.dropFront_mp wf hm hn, hcr⟩)
    · rcases hb with hb | hb
      · right; left
        refine ⟨?_, h.mp, hcr⟩
        have := h.good.fs.clr w (σ' := σ) hb wf (by rw [← hpk]; exact h.good.fs.st _ hfl) (fun _ _ _ => rfl)
        rw [← hpk, upd_self] at this
        exact this
      · by_cases hff : AllFF (s.fl.clr g (σ.front g.pageCount)).mem (g.pageAddr (σ.front g.pageCount)) g.eraseSize
        · refine Or.inr (Or.inr ⟨hblank ⟨hff, ?_⟩, h.mp.dropFront_mp wf hm hn, hcr⟩)
          intro x hx1 hx2
          unfold wend at hx2
          rw [hcr] at hx2
          simp at hx2
          omega
        · exact Or.inl ⟨_, hfl, hb.2.1, hb.2.2, hff⟩

/-- The repair. It needs no power between calls: the newest page is dropped only when all pages are in
use, where it holds only copies. -/
theorem mapRepair_sat (L : Lawful kc vc) (hn : 2 ≤ g.pageCount) (hmd : md.OK g) {s : St K}
    (h : MG kc vc md g false s σ P F) :
    Sat (Map.tryRepair g kc) s
      (fun _ s' => s'.buf.length = s.buf.length ∧ ∃ σ' P', MG kc vc md g false s' σ' P' (fun _ => False) ∧
        σ'.m < g.pageCount ∧ σ'.corr = false ∧ Drift kc vc F (icontent g.pageCount σ P) (icontent g.pageCount σ' P') ∧
        (σ.part = true → σ'.part = true) ∧ (σ.m = g.pageCount → Tidy kc g σ' P'))
      (fun e s' => s'.buf.length = s.buf.length ∧
        ((TooSmall md s e ∧ ∃ σ' P', MG kc vc md g false s' σ' P' (fun _ => False) ∧
            Drift kc vc F (icontent g.pageCount σ P) (icontent g.pageCount σ' P')) ∨
         (e = .shutoff ∧ md.cf = false ∧ (Spoiled g s'.fl ∨ ∃ σ' P', MD kc vc md g s' σ' P' F ∧
            Drift kc vc F (icontent g.pageCount σ P) (icontent g.pageCount σ' P'))))) := by
  have wf := h.good.fs.wf
  have hfl := Shape.front_lt wf
  unfold Map.tryRepair tryGeneralRepair
  refine Sat.bind_eq (modifyCache_run _ _) ?_
  have hi := h.invalid
  have hgr := generalRepair (md := md) (σ := σ) (P := P) w
    (s := { s with cache := s.cache.invalidate }) h.good.fs rfl rfl h.good.ps.sized
    (g.pages 0) (fun i hi => (mem_pages w.pageCount_pos).1 hi)
  rcases hgr.cases with ⟨_, s1, he1, hfr1, hgood1, hsame1⟩ | ⟨e, s1, he1, rfl, hfr1, hc1, hD1⟩
  · refine Sat.bind_eq he1 ?_
    have hl1 : s1.buf.length = s.buf.length := by rw [hfr1.buf]
    cases hc : σ.corr with
    | true =>
      have htl := torn_lt (g := g) wf
      have hg := hgood1 hc ((mem_pages w.pageCount_pos).2 htl)
      have hcc := h.mp.corr hc
      have h1 : MG kc vc md g false s1 σ.fixCorr (upd P (σ.torn g.pageCount) .blank) (fun _ => False) := by
        refine ⟨hg, h.mp.fixCorr_mp wf hc, by rw [hfr1.kp]; exact hi.kpok, ?_, by simp⟩
        rw [hfr1.kp, icontent_fixCorr wf hc]
        exact hi.kp
      have hd1 : Drift kc vc F (icontent g.pageCount σ P)
          (icontent g.pageCount σ.fixCorr (upd P (σ.torn g.pageCount) .blank)) := by
        rw [icontent_fixCorr wf hc]; exact Drift.refl
      rcases (findPart_sat w h1 hn).cases with ⟨r, s2, he2, h2, hs2, hr⟩ | ⟨e, s2, he2, hE⟩
      · refine Sat.bind_eq he2 ?_
        have hp1 : σ.fixCorr.part = true := hcc.1
        rcases hr with ⟨_, rfl, _⟩ | ⟨hp, _⟩
        rotate_left
        · rw [hp1] at hp; simp at hp
        simp only
        have hnx := next_front w h1.good.fs.wf hp1
        have hm1 : σ.fixCorr.m < g.pageCount := by simp only [Shape.fixCorr]; omega
        have hnl : (σ.fixCorr.front g.pageCount + 1) % g.pageCount < g.pageCount := Nat.mod_lt _ (by omega)
        rcases (getCached w h2.good hnl).cases with ⟨st, s3, he3, hst, hg3, hs3, _⟩ | ⟨e, s3, he3, _, hst⟩
        · have hop : σ.fixCorr.st g.pageCount ((σ.fixCorr.front g.pageCount + 1) % g.pageCount) = .ok .open := by
            rw [Shape.st_open, (hnx.1 hm1).1]
            exact ⟨Nat.le_refl _, by simp [Shape.fixCorr]⟩
          rw [hop] at hst
          injection hst with hst
          subst hst
          refine Sat.bind_eq he3 ?_
          rw [if_pos (show PageState.open.isOpen = true from rfl)]
          have h3 := h2.same hg3 hs3
          exact Sat.pure ⟨by rw [hs3.buf, hs2.buf]; exact hl1, _, _, h3, hm1, rfl, hd1, fun _ => hp1, fun hm => by omega⟩
        · exfalso
          have hst := Shape.st_err.1 hst
          simp [Shape.fixCorr] at hst
      · have := hE.2.1
        simp [Shape.fixCorr] at this
    | false =>
      have := hsame1 (Or.inl hc)
      subst this
      rcases (findPart_sat w hi hn).cases with ⟨r, s2, he2, h2, hs2, hr⟩ | ⟨e, s2, he2, hE⟩
      rotate_left
      · have := hE.2.1; rw [hc] at this; simp at this
      refine Sat.bind_eq he2 ?_
      have hl2 : s2.buf.length = s.buf.length := by rw [hs2.buf]
      rcases hr with ⟨hp, rfl, han⟩ | ⟨hp, rfl⟩
      rotate_left
      · have hm := (h.mp.part_false h.good.fs hp).2
        exact Sat.pure ⟨hl2, σ, P, h2.anyF hm, hm, hc, Drift.refl, fun h => h, fun h' => by omega⟩
      simp only
      have hnx := next_front w wf hp
      have hnl : (σ.front g.pageCount + 1) % g.pageCount < g.pageCount := Nat.mod_lt _ (by omega)
      rcases (getCached w h2.good hnl).cases with ⟨st, s3, he3, hst, hg3, hs3, _⟩ | ⟨e, s3, he3, _, hst⟩
      rotate_left
      · exfalso
        have hst := Shape.st_err.1 hst
        rw [hc] at hst; simp at hst
      refine Sat.bind_eq he3 ?_
      have h3 := h2.same hg3 hs3
      have hl3 : s3.buf.length = s.buf.length := by rw [hs3.buf]; exact hl2
      rcases Nat.lt_or_ge σ.m g.pageCount with hm | hm
      · have hop : σ.st g.pageCount ((σ.front g.pageCount + 1) % g.pageCount) = .ok .open := by
          rw [Shape.st_open, (hnx.1 hm).1, hc]
          exact ⟨Nat.le_refl _, by simp⟩
        rw [hop] at hst
        injection hst with hst
        subst hst
        rw [if_pos (show PageState.open.isOpen = true from rfl)]
        exact Sat.pure ⟨hl3, σ, P, h3.anyF hm, hm, hc, Drift.refl, fun h => h, fun h' => by omega⟩
      · have hm : σ.m = g.pageCount := by have := wf.m_le; omega
        have hno := hnx.2 hm
        have hcl : σ.st g.pageCount σ.o = .ok .closed := CalcOk.st_oldest (by omega)
        rw [hno, hcl] at hst
        injection hst with hst
        subst hst
        rw [if_neg (by simp [PageState.isOpen])]
        have hno' : g.nextPage (σ.front g.pageCount) = σ.o := hno
        rw [hno']
        have hdr : Drift kc vc F (icontent g.pageCount σ P) (older g.pageCount σ P) := h.mp.dup hm
        rcases (dropFront_sat w h3 hn hm).cases with ⟨_, s4, he4, hg4, hf4⟩ | ⟨e, s4, he4, rfl, hf4, hE⟩
        · refine Sat.bind_eq he4 ?_
          have hl4 : s4.buf.length = s.buf.length := by rw [hf4.buf]; exact hl3
          have mp4 : MP kc vc md g σ.dropFront (upd P (σ.front g.pageCount) .blank) (fun _ => False) := h.mp.dropFront_mp wf hm hn
          have hfr := dropFront_front (n := g.pageCount) hp
          have hof := openFront_dropFront wf hm hn
          have hpf : σ.dropFront.part = false := rfl
          have hcf' : σ.dropFront.corr = false := hc
          have hpart := partialFront w hg4 (fun _ => Or.inl (by rw [hfr, upd_same]))
          rw [hfr] at hpart
          have mp5 : MP kc vc md g σ (upd P (σ.front g.pageCount) (.used false [] (g.dataStart (σ.front g.pageCount)))) (fun _ => False) := by
            have := mp4.openFront_mp (F' := fun _ => False) hg4.fs.wf hpf hcf' (f := g.dataStart (σ.front g.pageCount))
            rw [hof, hfr, upd_upd] at this
            exact this
          have hold : older g.pageCount σ (upd P (σ.front g.pageCount) (.used false [] (g.dataStart (σ.front g.pageCount)))) =
            older g.pageCount σ P := older_upd_front wf hp _
          have hic : icontent g.pageCount σ (upd P (σ.front g.pageCount) (.used false [] (g.dataStart (σ.front g.pageCount)))) =
              older g.pageCount σ P := by
            rw [icontent_upd_front wf hp]; simp [PK.its]
          rcases hpart.cases with ⟨st, s5, he5, _, hf5, _, _, _, hg5⟩ | ⟨e, s5, he5, hf5, _, _, hE⟩
          · refine Sat.bind_eq he5 ?_
            obtain ⟨_, hg5⟩ := hg5 hpf
            rw [hof, upd_upd] at hg5
            have hl5 : s5.buf.length = s.buf.length := by rw [hf5.buf]; exact hl4
            have h5 : MG kc vc md g false s5 σ
                (upd P (σ.front g.pageCount) (.used false [] (g.dataStart (σ.front g.pageCount)))) (fun _ => False) := by
              have hk : s5.cache.kp = s3.cache.kp := by rw [hf5.kp, hf4.kp]
              have hki : s3.cache.kp = s.cache.invalidate.kp := by rw [hs3.kp, hs2.kp]
              obtain ⟨hk1, hk2⟩ := h.kpok.invalidate
              refine ⟨hg5, mp5, by rw [hk]; exact h3.kpok, ?_, by simp⟩
              rw [hk, hki]
              exact fun k a hk => (nomatch (hk2 k).symm.trans hk)
            refine Sat.mono (migrate_sat w L hn hmd hm h5 upd_same) ?_ ?_
            · rintro _ s' ⟨hl6, cps, f, h6, hk6, htidy, -⟩
              refine ⟨hl6.trans hl5, _, _, h6, ?_, hc, ?_, fun _ => hp, fun _ => htidy⟩
              · simp only [Shape.dropOldest]; omega
              · refine hdr.trans (Drift.of_eq (fun k => ?_))
                rw [hk6.same k, hold]
            · rintro e s' ⟨hl6, hE⟩
              refine ⟨hl6.trans hl5, ?_⟩
              rcases hE with ⟨hE, P', h6, hk6⟩ | ⟨rfl, σ', P', h6, hk6⟩
              · refine Or.inl ⟨hE.of_len hl5, σ, P', h6, hdr.trans (Drift.of_eq (fun k => ?_))⟩
                rw [hk6.same k, hold]
              · refine Or.inr ⟨rfl, h6.crash, Or.inr ⟨σ', P', h6.mono (by simp), hdr.trans (Drift.of_eq (fun k => ?_))⟩⟩
                rw [hk6.same k, hold]
          · refine Sat.of_err (bind_err he5) ⟨by rw [hf5.buf]; exact hl4, Or.inr ?_⟩
            rcases hE with ⟨_, hE, _⟩ | ⟨rfl, hE⟩
            · rw [hcf'] at hE; simp at hE
            · refine ⟨rfl, ?_, Or.inr ?_⟩
              · rcases hE with hE | hE <;> exact hE.crash
              · rcases hE with hE | hE
                · refine ⟨_, _, ⟨hE.fs, mp4.anyF (by simp only [Shape.dropFront]; omega), hE.crash⟩, ?_⟩
                  rw [icontent_dropFront wf hm]; exact hdr
                · rw [hof, upd_upd] at hE
                  refine ⟨_, _, ⟨hE.fs, mp5.mono (by simp), hE.crash⟩, ?_⟩
                  rw [hic]; exact hdr
        · refine Sat.of_err (bind_err he4) ⟨by rw [hf4.buf]; exact hl3, Or.inr ⟨rfl, ?_, ?_⟩⟩
          · cases hcf : md.cf with
            | false => rfl
            | true =>
              exfalso
              have hfuel := h3.good.fs.fuel hcf
              obtain ⟨ps, hq1, _⟩ := h3.good.ps.dropFront wf hm hn
              have hrun := openPage_run w hfl hq1
              rw [Flash.all_none hfuel, if_pos rfl, he4] at hrun
              simp at hrun
          · rcases hE with hE | hE | hE
            · exact Or.inl hE
            · exact Or.inr ⟨_, _, hE, Drift.refl⟩
            · refine Or.inr ⟨_, _, hE, ?_⟩
              rw [icontent_dropFront wf hm]; exact hdr
  · refine Sat.of_err (bind_err he1) ⟨by rw [hfr1.buf], Or.inr ⟨rfl, ?_, Or.inr ?_⟩⟩
    · rcases hD1 with hD | hD <;> exact hD.crash
    · rcases hD1 with hD | hD
      · exact ⟨σ, P, ⟨hD.fs, h.mp, hD.crash⟩, Drift.refl⟩
      · refine ⟨_, _, ⟨hD.fs, h.mp.fixCorr_mp wf hc1, hD.crash⟩, ?_⟩
        rw [icontent_fixCorr wf hc1]; exact Drift.refl

end SeqStorage
