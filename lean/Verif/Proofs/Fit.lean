import Verif.Proofs.Iter
/-
How much fits: `find_max_fit` and `space_left`.
-/

set_option linter.unusedSectionVars false

namespace SeqStorage
open M

variable {K : Type} [DecidableEq K] {α β : Type}
variable {md : Mode} {g : Geo} {σ σ' : Shape} {P P' : Nat → PK}

section
variable (w : g.WF)
include w

/-- A blank page has its free space at the start. -/
theorem nextItemAddress_blank {s : St K} (h : Good md g s σ P) {i : Nat} (hi : i < g.pageCount)
    (hpk : P i = .blank) : Queue.nextItemAddress g i s = (.ok (g.dataStart i), s) := by
  unfold Queue.nextItemAddress
  rw [bind_ok (get_run s)]
  cases hw : s.cache.pp.afterWritten i with
  | some p =>
    obtain ⟨c, its', h1⟩ := (h.pp i hi).2 p hw
    rw [hpk] at h1; simp at h1
  | none =>
    have he : s.cache.pp.afterErased i = none := by
      cases he : s.cache.pp.afterErased i with
      | none => rfl
      | some p =>
        obtain ⟨c, pre, it, post, f, h1, _⟩ := (h.pp i hi).1 p he
        rw [hpk] at h1; simp at h1
    have hpg := h.fs.pages i hi
    rw [hpk] at hpg
    have hpo := page_order w i
    have hr := rounds_ok w i (Nat.le_refl (g.dataStart i))
    have := w.page_le hi
    have hlay : Layout md.cf g s.fl.mem (g.dataEnd i) (g.dataStart i) [] (g.dataStart i) := by
      refine Layout.blank ?_
      intro x h1 h2
      exact hpg.1 x (by omega) (by omega)
    have ht := traverse_run w s hlay (w.dataStart_word i) (by omega) (by omega) (fun _ => true) hr.1 hr.2
    simp only [he, Option.getD_none]
    rw [bind_ok ht, scanResult_all]; rfl

/-- What `find_max_fit` answers with two pages or more. -/
def fitOf (g : Geo) (σ : Shape) (P : Nat → PK) : Option Nat :=
  if σ.cnt < g.pageCount ∨ allErased (P σ.o) = true then some (g.eraseSize - 2 * g.word)
  else g.availableDataBytes (g.dataEnd (σ.front g.pageCount) -
    freeOf g (σ.front g.pageCount) (P (σ.front g.pageCount)))

theorem findMaxFitInner_sat {s : St K} (h : QI md g s σ P) :
    Sat (Queue.findMaxFitInner g) s
      (fun r s' => Still s s' ∧ QG md g s' σ P ∧ s'.cache.dirty = false ∧
        ((2 ≤ g.pageCount ∧ r = fitOf g σ P) ∨ (g.pageCount = 1 ∧ σ.m = 0 ∧ r = some (g.eraseSize - 2 * g.word))))
      (fun e s' => Still s s' ∧ QI md g s' σ P ∧ e = .corrupted ∧
        ((σ.corr = true ∧ 2 ≤ g.pageCount) ∨ (g.pageCount = 1 ∧ σ.m = 1))) := by
  have wf := h.fs.wf
  have ho := wf.o_lt
  have hml := wf.m_le
  have hfl := Shape.front_lt wf
  have hn2 : σ.corr = true → 2 ≤ g.pageCount := by
    intro hc
    have : σ.m ≠ 0 := fun h0 => by have := (wf.empty h0).2; rw [hc] at this; simp at this
    have : σ.m ≠ g.pageCount := fun h0 => by have := (wf.full h0).2; rw [hc] at this; simp at this
    omega
  unfold Queue.findMaxFitInner
  rcases (checkDirty_sat h).cases with ⟨_, s0, he0, h0, hst0, hfl0, hd0, _⟩ | ⟨_, _, _, h'⟩
  rotate_left; · exact h'.elim
  refine Sat.bind_eq he0 ?_
  rcases (findYoungest_sat w h0.good).cases with ⟨r, s1, he1, rfl, hpc, hg1, hs1, _⟩ | ⟨e, s1, he1, rfl, hc, hg1, hs1⟩
  rotate_left
  · exact Sat.of_err (bind_err he1) ⟨hst0.trans hs1.still, (hg1.same h0.ok hs1 h0.log).qi, rfl, Or.inl ⟨hc, hn2 hc⟩⟩
  refine Sat.bind_eq he1 ?_
  have h1 := hg1.same h0.ok hs1 h0.log
  have hnl : g.nextPage (σ.front g.pageCount) < g.pageCount := w.next_lt
  rcases (getCached w h1.good hnl).cases with ⟨st, s2, he2, hst, hg2, hs2, _, _, _⟩ | ⟨e, s2, he2, rfl, hst⟩
  rotate_left
  · have hc := Shape.st_err.1 hst
    exact Sat.of_err (bind_err he2) ⟨hst0.trans hs1.still, h1.qi, hc.1, Or.inl ⟨hc.2.2.1, hn2 hc.2.2.1⟩⟩
  refine Sat.bind_eq he2 ?_
  have h2 := hg2.same h1.ok hs2 h1.log
  have hst2 : Still s s2 := (hst0.trans hs1.still).trans hs2.still
  have hfr : σ.front g.pageCount = ringPage g.pageCount σ.o (σ.cnt - 1) := by
    unfold Shape.front Shape.cnt; split <;> simp
  have hcp : 1 ≤ σ.cnt := by
    unfold Shape.cnt; split
    · rename_i hp; exact wf.part_pos hp
    · omega
  have hcl : σ.cnt ≤ g.pageCount := by
    unfold Shape.cnt; split
    · exact hml
    · rename_i hp
      have : σ.m ≠ g.pageCount := fun h0 => hp (wf.full h0).1
      omega
  have hmc : σ.m ≤ σ.cnt := by unfold Shape.cnt; split <;> omega
  -- finishing with a result
  have fin : ∀ r, ((2 ≤ g.pageCount ∧ r = fitOf g σ P) ∨ (g.pageCount = 1 ∧ σ.m = 0 ∧ r = some (g.eraseSize - 2 * g.word))) →
      Sat (do unmarkDirty; pure r) s2
        (fun r s' => Still s s' ∧ QG md g s' σ P ∧ s'.cache.dirty = false ∧
          ((2 ≤ g.pageCount ∧ r = fitOf g σ P) ∨ (g.pageCount = 1 ∧ σ.m = 0 ∧ r = some (g.eraseSize - 2 * g.word))))
        (fun e s' => Still s s' ∧ QI md g s' σ P ∧ e = .corrupted ∧
          ((σ.corr = true ∧ 2 ≤ g.pageCount) ∨ (g.pageCount = 1 ∧ σ.m = 1))) := by
    intro r hr
    rcases (unmark_sat h2).cases with ⟨_, s3, he3, hq3, hf3, _, hd3⟩ | ⟨_, _, _, h'⟩
    · exact Sat.bind_eq he3 (Sat.pure ⟨hst2.trans hf3.still, hq3, hd3, hr⟩)
    · exact h'.elim
  by_cases hc : σ.cnt < g.pageCount
  · have hnp : g.nextPage (σ.front g.pageCount) = ringPage g.pageCount σ.o σ.cnt := by
      rw [hfr]
      have := ringPage_succ (n := g.pageCount) (o := σ.o) (j := σ.cnt - 1) ho (by omega)
      rw [show σ.cnt - 1 + 1 = σ.cnt by omega] at this
      exact this
    have hpos := ringPos_page ho hc
    rw [hnp] at hst ⊢
    have : st = .open := by
      cases st with
      | «open» => rfl
      | closed => rw [Shape.st_closed, hpos] at hst; omega
      | partialOpen => rw [Shape.st_part, hpos] at hst; omega
    subst this
    exact fin _ (Or.inl ⟨by omega, by unfold fitOf; rw [if_pos (Or.inl hc)]⟩)
  · have hce : σ.cnt = g.pageCount := by omega
    have hnp : g.nextPage (σ.front g.pageCount) = σ.o := by
      rw [hfr, hce]; exact ringPage_last ho
    rw [hnp] at hst ⊢
    have hp0 : ringPos g.pageCount σ.o σ.o = 0 := by unfold ringPos; simp
    by_cases hn : g.pageCount = 1
    · by_cases hm : σ.m = 0
      · have : st = .open := by
          cases st with
          | «open» => rfl
          | closed => rw [Shape.st_closed] at hst; omega
          | partialOpen => rw [Shape.st_part] at hst; omega
        subst this
        exact fin _ (Or.inr ⟨hn, hm, rfl⟩)
      · have hm1 : σ.m = 1 := by omega
        have hpt := (wf.full (by omega)).1
        have : st = .partialOpen := by
          cases st with
          | partialOpen => rfl
          | closed => rw [Shape.st_closed] at hst; have := hst.2; rw [hp0, hm1] at this; simp [hpt] at this
          | «open» => rw [Shape.st_open] at hst; omega
        subst this
        exact Sat.throw ⟨hst2, h2.qi, rfl, Or.inr ⟨hn, hm1⟩⟩
    · have : st = .closed := by
        have hm1 : 1 ≤ σ.m ∧ ¬ (σ.part = true ∧ σ.m = 1) := by
          unfold Shape.cnt at hce
          split at hce
          · omega
          · rename_i hp; exact ⟨by omega, fun h => hp h.1⟩
        cases st with
        | closed => rfl
        | partialOpen => rw [Shape.st_part, hp0] at hst; exact absurd ⟨hst.1, by omega⟩ hm1.2
        | «open» => rw [Shape.st_open] at hst; omega
      subst this
      have hpk : ∃ its f, P σ.o = .used true its f := by
        have := h2.good.fs.st σ.o ho
        rw [hst] at this
        cases hpk : P σ.o with
        | used c its f => cases c <;> rw [hpk] at this <;> simp [PK.st] at this; exact ⟨its, f, rfl⟩
        | _ => rw [hpk] at this; simp [PK.st] at this
      obtain ⟨its, f, hpk⟩ := hpk
      simp only
      refine Sat.bind_eq (isPageEmpty_run w h2.good ho hpk) ?_
      cases hae : allErased (P σ.o) with
      | true =>
        rw [if_pos rfl]
        exact fin _ (Or.inl ⟨by omega, by unfold fitOf; rw [if_pos (Or.inr hae)]⟩)
      | false =>
        rw [if_neg (by simp)]
        have hkind : (∃ c its f, P (σ.front g.pageCount) = .used c its f) ∨ P (σ.front g.pageCount) = .blank := by
          cases hpt : σ.part with
          | true =>
            have := h2.good.fs.st _ hfl
            rw [CalcOk.st_front wf (fun h => by rw [hpt] at h; simp at h), hpt, if_pos rfl] at this
            cases hpk : P (σ.front g.pageCount) with
            | used c its f => exact Or.inl ⟨c, its, f, rfl⟩
            | _ => rw [hpk] at this; simp [PK.st] at this
          | false =>
            have := h2.good.fs.st _ hfl
            rw [CalcOk.st_front wf (fun _ => by
              rw [Shape.st_open]
              refine ⟨?_, by rw [hpc hpt]; simp⟩
              rw [CalcOk.front_pos wf, hpt, if_neg (by simp)]; omega), hpt, if_neg (by simp)] at this
            cases hpk : P (σ.front g.pageCount) with
            | blank => exact Or.inr rfl
            | junk => exact absurd hpk (h2.ok.nojunk _ hfl)
            | corr => rw [hpk] at this; simp [PK.st] at this
            | used c its f => cases c <;> rw [hpk] at this <;> simp [PK.st] at this
        have hrun : Queue.nextItemAddress g (σ.front g.pageCount) s2 =
            (.ok (freeOf g (σ.front g.pageCount) (P (σ.front g.pageCount))), s2) := by
          rcases hkind with ⟨c, its, f, hk⟩ | hk
          · rw [nextItemAddress_run w h2.good hfl hk, hk]; rfl
          · rw [nextItemAddress_blank w h2.good hfl hk, hk]; rfl
        refine Sat.bind_eq hrun ?_
        exact fin _ (Or.inl ⟨by omega, by unfold fitOf; rw [if_neg (by rw [hae]; simpa using hc)]⟩)

/-- `find_max_fit`. -/
theorem findMaxFit_sat {s : St K} (h : QI md g s σ P) :
    Sat (Queue.findMaxFit g) s
      (fun r s' => Still s s' ∧ ∃ σ' P', QG md g s' σ' P' ∧ s'.cache.dirty = false ∧
        content g.pageCount σ' P' = content g.pageCount σ P ∧ (∀ len, Room g σ' P' len ↔ Room g σ P len) ∧
        ((2 ≤ g.pageCount ∧ r = fitOf g σ' P') ∨ (g.pageCount = 1 ∧ σ'.m = 0 ∧ r = some (g.eraseSize - 2 * g.word))) ∧
        (md.cf = true → σ' = σ ∧ P' = P))
      (fun e s' => Still s s' ∧ ∃ σ' P', QI md g s' σ' P' ∧ content g.pageCount σ' P' = content g.pageCount σ P ∧
        ((e = .shutoff ∧ md.cf = false) ∨ (e = .corrupted ∧ g.pageCount = 1 ∧ σ'.m = 1)) ∧ (md.cf = true → σ' = σ ∧ P' = P)) := by
  unfold Queue.findMaxFit
  refine withRepair_sat (C := fun s1 => Still s s1 ∧ QI md g s1 σ P ∧
    ((σ.corr = true ∧ 2 ≤ g.pageCount) ∨ (g.pageCount = 1 ∧ σ.m = 1))) ?_ ?_
  · refine (findMaxFitInner_sat w h).mono ?_ ?_
    · rintro r s' ⟨h1, h2, h3, h4⟩
      exact ⟨h1, σ, P, h2, h3, rfl, fun _ => Iff.rfl, h4, fun _ => ⟨rfl, rfl⟩⟩
    · rintro e s' ⟨h1, h2, rfl, h3⟩
      exact Or.inr ⟨rfl, h1, h2, h3⟩
  · rintro s1 ⟨hst1, h1, hC⟩
    rcases (tryRepair_sat w h1).cases with ⟨_, s2, he2, hst2, σ2, P2, h2, hc2, hcon2, hroom2, hsame2⟩ | ⟨e, s2, he2, rfl, hcf, hst2, P2, σ2, h2, hcon2⟩
    · refine Sat.bind_eq he2 ((findMaxFitInner_sat w h2.qi).mono ?_ ?_)
      · rintro r s' ⟨h1, h2, h3, h4⟩
        exact ⟨(hst1.trans hst2).trans h1, σ2, P2, h2, h3, hcon2, hroom2, h4, fun hcf => hsame2 (h.fs.torn_free hcf)⟩
      · rintro e s' ⟨h1, h2, rfl, h3⟩
        refine ⟨(hst1.trans hst2).trans h1, σ2, P2, h2, hcon2, Or.inr ⟨rfl, ?_⟩, fun hcf => hsame2 (h.fs.torn_free hcf)⟩
        rcases h3 with ⟨h3, _⟩ | h3
        · rw [hc2] at h3; simp at h3
        · exact h3
    · exact Sat.of_err (bind_err he2) ⟨hst1.trans hst2, σ2, P2, h2, hcon2, Or.inl ⟨rfl, hcf⟩, fun h' => by rw [hcf] at h'; simp at h'⟩

/-! ### `space_left` -/

/-- What `space_left` counts for a page. -/
def spaceOf (g : Geo) (i : Nat) : PK → Nat
  | .blank => g.dataEnd i - g.dataStart i
  | .junk => g.dataEnd i - g.dataStart i
  | .corr => 0
  | .used true its f => if allErased (.used true its f) then g.dataEnd i - g.dataStart i else 0
  | .used false its f =>
    if (g.availableDataBytes (g.dataEnd i - f)).isNone && allErased (.used false its f) then g.dataEnd i - g.dataStart i
    else g.dataEnd i - f

theorem spaceLeftPage_sat {s : St K} (h : QG md g s σ P) {i : Nat} (hi : i < g.pageCount) :
    Sat (Queue.spaceLeftPage g i) s
      (fun v s' => v = spaceOf g i (P i) ∧ QG md g s' σ P ∧ Same s s')
      (fun e s' => e = .corrupted ∧ σ.corr = true ∧ QG md g s' σ P ∧ Same s s') := by
  unfold Queue.spaceLeftPage
  rcases (getCached w h.good hi).cases with ⟨st, s1, he1, hst, hg1, hs1, _, _, _⟩ | ⟨e, s1, he1, rfl, hst⟩
  rotate_left
  · have hc := Shape.st_err.1 hst
    exact Sat.of_err (bind_err he1) ⟨hc.1, hc.2.2.1, h, Same.refl _⟩
  refine Sat.bind_eq he1 ?_
  have h1 := hg1.same h.ok hs1 h.log
  have hpk := h1.good.fs.st i hi
  rw [hst] at hpk
  cases hP : P i with
  | corr => rw [hP] at hpk; simp [PK.st] at hpk
  | junk => exact absurd hP (h1.ok.nojunk i hi)
  | blank =>
    rw [hP] at hpk
    simp only [PK.st, Except.ok.injEq] at hpk
    subst hpk
    refine Sat.bind_eq (a := true) (s' := s1) rfl ?_
    exact Sat.pure ⟨rfl, h1, hs1⟩
  | used c its f =>
    rw [hP] at hpk
    cases c with
    | true =>
      simp only [PK.st, Except.ok.injEq] at hpk
      subst hpk
      refine Sat.bind_eq (isPageEmpty_run w h1.good hi hP) ?_
      rw [hP]
      cases hae : allErased (PK.used true its f) with
      | true => exact Sat.pure ⟨by simp [spaceOf, hae], h1, hs1⟩
      | false => exact Sat.pure ⟨by simp [spaceOf, hae], h1, hs1⟩
    | false =>
      simp only [PK.st, Except.ok.injEq] at hpk
      subst hpk
      refine Sat.bind_eq (a := false) (s' := s1) rfl ?_
      simp only [PageState.isClosed, Bool.false_and, Bool.false_eq_true, if_false]
      refine Sat.bind_eq (nextItemAddress_run w h1.good hi hP) ?_
      cases hav : g.availableDataBytes (g.dataEnd i - f) with
      | some v =>
        simp only [Option.isNone_some, Bool.false_eq_true, if_false]
        exact Sat.pure ⟨by simp [spaceOf, hav], h1, hs1⟩
      | none =>
        simp only [Option.isNone_none, if_true]
        refine Sat.bind_eq (isPageEmpty_run w h1.good hi hP) ?_
        rw [hP]
        cases hae : allErased (PK.used false its f) with
        | true => exact Sat.pure ⟨by simp [spaceOf, hae, hav], h1, hs1⟩
        | false => exact Sat.pure ⟨by simp [spaceOf, hae], h1, hs1⟩

theorem spaceLeftIn_sat (l : List Nat) : ∀ {s : St K} (_ : QG md g s σ P) (total : Nat) (_ : ∀ i ∈ l, i < g.pageCount),
    Sat (Queue.spaceLeftIn g total l) s
      (fun v s' => v = total + (l.map fun i => spaceOf g i (P i)).sum ∧ QG md g s' σ P ∧ Same s s')
      (fun e s' => e = .corrupted ∧ σ.corr = true ∧ QG md g s' σ P ∧ Same s s') := by
  induction l with
  | nil => intro s h total hl; exact Sat.pure ⟨by simp, h, Same.refl _⟩
  | cons i l ih =>
    intro s h total hl
    unfold Queue.spaceLeftIn
    rcases (spaceLeftPage_sat w h (hl i (by simp))).cases with ⟨v, s1, he1, rfl, h1, hs1⟩ | ⟨e, s1, he1, h1⟩
    · refine Sat.bind_eq he1 ((ih h1 _ (fun j hj => hl j (by simp [hj]))).mono ?_ ?_)
      · rintro v s' ⟨rfl, h2, hs2⟩
        exact ⟨by simp [Nat.add_assoc], h2, hs1.trans hs2⟩
      · rintro e s' ⟨he, hc, h2, hs2⟩
        exact ⟨he, hc, h2, hs1.trans hs2⟩
    · exact Sat.of_err (bind_err he1) h1

omit w in
theorem pages_zero : g.pages 0 = List.range g.pageCount := by
  unfold Geo.pages
  have : ∀ i ∈ List.range g.pageCount, (i + 0) % g.pageCount = id i := by
    intro i hi
    rw [List.mem_range] at hi
    exact Nat.mod_eq_of_lt hi
  rw [List.map_congr_left this, List.map_id]

theorem spaceLeftInner_sat {s : St K} (h : QI md g s σ P) :
    Sat (Queue.spaceLeftInner g) s
      (fun v s' => Still s s' ∧ QG md g s' σ P ∧ s'.cache.dirty = false ∧
        v = ((List.range g.pageCount).map fun i => spaceOf g i (P i)).sum)
      (fun e s' => Still s s' ∧ QI md g s' σ P ∧ e = .corrupted ∧ σ.corr = true) := by
  unfold Queue.spaceLeftInner
  rcases (checkDirty_sat h).cases with ⟨_, s0, he0, h0, hst0, hfl0, hd0, _⟩ | ⟨_, _, _, h'⟩
  rotate_left; · exact h'.elim
  refine Sat.bind_eq he0 ?_
  rw [pages_zero]
  rcases (spaceLeftIn_sat w (List.range g.pageCount) h0 0 (fun i hi => by simpa using hi)).cases with
    ⟨v, s1, he1, rfl, h1, hs1⟩ | ⟨e, s1, he1, rfl, hc, h1, hs1⟩
  · refine Sat.bind_eq he1 ?_
    rcases (unmark_sat h1).cases with ⟨_, s2, he2, hq2, hf2, _, hd2⟩ | ⟨_, _, _, h'⟩
    · exact Sat.bind_eq he2 (Sat.pure ⟨(hst0.trans hs1.still).trans hf2.still, hq2, hd2, by simp⟩)
    · exact h'.elim
  · exact Sat.of_err (bind_err he1) ⟨hst0.trans hs1.still, h1.qi, rfl, hc⟩

/-- `space_left`. -/
theorem spaceLeft_sat {s : St K} (h : QI md g s σ P) :
    Sat (Queue.spaceLeft g) s
      (fun v s' => Still s s' ∧ ∃ σ' P', QG md g s' σ' P' ∧ s'.cache.dirty = false ∧
        content g.pageCount σ' P' = content g.pageCount σ P ∧ (∀ len, Room g σ' P' len ↔ Room g σ P len) ∧
        v = ((List.range g.pageCount).map fun i => spaceOf g i (P' i)).sum ∧ (md.cf = true → σ' = σ ∧ P' = P))
      (fun e s' => Still s s' ∧ ∃ σ' P', QI md g s' σ' P' ∧ content g.pageCount σ' P' = content g.pageCount σ P ∧
        e = .shutoff ∧ md.cf = false) := by
  unfold Queue.spaceLeft
  refine withRepair_sat (C := fun s1 => Still s s1 ∧ QI md g s1 σ P ∧ σ.corr = true) ?_ ?_
  · refine (spaceLeftInner_sat w h).mono ?_ ?_
    · rintro r s' ⟨h1, h2, h3, h4⟩
      exact ⟨h1, σ, P, h2, h3, rfl, fun _ => Iff.rfl, h4, fun _ => ⟨rfl, rfl⟩⟩
    · rintro e s' ⟨h1, h2, rfl, h3⟩
      exact Or.inr ⟨rfl, h1, h2, h3⟩
  · rintro s1 ⟨hst1, h1, hC⟩
    rcases (tryRepair_sat w h1).cases with ⟨_, s2, he2, hst2, σ2, P2, h2, hc2, hcon2, hroom2, hsame2⟩ | ⟨e, s2, he2, rfl, hcf, hst2, P2, σ2, h2, hcon2⟩
    · refine Sat.bind_eq he2 ((spaceLeftInner_sat w h2.qi).mono ?_ ?_)
      · rintro r s' ⟨h1, h2, h3, h4⟩
        refine ⟨(hst1.trans hst2).trans h1, σ2, P2, h2, h3, hcon2, hroom2, h4, fun hcf => ?_⟩
        have := h.fs.torn_free hcf
        rw [this] at hC; simp at hC
      · rintro e s' ⟨h1, h2, rfl, h3⟩
        rw [hc2] at h3; simp at h3
    · exact Sat.of_err (bind_err he2) ⟨hst1.trans hst2, σ2, P2, h2, hcon2, rfl, hcf⟩
end
end SeqStorage
