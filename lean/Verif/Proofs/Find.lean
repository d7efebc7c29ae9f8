import Verif.Proofs.Items
import Verif.Model.Queue
/-
Searching pages by state.
-/

set_option linter.unusedSectionVars false

namespace SeqStorage
open M

variable {K : Type} [DecidableEq K] {α β : Type}
variable {md : Mode} {g : Geo} {σ σ' : Shape} {P P' : Nat → PK}

theorem pages_eq {start : Nat} (hs : start < g.pageCount) :
    g.pages start = (List.range g.pageCount).map (ringPage g.pageCount start) := by
  unfold Geo.pages
  apply List.map_congr_left
  intro j hj
  rw [List.mem_range] at hj
  unfold ringPage
  split
  · rw [Nat.mod_eq_of_lt (by omega)]; omega
  · rw [Nat.mod_eq_sub_mod (by omega), Nat.mod_eq_of_lt (by omega)]; omega

theorem find_ring_some {n s j : Nat} {p : Nat → Bool} (hj : j < n) (h : p (ringPage n s j) = true)
    (hb : ∀ k, k < j → p (ringPage n s k) = false) :
    ((List.range n).map (ringPage n s)).find? p = some (ringPage n s j) := by
  rw [List.find?_map]
  have : (List.range n).find? (p ∘ ringPage n s) = some j := by
    rw [List.find?_range_eq_some]
    exact ⟨h, List.mem_range.2 hj, fun k hk => by simp [hb k hk]⟩
  rw [this]; rfl

theorem find_ring_none {n s : Nat} {p : Nat → Bool} (h : ∀ j, j < n → p (ringPage n s j) = false) :
    ((List.range n).map (ringPage n s)).find? p = none := by
  rw [List.find?_eq_none]
  intro x hx
  obtain ⟨j, hj, rfl⟩ := List.mem_map.1 hx
  rw [h j (List.mem_range.1 hj)]; simp

theorem range_split {n j : Nat} (hj : j < n) : ∃ post, List.range n = List.range j ++ j :: post := by
  refine ⟨(List.range (n - j - 1)).map (fun x => j + 1 + x), ?_⟩
  have h1 : n = j + (1 + (n - j - 1)) := by omega
  conv => lhs; rw [h1, List.range_add]
  congr 1
  rw [List.range_add]
  simp [List.range_one, Function.comp_def, Nat.add_assoc]

/-- The shift between two starting points of the ring. -/
theorem ringPos_ringPage {n o s j : Nat} (ho : o < n) (hs : s < n) (hj : j < n) :
    ringPos n o (ringPage n s j) =
      if ringPos n o s + j < n then ringPos n o s + j else ringPos n o s + j - n := by
  unfold ringPos ringPage
  repeat' split
  all_goals omega

variable (w : g.WF)
include w

theorem findFirstIn_sat {s : St K} (h : Good md g s σ P) (st : PageState) (l : List Nat)
    (hl : ∀ i ∈ l, i < g.pageCount) :
    Sat (findFirstIn g st l) s
      (fun r s' => r = l.find? (fun i => decide (σ.st g.pageCount i = .ok st)) ∧ Good md g s' σ P ∧ Same s s' ∧
        (∀ a, Anchored a s.cache.ps → Anchored a s'.cache.ps) ∧
        (∀ pre i post, l = pre ++ i :: post → (∀ x ∈ pre, σ.st g.pageCount x ≠ .ok st) →
          ∃ t, σ.st g.pageCount i = .ok t) ∧
        (st = .partialOpen → ∀ i, r = some i → Anchored i s'.cache.ps))
      (fun e s' => e = .corrupted ∧ σ.corr = true ∧ Good md g s' σ P ∧ Same s s') := by
  induction l generalizing s with
  | nil =>
    exact Sat.pure ⟨rfl, h, .refl s, fun _ h => h, fun pre i post h => by simp at h, fun _ i h => by simp at h⟩
  | cons i l ih =>
    unfold findFirstIn
    rcases (getCached w h (hl i (by simp))).cases with ⟨t, s1, he, ht, hg, hsame, hanp, hank, _⟩ | ⟨e, s1, he, hs, ht⟩
    · refine Sat.bind_eq he ?_
      by_cases hst : st = t
      · subst hst
        rw [if_pos rfl]
        refine Sat.pure ⟨?_, hg, hsame, fun a h => (hank a h).1, ?_, ?_⟩
        · rw [List.find?_cons_of_pos (by simp [ht])]
        · intro pre j post hp hx
          cases pre with
          | nil => simp only [List.nil_append, List.cons.injEq] at hp; rw [← hp.1]; exact ⟨_, ht⟩
          | cons y pre =>
            simp only [List.cons_append, List.cons.injEq] at hp
            exact absurd (hp.1 ▸ ht) (hx y (by simp))
        · intro hst i' hi'
          simp only [Option.some.injEq] at hi'
          rw [← hi']; exact hanp hst
      · rw [if_neg hst]
        refine (ih hg (fun j hj => hl j (by simp [hj]))).mono ?_ ?_
        · rintro r s' ⟨h1, h2, h3, h4, h5, h6⟩
          refine ⟨?_, h2, hsame.trans h3, fun a ha => h4 a (hank a ha).1, ?_, h6⟩
          · rw [List.find?_cons_of_neg (by simp [ht]; exact fun h => hst h.symm)]; exact h1
          · intro pre j post hp hx
            cases pre with
            | nil => simp only [List.nil_append, List.cons.injEq] at hp; rw [← hp.1]; exact ⟨_, ht⟩
            | cons y pre =>
              simp only [List.cons_append, List.cons.injEq] at hp
              exact h5 pre j post hp.2 (fun x hx' => hx x (by simp [hx']))
        · rintro e s' ⟨h1, h2, h3, h4⟩
          exact ⟨h1, h2, h3, hsame.trans h4⟩
    · subst hs
      have := Shape.st_err.1 ht
      exact Sat.of_err (bind_err he) ⟨this.1, this.2.2.1, h, .refl _⟩

/-- `find_first_page`, in terms of the distance from the starting page. -/
theorem findFirst_sat {s : St K} (h : Good md g s σ P) {start : Nat} (hs : start < g.pageCount) (st : PageState) :
    Sat (findFirstPage g start st) s
      (fun r s' => Good md g s' σ P ∧ Same s s' ∧ (∀ a, Anchored a s.cache.ps → Anchored a s'.cache.ps) ∧
        (st = .partialOpen → ∀ i, r = some i → Anchored i s'.cache.ps) ∧
        (∀ j, j < g.pageCount → (∀ k, k < j → σ.st g.pageCount (ringPage g.pageCount start k) ≠ .ok st) →
          (∃ t, σ.st g.pageCount (ringPage g.pageCount start j) = .ok t) ∧
          (σ.st g.pageCount (ringPage g.pageCount start j) = .ok st → r = some (ringPage g.pageCount start j))) ∧
        ((∀ j, j < g.pageCount → σ.st g.pageCount (ringPage g.pageCount start j) ≠ .ok st) → r = none))
      (fun e s' => e = .corrupted ∧ σ.corr = true ∧ Good md g s' σ P ∧ Same s s') := by
  unfold findFirstPage
  refine (findFirstIn_sat w h st _ (fun i hi => (mem_pages hs).1 hi)).mono ?_ (fun e s' h => h)
  rintro r s' ⟨h1, h2, h3, h4, h5, h6⟩
  rw [pages_eq hs] at h1 h5
  refine ⟨h2, h3, h4, h6, ?_, ?_⟩
  · intro j hj hk
    constructor
    · obtain ⟨post, hp⟩ := range_split hj
      refine h5 ((List.range j).map (ringPage g.pageCount start)) _ (post.map (ringPage g.pageCount start)) ?_ ?_
      · rw [hp]; simp
      · intro x hx
        obtain ⟨k, hk', rfl⟩ := List.mem_map.1 hx
        exact hk k (List.mem_range.1 hk')
    · intro hst
      rw [h1]
      exact find_ring_some hj (by simp [hst]) (fun k hk' => by simp [hk k hk'])
  · intro hn
    rw [h1]
    exact find_ring_none (fun j hj => by simp [hn j hj])

omit w in
theorem front_zero (wf : σ.WF g.pageCount) (hp : σ.part = false) (hm : σ.m = 0) : σ.front g.pageCount = 0 := by
  have ho := (wf.empty hm).1
  have := wf.o_lt
  unfold Shape.front
  rw [hp, hm, ho]
  exact ringPage_zero (by omega)

/-- `find_youngest_page`. -/
theorem findYoungest_sat {s : St K} (h : Good md g s σ P) :
    Sat (Queue.findYoungest g) s
      (fun r s' => r = σ.front g.pageCount ∧ (σ.part = false → σ.corr = false) ∧ Good md g s' σ P ∧ Same s s' ∧
        (σ.part = true → Anchored (σ.front g.pageCount) s'.cache.ps))
      (fun e s' => e = .corrupted ∧ σ.corr = true ∧ Good md g s' σ P ∧ Same s s') := by
  have wf := h.fs.wf
  have ho := wf.o_lt
  have hml := wf.m_le
  have hfl := Shape.front_lt wf
  have hfp := CalcOk.front_pos wf
  have h0 : 0 < g.pageCount := by omega
  unfold Queue.findYoungest
  rcases (findFirst_sat w h h0 .partialOpen).cases with ⟨r, s1, he, hg, hsame, _, hanc, hfind, hnone⟩ | ⟨e, s1, he, hE⟩
  · refine Sat.bind_eq he ?_
    cases hp : σ.part with
    | true =>
      have hst := CalcOk.st_front wf (fun h => by rw [hp] at h; simp at h)
      rw [hp, if_pos rfl] at hst
      have hr : r = some (σ.front g.pageCount) := by
        have e0 : ringPage g.pageCount 0 (σ.front g.pageCount) = σ.front g.pageCount := by
          unfold ringPage; rw [if_pos (by omega)]; omega
        have := (hfind (σ.front g.pageCount) hfl (fun k hk h' => by
          have := CalcOk.front_of_part wf (ringPage_lt h0 (by omega)) h'
          rw [← e0] at this
          have := ringPage_inj h0 (by omega) hfl this
          omega)).2
        rw [e0] at this
        exact this hst
      subst hr
      exact Sat.pure ⟨rfl, by simp, hg, hsame, fun _ => hanc rfl _ rfl⟩
    | false =>
      have hnp : ∀ i, σ.st g.pageCount i ≠ .ok .partialOpen := by
        intro i hi; rw [Shape.st_part, hp] at hi; simp at hi
      have hr := hnone (fun j hj => hnp _)
      subst hr
      have hcorr : σ.corr = false := by
        cases hc : σ.corr with
        | false => rfl
        | true =>
          have ht := torn_st wf hc
          have htl := torn_lt (g := g) wf
          have e0 : ringPage g.pageCount 0 (σ.torn g.pageCount) = σ.torn g.pageCount := by
            unfold ringPage; rw [if_pos (by omega)]; omega
          obtain ⟨t, ht'⟩ := (hfind _ htl (fun k hk => hnp _)).1
          rw [e0, ht] at ht'; simp at ht'
      rcases (findFirst_sat w hg h0 .closed).cases with ⟨r, s2, he2, hg2, hsame2, _, _, hfind2, hnone2⟩ | ⟨e, s2, _, hE2⟩
      · refine Sat.bind_eq he2 ?_
        have hm : σ.m < g.pageCount := by
          rcases Nat.lt_or_ge σ.m g.pageCount with h' | h'
          · exact h'
          · have := (wf.full (by omega)).1; rw [hp] at this; simp at this
        rw [hp] at hfp
        simp only [Bool.false_eq_true, if_false] at hfp
        by_cases hm0 : σ.m = 0
        · have hr := hnone2 (fun j hj h' => by rw [Shape.st_closed, hm0] at h'; omega)
          subst hr
          exact Sat.pure ⟨(front_zero wf hp hm0).symm, fun _ => hcorr, hg2, hsame.trans hsame2, by simp⟩
        · -- some closed page
          have hex : ∃ a, r = some a ∧ a < g.pageCount ∧ σ.st g.pageCount a = .ok .closed := by
            have hcl : σ.st g.pageCount (ringPage g.pageCount 0 σ.o) = .ok .closed := by
              have e0 : ringPage g.pageCount 0 σ.o = σ.o := by unfold ringPage; rw [if_pos (by omega)]; omega
              rw [e0, Shape.st_closed]
              have : ringPos g.pageCount σ.o σ.o = 0 := by unfold ringPos; simp
              rw [this]; simp [hp]; omega
            have hle : ∀ j, j ≤ σ.o → (∃ k, k < j ∧ σ.st g.pageCount (ringPage g.pageCount 0 k) = .ok .closed ∧
                ∀ k', k' < k → σ.st g.pageCount (ringPage g.pageCount 0 k') ≠ .ok .closed) ∨
                ∀ k, k < j → σ.st g.pageCount (ringPage g.pageCount 0 k) ≠ .ok .closed := by
              intro j
              induction j with
              | zero => intro _; right; omega
              | succ j ih =>
                intro hj
                rcases ih (by omega) with ⟨k, h1, h2⟩ | h1
                · exact Or.inl ⟨k, by omega, h2⟩
                · by_cases hc : σ.st g.pageCount (ringPage g.pageCount 0 j) = .ok .closed
                  · exact Or.inl ⟨j, by omega, hc, h1⟩
                  · right
                    intro k hk
                    by_cases hkj : k = j
                    · subst hkj; exact hc
                    · exact h1 k (by omega)
            rcases hle σ.o (Nat.le_refl _) with ⟨k, h1, h2, h3⟩ | h1
            · exact ⟨_, (hfind2 k (by omega) h3).2 h2, ringPage_lt h0 (by omega), h2⟩
            · exact ⟨_, (hfind2 σ.o ho h1).2 hcl, ringPage_lt h0 ho, hcl⟩
          obtain ⟨a, rfl, hal, hac⟩ := hex
          rw [Shape.st_closed] at hac
          have hshift : ∀ j, ringPos g.pageCount σ.o a + j < g.pageCount →
              ringPos g.pageCount σ.o (ringPage g.pageCount a j) = ringPos g.pageCount σ.o a + j := by
            intro j hj
            rw [ringPos_ringPage ho hal (by omega), if_pos hj]
          rcases (findFirst_sat w hg2 hal .open).cases with ⟨r, s3, he3, hg3, hsame3, _, _, hfind3, _⟩ | ⟨e, s3, _, hE3⟩
          · have hfr : ringPage g.pageCount a (σ.m - ringPos g.pageCount σ.o a) = σ.front g.pageCount := by
              rw [← ringPage_pos ho (ringPage_lt hal (by omega : σ.m - ringPos g.pageCount σ.o a < g.pageCount)),
                hshift _ (by omega), ← ringPage_pos ho hfl, hfp]
              congr 1; omega
            have := (hfind3 (σ.m - ringPos g.pageCount σ.o a) (by omega) (fun k hk h' => by
              rw [Shape.st_open, hshift _ (by omega)] at h'; omega)).2 (by
                rw [Shape.st_open, hshift _ (by omega)]
                exact ⟨by omega, by simp [hcorr]⟩)
            rw [hfr] at this
            subst this
            refine Sat.bind_eq he3 ?_
            exact Sat.pure ⟨rfl, fun _ => hcorr, hg3, (hsame.trans hsame2).trans hsame3, by simp⟩
          · rw [hcorr] at hE3; simp at hE3
      · rw [hcorr] at hE2; simp at hE2
  · exact Sat.of_err (bind_err he) hE

/-- `find_oldest_page`. -/
theorem findOldest_sat {s : St K} (h : Good md g s σ P) :
    Sat (Queue.findOldest g) s
      (fun r s' => r = σ.o ∧ σ.corr = false ∧ Good md g s' σ P ∧ Same s s')
      (fun e s' => e = .corrupted ∧ σ.corr = true ∧ Good md g s' σ P ∧ Same s s') := by
  have wf := h.fs.wf
  have ho := wf.o_lt
  have hml := wf.m_le
  have hfl := Shape.front_lt wf
  have hfp := CalcOk.front_pos wf
  have hmp := wf.part_pos
  have hfull := wf.full
  unfold Queue.findOldest
  rcases (findYoungest_sat w h).cases with ⟨r, s1, he, hr, hpc, hg, hsame, _⟩ | ⟨e, s1, he, hE⟩
  · refine Sat.bind_eq he ?_
    subst hr
    rcases (findFirst_sat w hg hfl .closed).cases with ⟨r, s2, he2, hg2, hsame2, _, _, hfind, hnone⟩ | ⟨e, s2, he2, h1, h2, h3, h4⟩
    · refine Sat.bind_eq he2 ?_
      refine Sat.pure ⟨?_, ?_, hg2, hsame.trans hsame2⟩
      · -- the result
        by_cases h2 : (if σ.part then 2 else 1) ≤ σ.m
        · have hq : ringPos g.pageCount σ.o (σ.front g.pageCount) < g.pageCount := ringPos_lt ho hfl
          have hq0 : 0 < ringPos g.pageCount σ.o (σ.front g.pageCount) := by rw [hfp]; split <;> split at h2 <;> simp_all <;> omega
          have hoeq : ringPage g.pageCount (σ.front g.pageCount)
              (g.pageCount - ringPos g.pageCount σ.o (σ.front g.pageCount)) = σ.o := by
            rw [← ringPage_pos ho (ringPage_lt hfl (by omega :
              g.pageCount - ringPos g.pageCount σ.o (σ.front g.pageCount) < g.pageCount)),
              ringPos_ringPage ho hfl (by omega), if_neg (by omega)]
            have : ringPos g.pageCount σ.o (σ.front g.pageCount) +
              (g.pageCount - ringPos g.pageCount σ.o (σ.front g.pageCount)) - g.pageCount = 0 := by omega
            rw [this, ringPage_zero ho]
          have := (hfind (g.pageCount - ringPos g.pageCount σ.o (σ.front g.pageCount)) (by omega) (fun k hk h' => by
            rw [Shape.st_closed, ringPos_ringPage ho hfl (by omega), if_pos (by omega), hfp] at h'
            split at h' <;> simp_all <;> omega)).2 (by
              rw [hoeq, Shape.st_closed]
              have : ringPos g.pageCount σ.o σ.o = 0 := by unfold ringPos; simp
              rw [this]
              split at h2
              · exact ⟨by omega, by omega⟩
              · rename_i hp; simp [hp]; omega)
          rw [this, hoeq]; rfl
        · have hn := hnone (fun j hj h' => by
            rw [Shape.st_closed] at h'
            split at h2
            · rename_i hp; have := hmp hp; simp [hp] at h'; omega
            · omega)
          rw [hn]
          simp only [Option.getD_none]
          rw [← ringPage_pos ho hfl, hfp]
          have : (if σ.part = true then σ.m - 1 else σ.m) = 0 := by split at h2 <;> simp_all <;> omega
          rw [this, ringPage_zero ho]
      · -- no torn page
        cases hc : σ.corr with
        | false => rfl
        | true =>
          exfalso
          cases hp : σ.part with
          | false => have := hpc hp; rw [hc] at this; simp at this
          | true =>
            have hm1 := hmp hp
            have hmn : σ.m ≠ g.pageCount := fun h => by have := (hfull h).2; rw [hc] at this; simp at this
            have ht := torn_st wf hc
            have htl := torn_lt (g := g) wf
            rw [hp, if_pos rfl] at hfp
            have htor : ringPage g.pageCount (σ.front g.pageCount) (g.pageCount - σ.m) = σ.torn g.pageCount := by
              rw [← ringPage_pos ho (ringPage_lt hfl (by omega : g.pageCount - σ.m < g.pageCount)),
                ringPos_ringPage ho hfl (by omega), if_pos (by omega), Shape.torn, hfp]
              congr 1; omega
            obtain ⟨t, ht'⟩ := (hfind (g.pageCount - σ.m) (by omega) (fun k hk h' => by
              rw [Shape.st_closed, ringPos_ringPage ho hfl (by omega), if_pos (by omega), hfp, hp] at h'
              simp at h'; omega)).1
            rw [htor, ht] at ht'; simp at ht'
    · exact Sat.of_err (bind_err he2) ⟨h1, h2, h3, hsame.trans h4⟩
  · exact Sat.of_err (bind_err he) hE

end SeqStorage
