import Verif.Proofs.Paged
import Verif.Spec.Erases
/-
Counting the erases of a queue.
-/

set_option linter.unusedSectionVars false

namespace SeqStorage
open M Spec

variable {K : Type} [DecidableEq K]
variable {md : Mode} {g : Geo} {σ σ' : Shape} {P P' : Nat → PK} {n : Nat}

theorem nextA_count (blen : Nat) (prev : PrevItems) (k : Nat) : ∀ {σ : Shape} {P : Nat → PK} {j : Nat} {post : List It},
    k ≤ σ.m - 1 → (nextA g blen prev k σ P j post).2.1.d + (nextA g blen prev k σ P j post).2.1.m = σ.d + σ.m := by
  induction k with
  | zero =>
    intro σ P j post hk
    rw [nextA.eq_def]
    dsimp only
    split
    · split <;> rfl
    · rfl
  | succ k ih =>
    intro σ P j post hk
    rw [nextA.eq_def]
    dsimp only
    split
    · split <;> rfl
    · split
      · rw [ih (by simp only [Shape.dropOldest]; omega)]
        simp only [Shape.dropOldest]; omega
      · exact ih (by omega)

theorem popA_count (blen : Nat) : (popA g σ P blen).2.1.d + (popA g σ P blen).2.1.m = σ.d + σ.m := by
  have := nextA_count (g := g) blen .allPopped (σ.m - 1) (σ := σ) (P := P) (j := 0) (post := (P σ.o).its) (Nat.le_refl _)
  unfold popA startA
  split <;> rename_i h <;> rw [h] at this <;> exact this

theorem peekA_count (blen : Nat) : (peekA g σ P blen).2.1.d + (peekA g σ P blen).2.1.m = σ.d + σ.m := by
  have := nextA_count (g := g) blen .allPopped (σ.m - 1) (σ := σ) (P := P) (j := 0) (post := (P σ.o).its) (Nat.le_refl _)
  unfold peekA startA
  split <;> rename_i h <;> rw [h] at this <;> exact this

theorem iterStepsA_count (steps : List (List Byte × Bool)) : ∀ {all : Bool} {σ : Shape} {P : Nat → PK} {j : Nat} {post : List It},
    (iterStepsA g steps all σ P j post).2.1.d + (iterStepsA g steps all σ P j post).2.1.m = σ.d + σ.m := by
  induction steps with
  | nil => intro all σ P j post; rfl
  | cons x steps ih =>
    obtain ⟨b, p⟩ := x
    intro all σ P j post
    have := nextA_count (g := g) b.length (if all then .allPopped else .unpopped) (σ.m - (j + 1)) (σ := σ) (P := P) (j := j)
      (post := post) (by omega)
    rw [iterStepsA]
    split <;> rename_i h <;> rw [h] at this <;> dsimp only at this ⊢
    · rw [ih]; exact this
    · split
      · rw [ih]; exact this
      · rw [ih]; exact this
    · rw [ih]; exact this

section
variable (w : g.WF)
include w

theorem pushA_count {s : St K} (hcf : md.cf = true) (h : QI md g s σ P) (hpk : Packed σ)
    (d : List Byte) (allow : Bool) {r : Except Err Unit} (he : pushA g σ P d allow = (r, σ', P')) :
    σ'.d + σ'.m = σ.d + σ.m + startsPage (ρ := Cache K) g.word g.eraseSize (pagesOf g.pageCount σ P) (.push d allow)
      (r.map fun _ => .done) := by
  have wf := h.fs.wf
  have hml := wf.m_le
  unfold pushA at he
  by_cases htb : g.tooBig d.length = true
  · rw [if_pos htb] at he
    obtain ⟨rfl, rfl, rfl⟩ : _ ∧ _ ∧ _ := by simpa using he
    rfl
  have htb : g.tooBig d.length = false := by simpa using htb
  have hfp := (fitsPage_iff w (d := d)).2 htb
  rw [if_neg (by rw [htb]; simp)] at he
  cases hp : σ.part with
  | false =>
    have hm0 := hpk hp
    have hnil : pagesOf g.pageCount σ P = [] := by rw [← List.length_eq_zero_iff]; simpa using hm0
    have hbl : P (σ.front g.pageCount) = .blank := by
      unfold Shape.front; rw [hp]; simp only [Bool.false_eq_true, if_false]
      exact page_blank w hcf h (Nat.le_refl _) (by have := wf.o_lt; omega)
    have hfits : Fits g (σ.front g.pageCount) (freeOf g (σ.front g.pageCount) (P (σ.front g.pageCount))) d.length := by
      rw [hbl]
      have := page_eq w (σ.front g.pageCount)
      have h2 := hfp.2
      rw [itemSize_eq] at h2
      unfold foot at h2
      show g.dataStart (σ.front g.pageCount) + _ + _ ≤ _
      omega
    rw [if_pos hfits] at he
    obtain ⟨rfl, rfl, rfl⟩ : _ ∧ _ ∧ _ := by simpa using he
    rw [hnil]
    have hS : prepS σ = σ.openFront := by unfold prepS; rw [hp]; simp
    rw [hS]
    simp [startsPage, Except.map, Shape.openFront]; omega
  | true =>
    have hm1 := wf.part_pos hp
    have hS : prepS σ = σ := by unfold prepS; rw [hp]; simp
    have hP : prepP g σ P = P := by unfold prepP; rw [hp]; simp
    have hfr : σ.front g.pageCount = ringPage g.pageCount σ.o (σ.m - 1) := by unfold Shape.front; rw [hp, if_pos rfl]
    obtain ⟨c, its, f, hpg, hf, hfe, hfd, hc⟩ := page_free w hcf h (j := σ.m - 1) (by omega)
    rw [← hfr] at hpg hf hfe
    have hits : (P (σ.front g.pageCount)).its = its := by rw [hpg]; rfl
    rw [hS, hP, hpg] at he
    have hfit : Fits g (σ.front g.pageCount) (freeOf g (σ.front g.pageCount) (.used c its f)) d.length ↔
        taken g.word (slots its) + itemSize g.word d + 2 * g.word ≤ g.eraseSize := by
      have := page_eq w (σ.front g.pageCount)
      rw [itemSize_eq]
      unfold foot
      show f + _ + _ ≤ _ ↔ _
      omega
    have hst : ∀ x : QAnswer, startsPage (ρ := Cache K) g.word g.eraseSize (pagesOf g.pageCount σ P) (.push d allow) (.ok x) =
        if taken g.word (slots its) + itemSize g.word d + 2 * g.word ≤ g.eraseSize then 0 else 1 := by
      intro x
      unfold startsPage
      rw [pagesOf_last hm1, ← hfr, hits]
    by_cases hfi : Fits g (σ.front g.pageCount) (freeOf g (σ.front g.pageCount) (.used c its f)) d.length
    · rw [if_pos hfi] at he
      obtain ⟨rfl, rfl, rfl⟩ : _ ∧ _ ∧ _ := by simpa using he
      simp only [Except.map]
      rw [hst, if_pos (hfit.1 hfi)]
      rfl
    rw [if_neg hfi] at he
    have hno := fun hx => hfi (hfit.2 hx)
    unfold advA at he
    by_cases hmn : σ.m < g.pageCount
    · rw [if_pos hmn] at he
      obtain ⟨rfl, rfl, rfl⟩ : _ ∧ _ ∧ _ := by simpa using he
      simp only [Except.map]
      rw [hst, if_neg hno]
      simp [turnS, Shape.openFront, Shape.closeFront]; omega
    rw [if_neg hmn] at he
    by_cases hn1 : g.pageCount = 1
    · rw [if_pos hn1] at he
      cases allow with
      | true =>
        rw [if_pos rfl] at he
        obtain ⟨rfl, rfl, rfl⟩ : _ ∧ _ ∧ _ := by simpa using he
        simp only [Except.map]
        rw [hst, if_neg hno]
        simp [prepS, Shape.dropOnly, Shape.openFront]; omega
      | false =>
        obtain ⟨rfl, rfl, rfl⟩ : _ ∧ _ ∧ _ := by simpa using he
        rfl
    · rw [if_neg hn1] at he
      by_cases ha : allow = true ∨ allErased (P σ.o) = true
      · rw [if_pos ha] at he
        obtain ⟨rfl, rfl, rfl⟩ : _ ∧ _ ∧ _ := by simpa using he
        simp only [Except.map]
        rw [hst, if_neg hno]
        simp [turnS, Shape.openFront, Shape.closeFront, Shape.dropOldest]; omega
      · rw [if_neg ha] at he
        obtain ⟨rfl, rfl, rfl⟩ : _ ∧ _ ∧ _ := by simpa using he
        rfl

theorem qcallA_count {s : St K} (hcf : md.cf = true) (h : QI md g s σ P) (hpk : Packed σ)
    (c : QCall (Cache K)) {r : Except Err QAnswer} (he : qcallA g σ P c = (r, σ', P')) :
    σ'.d + σ'.m = σ.d + σ.m + startsPage g.word g.eraseSize (pagesOf g.pageCount σ P) c r := by
  cases c with
  | push d allow =>
    rcases hA : pushA g σ P d allow with ⟨r1, σ1, P1⟩
    simp only [qcallA, hA] at he
    obtain ⟨rfl, rfl, rfl⟩ : _ ∧ _ ∧ _ := by simpa using he
    exact pushA_count w hcf h hpk d allow hA
  | pop b =>
    have := popA_count (g := g) (σ := σ) (P := P) b.length
    simp only [qcallA, Prod.mk.injEq] at he
    obtain ⟨rfl, he⟩ := he
    rw [he] at this; exact this
  | peek b =>
    have := peekA_count (g := g) (σ := σ) (P := P) b.length
    simp only [qcallA, Prod.mk.injEq] at he
    obtain ⟨rfl, he⟩ := he
    rw [he] at this; exact this
  | iterate steps =>
    have := iterStepsA_count (g := g) steps (all := true) (σ := σ) (P := P) (j := 0) (post := (P σ.o).its)
    simp only [qcallA, Prod.mk.injEq] at he
    obtain ⟨rfl, he⟩ := he
    rw [he] at this; exact this
  | maxFit =>
    simp only [qcallA] at he
    obtain ⟨rfl, rfl, rfl⟩ : _ ∧ _ ∧ _ := by simpa using he
    rfl
  | spaceLeft =>
    simp only [qcallA] at he
    obtain ⟨rfl, rfl, rfl⟩ : _ ∧ _ ∧ _ := by simpa using he
    rfl
  | restart c =>
    simp only [qcallA] at he
    obtain ⟨rfl, rfl, rfl⟩ : _ ∧ _ ∧ _ := by simpa using he
    rfl

theorem qrun_count (hcf : md.cf = true) (hdm : md.dmg = false) (cs : List (QCall (Cache K))) :
    ∀ {s : St K} {σ : Shape} {P : Nat → PK}, QI md g s σ P → Packed σ →
      (∀ c ∈ cs, Documented g c) → (md.np = true → ∀ c ∈ cs, Harmless c) →
      ∃ σ' P', QI md g (qrun g cs s).2 σ' P' ∧
        Runs (eraseStep g.word g.eraseSize g.pageCount) (pagesOf g.pageCount σ P, σ.d) cs (qrun g cs s).1
          (pagesOf g.pageCount σ' P', σ'.d) := by
  induction cs with
  | nil => intro s σ P h hp _ _; exact ⟨σ, P, h, rfl, rfl⟩
  | cons c cs ih =>
    intro s σ P h hp h1 h2
    obtain ⟨σ1, P1, hq1, hA1, hs1⟩ := qcall_det w hcf h c (h1 c (by simp)) (fun hn => h2 hn c (by simp)) hdm
    obtain ⟨hp1, hpk1⟩ := qcallA_paged w hcf hdm h hp c hA1
    have hc1 := qcallA_count w hcf h hp c hA1
    obtain ⟨σ2, P2, hq2, hr⟩ := ih hq1 hpk1 (fun c hc => h1 c (by simp [hc])) (fun hn c hc => h2 hn c (by simp [hc]))
    refine ⟨σ2, P2, hq2, _, _, (pagesOf g.pageCount σ1 P1, σ1.d), rfl, ⟨hp1, ?_⟩, hr⟩
    simpa using hc1

end
end SeqStorage
