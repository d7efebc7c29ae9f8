import Verif.Model.Cache
import Verif.Spec.PageRing
/-
The page state caches know only true things about the ring of pages.
-/

set_option linter.unusedSectionVars false

namespace SeqStorage

section ring
variable {n o i j : Nat}

theorem ringPos_lt (ho : o < n) (hi : i < n) : ringPos n o i < n := by unfold ringPos; split <;> omega
theorem ringPage_lt (ho : o < n) (hj : j < n) : ringPage n o j < n := by unfold ringPage; split <;> omega
theorem ringPos_page (ho : o < n) (hj : j < n) : ringPos n o (ringPage n o j) = j := by
  unfold ringPos ringPage; split <;> split <;> omega
theorem ringPage_pos (ho : o < n) (hi : i < n) : ringPage n o (ringPos n o i) = i := by
  unfold ringPos ringPage; split <;> split <;> omega
theorem ringPage_inj {k : Nat} (ho : o < n) (hj : j < n) (hk : k < n) (h : ringPage n o j = ringPage n o k) : j = k := by
  rw [← ringPos_page ho hj, h, ringPos_page ho hk]
theorem ringPage_zero (ho : o < n) : ringPage n o 0 = o := by unfold ringPage; rw [if_pos (by omega)]; rfl
theorem ringPage_succ (ho : o < n) (hj : j + 1 < n) : (ringPage n o j + 1) % n = ringPage n o (j + 1) := by
  unfold ringPage
  split
  · rename_i h
    by_cases h1 : o + j + 1 < n
    · rw [Nat.mod_eq_of_lt h1, if_pos (by omega)]; omega
    · have : o + j + 1 = n := by omega
      rw [this, Nat.mod_self, if_neg (by omega)]; omega
  · rw [Nat.mod_eq_of_lt (by omega), if_neg (by omega)]; omega
theorem ringPage_last (ho : o < n) : (ringPage n o (n - 1) + 1) % n = o := by
  unfold ringPage
  by_cases h : o = 0
  · subst h
    rw [if_pos (by omega)]
    have : 0 + (n - 1) + 1 = n := by omega
    rw [this, Nat.mod_self]
  · rw [if_neg (by omega), Nat.mod_eq_of_lt (by omega)]; omega
/-- Shifting the start of the ring by one page. -/
theorem ringPage_shift (ho : o < n) (hj : j + 1 < n) : ringPage n (ringPage n o 1) j = ringPage n o (j + 1) := by
  unfold ringPage; repeat' split
  all_goals omega
theorem ringPage_shift_last (ho : o < n) (hn : 1 < n) : ringPage n (ringPage n o 1) (n - 1) = o := by
  unfold ringPage; repeat' split
  all_goals omega
theorem succ_mod (h : i < n) : (i + 1) % n = if i + 1 = n then 0 else i + 1 := by
  split
  · rename_i h1; rw [h1, Nat.mod_self]
  · rw [Nat.mod_eq_of_lt (by omega)]
end ring

namespace Shape
variable {σ : Shape} {n i : Nat}

theorem st_open : σ.st n i = .ok .open ↔ σ.m ≤ ringPos n σ.o i ∧ ¬ (σ.corr = true ∧ ringPos n σ.o i + 1 = n) := by
  unfold st
  split
  · split <;> simp <;> omega
  · split
    · simp_all
    · simp_all
theorem st_closed : σ.st n i = .ok .closed ↔ ringPos n σ.o i < σ.m ∧ ¬ (σ.part = true ∧ ringPos n σ.o i + 1 = σ.m) := by
  unfold st
  split
  · split <;> simp_all
  · split <;> simp <;> omega
theorem st_part : σ.st n i = .ok .partialOpen ↔ σ.part = true ∧ ringPos n σ.o i + 1 = σ.m := by
  unfold st
  split
  · split <;> simp_all
  · split
    · simp; omega
    · simp; omega
theorem st_err {e : Err} : σ.st n i = .error e ↔ e = .corrupted ∧ σ.m ≤ ringPos n σ.o i ∧ σ.corr = true ∧ ringPos n σ.o i + 1 = n := by
  unfold st
  split
  · split <;> simp <;> omega
  · split
    · simp_all; constructor <;> intro h <;> exact h.symm
    · simp; intro _ _ h; simp_all

theorem front_lt (w : σ.WF n) : σ.front n < n := by
  unfold front
  have ho := w.o_lt
  have := w.m_le
  apply ringPage_lt ho
  split
  · omega
  · rename_i h
    have := w.full
    rcases Nat.lt_or_ge σ.m n with h' | h'
    · exact h'
    · have := (w.full (by omega)).1; exact absurd this h

end Shape

/-- What a calculated page state cache may believe. -/
inductive CalcOk (σ : Shape) (n : Nat) : CalcPS → Prop
  | fresh : CalcOk σ n (CalcPS.new n)
  | guess (a op : Nat) (ha : a < n) (h1 : 1 ≤ op) (h2 : op ≤ n)
      (hop : ∀ i, i < n → ringPos n a i < op → σ.st n i = .ok .open) :
      CalcOk σ n ⟨n, some a, false, true, 0, op⟩
  | sure (cp op : Nat) (h1 : 1 ≤ op) (h2 : op ≤ n)
      (hst : σ.part = false → σ.st n (σ.front n) = .ok .open)
      (hop : ∀ i, i < n → i ≠ σ.front n → ringPos n (σ.front n) i < op → σ.st n i = .ok .open)
      (hcl : ∀ i, i < n → i ≠ σ.front n →
        (if i ≤ σ.front n then σ.front n - i else σ.front n + 1 + n - i) ≤ cp → σ.st n i = .ok .closed) :
      CalcOk σ n ⟨n, some (σ.front n), σ.part, false, cp, op⟩

theorem inFront_eq (c : CalcPS) {a i : Nat} (ha : a < c.pageCount) : c.inFront a i = ringPos c.pageCount a i := by
  unfold CalcPS.inFront ringPos; split <;> omega

namespace CalcOk
variable {σ : Shape} {n i : Nat} {c : CalcPS}

theorem st_front (w : σ.WF n) (h : σ.part = false → σ.st n (σ.front n) = .ok .open) :
    σ.st n (σ.front n) = .ok (if σ.part then .partialOpen else .open) := by
  cases hp : σ.part with
  | false => simpa using h hp
  | true =>
    have h1 := w.part_pos hp
    have := w.m_le
    simp only [if_true]
    rw [Shape.st_part]
    refine ⟨hp, ?_⟩
    unfold Shape.front
    rw [hp, if_pos rfl, ringPos_page w.o_lt (by omega)]; omega

/-- The cache never says anything false. -/
theorem get_sound (w : σ.WF n) (h : CalcOk σ n c) (hi : i < n) {s : PageState} (hg : c.get i = some s) :
    σ.st n i = .ok s := by
  cases h with
  | fresh => simp [CalcPS.get, CalcPS.new] at hg
  | guess a op ha h1 h2 hop =>
    simp only [CalcPS.get, inFront_eq ⟨n, some a, false, true, 0, op⟩ ha] at hg
    split at hg
    · rename_i he; subst he
      simp at hg; subst hg
      exact hop _ ha (by unfold ringPos; simp; omega)
    · split at hg
      · rename_i hlt; simp at hg; subst hg; exact hop i hi hlt
      · rename_i he _
        split at hg
        · rename_i hb
          simp only [CalcPS.behind] at hb
          split at hb <;> omega
        · simp at hg
  | sure cp op h1 h2 hst hop hcl =>
    have hf := Shape.front_lt w
    simp only [CalcPS.get, inFront_eq ⟨n, some (σ.front n), σ.part, false, cp, op⟩ hf] at hg
    split at hg
    · rename_i he; subst he
      rw [st_front w hst]
      simpa using hg
    · rename_i hne
      split at hg
      · rename_i hlt; simp at hg; subst hg; exact hop i hi (Ne.symm hne) hlt
      · split at hg
        · rename_i hb
          simp at hg; subst hg
          exact hcl i hi (Ne.symm hne) hb
        · simp at hg

theorem get_fresh : (CalcPS.new n).get i = none := rfl

theorem get_guess {a op : Nat} (ha : a < n) (hi : i < n) (h1 : 1 ≤ op) :
    (⟨n, some a, false, true, 0, op⟩ : CalcPS).get i = if ringPos n a i < op then some .open else none := by
  simp only [CalcPS.get, inFront_eq ⟨n, some a, false, true, 0, op⟩ ha]
  by_cases he : a = i
  · subst he
    have h0 : ringPos n a a < op := by unfold ringPos; simp; omega
    rw [if_pos rfl, if_pos h0]; rfl
  · rw [if_neg he]
    split
    · rfl
    · rw [if_neg]
      simp only [CalcPS.behind]; split <;> omega

theorem get_sure {F cp op : Nat} {p : Bool} (hF : F < n) (hne : i ≠ F) :
    (⟨n, some F, p, false, cp, op⟩ : CalcPS).get i =
      if ringPos n F i < op then some .open
      else if (if i ≤ F then F - i else F + 1 + n - i) ≤ cp then some .closed else none := by
  simp only [CalcPS.get, inFront_eq ⟨n, some F, p, false, cp, op⟩ hF]
  rw [if_neg (Ne.symm hne)]
  rfl

theorem get_front {F cp op : Nat} {p : Bool} :
    (⟨n, some F, p, false, cp, op⟩ : CalcPS).get F = some (if p then .partialOpen else .open) := by
  simp [CalcPS.get]

theorem front_pos (w : σ.WF n) : ringPos n σ.o (σ.front n) = (if σ.part then σ.m - 1 else σ.m) := by
  have ho := w.o_lt
  have hm := w.m_le
  unfold Shape.front
  apply ringPos_page ho
  split
  · omega
  · rename_i h
    rcases Nat.lt_or_ge σ.m n with h' | h'
    · exact h'
    · exact absurd (w.full (by omega)).1 h

theorem front_of_part (w : σ.WF n) (hi : i < n) (h : σ.st n i = .ok .partialOpen) : i = σ.front n := by
  rw [Shape.st_part] at h
  unfold Shape.front
  rw [h.1, if_pos rfl, ← ringPage_pos w.o_lt hi]
  congr 1; omega

/-- Telling the cache the true state of a page. -/
theorem see (w : σ.WF n) (h : CalcOk σ n c) (hi : i < n) {s : PageState} (hs : σ.st n i = .ok s) :
    ∃ c', c.notice i s = .ok c' ∧ CalcOk σ n c' ∧
      (s = .partialOpen → c'.anchor = some i ∧ c'.anchorIsGuess = false) ∧
      (∀ a, c.anchor = some a → c.anchorIsGuess = false →
        c'.anchor = some a ∧ c'.anchorIsGuess = false ∧ c'.get i = some s) := by
  have hsound := fun s' (hg : c.get i = some s') => get_sound w h hi hg
  have hfp := front_pos w
  have hfl := Shape.front_lt w
  cases h with
  | fresh =>
    cases s with
    | partialOpen =>
      have hif := front_of_part w hi hs
      have hp := (Shape.st_part.1 hs).1
      refine ⟨_, rfl, ?_, fun _ => ⟨rfl, rfl⟩, fun a ha => by simp [CalcPS.new] at ha⟩
      have := CalcOk.sure (σ := σ) (n := n) 0 1 (by omega) (by omega) (by simp [hp])
        (fun j hj hne hlt => by unfold ringPos at hlt; split at hlt <;> omega)
        (fun j hj hne hlt => by split at hlt <;> omega)
      rw [hif]
      rw [hp] at this
      exact this
    | closed =>
      exact ⟨_, rfl, .fresh, by simp, fun a ha => by simp [CalcPS.new] at ha⟩
    | «open» =>
      refine ⟨_, rfl, ?_, by simp, fun a ha => by simp [CalcPS.new] at ha⟩
      refine CalcOk.guess (σ := σ) (n := n) i 1 hi (by omega) (by omega) ?_
      intro j hj hlt
      have : j = i := by unfold ringPos at hlt; split at hlt <;> omega
      rw [this]; exact hs
  | guess a op ha h1 h2 hop =>
    have hgi := get_guess (n := n) (i := i) ha hi h1
    cases s with
    | partialOpen =>
      have hif := front_of_part w hi hs
      have hp := (Shape.st_part.1 hs).1
      have hn : ¬ ringPos n a i < op := by
        intro hlt
        have := hop i hi hlt
        rw [hs] at this; simp at this
      rw [if_neg hn] at hgi
      refine ⟨_, by simp only [CalcPS.notice, hgi]; rfl, ?_, fun _ => ⟨rfl, rfl⟩, fun a ha hg => by simp at hg⟩
      have := CalcOk.sure (σ := σ) (n := n) 0 1 (by omega) (by omega) (by simp [hp])
        (fun j hj hne hlt => by unfold ringPos at hlt; split at hlt <;> omega)
        (fun j hj hne hlt => by split at hlt <;> omega)
      rw [hif]
      rw [hp] at this
      exact this
    | closed =>
      have hn : ¬ ringPos n a i < op := by
        intro hlt
        have := hop i hi hlt
        rw [hs] at this; simp at this
      rw [if_neg hn] at hgi
      refine ⟨_, by simp only [CalcPS.notice, hgi]; rfl, .guess a op ha h1 h2 hop, by simp, fun a ha hg => by simp at hg⟩
    | «open» =>
      by_cases hn : ringPos n a i < op
      · rw [if_pos hn] at hgi
        exact ⟨_, by simp only [CalcPS.notice, hgi], .guess a op ha h1 h2 hop, by simp, fun a ha hg => by simp at hg⟩
      · rw [if_neg hn] at hgi
        simp only [CalcPS.notice, hgi, if_true]
        rw [if_neg (by omega)]
        split
        · rename_i he
          refine ⟨_, rfl, ?_, by simp, fun a ha hg => by simp at hg⟩
          have hpi : ringPos n a i = op := by
            have : op < n := by have := ringPos_lt ha hi; omega
            rw [he]
            unfold ringPos
            by_cases hw : a + op < n
            · rw [Nat.mod_eq_of_lt hw, if_pos (by omega)]; omega
            · have : (a + op) % n = a + op - n := by
                rw [Nat.mod_eq_sub_mod (by omega), Nat.mod_eq_of_lt (by omega)]
              rw [this, if_neg (by omega)]; omega
          have := ringPos_lt ha hi
          refine CalcOk.guess a (op + 1) ha (by omega) (by omega) ?_
          intro j hj hlt
          by_cases hj2 : ringPos n a j < op
          · exact hop j hj hj2
          · have : ringPos n a j = ringPos n a i := by omega
            have : j = i := by rw [← ringPage_pos ha hj, this, ringPage_pos ha hi]
            rw [this]; exact hs
        · exact ⟨_, rfl, .guess a op ha h1 h2 hop, by simp, fun a ha hg => by simp at hg⟩
  | sure cp op h1 h2 hst hop hcl =>
    have hstf := st_front w hst
    by_cases hne : i = σ.front n
    · have hgi := get_front (n := n) (F := σ.front n) (cp := cp) (op := op) (p := σ.part)
      rw [hne] at hs ⊢
      rw [hs] at hstf
      cases s with
      | closed => cases hp : σ.part <;> simp [hp] at hstf
      | partialOpen =>
        have hp := (Shape.st_part.1 hs).1
        rw [hp, if_pos rfl] at hgi
        have := CalcOk.sure (σ := σ) (n := n) cp op h1 h2 hst hop hcl
        rw [hp] at this
        rw [hp]
        exact ⟨_, by simp only [CalcPS.notice, hgi], this, fun _ => ⟨rfl, rfl⟩, fun a ha _ => ⟨ha, rfl, hgi⟩⟩
      | «open» =>
        have hp : σ.part = false := by cases hp : σ.part <;> simp [hp] at hstf ⊢
        rw [hp] at hgi
        simp only [Bool.false_eq_true, if_false] at hgi
        have := CalcOk.sure (σ := σ) (n := n) cp op h1 h2 hst hop hcl
        rw [hp] at this
        rw [hp]
        exact ⟨_, by simp only [CalcPS.notice, hgi], this, by simp, fun a ha _ => ⟨ha, rfl, hgi⟩⟩
    · have hgi := get_sure (n := n) (i := i) (F := σ.front n) (cp := cp) (op := op) (p := σ.part) hfl hne
      cases s with
      | partialOpen => exact absurd (front_of_part w hi hs) hne
      | closed =>
        have hn : ¬ ringPos n (σ.front n) i < op := by
          intro hlt
          have := hop i hi hne hlt
          rw [hs] at this; simp at this
        rw [if_neg hn] at hgi
        by_cases hb : (if i ≤ σ.front n then σ.front n - i else σ.front n + 1 + n - i) ≤ cp
        · rw [if_pos hb] at hgi
          exact ⟨_, by simp only [CalcPS.notice, hgi], .sure cp op h1 h2 hst hop hcl, by simp,
            fun a ha hg => ⟨ha, hg, hgi⟩⟩
        · rw [if_neg hb] at hgi
          refine ⟨_, by simp only [CalcPS.notice, hgi, Bool.false_eq_true, if_false]; rfl, ?_, by simp, ?_⟩
          · refine CalcOk.sure _ op h1 h2 hst hop ?_
            intro j hj hnej hle
            simp only [CalcPS.behind] at hle
            by_cases hle' : (if j ≤ σ.front n then σ.front n - j else σ.front n + 1 + n - j) ≤ cp
            · exact hcl j hj hnej hle'
            · rw [Shape.st_closed] at hs ⊢
              have hle2 : (if j ≤ σ.front n then σ.front n - j else σ.front n + 1 + n - j) ≤
                  (if i ≤ σ.front n then σ.front n - i else σ.front n + 1 + n - i) := by omega
              have ho := w.o_lt
              have hm := w.m_le
              clear hcl hop hst hstf hgi hn hle hle' hb hsound
              generalize σ.front n = F at *
              cases hp : σ.part
              · simp only [hp, Bool.false_eq_true, if_false, false_and, not_false_eq_true, and_true] at *
                unfold ringPos at *
                repeat' split at hs
                all_goals repeat' split at hfp
                all_goals repeat' split at hle2
                all_goals split
                all_goals omega
              · have hm1 := w.part_pos hp
                simp only [hp, if_true, true_and] at *
                unfold ringPos at *
                repeat' split at hs
                all_goals repeat' split at hfp
                all_goals repeat' split at hle2
                all_goals split
                all_goals omega
          · intro a ha hg
            refine ⟨ha, hg, ?_⟩
            have := get_sure (n := n) (i := i) (F := σ.front n)
              (cp := max cp (if i ≤ σ.front n then σ.front n - i else σ.front n + 1 + n - i)) (op := op) (p := σ.part)
              hfl hne
            rw [if_neg hn] at this
            refine this.trans (if_pos ?_)
            exact Nat.le_max_right _ _
      | «open» =>
        by_cases hn : ringPos n (σ.front n) i < op
        · rw [if_pos hn] at hgi
          exact ⟨_, by simp only [CalcPS.notice, hgi], .sure cp op h1 h2 hst hop hcl, by simp,
            fun a ha hg => ⟨ha, hg, hgi⟩⟩
        · rw [if_neg hn] at hgi
          rw [if_neg] at hgi
          · refine ⟨_, by simp only [CalcPS.notice, hgi, Bool.false_eq_true, if_false]; rfl, ?_, by simp, ?_⟩
            · rw [inFront_eq ⟨n, some (σ.front n), σ.part, false, cp, op⟩ hfl]
              have hr := ringPos_lt hfl hi
              refine CalcOk.sure cp _ (by omega) (by simp only; omega) hst ?_ hcl
              intro j hj hnej hlt
              by_cases hlt' : ringPos n (σ.front n) j < op
              · exact hop j hj hnej hlt'
              · simp only at hlt
                rw [Shape.st_open] at hs ⊢
                have ho := w.o_lt
                have hm := w.m_le
                have hle2 : ringPos n (σ.front n) j ≤ ringPos n (σ.front n) i := by omega
                clear hcl hop hst hstf hgi hn hlt hlt' hsound hr
                generalize σ.front n = F at *
                cases hp : σ.part
                · simp only [hp, Bool.false_eq_true, if_false] at *
                  cases hc : σ.corr
                  · simp only [hc, Bool.false_eq_true, false_and, not_false_eq_true, and_true] at *
                    unfold ringPos at *
                    repeat' split at hs
                    all_goals repeat' split at hfp
                    all_goals repeat' split at hle2
                    all_goals split
                    all_goals omega
                  · simp only [hc, true_and] at *
                    unfold ringPos at *
                    repeat' split at hs
                    all_goals repeat' split at hfp
                    all_goals repeat' split at hle2
                    all_goals split
                    all_goals omega
                · have hm1 := w.part_pos hp
                  simp only [hp, if_true] at *
                  cases hc : σ.corr
                  · simp only [hc, Bool.false_eq_true, false_and, not_false_eq_true, and_true] at *
                    unfold ringPos at *
                    repeat' split at hs
                    all_goals repeat' split at hfp
                    all_goals repeat' split at hle2
                    all_goals split
                    all_goals omega
                  · simp only [hc, true_and] at *
                    unfold ringPos at *
                    repeat' split at hs
                    all_goals repeat' split at hfp
                    all_goals repeat' split at hle2
                    all_goals split
                    all_goals omega
            · intro a ha hg
              refine ⟨ha, hg, ?_⟩
              rw [inFront_eq ⟨n, some (σ.front n), σ.part, false, cp, op⟩ hfl]
              have := get_sure (n := n) (i := i) (F := σ.front n)
                (cp := cp) (op := max op (ringPos n (σ.front n) i + 1)) (p := σ.part)
                hfl hne
              rw [if_pos (by omega)] at this
              exact this
          · intro hb
            have := hcl i hi hne hb
            rw [hs] at this; simp at this


/-! ### Changes of the ring -/

theorem openFront_wf (w : σ.WF n) (hp : σ.part = false) (hs : σ.st n (σ.front n) = .ok .open) : σ.openFront.WF n := by
  have hfp := front_pos w
  rw [Shape.st_open, hfp, hp] at hs
  simp only [Bool.false_eq_true, if_false, Nat.le_refl, true_and] at hs
  have hm : σ.m < n := by
    rcases Nat.lt_or_ge σ.m n with h | h
    · exact h
    · have := w.m_le
      have := (w.full (by omega)).1
      rw [hp] at this; simp at this
  constructor
  · exact w.o_lt
  · simp only [Shape.openFront]; omega
  · simp only [Shape.openFront]; omega
  · intro h
    simp only [Shape.openFront] at h
    refine ⟨rfl, ?_⟩
    show σ.corr = false
    cases hc : σ.corr with
    | false => rfl
    | true => exact absurd ⟨hc, h⟩ hs
  · simp [Shape.openFront]

theorem openFront_front (hp : σ.part = false) : σ.openFront.front n = σ.front n := by
  unfold Shape.front Shape.openFront; simp [hp]

theorem openFront_st (w : σ.WF n) (hp : σ.part = false) (hi : i < n) (hne : i ≠ σ.front n) :
    σ.openFront.st n i = σ.st n i := by
  have hpos : ringPos n σ.o i ≠ σ.m := by
    intro h
    apply hne
    unfold Shape.front
    simp only [hp, Bool.false_eq_true, if_false]
    rw [← h, ringPage_pos w.o_lt hi]
  unfold Shape.st Shape.openFront
  simp only [hp, Bool.false_eq_true, if_false, false_and, true_and]
  by_cases h : ringPos n σ.o i < σ.m
  · rw [if_pos (by omega), if_neg (by omega), if_pos h]
  · rw [if_neg (by omega), if_neg h]

theorem openFront_st_front (w : σ.WF n) (hp : σ.part = false) : σ.openFront.st n (σ.front n) = .ok .partialOpen := by
  rw [Shape.st_part]
  have := front_pos w
  rw [hp] at this
  simp only [Bool.false_eq_true, if_false] at this
  exact ⟨rfl, by simp only [Shape.openFront]; omega⟩

/-- The start marker of the front page is written. -/
theorem openFront (w : σ.WF n) (h : CalcOk σ n c) (hp : σ.part = false) :
    ∃ c', c.notice (σ.front n) .partialOpen = .ok c' ∧ CalcOk σ.openFront n c' ∧
      c'.anchor = some (σ.front n) ∧ c'.anchorIsGuess = false := by
  have hfl := Shape.front_lt w
  have hfr := openFront_front (n := n) hp
  have hfp := front_pos w
  have ho := w.o_lt
  rw [hp] at hfp
  simp only [Bool.false_eq_true, if_false] at hfp
  have hsimple := CalcOk.sure (σ := σ.openFront) (n := n) 0 1 (by omega) (by omega) (by simp [Shape.openFront])
    (fun j hj hne hlt => by unfold ringPos at hlt; split at hlt <;> omega)
    (fun j hj hne hlt => by split at hlt <;> omega)
  rw [hfr] at hsimple
  cases h with
  | fresh => exact ⟨_, rfl, hsimple, rfl, rfl⟩
  | guess a op ha h1 h2 hop =>
    have hgi := get_guess (n := n) (i := σ.front n) ha hfl h1
    by_cases hlt : ringPos n a (σ.front n) < op
    · rw [if_pos hlt] at hgi
      refine ⟨_, by simp only [CalcPS.notice, hgi]; rfl, ?_, rfl, rfl⟩
      have := CalcOk.sure (σ := σ.openFront) (n := n) 0 op h1 h2 (by simp [Shape.openFront])
        (fun j hj hne hlt2 => by
          rw [hfr] at hne hlt2
          rw [openFront_st w hp hj hne]
          by_cases haf : a = σ.front n
          · exact hop j hj (by rw [haf]; exact hlt2)
          · rcases Nat.eq_zero_or_pos σ.m with hm | hm
            · have := w.empty hm
              rw [Shape.st_open]
              exact ⟨by omega, by simp [this.2]⟩
            · exfalso
              have hml : σ.m < n := by have := ringPos_lt ho hfl; omega
              have hpl := ringPage_lt ho (show σ.m - 1 < n by omega)
              have hpp := ringPos_page ho (show σ.m - 1 < n by omega)
              have hopen := hop (ringPage n σ.o (σ.m - 1)) hpl (by
                clear hgi hop hsimple hfr
                generalize σ.front n = F at *
                generalize ringPage n σ.o (σ.m - 1) = q at *
                unfold ringPos at *
                repeat' split at hpp
                all_goals repeat' split at hfp
                all_goals repeat' split at hlt
                all_goals split
                all_goals omega)
              rw [Shape.st_open, hpp] at hopen
              omega)
        (fun j hj hne hlt => by rw [hfr] at hne hlt; split at hlt <;> omega)
      rw [hfr] at this
      exact this
    · rw [if_neg hlt] at hgi
      exact ⟨_, by simp only [CalcPS.notice, hgi]; rfl, hsimple, rfl, rfl⟩
  | sure cp op h1 h2 hst hop hcl =>
    have hgi := get_front (n := n) (F := σ.front n) (cp := cp) (op := op) (p := σ.part)
    rw [hp] at hgi
    simp only [Bool.false_eq_true, if_false] at hgi
    rw [hp]
    refine ⟨_, by simp only [CalcPS.notice, hgi]; rfl, ?_, rfl, rfl⟩
    have := CalcOk.sure (σ := σ.openFront) (n := n) cp op h1 h2 (by simp [Shape.openFront])
      (fun j hj hne hlt2 => by
        rw [hfr] at hne hlt2
        rw [openFront_st w hp hj hne]
        exact hop j hj hne hlt2)
      (fun j hj hne hlt2 => by
        rw [hfr] at hne hlt2
        rw [openFront_st w hp hj hne]
        exact hcl j hj hne hlt2)
    rw [hfr] at this
    exact this

theorem closeFront_wf (w : σ.WF n) (hp : σ.part = true) (hm : σ.m < n) : σ.closeFront.WF n := by
  have h1 := w.part_pos hp
  refine ⟨w.o_lt, w.m_le, by simp [Shape.closeFront], ?_, ?_⟩
  · simp only [Shape.closeFront]; omega
  · simp only [Shape.closeFront]; omega

theorem closeFront_front (w : σ.WF n) (hp : σ.part = true) (hm : σ.m < n) :
    σ.closeFront.front n = (σ.front n + 1) % n := by
  have h1 := w.part_pos hp
  unfold Shape.front Shape.closeFront
  simp only [hp, if_true, Bool.false_eq_true, if_false]
  rw [ringPage_succ w.o_lt (by omega)]
  congr 1; omega

theorem closeFront_st (w : σ.WF n) (hp : σ.part = true) (hi : i < n) (hne : i ≠ σ.front n) :
    σ.closeFront.st n i = σ.st n i := by
  have h1 := w.part_pos hp
  have hpos : ringPos n σ.o i + 1 ≠ σ.m := by
    intro h
    apply hne
    unfold Shape.front
    simp only [hp, if_true]
    rw [← ringPage_pos w.o_lt hi]
    congr 1; omega
  unfold Shape.st Shape.closeFront
  simp only [hp, Bool.false_eq_true, if_false, false_and, true_and]
  rw [if_neg hpos]

theorem closeFront_st_front (w : σ.WF n) (hp : σ.part = true) : σ.closeFront.st n (σ.front n) = .ok .closed := by
  have h1 := w.part_pos hp
  have := front_pos w
  rw [hp, if_pos rfl] at this
  rw [Shape.st_closed]
  refine ⟨by simp only [Shape.closeFront]; omega, by simp [Shape.closeFront]⟩

/-- The end marker of the front page is written, knowing that the next page is open. -/
theorem closeFront (w : σ.WF n) (h : CalcOk σ n c) (hp : σ.part = true) (hm : σ.m < n)
    (han : c.anchor = some (σ.front n)) (hg : c.anchorIsGuess = false)
    (hk : c.get ((σ.front n + 1) % n) = some .open) :
    ∃ c', c.notice (σ.front n) .closed = .ok c' ∧ CalcOk σ.closeFront n c' := by
  have hfl := Shape.front_lt w
  have hm1 := w.part_pos hp
  have hfr := closeFront_front w hp hm
  have hnl : (σ.front n + 1) % n < n := Nat.mod_lt _ (by omega)
  have hne : (σ.front n + 1) % n ≠ σ.front n := by rw [succ_mod hfl]; split <;> omega
  have hnst : σ.st n ((σ.front n + 1) % n) = .ok .open := get_sound w h hnl hk
  cases h with
  | fresh => simp [CalcPS.new] at han
  | guess a op ha h1 h2 hop => simp at hg
  | sure cp op h1 h2 hst hop hcl =>
    have hgi := get_front (n := n) (F := σ.front n) (cp := cp) (op := op) (p := σ.part)
    rw [hp] at hgi
    simp only [if_true] at hgi
    have hop2 : 2 ≤ op := by
      rw [get_sure hfl hne] at hk
      split at hk
      · rename_i hlt
        have : ringPos n (σ.front n) ((σ.front n + 1) % n) = 1 := by
          rw [succ_mod hfl]; unfold ringPos; split <;> split <;> omega
        omega
      · split at hk <;> simp at hk
    rw [hp]
    refine ⟨_, by
      simp only [CalcPS.notice, hgi]
      rw [if_neg (by omega)], ?_⟩
    have := CalcOk.sure (σ := σ.closeFront) (n := n) (cp + 1) (op - 1) (by omega) (by omega)
      (fun _ => by rw [hfr, closeFront_st w hp hnl hne]; exact hnst)
      (fun j hj hnej hlt => by
        rw [hfr] at hnej hlt
        have hjf : j ≠ σ.front n := by
          intro he
          rw [he, succ_mod hfl] at hlt
          unfold ringPos at hlt; repeat' split at hlt
          all_goals omega
        rw [closeFront_st w hp hj hjf]
        apply hop j hj hjf
        rw [succ_mod hfl] at hlt
        unfold ringPos at hlt ⊢; repeat' split at hlt
        all_goals split
        all_goals omega)
      (fun j hj hnej hlt => by
        rw [hfr] at hnej hlt
        by_cases hjf : j = σ.front n
        · rw [hjf]; exact closeFront_st_front w hp
        · rw [closeFront_st w hp hj hjf]
          apply hcl j hj hjf
          have hN : (σ.front n + 1 = n ∧ (σ.front n + 1) % n = 0) ∨
              (σ.front n + 1 < n ∧ (σ.front n + 1) % n = σ.front n + 1) := by
            rw [succ_mod hfl]; split <;> omega
          generalize (σ.front n + 1) % n = N at hN hlt hnej
          repeat' split at hlt
          all_goals split
          all_goals omega)
    rw [hfr] at this
    exact this

theorem dropOldest_wf (w : σ.WF n) (hm : 2 ≤ σ.m) : (σ.dropOldest n).WF n := by
  have := w.m_le
  have ho := w.o_lt
  refine ⟨ringPage_lt ho (by omega), ?_, ?_, ?_, ?_⟩ <;> simp only [Shape.dropOldest] <;> omega

theorem dropOldest_front (w : σ.WF n) (hm : 2 ≤ σ.m) : (σ.dropOldest n).front n = σ.front n := by
  have hml := w.m_le
  have ho := w.o_lt
  unfold Shape.front Shape.dropOldest
  cases hp : σ.part with
  | true =>
    simp only [if_true]
    rw [ringPage_shift ho (by omega)]
    congr 1; omega
  | false =>
    simp only [Bool.false_eq_true, if_false]
    have : σ.m < n := by
      rcases Nat.lt_or_ge σ.m n with h | h
      · exact h
      · have := (w.full (by omega)).1; rw [hp] at this; simp at this
    rw [ringPage_shift ho (by omega)]
    congr 1; omega

theorem dropOldest_pos (w : σ.WF n) (hm : 2 ≤ σ.m) (hi : i < n) (hne : i ≠ σ.o) :
    ringPos n (σ.dropOldest n).o i + 1 = ringPos n σ.o i := by
  have hml := w.m_le
  have ho := w.o_lt
  simp only [Shape.dropOldest]
  unfold ringPos ringPage
  repeat' split
  all_goals omega

theorem dropOldest_pos_o (w : σ.WF n) (hm : 2 ≤ σ.m) : ringPos n (σ.dropOldest n).o σ.o + 1 = n := by
  have hml := w.m_le
  have ho := w.o_lt
  simp only [Shape.dropOldest]
  unfold ringPos ringPage
  repeat' split
  all_goals omega

theorem dropOldest_st (w : σ.WF n) (hm : 2 ≤ σ.m) (hc : σ.corr = false) (hi : i < n) (hne : i ≠ σ.o) :
    (σ.dropOldest n).st n i = σ.st n i := by
  have h := dropOldest_pos w hm hi hne
  have e1 : (σ.dropOldest n).m = σ.m - 1 := rfl
  have e2 : (σ.dropOldest n).part = σ.part := rfl
  have e3 : (σ.dropOldest n).corr = σ.corr := rfl
  unfold Shape.st
  rw [e1, e2, e3, hc, ← h]
  simp only [Bool.false_eq_true, false_and, if_false]
  by_cases h1 : ringPos n (σ.dropOldest n).o i + 1 < σ.m
  · rw [if_pos (by omega), if_pos h1]
    by_cases h2 : ringPos n (σ.dropOldest n).o i + 1 + 1 = σ.m
    · have h3 : ringPos n (σ.dropOldest n).o i + 1 = σ.m - 1 := by omega
      have h4 : σ.m - 1 + 1 = σ.m := by omega
      simp [h3, h4]
    · have h3 : ringPos n (σ.dropOldest n).o i + 1 ≠ σ.m - 1 := by omega
      simp [h2, h3]
  · rw [if_neg (by omega), if_neg h1]

theorem dropOldest_st_o (w : σ.WF n) (hm : 2 ≤ σ.m) (hc : σ.corr = false) : (σ.dropOldest n).st n σ.o = .ok .open := by
  have := dropOldest_pos_o w hm
  have hml := w.m_le
  rw [Shape.st_open]
  refine ⟨?_, by simp [Shape.dropOldest, hc]⟩
  simp only [Shape.dropOldest] at *
  omega

theorem st_oldest (hm : 2 ≤ σ.m) : σ.st n σ.o = .ok .closed := by
  rw [Shape.st_closed]
  have : ringPos n σ.o σ.o = 0 := by unfold ringPos; simp
  omega

/-- The oldest page is erased. -/
theorem dropOldest (w : σ.WF n) (h : CalcOk σ n c) (hc : σ.corr = false) (hm : 2 ≤ σ.m) :
    ∃ c', c.notice σ.o .open = .ok c' ∧ CalcOk (σ.dropOldest n) n c' ∧
      (∀ a, c.anchor = some a → c.anchorIsGuess = false →
        c'.anchor = some a ∧ c'.anchorIsGuess = false ∧ c'.get σ.o = some .open) := by
  have ho := w.o_lt
  have hml := w.m_le
  have hfl := Shape.front_lt w
  have hfr := dropOldest_front w hm
  have hfp := front_pos w
  have hso := st_oldest (n := n) hm
  have hdo := dropOldest_st_o w hm hc
  have hof : σ.o ≠ σ.front n := by
    intro h
    have : ringPos n σ.o σ.o = 0 := by unfold ringPos; simp
    rw [← h, this] at hfp
    split at hfp <;> omega
  have hop' : ∀ j, j < n → σ.st n j = .ok .open → (σ.dropOldest n).st n j = .ok .open := by
    intro j hj hs
    by_cases he : j = σ.o
    · rw [he]; exact hdo
    · rw [dropOldest_st w hm hc hj he]; exact hs
  cases h with
  | fresh =>
    refine ⟨_, rfl, ?_, fun a ha => by simp [CalcPS.new] at ha⟩
    refine CalcOk.guess (n := n) σ.o 1 ho (by omega) (by omega) ?_
    intro j hj hlt
    have : j = σ.o := by unfold ringPos at hlt; split at hlt <;> omega
    rw [this]; exact hdo
  | guess a op ha h1 h2 hop =>
    have hgi := get_guess (n := n) (i := σ.o) ha ho h1
    have hn : ¬ ringPos n a σ.o < op := by
      intro hlt
      have := hop σ.o ho hlt
      rw [hso] at this; simp at this
    rw [if_neg hn] at hgi
    simp only [CalcPS.notice, hgi, if_true]
    rw [if_neg (by omega)]
    split
    · rename_i he
      refine ⟨_, rfl, ?_, fun a ha hg => by simp at hg⟩
      have hpi : ringPos n a σ.o = op := by
        have : op < n := by have := ringPos_lt ha ho; omega
        rw [he]
        unfold ringPos
        by_cases hw : a + op < n
        · rw [Nat.mod_eq_of_lt hw, if_pos (by omega)]; omega
        · have : (a + op) % n = a + op - n := by
            rw [Nat.mod_eq_sub_mod (by omega), Nat.mod_eq_of_lt (by omega)]
          rw [this, if_neg (by omega)]; omega
      have := ringPos_lt ha ho
      refine CalcOk.guess a (op + 1) ha (by omega) (by omega) ?_
      intro j hj hlt
      by_cases hj2 : ringPos n a j < op
      · exact hop' j hj (hop j hj hj2)
      · have : ringPos n a j = ringPos n a σ.o := by omega
        have : j = σ.o := by rw [← ringPage_pos ha hj, this, ringPage_pos ha ho]
        rw [this]; exact hdo
    · exact ⟨_, rfl, .guess a op ha h1 h2 (fun j hj hlt => hop' j hj (hop j hj hlt)), fun a ha hg => by simp at hg⟩
  | sure cp op h1 h2 hst hop hcl =>
    have hgi := get_sure (n := n) (i := σ.o) (F := σ.front n) (cp := cp) (op := op) (p := σ.part) hfl hof
    have hn : ¬ ringPos n (σ.front n) σ.o < op := by
      intro hlt
      have := hop σ.o ho hof hlt
      rw [hso] at this; simp at this
    rw [if_neg hn] at hgi
    have hr := ringPos_lt hfl ho
    have hpart : (σ.dropOldest n).part = σ.part := rfl
    -- all pages from the front to the oldest are open
    have hopen : ∀ j, j < n → j ≠ σ.front n → ringPos n (σ.front n) j ≤ ringPos n (σ.front n) σ.o →
        (σ.dropOldest n).st n j = .ok .open := by
      intro j hj hnej hle2
      by_cases he : j = σ.o
      · rw [he]; exact hdo
      · rw [dropOldest_st w hm hc hj he, Shape.st_open]
        refine ⟨?_, by simp [hc]⟩
        clear hcl hop hst hgi hn hop' hdo hso hfr
        generalize σ.front n = F at *
        unfold ringPos at *
        repeat' split at hfp
        all_goals repeat' split at hle2
        all_goals split
        all_goals omega
    have hmk : ∀ cp', cp' ≤ cp →
        ¬ (if σ.o ≤ σ.front n then σ.front n - σ.o else σ.front n + 1 + n - σ.o) ≤ cp' →
        CalcOk (σ.dropOldest n) n
          ⟨n, some (σ.front n), σ.part, false, cp', max op (ringPos n (σ.front n) σ.o + 1)⟩ := by
      intro cp' hcp hno
      have := CalcOk.sure (σ := σ.dropOldest n) (n := n) cp' (max op (ringPos n (σ.front n) σ.o + 1))
        (by omega) (by omega)
        (fun h => by rw [hfr]; exact hop' _ hfl (hst h))
        (fun j hj hnej hlt => by
          rw [hfr] at hnej hlt
          by_cases hlt' : ringPos n (σ.front n) j < op
          · exact hop' j hj (hop j hj hnej hlt')
          · exact hopen j hj hnej (by omega))
        (fun j hj hnej hlt => by
          rw [hfr] at hnej hlt
          by_cases he : j = σ.o
          · rw [he] at hlt; exact absurd hlt hno
          · rw [dropOldest_st w hm hc hj he]
            exact hcl j hj hnej (by omega))
      rw [hfr, hpart] at this
      exact this
    have hget : ∀ cp', (⟨n, some (σ.front n), σ.part, false, cp', max op (ringPos n (σ.front n) σ.o + 1)⟩ : CalcPS).get σ.o
        = some .open := by
      intro cp'
      rw [get_sure hfl hof, if_pos (by omega)]
    by_cases hb : (if σ.o ≤ σ.front n then σ.front n - σ.o else σ.front n + 1 + n - σ.o) ≤ cp
    · rw [if_pos hb] at hgi
      refine ⟨_, by
        simp only [CalcPS.notice, hgi]
        rw [if_neg (by omega)], ?_, ?_⟩
      · rw [inFront_eq ⟨n, some (σ.front n), σ.part, false, cp, op⟩ hfl]
        apply hmk
        · exact Nat.min_le_left _ _
        · simp only [CalcPS.behind]
          rw [succ_mod ho]
          intro hle
          have hle2 := Nat.le_trans hle (Nat.min_le_right _ _)
          clear hle
          repeat' split at hle2
          all_goals omega
      · intro a ha hg
        rw [inFront_eq ⟨n, some (σ.front n), σ.part, false, cp, op⟩ hfl]
        exact ⟨ha, hg, hget _⟩
    · rw [if_neg hb] at hgi
      refine ⟨_, by simp only [CalcPS.notice, hgi, Bool.false_eq_true, if_false]; rfl, ?_, ?_⟩
      · rw [inFront_eq ⟨n, some (σ.front n), σ.part, false, cp, op⟩ hfl]
        exact hmk cp (Nat.le_refl _) hb
      · intro a ha hg
        rw [inFront_eq ⟨n, some (σ.front n), σ.part, false, cp, op⟩ hfl]
        exact ⟨ha, hg, hget _⟩

/-- A page is erased right after the cache was invalidated. -/
theorem freshOpen (hi : i < n) (hs : σ.st n i = .ok .open) :
    ∃ c', (CalcPS.new n).notice i .open = .ok c' ∧ CalcOk σ n c' := by
  refine ⟨_, rfl, ?_⟩
  refine CalcOk.guess (σ := σ) (n := n) i 1 hi (by omega) (by omega) ?_
  intro j hj hlt
  have : j = i := by unfold ringPos at hlt; split at hlt <;> omega
  rw [this]; exact hs

/-- The only page is erased. -/
theorem dropOnly (h : CalcOk σ 1 c) (w : σ.WF 1) (hm : σ.m = 1) :
    ∃ c', c.notice 0 .open = .ok c' ∧ CalcOk σ.dropOnly 1 c' ∧
      (∀ a, c.anchor = some a → c.anchorIsGuess = false → c'.anchor = some a ∧ c'.anchorIsGuess = false) := by
  have hp := (w.full hm).1
  have ho := w.o_lt
  have hf : σ.front 1 = 0 := by have := Shape.front_lt w; omega
  have h0 : σ.dropOnly.st 1 0 = .ok .open := rfl
  cases h with
  | fresh =>
    obtain ⟨c', h1, h2⟩ := freshOpen (σ := σ.dropOnly) (n := 1) (i := 0) (by omega) h0
    exact ⟨c', h1, h2, fun a ha => by simp [CalcPS.new] at ha⟩
  | guess a op ha h1 h2 hop =>
    have := hop 0 (by omega) (by unfold ringPos; split <;> omega)
    rw [Shape.st_open] at this
    have hz : ringPos 1 σ.o 0 = 0 := by unfold ringPos; split <;> omega
    omega
  | sure cp op h1 h2 hst hop hcl =>
    have hgi := get_front (n := 1) (F := 0) (cp := cp) (op := op) (p := true)
    simp only [if_true] at hgi
    rw [hf, hp]
    refine ⟨⟨1, some 0, false, false, cp, op⟩, by simp only [CalcPS.notice, hgi], ?_, fun a ha hg => ⟨ha, hg⟩⟩
    have := CalcOk.sure (σ := σ.dropOnly) (n := 1) cp op h1 h2 (fun _ => rfl)
      (fun j hj hne => by
        exfalso; apply hne
        have : σ.dropOnly.front 1 = 0 := rfl
        omega)
      (fun j hj hne => by
        exfalso; apply hne
        have : σ.dropOnly.front 1 = 0 := rfl
        omega)
    exact this

end CalcOk

/-! ### All page state caches -/

/-- What a page state cache may believe. -/
def PSOk (σ : Shape) (n : Nat) : PSCache → Prop
  | .uncached => True
  | .calculated c => CalcOk σ n c
  | .table l => l.length = n ∧ ∀ i s, l[i]? = some (some s) → σ.st n i = .ok s

/-- The cache knows that `a` is the page that is written to. -/
def Anchored (a : Nat) : PSCache → Prop
  | .calculated c => c.anchor = some a ∧ c.anchorIsGuess = false
  | _ => True

/-- The cache knows the state of `i`. -/
def Knows (i : Nat) (s : PageState) : PSCache → Prop
  | .calculated c => c.get i = some s
  | _ => True

namespace PSOk
variable {σ : Shape} {n i : Nat} {c : PSCache}

theorem get (w : σ.WF n) (h : PSOk σ n c) (hi : i < n) :
    c.get i = .ok none ∨ ∃ s, c.get i = .ok (some s) ∧ σ.st n i = .ok s ∧ Knows i s c ∧
      (s = .partialOpen → Anchored i c) := by
  cases c with
  | uncached => exact Or.inl rfl
  | calculated c =>
    simp only [PSCache.get]
    cases hg : c.get i with
    | none => exact Or.inl rfl
    | some s =>
      refine Or.inr ⟨s, rfl, CalcOk.get_sound w h hi hg, hg, ?_⟩
      intro hs
      subst hs
      have hst := CalcOk.get_sound w h hi hg
      have hif := CalcOk.front_of_part w hi hst
      cases h with
      | fresh => simp [CalcOk.get_fresh] at hg
      | guess a op ha h1 h2 hop => rw [CalcOk.get_guess ha hi h1] at hg; split at hg <;> simp at hg
      | sure cp op h1 h2 hs hop hcl => exact ⟨by rw [hif], rfl⟩
  | table l =>
    simp only [PSOk] at h
    simp only [PSCache.get]
    rw [dif_pos (by omega)]
    have hl : l[i]? = some l[i] := List.getElem?_eq_getElem (by omega)
    cases hg : l[i] with
    | none => exact Or.inl rfl
    | some s => exact Or.inr ⟨s, rfl, h.2 i s (by rw [hl, hg]), trivial, fun _ => trivial⟩

/-- A table is told a state. -/
theorem table_notice {l : List (Option PageState)} {σ' : Shape} {s : PageState} (h : PSOk σ n (.table l)) (hi : i < n)
    (hs : σ'.st n i = .ok s) (ho : ∀ j, j < n → j ≠ i → σ'.st n j = σ.st n j) :
    (PSCache.table l).notice i s = .ok (.table (l.set i (some s))) ∧ PSOk σ' n (.table (l.set i (some s))) := by
  simp only [PSOk] at h
  refine ⟨by simp only [PSCache.notice]; rw [if_pos (by omega)], by simp [h.1], ?_⟩
  intro j s' hj
  rw [List.getElem?_set] at hj
  split at hj
  · rename_i he; subst he
    rw [if_pos (by omega)] at hj
    simp at hj; subst hj; exact hs
  · rename_i hne
    have hjl : j < n := by
      have := (List.getElem?_eq_some_iff.1 hj).1; omega
    rw [ho j hjl (Ne.symm hne)]; exact h.2 j s' hj

theorem see (w : σ.WF n) (h : PSOk σ n c) (hi : i < n) {s : PageState} (hs : σ.st n i = .ok s) :
    ∃ c', c.notice i s = .ok c' ∧ PSOk σ n c' ∧ (s = .partialOpen → Anchored i c') ∧
      (∀ a, Anchored a c → Anchored a c' ∧ Knows i s c') := by
  cases c with
  | uncached => exact ⟨_, rfl, trivial, fun _ => trivial, fun _ _ => ⟨trivial, trivial⟩⟩
  | calculated c =>
    obtain ⟨c', h1, h2, h3, h4⟩ := CalcOk.see w h hi hs
    refine ⟨.calculated c', by simp [PSCache.notice, h1, Except.map], h2, h3, ?_⟩
    intro a ha
    have := h4 a ha.1 ha.2
    exact ⟨⟨this.1, this.2.1⟩, this.2.2⟩
  | table l =>
    have := table_notice h hi hs (fun _ _ _ => rfl)
    exact ⟨_, this.1, this.2, fun _ => trivial, fun _ _ => ⟨trivial, trivial⟩⟩

theorem openFront (w : σ.WF n) (h : PSOk σ n c) (hp : σ.part = false) :
    ∃ c', c.notice (σ.front n) .partialOpen = .ok c' ∧ PSOk σ.openFront n c' ∧ Anchored (σ.front n) c' := by
  cases c with
  | uncached => exact ⟨_, rfl, trivial, trivial⟩
  | calculated c =>
    obtain ⟨c', h1, h2, h3⟩ := CalcOk.openFront w h hp
    exact ⟨.calculated c', by simp [PSCache.notice, h1, Except.map], h2, h3⟩
  | table l =>
    have := table_notice h (Shape.front_lt w) (CalcOk.openFront_st_front w hp)
      (fun j hj hne => CalcOk.openFront_st w hp hj hne)
    exact ⟨_, this.1, this.2, trivial⟩

theorem closeFront (w : σ.WF n) (h : PSOk σ n c) (hp : σ.part = true) (hm : σ.m < n)
    (han : Anchored (σ.front n) c) (hk : Knows ((σ.front n + 1) % n) .open c) :
    ∃ c', c.notice (σ.front n) .closed = .ok c' ∧ PSOk σ.closeFront n c' := by
  cases c with
  | uncached => exact ⟨_, rfl, trivial⟩
  | calculated c =>
    obtain ⟨c', h1, h2⟩ := CalcOk.closeFront w h hp hm han.1 han.2 hk
    exact ⟨.calculated c', by simp [PSCache.notice, h1, Except.map], h2⟩
  | table l =>
    have := table_notice h (Shape.front_lt w) (CalcOk.closeFront_st_front w hp)
      (fun j hj hne => CalcOk.closeFront_st w hp hj hne)
    exact ⟨_, this.1, this.2⟩

theorem dropOldest (w : σ.WF n) (h : PSOk σ n c) (hc : σ.corr = false) (hm : 2 ≤ σ.m) :
    ∃ c', c.notice σ.o .open = .ok c' ∧ PSOk (σ.dropOldest n) n c' ∧
      (∀ a, Anchored a c → Anchored a c' ∧ Knows σ.o .open c') := by
  cases c with
  | uncached => exact ⟨_, rfl, trivial, fun _ _ => ⟨trivial, trivial⟩⟩
  | calculated c =>
    obtain ⟨c', h1, h2, h3⟩ := CalcOk.dropOldest w h hc hm
    refine ⟨.calculated c', by simp [PSCache.notice, h1, Except.map], h2, ?_⟩
    intro a ha
    have := h3 a ha.1 ha.2
    exact ⟨⟨this.1, this.2.1⟩, this.2.2⟩
  | table l =>
    have := table_notice h w.o_lt (CalcOk.dropOldest_st_o w hm hc)
      (fun j hj hne => CalcOk.dropOldest_st w hm hc hj hne)
    exact ⟨_, this.1, this.2, fun _ _ => ⟨trivial, trivial⟩⟩

theorem dropOnly (w : σ.WF 1) (h : PSOk σ 1 c) (hm : σ.m = 1) :
    ∃ c', c.notice 0 .open = .ok c' ∧ PSOk σ.dropOnly 1 c' ∧ (∀ a, Anchored a c → Anchored a c') := by
  cases c with
  | uncached => exact ⟨_, rfl, trivial, fun _ _ => trivial⟩
  | calculated c =>
    obtain ⟨c', h1, h2, h3⟩ := CalcOk.dropOnly h w hm
    refine ⟨.calculated c', by simp [PSCache.notice, h1, Except.map], h2, ?_⟩
    intro a ha
    exact h3 a ha.1 ha.2
  | table l =>
    have := table_notice (σ' := σ.dropOnly) h (i := 0) (s := .open) (by omega) rfl (fun j hj hne => by omega)
    exact ⟨_, this.1, this.2, fun _ _ => trivial⟩

/-- The number of pages the cache is made for. -/
def Sized (n : Nat) : PSCache → Prop
  | .uncached => True
  | .calculated c => c.pageCount = n
  | .table l => l.length = n

theorem sized (h : PSOk σ n c) : Sized n c := by
  cases c with
  | uncached => trivial
  | calculated c => cases h <;> rfl
  | table l => exact h.1

/-- An invalidated cache believes nothing. -/
theorem invalidate (h : Sized n c) (σ : Shape) : PSOk σ n c.invalidate := by
  cases c with
  | uncached => trivial
  | calculated c => simp only [Sized] at h; simp only [PSCache.invalidate, PSOk, h]; exact .fresh
  | table l =>
    simp only [Sized] at h
    refine ⟨by simp [h], ?_⟩
    intro i s hi
    simp [List.getElem?_map] at hi

/-- A page is erased right after the cache was invalidated. -/
theorem freshOpen (h : Sized n c) (hi : i < n) (hs : σ.st n i = .ok .open) :
    ∃ c', c.invalidate.notice i .open = .ok c' ∧ PSOk σ n c' := by
  cases c with
  | uncached => exact ⟨_, rfl, trivial⟩
  | calculated c =>
    obtain ⟨c', h1, h2⟩ := CalcOk.freshOpen hi hs
    simp only [Sized] at h
    exact ⟨.calculated c', by simp [PSCache.invalidate, PSCache.notice, h, h1, Except.map], h2⟩
  | table l =>
    have h1 := invalidate (c := .table l) h σ
    have := table_notice (σ' := σ) h1 hi hs (fun _ _ _ => rfl)
    exact ⟨_, this.1, this.2⟩

end PSOk
end SeqStorage
