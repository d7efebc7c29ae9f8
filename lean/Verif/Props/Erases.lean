import Verif.Proofs.Erases
import Verif.Props.Capacity
import Verif.Props.QueueCrash
/-
How often a queue erases pages: C56.
-/

namespace SeqStorage.Props
open M Spec

variable {K : Type} [DecidableEq K] {g : Geo} {s : St K}

/-- C56. Every page that a queue on a fresh region begins is in use or was erased once since, and there are
no other erases: pages are begun only for pushes that do not fit behind the last item. The starting state has
counted no erases. -/
theorem queue_counts_its_erases (w : g.WF) (h : Start g s) (cs : List (QCall (Cache K))) (hd : ∀ c ∈ cs, Documented g c) :
    ∃ ps, Runs (eraseStep g.word g.eraseSize g.pageCount) ([], 0) cs (qrun g cs s).1 (ps, (qrun g cs s).2.fl.erases.length) := by
  obtain ⟨σ, P, h1, h2⟩ := qrun_count w (md := ⟨true, false, none, fun _ => True, false⟩) rfl rfl cs (h.qi w)
    (fun _ => rfl) hd (by simp)
  refine ⟨pagesOf g.pageCount σ P, ?_⟩
  rw [(h1.log rfl).2]
  exact h2

/-! ### The last page -/

/-- The bytes taken on the last page. -/
def lastTaken (W : Nat) (ps : List (List Slot)) : Nat := taken W (ps.getLast?.getD [])

theorem dropSpent_last (ps : List (List Slot)) : (dropSpent ps).getLast? = ps.getLast? := by
  induction ps with
  | nil => rfl
  | cons p ps ih =>
    cases ps with
    | nil => rfl
    | cons q ps =>
      unfold dropSpent
      split
      · rw [ih]; simp
      · rfl

theorem givenUp_last {ps ps' : List (List Slot)} (h : GivenUp ps ps') : ps'.getLast? = ps.getLast? := by
  obtain ⟨gone, rfl, _, h3⟩ := h
  cases ps' with
  | nil => rw [h3 rfl]
  | cons q l =>
    rw [List.getLast?_append]
    cases hx : (q :: l).getLast? with
    | none => simp at hx
    | some y => rfl

theorem wornPage_map {p q : List Slot} (h : WornPage p q) : q.map (·.1) = p.map (·.1) := by
  induction p generalizing q with
  | nil => rw [show q = [] from h]
  | cons x p ih =>
    obtain ⟨d, b⟩ := x
    obtain ⟨b', q', rfl, _, h2⟩ := h
    simp [ih h2]

theorem takePage_map (p : List Slot) : (takePage p).map (·.1) = p.map (·.1) := by
  induction p with
  | nil => rfl
  | cons x p ih =>
    obtain ⟨d, b⟩ := x
    unfold takePage
    split
    · rfl
    · simp [ih]

/-- The data on the last page. -/
def lastData (ps : List (List Slot)) : Option (List (List Byte)) := ps.getLast?.map fun p => p.map (·.1)

theorem worn_last {ps qs : List (List Slot)} (h : Worn ps qs) : lastData qs = lastData ps := by
  induction ps generalizing qs with
  | nil => rw [show qs = [] from h]
  | cons p ps ih =>
    obtain ⟨q, qs', rfl, h1, h2⟩ := h
    have h3 := ih h2
    unfold lastData at *
    cases ps with
    | nil =>
      have : qs' = [] := h2
      subst this
      simp [wornPage_map h1]
    | cons p2 ps =>
      obtain ⟨q2, qs2, rfl, h4, h5⟩ := h2
      rw [List.getLast?_cons_cons, List.getLast?_cons_cons]
      exact h3

theorem takeHead_last (ps : List (List Slot)) : lastData (takeHead ps) = lastData ps := by
  unfold lastData
  match ps with
  | [] => rfl
  | [p] => simp [takeHead, takePage_map]
  | p :: q :: ps => simp [takeHead]

theorem lastTaken_eq (W : Nat) (ps : List (List Slot)) :
    lastTaken W ps = (((lastData ps).getD []).map (itemSize W)).sum := by
  unfold lastTaken lastData taken
  cases ps.getLast? with
  | none => rfl
  | some p => simp [Function.comp_def]

theorem lastData_none {ps : List (List Slot)} : lastData ps = none ↔ ps = [] := by
  unfold lastData; simp

/-- What a call does to the last page. -/
theorem step_last {ρ : Type} {W page n : Nat} {ps ps' : List (List Slot)} {c : QCall ρ} {r : Except Err QAnswer}
    (h : pagedStep W page n ps c r ps') :
    (addedBytes W c r = 0 ∧ startsPage W page ps c r = 0 ∧ lastData ps' = lastData ps) ∨
    (∃ d o x, c = .push d o ∧ r = .ok x ∧ ((startsPage W page ps c r = 0 ∧ ∃ l, lastData ps = some l ∧ lastData ps' = some (l ++ [d])) ∨
      (startsPage W page ps c r = 1 ∧ lastData ps' = some [d] ∧
        ∀ l, lastData ps = some l → page < (l.map (itemSize W)).sum + itemSize W d + 2 * W))) := by
  cases c with
  | push d o =>
    simp only [pagedStep, pushPaged] at h
    split at h
    · obtain ⟨rfl, rfl⟩ := h; exact Or.inl ⟨rfl, rfl, rfl⟩
    split at h
    · rename_i hl
      obtain ⟨rfl, rfl⟩ := h
      refine Or.inr ⟨d, o, _, rfl, rfl, Or.inr ⟨by simp [startsPage, hl], rfl, ?_⟩⟩
      intro l hx; simp [lastData, hl] at hx
    · rename_i p hl
      have hld : lastData ps = some (p.map (·.1)) := by simp [lastData, hl]
      have hsum : ((p.map (·.1)).map (itemSize W)).sum = taken W p := by unfold taken; rw [List.map_map]; rfl
      split at h
      · rename_i hf
        obtain ⟨rfl, rfl⟩ := h
        refine Or.inr ⟨d, o, _, rfl, rfl, Or.inl ⟨by simp [startsPage, hl, hf], _, hld, by simp [lastData]⟩⟩
      · rename_i hf
        have new : ∀ a, r = .ok .done → ps' = a ++ [[(d, true)]] → (addedBytes W (.push d o : QCall ρ) r = 0 ∧
            startsPage W page ps (.push d o : QCall ρ) r = 0 ∧ lastData ps' = lastData ps) ∨
            (∃ d1 o1 x, (.push d o : QCall ρ) = .push d1 o1 ∧ r = .ok x ∧
              ((startsPage W page ps (.push d o : QCall ρ) r = 0 ∧ ∃ l, lastData ps = some l ∧ lastData ps' = some (l ++ [d1])) ∨
              (startsPage W page ps (.push d o : QCall ρ) r = 1 ∧ lastData ps' = some [d1] ∧
                ∀ l, lastData ps = some l → page < (l.map (itemSize W)).sum + itemSize W d1 + 2 * W))) := by
          rintro a rfl rfl
          refine Or.inr ⟨d, o, _, rfl, rfl, Or.inr ⟨by simp [startsPage, hl, hf], by simp [lastData], ?_⟩⟩
          intro l hx
          rw [hld, Option.some.injEq] at hx
          rw [← hx, hsum]; omega
        split at h
        · exact new _ h.1 h.2
        · split at h
          · exact new _ h.1 h.2
          · obtain ⟨rfl, rfl⟩ := h; exact Or.inl ⟨rfl, rfl, rfl⟩
  | pop b =>
    refine Or.inl ⟨rfl, rfl, ?_⟩
    rcases h with ⟨_, rfl⟩ | ⟨_, rfl⟩
    · rw [takeHead_last]; unfold lastData; rw [dropSpent_last]
    · unfold lastData; rw [dropSpent_last]
  | peek b =>
    refine Or.inl ⟨rfl, rfl, ?_⟩
    rw [show ps' = dropSpent ps from h]; unfold lastData; rw [dropSpent_last]
  | iterate steps =>
    refine Or.inl ⟨rfl, rfl, ?_⟩
    obtain ⟨ps1, h1, h2⟩ := h
    rw [← worn_last h1]; unfold lastData; rw [givenUp_last h2]
  | maxFit => exact Or.inl ⟨rfl, rfl, by rw [h.1]⟩
  | spaceLeft => exact Or.inl ⟨rfl, rfl, by rw [h.1]⟩
  | restart x => exact Or.inl ⟨rfl, rfl, by rw [show ps' = ps from h]⟩

/-! ### Few erases -/

/-- The bytes that can be used on a page, times the pages begun before the last, are at most twice those pushed. -/
theorem runs_bytes {ρ : Type} {W page n : Nat} (hpg : 2 * W ≤ page) (cs : List (QCall ρ)) :
    ∀ {rs : List (Except Err QAnswer)} {ps ps' : List (List Slot)} {e e' S : Nat},
      Runs (eraseStep W page n) (ps, e) cs rs (ps', e') → (ps = [] → e = 0) →
      (e + ps.length - 1) * (page - 2 * W) + lastTaken W ps ≤ 2 * S →
      (ps' = [] → e' = 0) ∧ (e' + ps'.length - 1) * (page - 2 * W) + lastTaken W ps' ≤ 2 * (S + bytesPushed W cs rs) := by
  induction cs with
  | nil =>
    intro rs ps ps' e e' S h h0 hS
    obtain ⟨rfl, hx⟩ := h
    obtain ⟨rfl, rfl⟩ : ps' = ps ∧ e' = e := by simpa using hx
    exact ⟨h0, by simpa [bytesPushed] using hS⟩
  | cons c cs ih =>
    intro rs ps ps' e e' S h h0 hS
    obtain ⟨r, rs', ⟨ps1, e1⟩, rfl, ⟨h1, h2⟩, h3⟩ := h
    simp only at h1 h2
    have := ih (S := S + addedBytes W c r) h3 ?_ ?_
    · refine ⟨this.1, ?_⟩
      have h4 := this.2
      simp only [bytesPushed]
      rw [← Nat.add_assoc]; exact h4
    · intro hp1
      rcases step_last h1 with ⟨_, h5, h6⟩ | ⟨d, o, x, rfl, rfl, ⟨_, l, _, h6⟩ | ⟨_, h6, _⟩⟩
      · rw [hp1] at h6
        have : ps = [] := lastData_none.1 h6.symm
        subst this; subst hp1
        rw [h5, h0 rfl] at h2; simpa using h2
      · rw [hp1] at h6; simp [lastData] at h6
      · rw [hp1] at h6; simp [lastData] at h6
    · rw [lastTaken_eq] at hS ⊢
      rcases step_last h1 with ⟨h4, h5, h6⟩ | ⟨d, o, x, rfl, rfl, ⟨h5, l, h7, h6⟩ | ⟨h5, h6, h7⟩⟩
      · rw [h2, h5, h4, h6]; exact hS
      · rw [h2, h5, h6, Nat.add_zero]
        rw [h7] at hS
        simp only [Option.getD_some, List.map_append, List.map_cons, List.map_nil, List.sum_append, List.sum_cons,
          List.sum_nil, addedBytes] at hS ⊢
        omega
      · rw [h2, h5, h6]
        simp only [Option.getD_some, List.map_cons, List.map_nil, List.sum_cons, List.sum_nil, addedBytes]
        cases hl : lastData ps with
        | none =>
          have : ps = [] := lastData_none.1 hl
          subst this
          rw [h0 rfl]; simp; omega
        | some l =>
          have hne : ps.length ≠ 0 := by
            intro hx
            rw [List.length_eq_zero_iff] at hx
            rw [lastData_none.2 hx] at hl; simp at hl
          have h8 := h7 l hl
          rw [hl] at hS
          simp only [Option.getD_some] at hS
          have h9 : e + ps.length + 1 - 1 = (e + ps.length - 1) + 1 := by omega
          rw [h9, Nat.add_mul]
          omega

/-- C56. Erases are few: on a fresh region, the space of all the pages a queue has erased is at most twice the space of
the items pushed, whatever was popped, peeked, iterated or refused, and however often it was restarted. -/
theorem queue_erases_little (w : g.WF) (h : Start g s) (cs : List (QCall (Cache K))) (hd : ∀ c ∈ cs, Documented g c) :
    (qrun g cs s).2.fl.erases.length * (g.eraseSize - 2 * g.word) ≤ 2 * bytesPushed g.word cs (qrun g cs s).1 := by
  obtain ⟨ps, hr⟩ := queue_counts_its_erases w h cs hd
  have := runs_bytes (by have := w.fits; omega) cs (S := 0) hr (by simp) (by simp [lastTaken, taken])
  obtain ⟨h1, h2⟩ := this
  rw [Nat.zero_add] at h2
  cases ps with
  | nil => rw [h1 rfl]; simp
  | cons p ps =>
    refine Nat.le_trans (Nat.mul_le_mul_right _ ?_) (Nat.le_trans (Nat.le_add_right _ _) h2)
    simp only [List.length_cons]; omega

theorem sum_same {W z : Nat} {l : List (List Byte)} (h : ∀ d ∈ l, itemSize W d = z) : (l.map (itemSize W)).sum = l.length * z := by
  induction l with
  | nil => simp
  | cons a l ih =>
    simp only [List.map_cons, List.sum_cons, List.length_cons, Nat.add_mul, Nat.one_mul]
    rw [h a (by simp), ih (fun d hd => h d (by simp [hd]))]
    omega

/-- Pages filled with items of one size. -/
theorem runs_equal {ρ : Type} {W page n z : Nat} (hz : 0 < z) (hpg : 2 * W ≤ page) (cs : List (QCall ρ)) :
    ∀ {rs : List (Except Err QAnswer)} {ps ps' : List (List Slot)} {e e' N : Nat},
      Runs (eraseStep W page n) (ps, e) cs rs (ps', e') → (∀ d o, .push d o ∈ cs → itemSize W d = z) → (ps = [] → e = 0) →
      (∀ l, lastData ps = some l → ∀ d ∈ l, itemSize W d = z) →
      (e + ps.length - 1) * ((page - 2 * W) / z) + ((lastData ps).getD []).length ≤ N →
      (ps' = [] → e' = 0) ∧
        (e' + ps'.length - 1) * ((page - 2 * W) / z) + ((lastData ps').getD []).length ≤ N + pushesDone cs rs := by
  induction cs with
  | nil =>
    intro rs ps ps' e e' N h _ h0 _ hS
    obtain ⟨rfl, hx⟩ := h
    obtain ⟨rfl, rfl⟩ : ps' = ps ∧ e' = e := by simpa using hx
    exact ⟨h0, by simpa [pushesDone] using hS⟩
  | cons c cs ih =>
    intro rs ps ps' e e' N h hcs h0 hl hS
    obtain ⟨r, rs', ⟨ps1, e1⟩, rfl, ⟨h1, h2⟩, h3⟩ := h
    simp only at h1 h2
    have hcs' : ∀ d o, .push d o ∈ cs → itemSize W d = z := fun d o hx => hcs d o (by simp [hx])
    rcases step_last h1 with ⟨h4, h5, h6⟩ | ⟨d, o, x, rfl, rfl, ⟨h5, l, h7, h6⟩ | ⟨h5, h6, h7⟩⟩
    · have hdone : pushesDone (c :: cs) (r :: rs') = pushesDone cs rs' := by
        cases c with
        | push d o =>
          cases r with
          | ok x =>
            have := hcs d o (by simp)
            simp only [addedBytes] at h4
            omega
          | error e => rfl
        | _ => rfl
      rw [hdone]
      refine ih h3 hcs' ?_ (by rw [h6]; exact hl) (by rw [h2, h5, h6]; exact hS)
      intro hp1
      rw [hp1] at h6
      have : ps = [] := lastData_none.1 h6.symm
      subst this; subst hp1
      rw [h5, h0 rfl] at h2; simpa using h2
    · have hdz := hcs d o (by simp)
      rw [h7] at hS
      have := ih (N := N + 1) h3 hcs' (fun hp1 => by rw [hp1] at h6; simp [lastData] at h6)
        (by
          intro l' hl' d' hd'
          rw [h6, Option.some.injEq] at hl'
          rw [← hl'] at hd'
          simp only [List.mem_append, List.mem_singleton] at hd'
          rcases hd' with hd' | rfl
          · exact hl l h7 d' hd'
          · exact hdz)
        (by
          rw [h2, h5, h6, Nat.add_zero]
          simp only [Option.getD_some, List.length_append, List.length_cons, List.length_nil] at hS ⊢
          omega)
      refine ⟨this.1, ?_⟩
      simp only [pushesDone]; have := this.2; omega
    · have hdz := hcs d o (by simp)
      have := ih (N := N + 1) h3 hcs' (fun hp1 => by rw [hp1] at h6; simp [lastData] at h6)
        (by
          intro l' hl' d' hd'
          rw [h6, Option.some.injEq] at hl'
          rw [← hl', List.mem_singleton] at hd'
          rw [hd']; exact hdz)
        (by
          rw [h2, h5, h6]
          simp only [Option.getD_some, List.length_cons, List.length_nil]
          cases hx : lastData ps with
          | none =>
            have : ps = [] := lastData_none.1 hx
            subst this
            rw [h0 rfl]; simp
          | some l =>
            have hne : ps.length ≠ 0 := by
              intro hy
              rw [List.length_eq_zero_iff] at hy
              rw [lastData_none.2 hy] at hx; simp at hx
            have h8 := h7 l hx
            rw [hx] at hS
            simp only [Option.getD_some] at hS
            have hsum := sum_same (W := W) (hl l hx)
            rw [hsum, hdz] at h8
            have h10 : (page - 2 * W) / z ≤ l.length := by
              have : (page - 2 * W) / z < l.length + 1 := by
                rw [Nat.div_lt_iff_lt_mul hz, Nat.add_mul]; omega
              omega
            have h9 : e + ps.length + 1 - 1 = (e + ps.length - 1) + 1 := by omega
            rw [h9, Nat.add_mul]
            omega)
      refine ⟨this.1, ?_⟩
      simp only [pushesDone]; have := this.2; omega

/-- C56. Items of one size: the queue erases a page at most once per as many pushes as items of that size fit on
a page. -/
theorem queue_erases_once_per_page (w : g.WF) (h : Start g s) (cs : List (QCall (Cache K))) (hd : ∀ c ∈ cs, Documented g c)
    {z : Nat} (hz : ∀ d o, .push d o ∈ cs → itemSize g.word d = z) :
    (qrun g cs s).2.fl.erases.length * ((g.eraseSize - 2 * g.word) / z) ≤ pushesDone cs (qrun g cs s).1 := by
  rcases Nat.eq_zero_or_pos z with rfl | hz0
  · simp
  obtain ⟨ps, hr⟩ := queue_counts_its_erases w h cs hd
  obtain ⟨h1, h2⟩ := runs_equal hz0 (by have := w.fits; omega) cs (N := 0) hr hz (by simp) (by simp [lastData]) (by simp [lastData])
  rw [Nat.zero_add] at h2
  cases ps with
  | nil => rw [h1 rfl]; simp
  | cons p ps =>
    refine Nat.le_trans (Nat.mul_le_mul_right _ ?_) (Nat.le_trans (Nat.le_add_right _ _) h2)
    simp only [List.length_cons]; omega

/-! ### Cases -/

/-- Nine items of one byte each, twice on a page, with pops in between. -/
def steady : List (QCall (Cache Unit)) :=
  (List.range 9).flatMap fun i => [.push [BitVec.ofNat 8 i] true, .peek buf32] ++ if i % 3 = 2 then [.pop buf32] else []

theorem steady_documented : ∀ c ∈ steady, Documented geo2 c := by
  intro c hc
  obtain ⟨i, _, hi⟩ := List.mem_flatMap.1 hc
  rw [List.mem_append] at hi
  rcases hi with hi | hi
  · simp only [List.mem_cons, List.not_mem_nil, or_false] at hi
    rcases hi with rfl | rfl <;> first | trivial | exact (by decide : (4 : Nat) ∣ 32)
  · split at hi
    · simp only [List.mem_cons, List.not_mem_nil, or_false] at hi
      subst hi
      first | trivial | exact (by decide : (4 : Nat) ∣ 32)
    · simp at hi

theorem steady_size : ∀ d o, .push d o ∈ steady → itemSize geo2.word d = 12 := by
  intro d o hc
  obtain ⟨i, _, hi⟩ := List.mem_flatMap.1 hc
  rw [List.mem_append] at hi
  rcases hi with hi | hi
  · simp only [List.mem_cons, List.not_mem_nil, or_false] at hi
    rcases hi with hi | hi
    · obtain ⟨rfl, _⟩ : d = _ ∧ _ := by simpa using hi
      simp only [itemSize, List.length_cons, List.length_nil]
      decide
    · cases hi
  · split at hi <;> simp at hi

theorem steady_erases : (qrun geo2 steady freshSt).2.fl.erases = [0, 32, 0] := by decide +kernel

example : ∃ ps, Runs (eraseStep 4 32 2) ([], 0) steady (qrun geo2 steady freshSt).1 (ps, 3) := by
  have := queue_counts_its_erases geo2_wf (fresh_start _) steady steady_documented
  rw [steady_erases] at this
  exact this

example : 3 * 2 ≤ pushesDone steady (qrun geo2 steady freshSt).1 := by
  have := queue_erases_once_per_page geo2_wf (fresh_start _) steady steady_documented steady_size
  rw [steady_erases] at this
  exact this

example : 3 * (geo2.eraseSize - 2 * geo2.word) ≤ 2 * bytesPushed geo2.word steady (qrun geo2 steady freshSt).1 := by
  have := queue_erases_little geo2_wf (fresh_start _) steady steady_documented
  rw [steady_erases] at this
  exact this

theorem pushes_erases : (qrun geo2 (pushes 9) freshSt).2.fl.erases = [0, 32, 0, 32, 0] := by decide +kernel

example : 5 * (geo2.eraseSize - 2 * geo2.word) ≤ 2 * bytesPushed geo2.word (pushes 9) (qrun geo2 (pushes 9) freshSt).1 := by
  have := queue_erases_little geo2_wf (fresh_start _) (pushes 9) (pushes_ok 9).1
  rw [pushes_erases] at this
  exact this

end SeqStorage.Props
