import Verif.Proofs.Steps
import Verif.Model.Map
/-
Calls on any flash contents: no access out of range or misaligned, no panic, no endless loop.
Nothing is assumed about what is stored.
-/

set_option linter.unusedSectionVars false

namespace SeqStorage
open M

variable {K : Type} [DecidableEq K] {α β : Type} {g : Geo}

/-! ### The page state cache -/

namespace CalcPS

/-- What `CalculatedPageStates` keeps true whatever it is told. -/
structure Safe (n : Nat) (c : CalcPS) : Prop where
  count : c.pageCount = n
  pos : 0 < n
  anchor : ∀ a, c.anchor = some a → a < n ∧ 1 ≤ c.openPages
  part : c.anchorIsPartial = true → c.anchorIsGuess = false

variable {n i j : Nat} {c c' : CalcPS}

theorem new_safe (h : 0 < n) : Safe n (CalcPS.new n) := ⟨rfl, h, by simp [CalcPS.new], by simp [CalcPS.new]⟩

theorem inFront_pos (h : Safe n c) {a : Nat} (ha : a < n) (hne : a ≠ i) : 1 ≤ c.inFront a i := by
  unfold inFront; rw [h.count]; split <;> omega

theorem get_partial (h : c.get i = some .partialOpen) : c.anchor = some i ∧ c.anchorIsPartial = true := by
  unfold get at h
  split at h
  · simp at h
  · rename_i a ha
    split at h
    · rename_i he
      subst he
      cases hp : c.anchorIsPartial with
      | true => exact ⟨ha, rfl⟩
      | false => rw [hp] at h; simp at h
    · split at h
      · simp at h
      · split at h <;> simp at h

theorem get_anchor {a : Nat} (h : c.anchor = some a) :
    c.get a = some (if c.anchorIsPartial then .partialOpen else .open) := by
  unfold get; rw [h]; simp

/-- A page that is known to be open beside a partial page. -/
theorem two_of_open (h : Safe n c) (hp : c.get j = some .partialOpen) (ho : c.get i = some .open) :
    2 ≤ c.openPages := by
  obtain ⟨ha, hpt⟩ := get_partial hp
  have hne : j ≠ i := by rintro rfl; rw [hp] at ho; simp at ho
  have hj := (h.anchor j ha).1
  have := inFront_pos h hj hne
  unfold get at ho
  rw [ha] at ho
  simp only [hne, if_false] at ho
  split at ho
  · omega
  · split at ho <;> simp at ho

theorem notice_partial (h : Safe n c) (hi : i < n) (hg : c.get i ≠ some .closed) :
    ∃ c', c.notice i .partialOpen = .ok c' ∧ Safe n c' ∧ c'.get i = some .partialOpen := by
  unfold notice
  cases hc : c.get i with
  | none =>
    refine ⟨_, rfl, ⟨h.count, h.pos, ?_, by simp⟩, ?_⟩
    · intro a ha; simp only [Option.some.injEq] at ha; subst ha; exact ⟨hi, by simp⟩
    · rw [get_anchor rfl]; rfl
  | some st =>
    cases st with
    | closed => exact absurd hc hg
    | partialOpen =>
      refine ⟨_, rfl, ⟨h.count, h.pos, h.anchor, by simp⟩, ?_⟩
      obtain ⟨h1, h2⟩ := get_partial hc
      rw [get_anchor (c := { c with anchorIsGuess := false }) h1]
      simp [h2]
    | «open» =>
      refine ⟨_, rfl, ⟨h.count, h.pos, ?_, by simp⟩, ?_⟩
      · intro a ha
        simp only [Option.some.injEq] at ha
        subst ha
        refine ⟨hi, ?_⟩
        cases hca : c.anchor with
        | none => unfold get at hc; rw [hca] at hc; simp at hc
        | some a => exact (h.anchor a hca).2
      · rw [get_anchor rfl]; rfl

theorem notice_closed_none (h : Safe n c) (hg : c.get i = none) :
    ∃ c', c.notice i .closed = .ok c' ∧ Safe n c' ∧ c'.anchor = c.anchor ∧ c'.anchorIsPartial = c.anchorIsPartial ∧
      c'.openPages = c.openPages ∧ c'.anchorIsGuess = c.anchorIsGuess ∧ c'.pageCount = c.pageCount ∧
      (c.anchorIsGuess = true → c' = c) ∧ (c.anchor = none → c' = c) := by
  unfold notice
  rw [hg]
  simp only
  cases hgu : c.anchorIsGuess with
  | true => exact ⟨c, rfl, h, rfl, rfl, rfl, hgu, rfl, fun _ => rfl, fun _ => rfl⟩
  | false =>
    cases ha : c.anchor with
    | none => exact ⟨c, by simp, h, ha, rfl, rfl, hgu, rfl, fun _ => rfl, fun _ => rfl⟩
    | some a =>
      refine ⟨_, if_neg (by simp), ⟨h.count, h.pos, ?_, ?_⟩, rfl, rfl, rfl, rfl, rfl, by simp, by simp⟩
      · intro b hb
        simp only [Option.some.injEq] at hb
        subst hb
        exact h.anchor a ha
      · intro _; rfl

theorem notice_closed_part (h : Safe n c) (hp : c.get i = some .partialOpen) (h2 : 2 ≤ c.openPages) :
    ∃ c', c.notice i .closed = .ok c' ∧ Safe n c' := by
  obtain ⟨ha, hpt⟩ := get_partial hp
  have hc := h.count
  have hpos := h.pos
  unfold notice
  rw [hp, ha]
  simp only
  rw [if_neg (by omega)]
  refine ⟨_, rfl, ⟨hc, hpos, ?_, by simp⟩⟩
  intro a ha'
  simp only [Option.some.injEq] at ha'
  subst ha'
  refine ⟨?_, by simp only; omega⟩
  rw [hc]; exact Nat.mod_lt _ hpos

theorem notice_open (h : Safe n c) (hi : i < n) :
    ∃ c', c.notice i .open = .ok c' ∧ Safe n c' ∧
      (c.get i ≠ some .closed → c'.get i = some .open ∨ (c'.get i = none ∧ c' = c ∧ c.anchorIsGuess = true)) ∧
      (∀ j, j ≠ i → c.get j = some .partialOpen → c'.get j = some .partialOpen ∧ 2 ≤ c'.openPages) := by
  have hcn := h.count
  have hpos := h.pos
  have hpart : ∀ j, j ≠ i → c.get j = some .partialOpen → c.anchor = some j ∧ c.anchorIsPartial = true ∧ 1 ≤ c.inFront j i ∧
      c.anchorIsGuess = false := by
    intro j hj hp
    obtain ⟨h1, h2⟩ := get_partial hp
    exact ⟨h1, h2, inFront_pos h (h.anchor j h1).1 hj, h.part h2⟩
  unfold notice
  cases hc : c.get i with
  | some st =>
    cases st with
    | «open» =>
      refine ⟨c, rfl, h, fun _ => Or.inl hc, fun j hj hp => ⟨hp, two_of_open h hp hc⟩⟩
    | partialOpen =>
      obtain ⟨h1, h2⟩ := get_partial hc
      refine ⟨_, rfl, ⟨hcn, hpos, h.anchor, by simp⟩, fun _ => Or.inl ?_, ?_⟩
      · rw [get_anchor (c := { c with anchorIsPartial := false }) h1]; rfl
      · intro j hj hp
        have := (hpart j hj hp).1
        rw [h1] at this
        simp at this
        exact absurd this.symm hj
    | closed =>
      cases ha : c.anchor with
      | none => unfold get at hc; rw [ha] at hc; simp at hc
      | some a =>
        simp only
        rw [if_neg (by omega)]
        refine ⟨_, rfl, ⟨hcn, hpos, ?_, h.part⟩, fun hx => absurd rfl hx, ?_⟩
        · intro b hb
          simp only [Option.some.injEq] at hb
          subst hb
          refine ⟨(h.anchor a ha).1, ?_⟩
          simp only; omega
        · intro j hj hp
          obtain ⟨h1, h2, h3, h4⟩ := hpart j hj hp
          rw [ha] at h1
          simp only [Option.some.injEq] at h1
          subst h1
          refine ⟨?_, by simp only; omega⟩
          rw [get_anchor rfl]
          simp [h2]
  | none =>
    cases ha : c.anchor with
    | none =>
      simp only
      refine ⟨_, rfl, ⟨hcn, hpos, ?_, by simp⟩, fun _ => Or.inl ?_, ?_⟩
      · intro b hb; simp only [Option.some.injEq] at hb; subst hb; exact ⟨hi, by simp⟩
      · rw [get_anchor rfl]; rfl
      · intro j hj hp
        have := (hpart j hj hp).1
        rw [ha] at this; simp at this
    | some a =>
      have han := h.anchor a ha
      have hne : a ≠ i := by
        rintro rfl
        rw [get_anchor ha] at hc; simp at hc
      simp only
      cases hgu : c.anchorIsGuess with
      | true =>
        rw [if_pos rfl, if_neg (by omega)]
        by_cases he : i = (a + c.openPages) % c.pageCount
        · rw [if_pos he]
          refine ⟨_, rfl, ⟨hcn, hpos, ?_, by have := h.part; rw [hgu] at this; exact this⟩, fun _ => Or.inl ?_, ?_⟩
          · intro b hb
            simp only [Option.some.injEq] at hb
            subst hb
            exact ⟨han.1, by simp only; omega⟩
          · unfold get
            simp only [hne, if_false]
            rw [if_pos]
            unfold inFront
            simp only
            rw [hcn] at he ⊢
            have hm := Nat.mod_lt (a + c.openPages) hpos
            by_cases hlt : a + c.openPages < n
            · rw [Nat.mod_eq_of_lt hlt] at he
              rw [if_pos (by omega)]; omega
            · split
              · omega
              · by_cases hl2 : a + c.openPages < 2 * n
                · rw [Nat.mod_eq_sub_mod (by omega), Nat.mod_eq_of_lt (by omega)] at he
                  omega
                · omega
          · intro j hj hp
            have := (hpart j hj hp).2.2.2
            rw [hgu] at this; simp at this
        · rw [if_neg he]
          refine ⟨c, rfl, h, fun _ => Or.inr ⟨hc, rfl, rfl⟩, ?_⟩
          intro j hj hp
          have := (hpart j hj hp).2.2.2
          rw [hgu] at this; simp at this
      | false =>
        rw [if_neg (by simp)]
        refine ⟨_, rfl, ⟨hcn, hpos, ?_, fun _ => rfl⟩, fun _ => Or.inl ?_, ?_⟩
        · intro b hb
          simp only [Option.some.injEq] at hb
          subst hb
          exact ⟨han.1, by simp only; omega⟩
        · unfold get
          simp only [hne, if_false]
          rw [if_pos]
          unfold inFront
          simp only
          omega
        · intro j hj hp
          obtain ⟨h1, h2, h3, h4⟩ := hpart j hj hp
          rw [ha] at h1
          simp only [Option.some.injEq] at h1
          subst h1
          refine ⟨?_, by simp only; omega⟩
          rw [get_anchor rfl]
          simp [h2]

/-- Hearing that an unknown page is open: nothing known is lost, and nothing becomes closed or partial. -/
theorem notice_open_none (h : Safe n c) (hi : i < n) (hg : c.get i = none) (hn : c.notice i .open = .ok c') :
    (∀ j x, j < n → c.get j = some x → c'.get j = some x) ∧
    (∀ j, j < n → c.get j = none → c'.get j = none ∨ c'.get j = some .open) := by
  have hcn := h.count
  have hpos := h.pos
  unfold notice at hn
  rw [hg] at hn
  simp only at hn
  cases ha : c.anchor with
  | none =>
    rw [ha] at hn
    simp only [Except.ok.injEq] at hn
    subst hn
    have hnone : ∀ j, c.get j = none := by intro j; unfold get; rw [ha]
    refine ⟨fun j x _ hx => ?_, fun j hjn _ => ?_⟩
    · rw [hnone j] at hx; simp at hx
    · unfold get
      simp only
      by_cases hij : i = j
      · simp [hij]
      · rw [if_neg hij]
        split
        · exact Or.inr rfl
        · rw [if_neg (by unfold behind; simp only; split <;> omega)]; exact Or.inl rfl
  | some a =>
    have han := h.anchor a ha
    rw [ha] at hn
    simp only at hn
    have key : ∀ o, c.openPages ≤ o → c'.anchor = some a → c'.anchorIsPartial = c.anchorIsPartial → c'.openPages = o →
        c'.closedPages = c.closedPages → c'.pageCount = c.pageCount →
        (∀ j, j < n → c.get j = some .closed → o ≤ c.inFront a j) →
        (∀ j x, j < n → c.get j = some x → c'.get j = some x) ∧
        (∀ j, j < n → c.get j = none → c'.get j = none ∨ c'.get j = some .open) := by
      intro o ho h1 h2 h3 h4 h5 hcl
      have e1 : ∀ j, c'.inFront a j = c.inFront a j := by intro j; unfold inFront; rw [h5]
      have e2 : ∀ j, c'.behind a j = c.behind a j := by intro j; unfold behind; rw [h5]
      refine ⟨fun j x hjn hx => ?_, fun j hjn hj => ?_⟩
      · have hcl' := hcl j hjn
        have hx' := hx
        unfold get at hx ⊢
        rw [ha] at hx
        rw [h1]
        simp only [e1, e2, h2, h3, h4] at hx ⊢
        by_cases haj : a = j
        · rw [if_pos haj] at hx ⊢; exact hx
        · rw [if_neg haj] at hx ⊢
          by_cases hf : c.inFront a j < c.openPages
          · rw [if_pos hf] at hx; rw [if_pos (by omega)]; exact hx
          · rw [if_neg hf] at hx
            by_cases hb : c.behind a j ≤ c.closedPages
            · rw [if_pos hb] at hx
              rw [← hx] at hx'
              rw [if_neg (by have := hcl' hx'; omega), if_pos hb]
              exact hx
            · rw [if_neg hb] at hx; simp at hx
      · unfold get at hj ⊢
        rw [ha] at hj
        rw [h1]
        simp only [e1, e2, h3, h4] at hj ⊢
        by_cases haj : a = j
        · rw [if_pos haj] at hj; simp at hj
        · rw [if_neg haj] at hj ⊢
          by_cases hf : c.inFront a j < c.openPages
          · rw [if_pos hf] at hj; simp at hj
          · rw [if_neg hf] at hj
            split
            · exact Or.inr rfl
            · exact Or.inl hj
    have hne : a ≠ i := by
      rintro rfl
      rw [get_anchor ha] at hg; simp at hg
    have hfr : c.openPages ≤ c.inFront a i ∧ c.closedPages < c.behind a i := by
      unfold get at hg
      rw [ha] at hg
      simp only [hne, if_false] at hg
      by_cases hf : c.inFront a i < c.openPages
      · rw [if_pos hf] at hg; simp at hg
      · rw [if_neg hf] at hg
        by_cases hb : c.behind a i ≤ c.closedPages
        · rw [if_pos hb] at hg; simp at hg
        · omega
    have hcl : ∀ o, o ≤ c.inFront a i + 1 → ∀ j, j < n → c.get j = some .closed → o ≤ c.inFront a j := by
      intro o ho j hj hx
      have hij : i ≠ j := by rintro rfl; rw [hg] at hx; simp at hx
      unfold get at hx
      rw [ha] at hx
      simp only at hx
      by_cases haj : a = j
      · rw [if_pos haj] at hx; split at hx <;> simp at hx
      · rw [if_neg haj] at hx
        by_cases hf : c.inFront a j < c.openPages
        · rw [if_pos hf] at hx; simp at hx
        · rw [if_neg hf] at hx
          by_cases hb : c.behind a j ≤ c.closedPages
          · have := hfr.2
            have han' := han.1
            unfold inFront at ho ⊢
            unfold behind at this hb
            rw [hcn] at *
            split at ho <;> split at this <;> split at hb <;> split <;> omega
          · rw [if_neg hb] at hx; simp at hx
    cases hgu : c.anchorIsGuess with
    | true =>
      rw [hgu, if_pos rfl, if_neg (by omega)] at hn
      by_cases he : i = (a + c.openPages) % c.pageCount
      · rw [if_pos he] at hn
        simp only [Except.ok.injEq] at hn
        subst hn
        exact key _ (Nat.le_succ _) rfl rfl rfl rfl rfl (hcl _ (by omega))
      · rw [if_neg he] at hn
        simp only [Except.ok.injEq] at hn
        subst hn
        exact key _ (Nat.le_refl _) ha rfl rfl rfl rfl (hcl _ (by omega))
    | false =>
      rw [hgu, if_neg (by simp)] at hn
      simp only [Except.ok.injEq] at hn
      subst hn
      exact key _ (Nat.le_max_left _ _) rfl rfl rfl rfl rfl (hcl _ (by omega))

/-- Hearing that an unknown page is closed. -/
theorem notice_closed_get (hg : c.get i = none) (hn : c.notice i .closed = .ok c') :
    (∀ j x, c.get j = some x → c'.get j = some x) ∧
    (∀ j, c.get j = none → c'.get j = none ∨ c'.get j = some .closed) ∧
    (c.anchorIsGuess = true → c' = c) ∧ (c'.get i = some .closed ∨ c' = c) := by
  unfold notice at hn
  rw [hg] at hn
  simp only at hn
  cases hgu : c.anchorIsGuess with
  | true =>
    rw [hgu, if_pos rfl] at hn
    simp only [Except.ok.injEq] at hn
    subst hn
    exact ⟨fun _ _ h => h, fun _ h => Or.inl h, fun _ => rfl, Or.inr rfl⟩
  | false =>
    rw [hgu, if_neg (by simp)] at hn
    cases ha : c.anchor with
    | none =>
      rw [ha] at hn
      simp only [Except.ok.injEq] at hn
      subst hn
      exact ⟨fun _ _ h => h, fun _ h => Or.inl h, fun _ => rfl, Or.inr rfl⟩
    | some a =>
      rw [ha] at hn
      simp only [Except.ok.injEq] at hn
      have h1 : c'.anchor = some a := by rw [← hn]
      have h2 : c'.anchorIsPartial = c.anchorIsPartial := by rw [← hn]
      have h3 : c'.openPages = c.openPages := by rw [← hn]
      have h4 : c'.closedPages = max c.closedPages (c.behind a i) := by rw [← hn]
      have e1 : ∀ j, c'.inFront a j = c.inFront a j := by intro j; rw [← hn]; rfl
      have e2 : ∀ j, c'.behind a j = c.behind a j := by intro j; rw [← hn]; rfl
      have hg' := hg
      unfold get at hg'
      rw [ha] at hg'
      simp only at hg'
      refine ⟨fun j x hx => ?_, fun j hj => ?_, by simp, Or.inl ?_⟩
      · unfold get at hx ⊢
        rw [ha] at hx
        rw [h1]
        simp only [e1, e2, h2, h3, h4] at hx ⊢
        by_cases haj : a = j
        · rw [if_pos haj] at hx ⊢; exact hx
        · rw [if_neg haj] at hx ⊢
          by_cases hf : c.inFront a j < c.openPages
          · rw [if_pos hf] at hx; rw [if_pos hf]; exact hx
          · rw [if_neg hf] at hx
            by_cases hb : c.behind a j ≤ c.closedPages
            · rw [if_pos hb] at hx
              rw [if_neg hf, if_pos (Nat.le_trans hb (Nat.le_max_left _ _))]
              exact hx
            · rw [if_neg hb] at hx; simp at hx
      · unfold get at hj ⊢
        rw [ha] at hj
        rw [h1]
        simp only [e1, e2, h2, h3, h4] at hj ⊢
        by_cases haj : a = j
        · rw [if_pos haj] at hj; simp at hj
        · rw [if_neg haj] at hj ⊢
          by_cases hf : c.inFront a j < c.openPages
          · rw [if_pos hf] at hj; simp at hj
          · rw [if_neg hf]
            split
            · exact Or.inr rfl
            · exact Or.inl rfl
      · unfold get
        rw [h1]
        simp only [e1, e2, h2, h3, h4]
        by_cases haj : a = i
        · rw [if_pos haj] at hg'; simp at hg'
        · rw [if_neg haj] at hg' ⊢
          by_cases hf : c.inFront a i < c.openPages
          · rw [if_pos hf] at hg'; simp at hg'
          · rw [if_neg hf, if_pos (Nat.le_max_right _ _)]

end CalcPS

/-- `CalcPS.Safe` for all three kinds of page state cache. -/
def PSafe (n : Nat) : PSCache → Prop
  | .uncached => True
  | .calculated c => c.Safe n
  | .table l => l.length = n

/-- If the states are calculated, page `i` is known to be the partial page. -/
def IsPart (i : Nat) (c : PSCache) : Prop := ∀ x, c = .calculated x → x.get i = some .partialOpen

/-- If the states are calculated, at least two pages are known to be open. -/
def Two (c : PSCache) : Prop := ∀ x, c = .calculated x → 2 ≤ x.openPages

/-- The state of page `i` according to its markers. -/
def stateAt (g : Geo) (mem : Nat → Byte) (i : Nat) : Except Err PageState :=
  stateOfMarkers (marked (readBytes mem (g.pageAddr i) g.readSize))
    (marked (readBytes mem (g.pageAddr i + (g.eraseSize - g.readSize)) g.readSize))

/-- If the states are calculated, page `i` will be seen as open. -/
def OpenSeen (g : Geo) (i : Nat) (s : St K) : Prop :=
  ∀ x, s.cache.ps = .calculated x → x.get i = some .open ∨ (x.get i = none ∧ stateAt g s.fl.mem i = .ok .open)

/-- If the states are calculated, page `i` will not be seen as partial. -/
def NotPart (g : Geo) (i : Nat) (s : St K) : Prop :=
  ∀ x, s.cache.ps = .calculated x → x.get i ≠ some .partialOpen ∧
    (x.get i = none → stateAt g s.fl.mem i ≠ .ok .partialOpen)

/-- Whatever closed pages are looked at, page `i` will not be seen as closed. -/
def Stop (g : Geo) (i : Nat) (s : St K) : Prop :=
  match s.cache.ps with
  | .uncached => stateAt g s.fl.mem i ≠ .ok .closed
  | .table l => ∃ st, l[i]? = some (some st) ∧ st ≠ .closed
  | .calculated x => x.get i = some .partialOpen ∨ x.get i = some .open ∨
      (x.get i = none ∧ x.anchorIsGuess = true ∧ stateAt g s.fl.mem i = .ok .open)

/-- An address in the data area of page `i`. -/
structure At (g : Geo) (i a : Nat) : Prop where
  lo : g.dataStart i ≤ a
  hi : a ≤ g.dataEnd i
  al : g.word ∣ a

/-- What holds between any two steps, whatever the flash contains. `mp` says that a map is stored,
for which a key cache must have entries. -/
structure SInv (mp : Bool) (g : Geo) (s : St K) : Prop where
  faults : s.fl.faults = 0
  ps : PSafe g.pageCount s.cache.ps
  ppE : ∀ i p, i < g.pageCount → s.cache.pp.afterErased i = some p → At g i p
  ppW : ∀ i p, i < g.pageCount → s.cache.pp.afterWritten i = some p → At g i p
  kp : ∀ l k a, s.cache.kp = .tracked l → some (k, a) ∈ l → ∃ i, i < g.pageCount ∧ At g i a
  kne : mp = true → s.cache.kp ≠ .tracked []

/-- Errors that may be reported. -/
def Fine : Err → Prop
  | .outOfBounds | .notAligned | .panic | .diverge | .logicBug => False
  | _ => True

/-- Only the caches changed. -/
structure RO (s s' : St K) : Prop where
  fl : s'.fl = s.fl
  buf : s'.buf = s.buf
  qit : s'.qit = s.qit
  mit : s'.mit = s.mit

theorem RO.refl (s : St K) : RO s s := ⟨rfl, rfl, rfl, rfl⟩
theorem RO.trans {s s' s'' : St K} (h : RO s s') (h' : RO s' s'') : RO s s'' :=
  ⟨h'.fl.trans h.fl, h'.buf.trans h.buf, h'.qit.trans h.qit, h'.mit.trans h.mit⟩

theorem PSafe.invalidate {n : Nat} {c : PSCache} (h : PSafe n c) : PSafe n c.invalidate := by
  cases c with
  | uncached => trivial
  | calculated c =>
    have hc : c.pageCount = n := h.count
    show CalcPS.Safe n (CalcPS.new c.pageCount)
    rw [hc]; exact CalcPS.new_safe h.pos
  | table l => simpa [PSafe, PSCache.invalidate] using h

theorem SInv.invalidate {mp : Bool} {s : St K} (h : SInv mp g s) :
    SInv mp g { s with cache := s.cache.invalidate } := by
  refine ⟨h.faults, h.ps.invalidate, ?_, ?_, ?_, ?_⟩
  · intro i p _ hp
    exfalso
    revert hp
    simp only [Cache.invalidate]
    cases s.cache.pp with
    | uncached => simp [PPCache.invalidate, PPCache.afterErased]
    | tracked e w => simp [PPCache.invalidate, PPCache.afterErased]; cases e[i]? <;> simp
  · intro i p _ hp
    exfalso
    revert hp
    simp only [Cache.invalidate]
    cases s.cache.pp with
    | uncached => simp [PPCache.invalidate, PPCache.afterWritten]
    | tracked e w => simp [PPCache.invalidate, PPCache.afterWritten]; cases w[i]? <;> simp
  · intro l k a hl hm
    exfalso
    revert hl
    simp only [Cache.invalidate]
    cases s.cache.kp with
    | uncached => simp [KPCache.invalidate]
    | tracked l' =>
      simp only [KPCache.invalidate, KPCache.tracked.injEq]
      rintro rfl
      simp at hm
  · intro hmp
    have := h.kne hmp
    simp only [Cache.invalidate]
    cases hk : s.cache.kp with
    | uncached => simp [KPCache.invalidate]
    | tracked l' =>
      rw [hk] at this
      simpa [KPCache.invalidate] using this

section
variable {mp : Bool} {s s' : St K} {i j : Nat}

theorem stateOfMarkers_err {a b : Bool} {e : Err} (h : stateOfMarkers a b = .error e) : e = .corrupted := by
  cases a <;> cases b <;> simp [stateOfMarkers] at h; exact h.symm

variable (w : g.WF)
include w

theorem getPageState_any (s : St K) (hi : i < g.pageCount) : getPageState g i s = (stateAt g s.fl.mem i, s) := by
  have hp := w.page_le hi
  have hs := w.start_le i
  have he := w.pageEnd_eq i
  have hr := w.read_le
  have hf := w.fits
  have hrp := w.read_pos
  unfold getPageState
  rw [bind_ok (flashRead_run w s (w.pageAddr_word i) (Nat.dvd_refl _) (by omega) hs (by omega))]
  have h2 : flashRead g (g.pageAddr i + (g.eraseSize - g.readSize)) g.readSize s =
      (.ok (readBytes s.fl.mem (g.pageAddr i + (g.eraseSize - g.readSize)) g.readSize), s) := by
    have hd : g.readSize ∣ g.pageAddr i + (g.eraseSize - g.readSize) :=
      Nat.dvd_add (Nat.dvd_trans w.read_dvd (w.pageAddr_word i))
        (Nat.dvd_sub (Nat.dvd_trans w.read_dvd w.word_dvd) (Nat.dvd_refl _))
    simp only [flashRead, Flash.read]
    rw [if_neg (by rw [Nat.mod_eq_zero_of_dvd hd, Nat.mod_self]; omega), if_neg (by omega)]
  rw [bind_ok h2]
  rfl

/-- What looking at the state of a page does. -/
structure Look (g : Geo) (i : Nat) (s : St K) (st : PageState) (s' : St K) : Prop where
  ro : RO s s'
  inv : ∀ mp, SInv mp g s → SInv mp g s'
  dirty : s'.cache.dirty = s.cache.dirty
  kp : s'.cache.kp = s.cache.kp
  part : st = .partialOpen → IsPart i s'.cache.ps
  notPart : st ≠ .partialOpen → NotPart g i s'
  opn : st = .open → OpenSeen g i s'
  nonClosed : st = .open → ∀ x, s'.cache.ps = .calculated x → x.get i ≠ some .closed
  keepPart : st ≠ .partialOpen → ∀ j, j < g.pageCount → IsPart j s.cache.ps → IsPart j s'.cache.ps
  keepNot : st ≠ .partialOpen → ∀ j, j < g.pageCount → NotPart g j s → NotPart g j s'
  keepOpen : st = .open → ∀ j, j < g.pageCount → OpenSeen g j s → OpenSeen g j s'
  two : st = .open → ∀ j, j < g.pageCount → IsPart j s.cache.ps → Two s'.cache.ps
  wasNot : NotPart g i s → (∃ x, s.cache.ps = .calculated x) → st ≠ .partialOpen
  stop : st ≠ .closed → Stop g i s'
  keepStop : st = .closed → ∀ j, Stop g j s → Stop g j s'
  atStop : Stop g i s → st ≠ .closed
  isPart : IsPart i s.cache.ps → (∃ x, s.cache.ps = .calculated x) → st = .partialOpen
  keepTwo : IsPart i s.cache.ps → Two s.cache.ps → Two s'.cache.ps
  kind : ∀ x, s'.cache.ps = .calculated x → ∃ y, s.cache.ps = .calculated y
  seesOpen : OpenSeen g i s → (∃ x, s.cache.ps = .calculated x) → st = .open

omit w in
theorem SInv.notice (h : SInv mp g s) {st : PageState} {d : Bool} {ps : PSCache} (hp : PSafe g.pageCount ps) :
    SInv mp g { s with cache := { s.cache with dirty := d, ps := ps, pp := s.cache.pp.noticePage i st } } := by
  refine ⟨h.faults, hp, fun j p hj hx => ?_, fun j p hj hx => ?_, h.kp, h.kne⟩
  · simp only at hx
    by_cases ho : st = .open
    · subst ho
      rw [(PPCache.noticePage_open (c := s.cache.pp) (i := i) (j := j)).1] at hx
      split at hx
      · simp at hx
      · exact h.ppE j p hj hx
    · rw [PPCache.noticePage_other ho] at hx
      exact h.ppE j p hj hx
  · simp only at hx
    by_cases ho : st = .open
    · subst ho
      rw [(PPCache.noticePage_open (c := s.cache.pp) (i := i) (j := j)).2] at hx
      split at hx
      · simp at hx
      · exact h.ppW j p hj hx
    · rw [PPCache.noticePage_other ho] at hx
      exact h.ppW j p hj hx

theorem getCached_any (hi : i < g.pageCount) (hps : PSafe g.pageCount s.cache.ps) :
    Sat (getPageStateCached g i) s (fun st s' => Look g i s st s') (fun e s' => s' = s ∧ e = .corrupted) := by
  unfold getPageStateCached
  refine Sat.bind_eq (get_run s) ?_
  cases hc : s.cache.ps with
  | uncached =>
    have hnc : ∀ x, s.cache.ps ≠ .calculated x := by intro x; rw [hc]; simp
    simp only [PSCache.get]
    refine Sat.bind_eq (lift_run _ s) ?_
    simp only
    cases hst : stateAt g s.fl.mem i with
    | error e =>
      refine Sat.of_err (s' := s) (e := e) (bind_err (by rw [getPageState_any w s hi, hst])) ⟨rfl, stateOfMarkers_err hst⟩
    | ok st =>
      refine Sat.bind_eq (a := st) (s' := s) (by rw [getPageState_any w s hi, hst]) ?_
      refine Sat.bind_eq (noticePage_run (ps := .uncached) (by rw [hc]; rfl)) ?_
      refine Sat.pure ?_
      refine ⟨⟨rfl, rfl, rfl, rfl⟩, fun mp h => h.notice (by trivial), by simp, rfl, ?_, ?_, ?_, ?_, ?_, ?_, ?_, ?_, ?_, ?_, ?_, ?_,
        ?_, ?_, ?_, ?_⟩
      · intro _ x hx; simp at hx
      · intro _ x hx; simp at hx
      · intro _ x hx; simp at hx
      · intro _ x hx; simp at hx
      · intro _ j _ _ x hx; simp at hx
      · intro _ j _ _ x hx; simp at hx
      · intro _ j _ _ x hx; simp at hx
      · intro _ j _ _ x hx; simp at hx
      · rintro _ ⟨x, hx⟩; exact absurd hx (hnc x)
      · intro h; simp only [Stop]; rw [hst]; simpa using h
      · intro _ j h; simp only [Stop, hc] at h ⊢; exact h
      · intro h; simp only [Stop, hc] at h; rw [hst] at h; simpa using h
      · rintro _ ⟨x, hx⟩; exact absurd hx (hnc x)
      · intro _ _ x hx; simp at hx
      · intro x hx; simp at hx
      · rintro _ ⟨x, hx⟩; exact absurd hx (hnc x)
  | table l =>
    have hnc : ∀ x, s.cache.ps ≠ .calculated x := by intro x; rw [hc]; simp
    rw [hc] at hps
    have hil : i < l.length := by rw [show l.length = g.pageCount from hps]; exact hi
    simp only [PSCache.get, hil, dif_pos]
    refine Sat.bind_eq (lift_run _ s) ?_
    cases hli : l[i] with
    | some st =>
      simp only
      refine Sat.pure ⟨.refl s, fun mp h => h, rfl, rfl, ?_, ?_, ?_, ?_, ?_, ?_, ?_, ?_, ?_, ?_, ?_, ?_,
        ?_, ?_, ?_, ?_⟩
      · intro _ x hx; exact absurd hx (hnc x)
      · intro _ x hx; exact absurd hx (hnc x)
      · intro _ x hx; exact absurd hx (hnc x)
      · intro _ x hx; exact absurd hx (hnc x)
      · intro _ j _ _ x hx; exact absurd hx (hnc x)
      · intro _ j _ _ x hx; exact absurd hx (hnc x)
      · intro _ j _ _ x hx; exact absurd hx (hnc x)
      · intro _ j _ _ x hx; exact absurd hx (hnc x)
      · rintro _ ⟨x, hx⟩; exact absurd hx (hnc x)
      · intro h; simp only [Stop, hc]; exact ⟨st, by rw [List.getElem?_eq_getElem hil, hli], h⟩
      · intro _ j h; exact h
      · intro h
        simp only [Stop, hc] at h
        obtain ⟨st', h1, h2⟩ := h
        rw [List.getElem?_eq_getElem hil, hli] at h1
        simp at h1; rw [h1]; exact h2
      · rintro _ ⟨x, hx⟩; exact absurd hx (hnc x)
      · intro _ h; exact h
      · intro x hx; exact absurd hx (hnc x)
      · rintro _ ⟨x, hx⟩; exact absurd hx (hnc x)
    | none =>
      simp only
      cases hst : stateAt g s.fl.mem i with
      | error e =>
        refine Sat.of_err (s' := s) (e := e) (bind_err (by rw [getPageState_any w s hi, hst])) ⟨rfl, stateOfMarkers_err hst⟩
      | ok st =>
        refine Sat.bind_eq (a := st) (s' := s) (by rw [getPageState_any w s hi, hst]) ?_
        refine Sat.bind_eq (noticePage_run (ps := .table (l.set i (some st))) (by rw [hc]; simp [PSCache.notice, hil])) ?_
        refine Sat.pure ?_
        refine ⟨⟨rfl, rfl, rfl, rfl⟩, fun mp h => h.notice (by simpa [PSafe] using hps), by simp, rfl, ?_, ?_, ?_, ?_, ?_, ?_, ?_, ?_, ?_, ?_, ?_, ?_,
        ?_, ?_, ?_, ?_⟩
        · intro _ x hx; simp at hx
        · intro _ x hx; simp at hx
        · intro _ x hx; simp at hx
        · intro _ x hx; simp at hx
        · intro _ j _ _ x hx; simp at hx
        · intro _ j _ _ x hx; simp at hx
        · intro _ j _ _ x hx; simp at hx
        · intro _ j _ _ x hx; simp at hx
        · rintro _ ⟨x, hx⟩; exact absurd hx (hnc x)
        · intro h; simp only [Stop]; exact ⟨st, by simp [hil], h⟩
        · intro _ j h
          simp only [Stop, hc] at h ⊢
          obtain ⟨st', h1, h2⟩ := h
          refine ⟨st', ?_, h2⟩
          rw [List.getElem?_set]
          by_cases hij : i = j
          · subst hij
            rw [List.getElem?_eq_getElem hil, hli] at h1
            simp at h1
          · rw [if_neg hij]; exact h1
        · intro h
          simp only [Stop, hc] at h
          obtain ⟨st', h1, h2⟩ := h
          rw [List.getElem?_eq_getElem hil, hli] at h1
          simp at h1
        · rintro _ ⟨x, hx⟩; exact absurd hx (hnc x)
        · intro _ _ x hx; simp at hx
        · intro x hx; simp at hx
        · rintro _ ⟨x, hx⟩; exact absurd hx (hnc x)
  | calculated c =>
    rw [hc] at hps
    have hcs : c.Safe g.pageCount := hps
    have hx' : ∀ x, s.cache.ps = .calculated x → x = c := by intro x hx; rw [hc] at hx; simpa using hx.symm
    simp only [PSCache.get]
    refine Sat.bind_eq (lift_run _ s) ?_
    cases hci : c.get i with
    | some st =>
      simp only
      refine Sat.pure ⟨.refl s, fun mp h => h, rfl, rfl, ?_, ?_, ?_, ?_, ?_, ?_, ?_, ?_, ?_, ?_, ?_, ?_,
        ?_, ?_, ?_, ?_⟩
      · intro h x hx; rw [hx' x hx, hci, h]
      · intro h x hx; rw [hx' x hx, hci]; exact ⟨by simpa using h, by simp⟩
      · intro h x hx; rw [hx' x hx, hci, h]; exact Or.inl rfl
      · intro h x hx; rw [hx' x hx, hci, h]; simp
      · intro _ j _ h; exact h
      · intro _ j _ h; exact h
      · intro _ j _ h; exact h
      · intro h j _ hj x hx
        have h1 := hj x hx
        rw [hx' x hx] at h1 ⊢
        exact CalcPS.two_of_open hcs h1 (by rw [hci, h])
      · rintro h ⟨x, hx⟩ he
        have h1 := (h x hx).1
        rw [hx' x hx, hci, he] at h1
        exact h1 rfl
      · intro h
        simp only [Stop, hc, hci]
        cases st with
        | closed => exact absurd rfl h
        | partialOpen => exact Or.inl rfl
        | «open» => exact Or.inr (Or.inl rfl)
      · intro _ j h; exact h
      · intro h he
        simp only [Stop, hc, hci, he] at h
        simp at h
      · intro h _
        have h1 := h c hc
        rw [hci] at h1
        simpa using h1
      · intro _ h; exact h
      · intro _ _; exact ⟨c, hc⟩
      · intro h _
        have h1 := h c hc
        rw [hci] at h1
        simpa using h1
    | none =>
      simp only
      cases hst : stateAt g s.fl.mem i with
      | error e =>
        refine Sat.of_err (s' := s) (e := e) (bind_err (by rw [getPageState_any w s hi, hst])) ⟨rfl, stateOfMarkers_err hst⟩
      | ok st =>
        refine Sat.bind_eq (a := st) (s' := s) (by rw [getPageState_any w s hi, hst]) ?_
        cases st with
        | partialOpen =>
          obtain ⟨c', hn, hsafe, hpart⟩ := CalcPS.notice_partial hcs hi (by rw [hci]; simp)
          refine Sat.bind_eq (noticePage_run (ps := .calculated c') (by rw [hc]; simp [PSCache.notice, hn, Except.map])) ?_
          have hx2 : ∀ x, PSCache.calculated c' = .calculated x → x = c' := by intro x hx; simpa using hx.symm
          refine Sat.pure ⟨⟨rfl, rfl, rfl, rfl⟩, fun mp h => h.notice hsafe, by simp, rfl, ?_, ?_, ?_, ?_, ?_, ?_, ?_, ?_, ?_, ?_, ?_, ?_,
        ?_, ?_, ?_, ?_⟩
          · intro _ x hx; rw [hx2 x hx]; exact hpart
          · intro h; exact absurd rfl h
          · intro h; simp at h
          · intro h; simp at h
          · intro h; exact absurd rfl h
          · intro h; exact absurd rfl h
          · intro h; simp at h
          · intro h; simp at h
          · rintro h ⟨x, hx⟩ -
            have h1 := (h x hx).2
            rw [hx' x hx] at h1
            exact h1 hci hst
          · intro _; simp only [Stop]; exact Or.inl hpart
          · intro h; simp at h
          · intro _; simp
          · intro h
            have h1 := h c hc
            rw [hci] at h1; simp at h1
          · intro h
            have h1 := h c hc
            rw [hci] at h1; simp at h1
          · intro _ _; exact ⟨c, hc⟩
          · intro h _
            have h1 := h c hc
            rw [hci, hst] at h1
            simp at h1
        | closed =>
          obtain ⟨c', hn, hsafe, -⟩ := CalcPS.notice_closed_none hcs hci
          obtain ⟨k1, k2, k3, k4⟩ := CalcPS.notice_closed_get hci hn
          refine Sat.bind_eq (noticePage_run (ps := .calculated c') (by rw [hc]; simp [PSCache.notice, hn, Except.map])) ?_
          have hx2 : ∀ x, PSCache.calculated c' = .calculated x → x = c' := by intro x hx; simpa using hx.symm
          have hci' : c'.get i = some .closed ∨ c'.get i = none := by
            rcases k4 with h | h
            · exact Or.inl h
            · rw [h]; exact Or.inr hci
          refine Sat.pure ⟨⟨rfl, rfl, rfl, rfl⟩, fun mp h => h.notice hsafe, by simp, rfl, ?_, ?_, ?_, ?_, ?_, ?_, ?_, ?_, ?_, ?_, ?_, ?_,
        ?_, ?_, ?_, ?_⟩
          · intro h; simp at h
          · intro _ x hx; rw [hx2 x hx]
            exact ⟨by rcases hci' with h | h <;> rw [h] <;> simp, fun _ => by simp only; rw [hst]; simp⟩
          · intro h; simp at h
          · intro h; simp at h
          · intro _ j _ h x hx; rw [hx2 x hx]; exact k1 j _ (h c hc)
          · intro _ j _ h x hx; rw [hx2 x hx]
            have h1 := h c hc
            cases hcj : c.get j with
            | some y => rw [k1 j y hcj]; rw [hcj] at h1; exact ⟨h1.1, by simp⟩
            | none =>
              refine ⟨by rcases k2 j hcj with h | h <;> rw [h] <;> simp, fun _ => h1.2 hcj⟩
          · intro h; simp at h
          · intro h; simp at h
          · intro _ _; simp
          · intro h; exact absurd rfl h
          · intro _ j h
            simp only [Stop, hc] at h ⊢
            rcases h with h | h | ⟨h1, h2, h3⟩
            · exact Or.inl (k1 j _ h)
            · exact Or.inr (Or.inl (k1 j _ h))
            · rw [k3 h2]; exact Or.inr (Or.inr ⟨h1, h2, h3⟩)
          · intro h
            simp only [Stop, hc, hci] at h
            rcases h with h | h | ⟨h1, h2, h3⟩
            · simp at h
            · simp at h
            · rw [hst] at h3; simp at h3
          · intro h
            have h1 := h c hc
            rw [hci] at h1; simp at h1
          · intro h
            have h1 := h c hc
            rw [hci] at h1; simp at h1
          · intro _ _; exact ⟨c, hc⟩
          · intro h _
            have h1 := h c hc
            rw [hci, hst] at h1
            simp at h1
        | «open» =>
          obtain ⟨c', hn, hsafe, hop, htwo⟩ := CalcPS.notice_open hcs hi
          obtain ⟨k1, k2⟩ := CalcPS.notice_open_none hcs hi hci hn
          have hop := hop (by rw [hci]; simp)
          refine Sat.bind_eq (noticePage_run (ps := .calculated c') (by rw [hc]; simp [PSCache.notice, hn, Except.map])) ?_
          have hx2 : ∀ x, PSCache.calculated c' = .calculated x → x = c' := by intro x hx; simpa using hx.symm
          refine Sat.pure ⟨⟨rfl, rfl, rfl, rfl⟩, fun mp h => h.notice hsafe, by simp, rfl, ?_, ?_, ?_, ?_, ?_, ?_, ?_, ?_, ?_, ?_, ?_, ?_,
        ?_, ?_, ?_, ?_⟩
          · intro h; simp at h
          · intro _ x hx; rw [hx2 x hx]
            exact ⟨by rcases hop with h | h <;> (first | rw [h] | rw [h.1]) <;> simp, fun _ => by simp only; rw [hst]; simp⟩
          · intro _ x hx; rw [hx2 x hx]
            rcases hop with h | h
            · exact Or.inl h
            · exact Or.inr ⟨h.1, hst⟩
          · intro _ x hx; rw [hx2 x hx]
            rcases hop with h | h
            · rw [h]; simp
            · rw [h.1]; simp
          · intro _ j hj h x hx; rw [hx2 x hx]; exact k1 j _ hj (h c hc)
          · intro _ j hj h x hx; rw [hx2 x hx]
            have h1 := h c hc
            cases hcj : c.get j with
            | some y => rw [k1 j y hj hcj]; rw [hcj] at h1; exact ⟨h1.1, by simp⟩
            | none => refine ⟨by rcases k2 j hj hcj with h | h <;> rw [h] <;> simp, fun _ => h1.2 hcj⟩
          · intro _ j hj h x hx; rw [hx2 x hx]
            rcases h c hc with h1 | ⟨h1, h2⟩
            · exact Or.inl (k1 j _ hj h1)
            · rcases k2 j hj h1 with h | h
              · exact Or.inr ⟨h, h2⟩
              · exact Or.inl h
          · intro _ j hj h x hx; rw [hx2 x hx]
            have h1 := h c hc
            have hne : j ≠ i := by rintro rfl; rw [hci] at h1; simp at h1
            exact (htwo j hne h1).2
          · intro _ _; simp
          · intro _
            simp only [Stop]
            rcases hop with h | h
            · exact Or.inr (Or.inl h)
            · exact Or.inr (Or.inr ⟨h.1, by rw [h.2.1]; exact h.2.2, hst⟩)
          · intro h; simp at h
          · intro _; simp
          · intro h
            have h1 := h c hc
            rw [hci] at h1; simp at h1
          · intro h
            have h1 := h c hc
            rw [hci] at h1; simp at h1
          · intro _ _; exact ⟨c, hc⟩
          · intro h _
            rfl

end

end SeqStorage
