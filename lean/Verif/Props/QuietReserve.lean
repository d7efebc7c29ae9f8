import Verif.Props.Reserve
import Verif.Props.Erases
/-
How much power a call of a queue that was never interrupted needs: C68.
-/

namespace SeqStorage.Props
open M Spec Codec Proofs

variable {K : Type} [DecidableEq K] {g : Geo} {s : St K}

/-- How many of `n` pages a call of a queue that never lost power erases at most: the pages that hold no more items, at most
one of them for a push. -/
def mayErase {C : Type} (n : Nat) : QCall C → Nat
  | .push _ _ => 1
  | .pop _ | .peek _ | .iterate _ => n - 1
  | .maxFit | .spaceLeft | .restart _ => 0

/-- The power that is enough for a call of a queue that never lost power: at most the pages without items are erased, and
at most one of them for a push. -/
def quietReserve {C : Type} (g : Geo) (c : QCall C) : Nat :=
  queueBytes g c + g.eraseSize * mayErase g.pageCount c

theorem dropSpent_length (ps : List (List Slot)) : ps.length ≤ (dropSpent ps).length + (ps.length - 1) := by
  match ps with
  | [] => simp [dropSpent]
  | [p] => simp [dropSpent]
  | p :: p' :: ps =>
    have := dropSpent_length (p' :: ps)
    unfold dropSpent
    split <;> simp only [List.length_cons] at * <;> omega

theorem takeHead_length (ps : List (List Slot)) : (takeHead ps).length = ps.length := by cases ps <;> rfl

theorem worn_length {ps qs : List (List Slot)} (h : Worn ps qs) : qs.length = ps.length := by
  induction ps generalizing qs with
  | nil => rw [show qs = [] from h]
  | cons p ps ih =>
    obtain ⟨q, qs', rfl, _, h2⟩ := h
    simp [ih h2]

/-- How many pages a call gives up. -/
theorem step_gives_up {ρ : Type} {W page n : Nat} {ps ps' : List (List Slot)} {c : QCall ρ} {r : Except Err QAnswer}
    (h : pagedStep W page n ps c r ps') (hn : ps.length ≤ n) :
    ps.length + startsPage W page ps c r ≤ ps'.length + mayErase n c := by
  cases c with
  | push d o =>
    show _ ≤ _ + 1
    have h1 : startsPage W page ps (.push d o : QCall ρ) r ≤ 1 := by
      unfold startsPage
      split
      · split
        · exact Nat.le_refl _
        · split <;> omega
      · omega
    simp only [pagedStep, pushPaged] at h
    split at h
    · obtain ⟨rfl, rfl⟩ := h
      simp only [startsPage]
      omega
    · split at h
      · rename_i hl
        have h2 : ps.length = 0 := by rw [List.getLast?_eq_none_iff.1 hl]; rfl
        omega
      · rename_i p hl
        split at h
        · rename_i hfit
          have h3 : ps.length ≠ 0 := fun h0 => by rw [List.length_eq_zero_iff.1 h0] at hl; simp at hl
          rw [h.1, h.2, List.length_append, List.length_dropLast, List.length_singleton]
          simp only [startsPage, hl, if_pos hfit]
          omega
        · split at h
          · rw [h.2, List.length_append, List.length_singleton]
            omega
          · split at h
            · rw [h.2, List.length_append, List.length_tail, List.length_singleton]
              omega
            · obtain ⟨rfl, rfl⟩ := h
              simp only [startsPage]
              omega
  | pop b =>
    have := dropSpent_length ps
    simp only [startsPage, mayErase]
    rcases h with ⟨_, rfl⟩ | ⟨_, rfl⟩
    · rw [takeHead_length]; omega
    · omega
  | peek b =>
    have := dropSpent_length ps
    simp only [startsPage, mayErase]
    obtain rfl := h
    omega
  | iterate steps =>
    obtain ⟨ps1, h1, gone, h2, _, h3⟩ := h
    have h4 := worn_length h1
    have h5 := congrArg List.length h2
    rw [List.length_append] at h5
    simp only [startsPage, mayErase]
    by_cases he : ps' = []
    · rw [h3 he] at h4
      simp only [List.length_nil] at h4
      omega
    · have := List.length_pos_iff.2 he
      omega
  | maxFit => obtain ⟨rfl, _⟩ := h; simp only [startsPage, mayErase]; omega
  | spaceLeft => obtain ⟨rfl, _⟩ := h; simp only [startsPage, mayErase]; omega
  | restart x => obtain rfl := h; simp only [startsPage, mayErase]; omega

theorem qrun_packed (w : g.WF) (cs : List (QCall (Cache K))) : ∀ {s : St K} {σ : Shape} {P : Nat → PK},
    QI ⟨true, false, none, fun _ => True, false⟩ g s σ P → Packed σ → (∀ c ∈ cs, Documented g c) →
    ∃ σ' P', QI ⟨true, false, none, fun _ => True, false⟩ g (qrun g cs s).2 σ' P' ∧ Packed σ' := by
  induction cs with
  | nil => intro s σ P h hp _; exact ⟨σ, P, h, hp⟩
  | cons c cs ih =>
    intro s σ P h hp h1
    obtain ⟨σ1, P1, hq1, hA1, hs1⟩ := qcall_det w rfl h c (h1 c (by simp)) (by simp) rfl
    obtain ⟨hp1, hpk1⟩ := qcallA_paged w rfl rfl h hp c hA1
    exact ih hq1 hpk1 fun c hc => h1 c (by simp [hc])

/-- C68, a queue that was never interrupted. A call that has the smaller reserve answers and leaves the flash and the cache
as with unlimited power. -/
theorem quiet_reserve_is_enough (w : g.WF) (h : Reached g s) (c : QCall (Cache K)) (hd : Documented g c) {k : Nat}
    (hk : quietReserve g c ≤ k) :
    let free := qcall g c s
    let held := qcall g c { s with fl := { s.fl with fuel := some k } }
    held.1 = free.1 ∧ held.2.fl.mem = free.2.fl.mem ∧ held.2.cache = free.2.cache ∧
      ∃ k', held.2.fl.fuel = some k' ∧ k ≤ k' + quietReserve g c := by
  obtain ⟨s0, cs, h0, hcs, rfl⟩ := h
  obtain ⟨σ, P, h1, hpk⟩ := qrun_packed w cs (h0.qi w) (fun _ => rfl) hcs
  have hp : (qrun g cs s0).2.fl.fuel = none := by
    have go : ∀ (cs : List (QCall (Cache K))) (s : St K), s.fl.fuel = none → (qrun g cs s).2.fl.fuel = none := by
      intro cs
      induction cs with
      | nil => intro s hs; exact hs
      | cons c cs ih => intro s hs; exact ih _ (qcall_needs w c s hs).1
    exact go cs s0 h0.power
  generalize (qrun g cs s0).2 = s at h1 hp
  obtain ⟨σ1, P1, hq1, hA1, _⟩ := qcall_det w rfl h1 c hd (by simp) rfl
  obtain ⟨hp1, _⟩ := qcallA_paged w rfl rfl h1 hpk c hA1
  have hc1 := qcallA_count w rfl h1 hpk c hA1
  have h2 := step_gives_up hp1 (by rw [pagesOf_length]; exact h1.fs.wf.m_le)
  rw [pagesOf_length, pagesOf_length] at h2
  have e0 := (h1.log rfl).2
  have e1 := (hq1.log rfl).2
  obtain ⟨_, n, i1, i2⟩ := qcall_needs w c s hp
  rw [e0, e1] at i1
  have hn : n ≤ quietReserve g c := by
    unfold quietReserve
    generalize mayErase g.pageCount c = x at h2 ⊢
    have h3 : σ1.d ≤ σ.d + x := by omega
    have h4 := Nat.mul_le_mul_left g.eraseSize h3
    rw [Nat.mul_add] at h4
    omega
  have i3 := i2 k (by omega)
  dsimp only
  change (qcall g c (withFuel s (some k))).1 = _ ∧ (qcall g c (withFuel s (some k))).2.fl.mem = _ ∧
    (qcall g c (withFuel s (some k))).2.cache = _ ∧ ∃ k', (qcall g c (withFuel s (some k))).2.fl.fuel = some k' ∧ k ≤ k' + quietReserve g c
  rw [i3]
  exact ⟨rfl, rfl, rfl, k - n, rfl, by omega⟩

/-- Two pages of 32 bytes: 88 bytes instead of 184 for a push of three bytes. -/
example : quietReserve geo2 (.push [1#8, 2#8, 3#8] true : QCall (Cache Unit)) = 88 := by decide

/-- Four items fill both pages. -/
def fourItems : List (QCall (Cache Unit)) := List.replicate 4 (.push [1#8, 2#8, 3#8] true)

theorem fourItems_reached : Reached geo2 (qrun geo2 fourItems freshSt).2 :=
  fresh_reached fourItems fun c hc => by rw [List.eq_of_mem_replicate hc]; trivial

example (t : St Unit) (ht : t = (qrun geo2 fourItems freshSt).2) : ∃ k', (qcall geo2 (.push [1#8, 2#8, 3#8] true)
    { t with fl := { t.fl with fuel := some 88 } }).2.fl.fuel = some k' ∧ 88 ≤ k' + 88 := by
  have h := quiet_reserve_is_enough geo2_wf fourItems_reached (.push [1#8, 2#8, 3#8] true) trivial (k := 88) (by decide)
  rw [← ht] at h
  exact h.2.2.2

/-- The page must be part of the reserve: the next push overwrites the oldest page, and with 51 bytes it is interrupted
while 52 are enough. -/
theorem push_erases_a_page : ([51, 52].map fun k => match (qcall geo2 (.push [1#8, 2#8, 3#8] true)
      { (qrun geo2 fourItems freshSt).2 with fl := { (qrun geo2 fourItems freshSt).2.fl with fuel := some k } }).1 with
    | .error .shutoff => false
    | _ => true) = [false, true] := by decide +kernel

end SeqStorage.Props
