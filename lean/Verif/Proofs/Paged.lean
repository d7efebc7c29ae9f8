import Verif.Proofs.QueueRun
import Verif.Proofs.MapScan
import Verif.Spec.Paged
/-
The pages of a queue follow the specification of how full a queue is.
-/

set_option linter.unusedSectionVars false

namespace SeqStorage
open M Spec

variable {K : Type} [DecidableEq K]
variable {md : Mode} {g : Geo} {σ σ' : Shape} {P P' : Nat → PK} {n : Nat}

/-- The items of a page as slots. -/
def slots (its : List It) : List Slot := its.map fun it => (it.data, it.present)

/-- The pages in use as slots, oldest first. -/
def pagesOf (n : Nat) (σ : Shape) (P : Nat → PK) : List (List Slot) :=
  (List.range σ.m).map fun j => slots (P (ringPage n σ.o j)).its

theorem slots_append (a b : List It) : slots (a ++ b) = slots a ++ slots b := by simp [slots]

@[simp] theorem pagesOf_length : (pagesOf n σ P).length = σ.m := by simp [pagesOf]

@[simp] theorem pagesOf_get {j : Nat} (h : j < (pagesOf n σ P).length) :
    (pagesOf n σ P)[j] = slots (P (ringPage n σ.o j)).its := by simp [pagesOf]

theorem live_slots (its : List It) : ((slots its).filter (·.2)).map (·.1) = datas its := by
  induction its with
  | nil => rfl
  | cons x l ih =>
    rw [datas_cons, ← ih]
    cases h : x.present <;> simp [slots, h]

theorem live_append (a b : List (List Slot)) : live (a ++ b) = live a ++ live b := by simp [live]

theorem live_pagesOf : live (pagesOf n σ P) = content n σ P := by
  unfold content seg pagesOf
  rw [List.range_eq_range']
  generalize List.range' 0 σ.m = l
  induction l with
  | nil => rfl
  | cons a l ih =>
    rw [List.map_cons, ← List.singleton_append, live_append, ih, List.flatMap_cons, ← live_slots]
    simp [live]

theorem spent_slots (its : List It) : spent (slots its) = true ↔ ∀ it ∈ its, it.present = false := by
  simp [spent, slots]

theorem taken_slots (its : List It) : taken g.word (slots its) = (its.map fun it => foot g it.data).sum := by
  unfold taken slots
  rw [List.map_map]; rfl

theorem pagesOf_upd {j : Nat} (wf : σ.WF n) (hj : j < σ.m) (pk : PK) :
    pagesOf n σ (upd P (ringPage n σ.o j) pk) = (pagesOf n σ P).set j (slots pk.its) := by
  have hm := wf.m_le
  apply List.ext_getElem
  · simp
  · intro i h1 h2
    rw [List.length_set] at h2
    rw [List.getElem_set, pagesOf_get, pagesOf_get]
    rw [pagesOf_length] at h1
    by_cases he : j = i
    · subst he; simp
    · rw [if_neg he, upd_ne]
      intro hx
      have := ringPage_inj wf.o_lt (by omega) (by omega) hx
      omega

theorem pagesOf_other {i : Nat} (h : ∀ j, j < σ.m → ringPage n σ.o j ≠ i) (pk : PK) :
    pagesOf n σ (upd P i pk) = pagesOf n σ P := by
  apply List.ext_getElem
  · simp
  · intro j h1 h2
    rw [pagesOf_length] at h1
    rw [pagesOf_get, pagesOf_get, upd_ne (h j h1)]

theorem set_last {α : Type} (l : List α) (h : l ≠ []) (x : α) : l.set (l.length - 1) x = l.dropLast ++ [x] := by
  obtain ⟨a, b, rfl⟩ : ∃ a b, l = a ++ [b] := ⟨_, _, (List.dropLast_concat_getLast h).symm⟩
  simp

theorem pagesOf_last (h : 0 < σ.m) : (pagesOf n σ P).getLast? = some (slots (P (ringPage n σ.o (σ.m - 1))).its) := by
  rw [List.getLast?_eq_getElem?, List.getElem?_eq_getElem (by simp; omega), pagesOf_get]
  simp

theorem pagesOf_front {P : Nat → PK} (wf : σ.WF n) (hp : σ.part = true) (pk : PK) :
    pagesOf n σ (upd P (σ.front n) pk) = (pagesOf n σ P).dropLast ++ [slots pk.its] := by
  have h1 := wf.part_pos hp
  have hf : σ.front n = ringPage n σ.o (σ.m - 1) := by unfold Shape.front; rw [hp, if_pos rfl]
  rw [hf, pagesOf_upd wf (by omega)]
  have := set_last (pagesOf n σ P) (by intro h; have := congrArg List.length h; simp at this; omega) (slots pk.its)
  rw [pagesOf_length] at this
  exact this

theorem pagesOf_open (wf : σ.WF n) (hp : σ.part = false) (pk : PK) :
    pagesOf n σ.openFront (upd P (σ.front n) pk) = pagesOf n σ P ++ [slots pk.its] := by
  have hm := wf.m_le
  have hmn : σ.m < n := by
    rcases Nat.lt_or_ge σ.m n with h | h
    · exact h
    · have := (wf.full (by omega)).1; rw [hp] at this; simp at this
  have hf : σ.front n = ringPage n σ.o σ.m := by unfold Shape.front; rw [hp]; simp
  have hr : List.range (σ.m + 1) = List.range σ.m ++ [σ.m] := List.range_succ
  have h1 : pagesOf n σ.openFront (upd P (σ.front n) pk) = pagesOf n σ (upd P (σ.front n) pk) ++ [slots pk.its] := by
    unfold pagesOf Shape.openFront
    simp only [hr, List.map_append, List.map_cons, List.map_nil]
    rw [hf, upd_same]
  rw [h1, pagesOf_other]
  intro j hj he
  rw [hf] at he
  have := ringPage_inj wf.o_lt (by omega) (by omega) he
  omega

theorem close_its (pk : PK) : pk.close.its = pk.its := by cases pk <;> rfl

theorem pagesOf_close :
    pagesOf n σ.closeFront (upd P (σ.front n) (P (σ.front n)).close) = pagesOf n σ P := by
  apply List.ext_getElem
  · simp [Shape.closeFront]
  · intro j h1 h2
    rw [pagesOf_get, pagesOf_get]
    simp only [Shape.closeFront]
    by_cases he : ringPage n σ.o j = σ.front n
    · rw [he, upd_same, close_its]
    · rw [upd_ne he]

theorem pagesOf_drop (wf : σ.WF n) (hm : 2 ≤ σ.m) (pk : PK) :
    pagesOf n (σ.dropOldest n) (upd P σ.o pk) = (pagesOf n σ P).tail := by
  have hml := wf.m_le
  have ho := wf.o_lt
  apply List.ext_getElem
  · simp [Shape.dropOldest]
  · intro j h1 h2
    rw [List.getElem_tail, pagesOf_get, pagesOf_get]
    rw [pagesOf_length] at h1
    simp only [Shape.dropOldest] at h1 ⊢
    rw [ringPage_shift ho (by omega), upd_ne]
    intro he
    have := ringPage_inj ho (by omega) (by omega) (he.trans (ringPage_zero ho).symm)
    omega

theorem pagesOf_head (wf : σ.WF n) (hm : 0 < σ.m) : (pagesOf n σ P).headD [] = slots (P σ.o).its := by
  obtain ⟨k, hk⟩ : ∃ k, σ.m = k + 1 := ⟨σ.m - 1, by omega⟩
  unfold pagesOf
  rw [hk, List.range_succ_eq_map]
  simp [ringPage_zero wf.o_lt]

theorem pagesOf_cons (wf : σ.WF n) (hm : 0 < σ.m) : pagesOf n σ P = slots (P σ.o).its :: (pagesOf n σ P).tail := by
  have h1 := pagesOf_head (P := P) wf hm
  cases h : pagesOf n σ P with
  | nil => have := congrArg List.length h; simp at this; omega
  | cons a l => rw [h] at h1; simp at h1; rw [h1]; rfl

/-! ### Pushing -/

/-- The page that is written to exists as soon as there is any. -/
def Packed (σ : Shape) : Prop := σ.part = false → σ.m = 0

section
variable (w : g.WF)
include w

theorem Layout.sum_eq {mem : Nat → Byte} {e a f : Nat} {its : List It} (l : Layout true g mem e a its f) :
    a + (its.map (fun it => foot g it.data)).sum = f := by
  generalize hcf : true = cf at l
  induction l with
  | done h => simp
  | gap h _ _ _ => subst hcf; simp at h
  | @item a f its hd h t ih =>
    simp only [List.map_cons, List.sum_cons, foot, dataAt_length]
    unfold Header.next at ih
    simp only [foot] at ih
    omega

/-- Where a page in use is free. -/
theorem page_free {s : St K} (hcf : md.cf = true) (h : QI md g s σ P) {j : Nat} (hj : j < σ.m) :
    ∃ c its f, P (ringPage g.pageCount σ.o j) = .used c its f ∧
      f = g.dataStart (ringPage g.pageCount σ.o j) + taken g.word (slots its) ∧
      f ≤ g.dataEnd (ringPage g.pageCount σ.o j) ∧ g.word ∣ f ∧
      (c = false ↔ σ.part = true ∧ j + 1 = σ.m) := by
  have wf := h.fs.wf
  have hml := wf.m_le
  obtain ⟨its, f, hpk⟩ := used_of_lt h.fs hj
  have hlt := ringPage_lt (n := g.pageCount) wf.o_lt (by omega : j < g.pageCount)
  have hp := h.fs.pages _ hlt
  rw [hpk] at hp
  have u : Used md g s.fl _ _ its f := hp
  have hl := u.layout
  rw [hcf] at hl
  have hb := u.bounds w
  refine ⟨_, its, f, hpk, ?_, hb.2.1, hb.2.2, ?_⟩
  · rw [taken_slots, hl.sum_eq w]
  · have : ringPage g.pageCount σ.o j = σ.front g.pageCount ∧ σ.part = true ↔ σ.part = true ∧ j + 1 = σ.m := by
      constructor
      · rintro ⟨h1, h2⟩
        refine ⟨h2, ?_⟩
        have := wf.part_pos h2
        unfold Shape.front at h1
        rw [h2, if_pos rfl] at h1
        have := ringPage_inj wf.o_lt (by omega) (by omega) h1
        omega
      · rintro ⟨h1, h2⟩
        refine ⟨?_, h1⟩
        unfold Shape.front
        rw [h1, if_pos rfl]
        congr 1; omega
    rw [← this]
    simp

/-- A page not in use is blank. -/
theorem page_blank {s : St K} (hcf : md.cf = true) (h : QI md g s σ P) {j : Nat} (hj : σ.m ≤ j) (hn : j < g.pageCount) :
    P (ringPage g.pageCount σ.o j) = .blank := by
  have wf := h.fs.wf
  have ho := wf.o_lt
  have hl := ringPage_lt ho hn
  have hst := h.fs.st _ hl
  have hpos := ringPos_page ho hn
  have hc := h.fs.torn_free hcf
  have : σ.st g.pageCount (ringPage g.pageCount σ.o j) = .ok .open := by
    rw [Shape.st_open, hpos, hc]; simp; exact hj
  rw [this] at hst
  cases hpk : P (ringPage g.pageCount σ.o j) with
  | blank => rfl
  | used c its f => rw [hpk] at hst; cases c <;> simp [PK.st] at hst
  | corr => rw [hpk] at hst; simp [PK.st] at hst
  | junk => exact absurd hpk (h.ok.nojunk _ hl)

theorem spent_iff {s : St K} (hcf : md.cf = true) (hdm : md.dmg = false) (h : QI md g s σ P) {i : Nat} (hi : i < g.pageCount) :
    spent (slots (P i).its) = allErased (P i) := by
  rw [Bool.eq_iff_iff, spent_slots]
  unfold allErased
  rw [List.all_eq_true]
  constructor
  · intro h1 it hit
    rcases h.ok.whole hcf hdm i hi it hit with h2 | h2
    · simp [h2]
    · rw [h1 it hit] at h2; simp at h2
  · intro h1 it hit
    exact erased_not_present (by simpa using h1 it hit)

theorem page_eq (i : Nat) : g.dataEnd i + 2 * g.word = g.dataStart i + g.eraseSize := by
  have := page_order w i
  omega

theorem pushA_paged {s : St K} (hcf : md.cf = true) (hdm : md.dmg = false) (h : QI md g s σ P) (hpk : Packed σ)
    (d : List Byte) (allow : Bool) {r : Except Err Unit} (he : pushA g σ P d allow = (r, σ', P')) :
    pushPaged g.word g.eraseSize g.pageCount (pagesOf g.pageCount σ P) d allow (r.map fun _ => .done)
      (pagesOf g.pageCount σ' P') ∧ Packed σ' := by
  have wf := h.fs.wf
  have hml := wf.m_le
  unfold pushPaged
  unfold pushA at he
  by_cases htb : g.tooBig d.length = true
  · rw [if_pos htb] at he
    obtain ⟨rfl, rfl, rfl⟩ : _ ∧ _ ∧ _ := by simpa using he
    rw [if_pos (by rw [fitsPage_iff w, htb]; simp)]
    exact ⟨⟨rfl, rfl⟩, hpk⟩
  have htb : g.tooBig d.length = false := by simpa using htb
  have hfp := (fitsPage_iff w (d := d)).2 htb
  rw [if_neg (by rw [htb]; simp)] at he
  rw [if_neg (fun hx => hx hfp)]
  cases hp : σ.part with
  | false =>
    have hm0 := hpk hp
    have hnil : pagesOf g.pageCount σ P = [] := by rw [← List.length_eq_zero_iff]; simpa using hm0
    have hbl : P (σ.front g.pageCount) = .blank := by
      unfold Shape.front; rw [hp]; simp only [Bool.false_eq_true, if_false]
      exact page_blank w hcf h (Nat.le_refl _) (by have := wf.o_lt; omega)
    have hfits : Fits g (σ.front g.pageCount) (freeOf g (σ.front g.pageCount) (P (σ.front g.pageCount))) d.length := by
      rw [hbl]
      have := page_eq w (σ.front g.pageCount)
      have h2 := hfp.2
      rw [itemSize_eq] at h2
      unfold foot at h2
      show g.dataStart (σ.front g.pageCount) + _ + _ ≤ _
      omega
    rw [if_pos hfits] at he
    obtain ⟨rfl, rfl, rfl⟩ : _ ∧ _ ∧ _ := by simpa using he
    rw [hnil]
    have hS : prepS σ = σ.openFront := by unfold prepS; rw [hp]; simp
    have hP : prepP g σ P = upd P (σ.front g.pageCount) (.used false [] (g.dataStart (σ.front g.pageCount))) := by
      unfold prepP; rw [hp]; simp
    refine ⟨⟨rfl, ?_⟩, ?_⟩
    · have hst : σ.st g.pageCount (σ.front g.pageCount) = .ok .open := by
        rw [← h.fs.st _ (Shape.front_lt wf), hbl]; rfl
      have wf' := CalcOk.openFront_wf wf hp hst
      rw [hS, hP]
      unfold putP
      rw [pagesOf_front wf' rfl, CalcOk.openFront_front hp, pagesOf_open wf hp, hnil, upd_same]
      simp [PK.add, PK.its, slots, ofData_present]
    · intro hx; rw [hS] at hx; simp [Shape.openFront] at hx
  | true =>
    have hm1 := wf.part_pos hp
    have hS : prepS σ = σ := by unfold prepS; rw [hp]; simp
    have hP : prepP g σ P = P := by unfold prepP; rw [hp]; simp
    have hfr : σ.front g.pageCount = ringPage g.pageCount σ.o (σ.m - 1) := by unfold Shape.front; rw [hp, if_pos rfl]
    obtain ⟨c, its, f, hpg, hf, hfe, hfd, hc⟩ := page_free w hcf h (j := σ.m - 1) (by omega)
    have hc : c = false := hc.2 ⟨hp, by omega⟩
    subst hc
    rw [← hfr] at hpg hf hfe
    have hits : (P (σ.front g.pageCount)).its = its := by rw [hpg]; rfl
    rw [pagesOf_last hm1, ← hfr, hits]
    rw [hS, hP, hpg] at he
    show (if taken g.word (slots its) + itemSize g.word d + 2 * g.word ≤ g.eraseSize then _ else _) ∧ _
    have hfit : Fits g (σ.front g.pageCount) (freeOf g (σ.front g.pageCount) (.used false its f)) d.length ↔
        taken g.word (slots its) + itemSize g.word d + 2 * g.word ≤ g.eraseSize := by
      have := page_eq w (σ.front g.pageCount)
      rw [itemSize_eq]
      unfold foot
      show f + _ + _ ≤ _ ↔ _
      omega
    by_cases hfi : Fits g (σ.front g.pageCount) (freeOf g (σ.front g.pageCount) (.used false its f)) d.length
    · rw [if_pos hfi] at he
      obtain ⟨rfl, rfl, rfl⟩ : _ ∧ _ ∧ _ := by simpa using he
      rw [if_pos (hfit.1 hfi)]
      refine ⟨⟨rfl, ?_⟩, fun hx => by rw [hp] at hx; simp at hx⟩
      unfold putP
      rw [pagesOf_front wf hp, hpg]
      simp [PK.add, PK.its, slots, ofData_present]
    rw [if_neg hfi] at he
    rw [if_neg (fun hx => hfi (hfit.2 hx))]
    -- a new page behind the last one
    have key : ∀ {σ1 : Shape} {P1 : Nat → PK}, σ1.WF g.pageCount → σ1.part = true → σ1.m < g.pageCount → σ1.corr = false →
        pagesOf g.pageCount (turnS σ1) (putP g (turnS σ1) (turnP g σ1 P1) d) = pagesOf g.pageCount σ1 P1 ++ [[(d, true)]] := by
      intro σ1 P1 wf1 hp1 hm hc1
      have wfc := CalcOk.closeFront_wf wf1 hp1 hm
      have hst : σ1.closeFront.st g.pageCount (σ1.closeFront.front g.pageCount) = .ok .open := by
        have : σ1.closeFront.front g.pageCount = ringPage g.pageCount σ1.o σ1.m := by
          unfold Shape.front Shape.closeFront; simp
        rw [this, Shape.st_open]
        simp only [Shape.closeFront, ringPos_page wf1.o_lt hm, hc1]
        simp
      have wfo := CalcOk.openFront_wf wfc rfl hst
      unfold turnS turnP putP
      rw [pagesOf_front wfo rfl, CalcOk.openFront_front rfl]
      unfold prepP
      have hcp : σ1.closeFront.part = false := rfl
      rw [hcp]
      simp only [Bool.false_eq_true, if_false]
      rw [upd_same, pagesOf_open wfc rfl, pagesOf_close]
      simp [PK.add, PK.its, slots, ofData_present]
    have hc := h.fs.torn_free hcf
    unfold advA at he
    by_cases hmn : σ.m < g.pageCount
    · rw [if_pos hmn] at he
      obtain ⟨rfl, rfl, rfl⟩ : _ ∧ _ ∧ _ := by simpa using he
      rw [if_pos (by simpa using hmn)]
      refine ⟨⟨rfl, ?_⟩, fun hx => by simp [turnS, Shape.openFront] at hx⟩
      exact key wf hp hmn hc
    rw [if_neg hmn] at he
    rw [if_neg (by simpa using hmn)]
    by_cases hn1 : g.pageCount = 1
    · rw [if_pos hn1] at he
      cases allow with
      | true =>
        rw [if_pos rfl] at he
        obtain ⟨rfl, rfl, rfl⟩ : _ ∧ _ ∧ _ := by simpa using he
        rw [if_pos (Or.inl rfl)]
        have hlen : (pagesOf g.pageCount σ P).tail = [] := by
          rw [← List.length_eq_zero_iff]; simp; omega
        refine ⟨⟨rfl, ?_⟩, fun hx => by simp [prepS, Shape.dropOnly, Shape.openFront] at hx⟩
        rw [hlen]
        simp [pagesOf, prepS, Shape.dropOnly, Shape.openFront, putP, Shape.front, ringPage, prepP, PK.add, PK.its, slots,
          ofData_present, hn1]
      | false =>
        obtain ⟨rfl, rfl, rfl⟩ : _ ∧ _ ∧ _ := by simpa using he
        rw [if_neg (by simp; omega)]
        exact ⟨⟨rfl, rfl⟩, hpk⟩
    · rw [if_neg hn1] at he
      rw [pagesOf_head wf hm1, spent_iff w hcf hdm h wf.o_lt]
      have hn2 : 2 ≤ g.pageCount := by have := wf.o_lt; omega
      by_cases ha : allow = true ∨ allErased (P σ.o) = true
      · have hd := CalcOk.dropOldest_wf wf (by omega : 2 ≤ σ.m)
        rw [if_pos ha] at he
        obtain ⟨rfl, rfl, rfl⟩ : _ ∧ _ ∧ _ := by simpa using he
        rw [if_pos (ha.imp id (fun hx => ⟨hn2, hx⟩))]
        refine ⟨⟨rfl, ?_⟩, fun hx => by simp [turnS, Shape.openFront] at hx⟩
        rw [key hd hp (by simp only [Shape.dropOldest]; omega) hc, pagesOf_drop wf (by omega)]
      · rw [if_neg ha] at he
        obtain ⟨rfl, rfl, rfl⟩ : _ ∧ _ ∧ _ := by simpa using he
        rw [if_neg (fun hx => ha (hx.imp id (·.2)))]
        exact ⟨⟨rfl, rfl⟩, hpk⟩

/-! ### Popping and iterating -/

omit w in
theorem takePage_slots {pre rest : List It} {it : It} (h1 : ∀ x ∈ pre, x.present = false) (h2 : it.present = true) :
    takePage (slots (pre ++ it :: rest)) = slots pre ++ (it.data, false) :: slots rest := by
  induction pre with
  | nil => simp [slots, takePage, h2]
  | cons x l ih =>
    have := ih (fun y hy => h1 y (by simp [hy]))
    simp only [slots, List.cons_append, List.map_cons, takePage, h1 x (by simp), Bool.false_eq_true, if_false] at this ⊢
    rw [this]

omit w in
theorem dropWhile_present (post : List It) : ∃ sk, post = sk ++ post.dropWhile (fun x => !x.present) ∧
    (∀ x ∈ sk, x.present = false) := by
  refine ⟨post.takeWhile (fun x => !x.present), (List.takeWhile_append_dropWhile).symm, ?_⟩
  intro x hx
  have := List.all_takeWhile (p := fun x : It => !x.present) (l := post)
  rw [List.all_eq_true] at this
  simpa using this x hx

omit w in
/-- The items `next` has not passed, including the one it gives. -/
def restOf (r : Except Err (Option It)) (rest : List It) : List It :=
  match r with
  | .ok (some it) => it :: rest
  | _ => rest

/-- `next` while everything before it was popped. -/
theorem nextA_popped (blen : Nat) (k : Nat) : ∀ {σ : Shape} {P : Nat → PK} {pre post : List It},
    σ.WF g.pageCount → σ.m - 1 = k → (P σ.o).its = pre ++ post → (∀ x ∈ pre, x.present = false) →
    ∀ {r : Except Err (Option It)} {σ' : Shape} {P' : Nat → PK} {j' : Nat} {rest : List It},
      nextA g blen .allPopped k σ P 0 post = (r, σ', P', j', rest) →
      pagesOf g.pageCount σ' P' = dropSpent (pagesOf g.pageCount σ P) ∧ j' = 0 ∧ σ'.part = σ.part ∧
        (σ.m = 0 → σ'.m = 0) ∧ σ'.WF g.pageCount ∧
        (∃ pre', (P' σ'.o).its = pre' ++ restOf r rest ∧
          (∀ x ∈ pre', x.present = false)) ∧
        (∀ it, r = .ok (some it) → it.present = true) := by
  induction k with
  | zero =>
    intro σ P pre post wf hk hits hpre r σ' P' j' rest he
    obtain ⟨sk, hsk, hskp⟩ := dropWhile_present post
    have hds : dropSpent (pagesOf g.pageCount σ P) = pagesOf g.pageCount σ P := by
      rcases Nat.eq_zero_or_pos σ.m with h0 | h0
      · have : pagesOf g.pageCount σ P = [] := by rw [← List.length_eq_zero_iff]; simpa using h0
        rw [this]; rfl
      · rw [pagesOf_cons wf h0]
        have : (pagesOf g.pageCount σ P).tail = [] := by rw [← List.length_eq_zero_iff]; simp; omega
        rw [this]; rfl
    rw [hds]
    rw [nextA.eq_def] at he
    simp only at he
    cases hdw : post.dropWhile (fun x => !x.present) with
    | nil =>
      rw [hdw] at he hsk
      obtain ⟨rfl, rfl, rfl, rfl, rfl⟩ : _ ∧ _ ∧ _ ∧ _ ∧ _ := by simpa using he
      refine ⟨rfl, rfl, rfl, id, wf, ⟨pre ++ sk, ?_, ?_⟩, by simp⟩
      · rw [hits, hsk]; simp [restOf]
      · simp only [List.mem_append]
        rintro x (hx | hx)
        · exact hpre x hx
        · exact hskp x hx
    | cons it l =>
      have hpr : it.present = true := by
        have := List.head_dropWhile_not (fun x : It => !x.present) (l := post) (by rw [hdw]; simp)
        simp only [hdw, List.head_cons] at this
        simpa using this
      rw [hdw] at he hsk
      simp only at he
      split at he
      · obtain ⟨rfl, rfl, rfl, rfl, rfl⟩ : _ ∧ _ ∧ _ ∧ _ ∧ _ := by simpa using he
        refine ⟨rfl, rfl, rfl, id, wf, ⟨pre ++ sk, ?_, ?_⟩, ?_⟩
        · rw [hits]; conv => lhs; rw [hsk]
          simp [restOf]
        · simp only [List.mem_append]
          rintro x (hx | hx)
          · exact hpre x hx
          · exact hskp x hx
        · intro it' h'
          have : it' = it := by simpa using h'.symm
          rw [this]; exact hpr
      · obtain ⟨rfl, rfl, rfl, rfl, rfl⟩ : _ ∧ _ ∧ _ ∧ _ ∧ _ := by simpa using he
        refine ⟨rfl, rfl, rfl, id, wf, ⟨pre ++ sk, ?_, ?_⟩, by simp⟩
        · rw [hits]; conv => lhs; rw [hsk]
          simp [restOf]
        · simp only [List.mem_append]
          rintro x (hx | hx)
          · exact hpre x hx
          · exact hskp x hx
  | succ k ih =>
    intro σ P pre post wf hk hits hpre r σ' P' j' rest he
    obtain ⟨sk, hsk, hskp⟩ := dropWhile_present post
    have hm2 : 2 ≤ σ.m := by omega
    have hps : pagesOf g.pageCount σ P = slots (P σ.o).its :: (pagesOf g.pageCount σ P).tail := pagesOf_cons wf (by omega)
    obtain ⟨p', ps', htl⟩ : ∃ p' ps', (pagesOf g.pageCount σ P).tail = p' :: ps' := by
      cases h : (pagesOf g.pageCount σ P).tail with
      | nil => have := congrArg List.length h; simp at this; omega
      | cons a l => exact ⟨a, l, rfl⟩
    rw [nextA.eq_def] at he
    simp only at he
    cases hdw : post.dropWhile (fun x => !x.present) with
    | nil =>
      rw [hdw] at he hsk
      simp only [if_true] at he
      have hsp : spent (slots (P σ.o).its) = true := by
        rw [spent_slots, hits, hsk]
        simp only [List.append_nil, List.mem_append]
        rintro x (hx | hx)
        · exact hpre x hx
        · exact hskp x hx
      have hdr : dropSpent (pagesOf g.pageCount σ P) =
          dropSpent (pagesOf g.pageCount (σ.dropOldest g.pageCount) (upd P σ.o .blank)) := by
        rw [pagesOf_drop wf hm2, hps, htl]
        simp only [dropSpent, hsp, if_true, List.tail_cons]
      have hwf := CalcOk.dropOldest_wf wf hm2
      obtain ⟨h1, h2, h3, h4, h5, h6⟩ := ih (σ := σ.dropOldest g.pageCount) (P := upd P σ.o .blank) (pre := []) hwf
        (by simp only [Shape.dropOldest]; omega) (by simp only [Shape.dropOldest]; rfl) (by simp) he
      exact ⟨by rw [h1, hdr], h2, h3, by omega, h5, h6⟩
    | cons it l =>
      have hpr : it.present = true := by
        have := List.head_dropWhile_not (fun x : It => !x.present) (l := post) (by rw [hdw]; simp)
        simp only [hdw, List.head_cons] at this
        simpa using this
      rw [hdw] at he hsk
      simp only at he
      have hpm : it ∈ (P σ.o).its := by rw [hits, hsk]; simp
      have hsp : spent (slots (P σ.o).its) = false := by
        cases hx : spent (slots (P σ.o).its) with
        | false => rfl
        | true =>
          have := (spent_slots _).1 hx it hpm
          rw [hpr] at this; simp at this
      have hdr : dropSpent (pagesOf g.pageCount σ P) = pagesOf g.pageCount σ P := by
        rw [hps, htl]
        simp [dropSpent, hsp]
      rw [hdr]
      split at he
      · obtain ⟨rfl, rfl, rfl, rfl, rfl⟩ : _ ∧ _ ∧ _ ∧ _ ∧ _ := by simpa using he
        refine ⟨rfl, rfl, rfl, id, wf, ⟨pre ++ sk, ?_, ?_⟩, ?_⟩
        · rw [hits]; conv => lhs; rw [hsk]
          simp [restOf]
        · simp only [List.mem_append]
          rintro x (hx | hx)
          · exact hpre x hx
          · exact hskp x hx
        · intro it' h'
          have : it' = it := by simpa using h'.symm
          rw [this]; exact hpr
      · obtain ⟨rfl, rfl, rfl, rfl, rfl⟩ : _ ∧ _ ∧ _ ∧ _ ∧ _ := by simpa using he
        refine ⟨rfl, rfl, rfl, id, wf, ⟨pre ++ sk, ?_, ?_⟩, by simp⟩
        · rw [hits]; conv => lhs; rw [hsk]
          simp [restOf]
        · simp only [List.mem_append]
          rintro x (hx | hx)
          · exact hpre x hx
          · exact hskp x hx

/-- `next` after an item was left alone. -/
theorem nextA_left (blen : Nat) (k : Nat) : ∀ {σ : Shape} {P : Nat → PK} {j : Nat} {pre post : List It},
    σ.m - (j + 1) = k → j < max σ.m 1 → (P (ringPage g.pageCount σ.o j)).its = pre ++ post →
    ∀ {r : Except Err (Option It)} {σ' : Shape} {P' : Nat → PK} {j' : Nat} {rest : List It},
      nextA g blen .unpopped k σ P j post = (r, σ', P', j', rest) →
      σ' = σ ∧ P' = P ∧ j' < max σ.m 1 ∧
        (∃ pre', (P (ringPage g.pageCount σ.o j')).its = pre' ++ restOf r rest) := by
  induction k with
  | zero =>
    intro σ P j pre post hk hj hits r σ' P' j' rest he
    obtain ⟨sk, hsk, hskp⟩ := dropWhile_present post
    rw [nextA.eq_def] at he
    simp only at he
    cases hdw : post.dropWhile (fun x => !x.present) with
    | nil =>
      rw [hdw] at he
      obtain ⟨rfl, rfl, rfl, rfl, rfl⟩ : _ ∧ _ ∧ _ ∧ _ ∧ _ := by simpa using he
      exact ⟨rfl, rfl, hj, pre ++ post, by rw [hits]; simp [restOf]⟩
    | cons it l =>
      rw [hdw] at he hsk
      simp only at he
      split at he
      · obtain ⟨rfl, rfl, rfl, rfl, rfl⟩ : _ ∧ _ ∧ _ ∧ _ ∧ _ := by simpa using he
        refine ⟨rfl, rfl, hj, pre ++ sk, ?_⟩
        rw [hits]; conv => lhs; rw [hsk]
        simp [restOf]
      · obtain ⟨rfl, rfl, rfl, rfl, rfl⟩ : _ ∧ _ ∧ _ ∧ _ ∧ _ := by simpa using he
        refine ⟨rfl, rfl, hj, pre ++ sk, ?_⟩
        rw [hits]; conv => lhs; rw [hsk]
        simp [restOf]
  | succ k ih =>
    intro σ P j pre post hk hj hits r σ' P' j' rest he
    obtain ⟨sk, hsk, hskp⟩ := dropWhile_present post
    rw [nextA.eq_def] at he
    simp only at he
    cases hdw : post.dropWhile (fun x => !x.present) with
    | nil =>
      rw [hdw] at he
      simp only [reduceCtorEq, if_false] at he
      exact ih (pre := []) (by omega) (by omega) rfl he
    | cons it l =>
      rw [hdw] at he hsk
      simp only at he
      split at he
      · obtain ⟨rfl, rfl, rfl, rfl, rfl⟩ : _ ∧ _ ∧ _ ∧ _ ∧ _ := by simpa using he
        refine ⟨rfl, rfl, hj, pre ++ sk, ?_⟩
        rw [hits]; conv => lhs; rw [hsk]
        simp [restOf]
      · obtain ⟨rfl, rfl, rfl, rfl, rfl⟩ : _ ∧ _ ∧ _ ∧ _ ∧ _ := by simpa using he
        refine ⟨rfl, rfl, hj, pre ++ sk, ?_⟩
        rw [hits]; conv => lhs; rw [hsk]
        simp [restOf]

omit w in
theorem its_used {pk : PK} {l : List It} (h : pk.its = l) (hl : l ≠ []) : ∃ c f, pk = .used c l f := by
  cases pk with
  | used c its f => exact ⟨c, f, by rw [← h]; rfl⟩
  | blank => exact absurd h.symm (by simpa [PK.its] using hl)
  | corr => exact absurd h.symm (by simpa [PK.its] using hl)
  | junk => exact absurd h.symm (by simpa [PK.its] using hl)

omit w in
/-- Taking out an item. -/
theorem popP_its {j : Nat} {pre rest : List It} {it : It}
    (hits : (P (ringPage g.pageCount σ.o j)).its = pre ++ it :: rest) :
    ((P (ringPage g.pageCount σ.o j)).remove rest.length).its =
      pre ++ { it with hdr := { it.hdr with crc := 0#32 } } :: rest := by
  obtain ⟨c, f, hpk⟩ := its_used hits (by simp)
  rw [hpk, remove_eq]; rfl

omit w in
theorem slots_removed (pre rest : List It) (it : It) :
    slots (pre ++ { it with hdr := { it.hdr with crc := 0#32 } } :: rest) = slots pre ++ (it.data, false) :: slots rest := by
  have : ({ it with hdr := { it.hdr with crc := 0#32 } } : It).present = false := erased_not_present rfl
  simp [slots, this]

theorem popA_paged (wf : σ.WF g.pageCount) (hpk : Packed σ) (blen : Nat) {r : Except Err (Option (List Byte))}
    (he : popA g σ P blen = (r, σ', P')) :
    (((∃ d, r = .ok (some d)) ∧ pagesOf g.pageCount σ' P' = takeHead (dropSpent (pagesOf g.pageCount σ P))) ∨
      ((∀ d, r ≠ .ok (some d)) ∧ pagesOf g.pageCount σ' P' = dropSpent (pagesOf g.pageCount σ P))) ∧ Packed σ' := by
  rcases hs : startA g σ P blen with ⟨r1, σ1, P1, j1, rest⟩
  unfold startA at hs
  obtain ⟨h1, h2, h3, h4, h5, ⟨pre', h6, h7⟩, h8⟩ := nextA_popped w blen (σ.m - 1) wf rfl (List.nil_append _).symm (by simp) hs
  have hpk1 : Packed σ1 := fun hx => h4 (hpk (h3 ▸ hx))
  unfold popA startA at he
  rw [hs] at he
  subst h2
  match r1, he with
  | .ok none, he =>
    obtain ⟨rfl, rfl, rfl⟩ : _ ∧ _ ∧ _ := by simpa using he
    exact ⟨Or.inr ⟨by simp, h1⟩, hpk1⟩
  | .error e, he =>
    obtain ⟨rfl, rfl, rfl⟩ : _ ∧ _ ∧ _ := by simpa using he
    exact ⟨Or.inr ⟨by simp, h1⟩, hpk1⟩
  | .ok (some it), he =>
    obtain ⟨rfl, rfl, rfl⟩ : _ ∧ _ ∧ _ := by simpa using he
    refine ⟨Or.inl ⟨⟨_, rfl⟩, ?_⟩, hpk1⟩
    rw [← h1]
    simp only [restOf] at h6
    rcases Nat.eq_zero_or_pos σ1.m with h0 | h0
    · have e1 : ∀ P2 : Nat → PK, pagesOf g.pageCount σ1 P2 = [] := fun P2 => by rw [← List.length_eq_zero_iff]; simpa using h0
      rw [e1, e1]; rfl
    · have hz : ringPage g.pageCount σ1.o 0 = σ1.o := ringPage_zero h5.o_lt
      have hits : (P1 (ringPage g.pageCount σ1.o 0)).its = pre' ++ it :: rest := by rw [hz]; exact h6
      unfold popP
      rw [pagesOf_upd h5 h0, popP_its hits, slots_removed, pagesOf_cons h5 h0, h6]
      simp only [takeHead, List.set_cons_zero]
      rw [takePage_slots h7 (h8 it rfl)]

theorem peekA_paged (wf : σ.WF g.pageCount) (hpk : Packed σ) (blen : Nat) {r : Except Err (Option (List Byte))}
    (he : peekA g σ P blen = (r, σ', P')) :
    pagesOf g.pageCount σ' P' = dropSpent (pagesOf g.pageCount σ P) ∧ Packed σ' := by
  rcases hs : startA g σ P blen with ⟨r1, σ1, P1, j1, rest⟩
  unfold startA at hs
  obtain ⟨h1, h2, h3, h4, h5, ⟨pre', h6, h7⟩, h8⟩ := nextA_popped w blen (σ.m - 1) wf rfl (List.nil_append _).symm (by simp) hs
  have hpk1 : Packed σ1 := fun hx => h4 (hpk (h3 ▸ hx))
  unfold peekA startA at he
  rw [hs] at he
  match r1, he with
  | .ok none, he =>
    obtain ⟨rfl, rfl, rfl⟩ : _ ∧ _ ∧ _ := by simpa using he
    exact ⟨h1, hpk1⟩
  | .error e, he =>
    obtain ⟨rfl, rfl, rfl⟩ : _ ∧ _ ∧ _ := by simpa using he
    exact ⟨h1, hpk1⟩
  | .ok (some it), he =>
    obtain ⟨rfl, rfl, rfl⟩ : _ ∧ _ ∧ _ := by simpa using he
    exact ⟨h1, hpk1⟩

omit w in
theorem Spec.WornPage.refl (p : List Slot) : WornPage p p := by
  induction p with
  | nil => rfl
  | cons x p ih => exact ⟨x.2, p, rfl, id, ih⟩

omit w in
theorem Spec.WornPage.trans {p q r : List Slot} (h1 : WornPage p q) (h2 : WornPage q r) : WornPage p r := by
  induction p generalizing q r with
  | nil =>
    have h1 : q = [] := h1
    subst h1; exact h2
  | cons x p ih =>
    obtain ⟨b, q', rfl, hb, h1⟩ := h1
    obtain ⟨b', r', rfl, hb', h2⟩ := h2
    exact ⟨b', r', rfl, fun h => hb (hb' h), ih h1 h2⟩

omit w in
theorem Spec.Worn.refl (ps : List (List Slot)) : Worn ps ps := by
  induction ps with
  | nil => rfl
  | cons p ps ih => exact ⟨p, ps, rfl, .refl p, ih⟩

omit w in
theorem Spec.Worn.trans {p q r : List (List Slot)} (h1 : Worn p q) (h2 : Worn q r) : Worn p r := by
  induction p generalizing q r with
  | nil =>
    have h1 : q = [] := h1
    subst h1; exact h2
  | cons x p ih =>
    obtain ⟨y, q', rfl, hy, h1⟩ := h1
    obtain ⟨z, r', rfl, hz, h2⟩ := h2
    exact ⟨z, r', rfl, hy.trans hz, ih h1 h2⟩

omit w in
theorem Spec.Worn.left (a : List (List Slot)) {b c : List (List Slot)} (h : Worn b c) : Worn (a ++ b) (a ++ c) := by
  induction a with
  | nil => exact h
  | cons x a ih => exact ⟨x, a ++ c, rfl, .refl x, ih⟩

omit w in
theorem Spec.Worn.set {ps : List (List Slot)} {j : Nat} {q : List Slot} (hj : j < ps.length) (h : WornPage ps[j] q) :
    Worn ps (ps.set j q) := by
  induction ps generalizing j with
  | nil => simp at hj
  | cons x ps ih =>
    cases j with
    | zero => exact ⟨q, ps, rfl, h, .refl ps⟩
    | succ j => exact ⟨x, ps.set j q, rfl, .refl x, ih (by simpa using hj) h⟩

omit w in
theorem Spec.Worn.nil_right {ps : List (List Slot)} (h : Worn ps []) : ps = [] := by
  cases ps with
  | nil => rfl
  | cons x ps => obtain ⟨_, _, h, _⟩ := h; simp at h

omit w in
theorem Spec.GivenUp.refl (ps : List (List Slot)) : GivenUp ps ps := ⟨[], rfl, by simp, id⟩

omit w in
theorem Spec.GivenUp.trans {p q r : List (List Slot)} (h1 : GivenUp p q) (h2 : GivenUp q r) : GivenUp p r := by
  obtain ⟨a, rfl, ha, ha'⟩ := h1
  obtain ⟨b, rfl, hb, hb'⟩ := h2
  refine ⟨a ++ b, by simp, ?_, fun h => ha' (hb' h)⟩
  simp only [List.mem_append]
  rintro x (hx | hx)
  · exact ha x hx
  · exact hb x hx

omit w in
theorem givenUp_dropSpent (ps : List (List Slot)) : GivenUp ps (dropSpent ps) := by
  match ps with
  | [] => exact .refl _
  | [p] => exact .refl _
  | p :: p' :: ps =>
    unfold dropSpent
    split
    · rename_i h
      obtain ⟨a, ha, hb, hc⟩ := givenUp_dropSpent (p' :: ps)
      refine ⟨p :: a, by rw [List.cons_append, ← ha], ?_, fun hx => by have := hc hx; simp at this⟩
      intro x hx
      rcases List.mem_cons.1 hx with rfl | hx
      · exact h
      · exact hb x hx
    · exact .refl _

/-- Items were taken out and pages given up. -/
def Less (ps ps' : List (List Slot)) : Prop := ∃ ps1, Worn ps ps1 ∧ GivenUp ps1 ps'

omit w in
theorem Less.refl (ps : List (List Slot)) : Less ps ps := ⟨ps, .refl ps, .refl ps⟩

omit w in
theorem Less.trans {p q r : List (List Slot)} (h1 : Less p q) (h2 : Less q r) : Less p r := by
  obtain ⟨p1, hw1, gone, rfl, hg, hn⟩ := h1
  obtain ⟨q1, hw2, hg2⟩ := h2
  refine ⟨gone ++ q1, hw1.trans (hw2.left gone), GivenUp.trans (q := q1) ⟨gone, rfl, hg, fun h => ?_⟩ hg2⟩
  subst h
  have := hn hw2.nil_right
  simp at this
  rw [this.1]; rfl

omit w in
theorem wornPage_take (pre rest : List It) (it : It) :
    WornPage (slots (pre ++ it :: rest)) (slots pre ++ (it.data, false) :: slots rest) := by
  induction pre with
  | nil => exact ⟨false, slots rest, rfl, by simp, .refl _⟩
  | cons x l ih => exact ⟨x.present, _, rfl, id, ih⟩

theorem popP_less (wf : σ.WF g.pageCount) {j : Nat} {pre rest : List It} {it : It} (hj : j < max σ.m 1)
    (hits : (P (ringPage g.pageCount σ.o j)).its = pre ++ it :: rest) :
    Less (pagesOf g.pageCount σ P) (pagesOf g.pageCount σ (popP g σ P j rest.length)) := by
  rcases Nat.eq_zero_or_pos σ.m with h0 | h0
  · have e1 : ∀ P2 : Nat → PK, pagesOf g.pageCount σ P2 = [] := fun P2 => by rw [← List.length_eq_zero_iff]; simpa using h0
    rw [e1, e1]; exact .refl _
  · unfold popP
    rw [pagesOf_upd wf (by omega), popP_its hits, slots_removed]
    refine ⟨_, Worn.set (by simp; omega) ?_, .refl _⟩
    rw [pagesOf_get, hits]
    exact wornPage_take pre rest it

theorem iterStepsA_paged (steps : List (List Byte × Bool)) : ∀ {all : Bool} {σ : Shape} {P : Nat → PK} {j : Nat} {pre post : List It},
    σ.WF g.pageCount → Packed σ → j < max σ.m 1 → (P (ringPage g.pageCount σ.o j)).its = pre ++ post →
    (all = true → j = 0 ∧ ∀ x ∈ pre, x.present = false) →
    Less (pagesOf g.pageCount σ P) (pagesOf g.pageCount (iterStepsA g steps all σ P j post).2.1 (iterStepsA g steps all σ P j post).2.2) ∧
      Packed (iterStepsA g steps all σ P j post).2.1 := by
  induction steps with
  | nil => intro all σ P j pre post wf hpk hj hits ha; exact ⟨.refl _, hpk⟩
  | cons st steps ih =>
    obtain ⟨b, p⟩ := st
    intro all σ P j pre post wf hpk hj hits ha
    rcases hn : nextA g b.length (if all then .allPopped else .unpopped) (σ.m - (j + 1)) σ P j post with ⟨r, σ1, P1, j1, rest⟩
    have main : Less (pagesOf g.pageCount σ P) (pagesOf g.pageCount σ1 P1) ∧ σ1.WF g.pageCount ∧ Packed σ1 ∧ j1 < max σ1.m 1 ∧
        ∃ pre', (P1 (ringPage g.pageCount σ1.o j1)).its = pre' ++ restOf r rest ∧
          (all = true → j1 = 0 ∧ ∀ x ∈ pre', x.present = false) := by
      cases all with
      | true =>
        obtain ⟨rfl, hpre⟩ := ha rfl
        rw [ringPage_zero wf.o_lt] at hits
        obtain ⟨h1, rfl, h3, h4, h5, ⟨pre', h6, h7⟩, h8⟩ := nextA_popped w b.length (σ.m - 1) wf rfl hits hpre hn
        refine ⟨⟨_, .refl _, ?_⟩, h5, fun hx => h4 (hpk (h3 ▸ hx)), by omega, pre', ?_, fun _ => ⟨rfl, h7⟩⟩
        · rw [h1]; exact givenUp_dropSpent _
        · rw [ringPage_zero h5.o_lt]; exact h6
      | false =>
        obtain ⟨rfl, rfl, h3, pre', h4⟩ := nextA_left w b.length (σ.m - (j + 1)) rfl hj hits hn
        exact ⟨.refl _, wf, hpk, h3, pre', h4, by simp⟩
    obtain ⟨m1, m2, m3, m4, pre', m5, m6⟩ := main
    unfold iterStepsA
    rw [hn]
    match r, m5 with
    | .ok none, m5 =>
      obtain ⟨h1, h2⟩ := ih m2 m3 m4 m5 m6
      exact ⟨m1.trans h1, h2⟩
    | .error e, m5 =>
      obtain ⟨h1, h2⟩ := ih m2 m3 m4 m5 m6
      exact ⟨m1.trans h1, h2⟩
    | .ok (some it), m5 =>
      cases p with
      | false =>
        obtain ⟨h1, h2⟩ := ih (all := false) (pre := pre' ++ [it]) (post := rest) m2 m3 m4 (by rw [m5]; simp [restOf]) (by simp)
        exact ⟨m1.trans h1, h2⟩
      | true =>
        obtain ⟨h1, h2⟩ := ih (all := all) (P := popP g σ1 P1 j1 rest.length)
          (pre := pre' ++ [{ it with hdr := { it.hdr with crc := 0#32 } }]) (post := rest) m2 m3 m4
          (by unfold popP; rw [upd_same, popP_its m5]; simp)
          (by
            intro hall
            refine ⟨(m6 hall).1, ?_⟩
            simp only [List.mem_append, List.mem_singleton]
            rintro x (hx | rfl)
            · exact (m6 hall).2 x hx
            · exact erased_not_present rfl)
        exact ⟨(m1.trans (popP_less w m2 m4 m5)).trans h1, h2⟩

/-! ### Space -/

omit w in
theorem sum_ring (n o : Nat) (ho : o < n) (f : Nat → Nat) :
    ((List.range n).map f).sum = ((List.range n).map fun j => f (ringPage n o j)).sum := by
  have h1 : List.range n = List.range' 0 o ++ List.range' o (n - o) := by
    rw [List.range_eq_range', show n = o + (n - o) from by omega, ← List.range'_append_1]; simp
  have h2 : (List.range n).map (fun j => f (ringPage n o j)) = (List.range' o (n - o)).map f ++ (List.range' 0 o).map f := by
    rw [List.range_eq_range', show List.range' 0 n = List.range' 0 (n - o) ++ List.range' (n - o) o from by
      conv => lhs; rw [show n = (n - o) + o from by omega]
      rw [← List.range'_append_1]; simp]
    rw [List.map_append]
    congr 1
    · apply List.ext_getElem
      · simp
      · intro i h1 h2
        simp at h1 h2
        simp [ringPage, show o + i < n from by omega]
    · apply List.ext_getElem
      · simp
      · intro i h1 h2
        simp at h1 h2
        simp only [List.getElem_map, List.getElem_range', ringPage]
        rw [if_neg (by omega)]
        congr 1; omega
  rw [h2, h1]
  simp [List.sum_append]
  omega

omit w in
theorem spaceUsed_snoc (W page : Nat) (ps : List (List Slot)) (p : List Slot) :
    spaceUsed W page (ps ++ [p]) = (ps.map fun p => if spent p then page - 2 * W else 0).sum + spaceUsed W page [p] := by
  induction ps with
  | nil => simp
  | cons q ps ih =>
    have : spaceUsed W page (q :: (ps ++ [p])) = (if spent q then page - 2 * W else 0) + spaceUsed W page (ps ++ [p]) := by
      cases h : ps ++ [p] with
      | nil => simp at h
      | cons a l => rfl
    rw [List.cons_append, this, ih, List.map_cons, List.sum_cons]
    omega

theorem avail_eq {i f : Nat} (hf : f ≤ g.dataEnd i) (hd : g.word ∣ f) :
    g.availableDataBytes (g.dataEnd i - f) = if f + g.hl ≤ g.dataEnd i then some (g.dataEnd i - f - g.hl) else none := by
  have hdv : g.word ∣ g.dataEnd i - f := Nat.dvd_sub (w.dataEnd_word i) hd
  unfold Geo.availableDataBytes
  rw [w.roundDown_of_dvd hdv]
  by_cases h : f + g.hl ≤ g.dataEnd i
  · rw [if_pos h, if_pos (by omega)]
  · rw [if_neg h, if_neg (by omega)]

theorem sum_const {α : Type} (l : List α) (f : α → Nat) (c : Nat) (h : ∀ x ∈ l, f x = c) : (l.map f).sum = l.length * c := by
  induction l with
  | nil => simp
  | cons x l ih =>
    rw [List.map_cons, List.sum_cons, ih (fun y hy => h y (by simp [hy])), h x (by simp), List.length_cons, Nat.add_mul]
    omega

theorem space_paged {s : St K} (hcf : md.cf = true) (hdm : md.dmg = false) (h : QI md g s σ P) (hpk : Packed σ) :
    ((List.range g.pageCount).map fun i => spaceOf g i (P i)).sum =
      (g.pageCount - (pagesOf g.pageCount σ P).length) * (g.eraseSize - 2 * g.word) +
        spaceUsed g.word g.eraseSize (pagesOf g.pageCount σ P) := by
  have wf := h.fs.wf
  have hml := wf.m_le
  rw [sum_ring g.pageCount σ.o wf.o_lt, pagesOf_length]
  rw [show List.range g.pageCount = List.range σ.m ++ List.range' σ.m (g.pageCount - σ.m) from by
    rw [List.range_eq_range', List.range_eq_range']
    conv => lhs; rw [show g.pageCount = σ.m + (g.pageCount - σ.m) from by omega]
    rw [← List.range'_append_1]; simp]
  rw [List.map_append, List.sum_append, Nat.add_comm]
  congr 1
  · rw [sum_const w _ _ (g.eraseSize - 2 * g.word)]
    · simp
    · intro j hj
      rw [List.mem_range'_1] at hj
      rw [page_blank w hcf h hj.1 (by omega)]
      have := page_eq w (ringPage g.pageCount σ.o j)
      simp only [spaceOf]
      omega
  · rcases Nat.eq_zero_or_pos σ.m with h0 | h0
    · simp [pagesOf, h0, spaceUsed]
    have hp : σ.part = true := by
      cases hx : σ.part with
      | true => rfl
      | false => have := hpk hx; omega
    obtain ⟨k, hk⟩ : ∃ k, σ.m = k + 1 := ⟨σ.m - 1, by omega⟩
    unfold pagesOf
    rw [hk, List.range_succ, List.map_append, List.map_append, List.sum_append, List.map_cons, List.map_nil,
      List.map_cons, List.map_nil, spaceUsed_snoc]
    congr 1
    · rw [List.map_map]
      congr 1
      apply List.map_congr_left
      intro j hj
      rw [List.mem_range] at hj
      obtain ⟨c, its, f, h1, h2, h3, h4, h5⟩ := page_free w hcf h (j := j) (by omega)
      have hc : c = true := by
        cases c with
        | true => rfl
        | false => have := (h5.1 rfl).2; omega
      subst hc
      have hsp := spent_iff w hcf hdm h (ringPage_lt (n := g.pageCount) wf.o_lt (by omega : j < g.pageCount))
      simp only [Function.comp_apply]
      rw [hsp, h1]
      simp only [spaceOf]
      have := page_eq w (ringPage g.pageCount σ.o j)
      split <;> omega
    · obtain ⟨c, its, f, h1, h2, h3, h4, h5⟩ := page_free w hcf h (j := k) (by omega)
      have hc : c = false := h5.2 ⟨hp, by omega⟩
      subst hc
      have hsp := spent_iff w hcf hdm h (ringPage_lt (n := g.pageCount) wf.o_lt (by omega : k < g.pageCount))
      have hits : (P (ringPage g.pageCount σ.o k)).its = its := by rw [h1]; rfl
      rw [hits, h1] at hsp
      rw [hits, h1]
      simp only [spaceOf, spaceUsed, List.sum_cons, List.sum_nil, Nat.add_zero]
      rw [hsp, avail_eq w h3 h4]
      have hpe := page_eq w (ringPage g.pageCount σ.o k)
      have hh : pad g.word 8 = g.hl := rfl
      rw [hh]
      by_cases hA : f + g.hl ≤ g.dataEnd (ringPage g.pageCount σ.o k)
      · rw [if_pos hA]
        simp only [Option.isNone_some, Bool.false_and, Bool.false_eq_true, if_false]
        rw [if_pos (Or.inl (by omega))]
        omega
      · rw [if_neg hA]
        simp only [Option.isNone_none, Bool.true_and]
        cases hal : allErased (.used false its f) with
        | true =>
          simp only [if_true, Bool.true_eq_false, or_false]
          rw [if_neg (by omega)]
          omega
        | false =>
          simp only [Bool.false_eq_true, if_false, or_true, if_true]
          omega

theorem fit_paged {s : St K} (hcf : md.cf = true) (hdm : md.dmg = false) (h : QI md g s σ P) (hpk : Packed σ)
    (hn : 2 ≤ g.pageCount) : fitOf g σ P = maxFitPaged g.word g.eraseSize g.pageCount (pagesOf g.pageCount σ P) := by
  have wf := h.fs.wf
  have hml := wf.m_le
  unfold fitOf maxFitPaged Shape.cnt
  rw [pagesOf_length]
  cases hp : σ.part with
  | false =>
    have h0 := hpk hp
    rw [if_pos (Or.inl (by simp; omega)), if_pos (Or.inl (by omega))]
  | true =>
    have hm1 := wf.part_pos hp
    rw [pagesOf_head wf hm1, spent_iff w hcf hdm h wf.o_lt]
    simp only [if_true]
    split
    · rfl
    · have hfr : σ.front g.pageCount = ringPage g.pageCount σ.o (σ.m - 1) := by unfold Shape.front; rw [hp, if_pos rfl]
      obtain ⟨c, its, f, h1, h2, h3, h4, h5⟩ := page_free w hcf h (j := σ.m - 1) (by omega)
      have hpe := page_eq w (ringPage g.pageCount σ.o (σ.m - 1))
      have hh : pad g.word 8 = g.hl := rfl
      rw [pagesOf_last hm1, hfr, h1]
      simp only [freeOf, PK.its, Option.getD_some]
      rw [avail_eq w h3 h4]
      unfold fitBehind
      rw [hh]
      by_cases hA : f + g.hl ≤ g.dataEnd (ringPage g.pageCount σ.o (σ.m - 1))
      · rw [if_pos hA, if_pos (by omega)]
        congr 1; omega
      · rw [if_neg hA, if_neg (by omega)]

/-! ### All calls -/

theorem qcallA_paged {s : St K} (hcf : md.cf = true) (hdm : md.dmg = false) (h : QI md g s σ P) (hpk : Packed σ)
    (c : QCall (Cache K)) {r : Except Err QAnswer} (he : qcallA g σ P c = (r, σ', P')) :
    pagedStep g.word g.eraseSize g.pageCount (pagesOf g.pageCount σ P) c r (pagesOf g.pageCount σ' P') ∧ Packed σ' := by
  have wf := h.fs.wf
  cases c with
  | push d allow =>
    rcases hA : pushA g σ P d allow with ⟨r1, σ1, P1⟩
    simp only [qcallA, hA] at he
    obtain ⟨rfl, rfl, rfl⟩ : _ ∧ _ ∧ _ := by simpa using he
    exact pushA_paged w hcf hdm h hpk d allow hA
  | pop b =>
    rcases hA : popA g σ P b.length with ⟨r1, σ1, P1⟩
    simp only [qcallA, hA] at he
    obtain ⟨rfl, rfl, rfl⟩ : _ ∧ _ ∧ _ := by simpa using he
    obtain ⟨h1, h2⟩ := popA_paged w wf hpk b.length hA
    refine ⟨?_, h2⟩
    rcases h1 with ⟨⟨d, rfl⟩, h1⟩ | ⟨h3, h1⟩
    · exact Or.inl ⟨⟨d, rfl⟩, h1⟩
    · refine Or.inr ⟨fun d hx => ?_, h1⟩
      cases r1 with
      | error e => simp [Except.map] at hx
      | ok v =>
        simp only [Except.map, Except.ok.injEq, QAnswer.item.injEq] at hx
        exact h3 d (by rw [hx])
  | peek b =>
    rcases hA : peekA g σ P b.length with ⟨r1, σ1, P1⟩
    simp only [qcallA, hA] at he
    obtain ⟨rfl, rfl, rfl⟩ : _ ∧ _ ∧ _ := by simpa using he
    exact peekA_paged w wf hpk b.length hA
  | iterate steps =>
    simp only [qcallA] at he
    rw [Prod.mk.injEq] at he
    obtain ⟨rfl, h1⟩ := he
    have := iterStepsA_paged w steps (all := true) (σ := σ) (P := P) (j := 0) (pre := []) (post := (P σ.o).its) wf hpk (by omega)
      (by rw [ringPage_zero wf.o_lt]; rfl) (by simp)
    rw [h1] at this
    exact this
  | maxFit =>
    simp only [qcallA] at he
    obtain ⟨rfl, rfl, rfl⟩ : _ ∧ _ ∧ _ := by simpa using he
    refine ⟨⟨rfl, fun hn => ?_⟩, hpk⟩
    rw [if_pos hn, fit_paged w hcf hdm h hpk hn]
  | spaceLeft =>
    simp only [qcallA] at he
    obtain ⟨rfl, rfl, rfl⟩ : _ ∧ _ ∧ _ := by simpa using he
    exact ⟨⟨rfl, by rw [space_paged w hcf hdm h hpk]⟩, hpk⟩
  | restart c =>
    simp only [qcallA] at he
    obtain ⟨rfl, rfl, rfl⟩ : _ ∧ _ ∧ _ := by simpa using he
    exact ⟨rfl, hpk⟩

theorem qrun_paged (hcf : md.cf = true) (hdm : md.dmg = false) (cs : List (QCall (Cache K))) :
    ∀ {s : St K} {σ : Shape} {P : Nat → PK}, QI md g s σ P → Packed σ →
      (∀ c ∈ cs, Documented g c) → (md.np = true → ∀ c ∈ cs, Harmless c) →
      ∃ σ' P', QI md g (qrun g cs s).2 σ' P' ∧ Packed σ' ∧
        Runs (fun ps c r ps' => queueStep g.word g.eraseSize g.pageCount (live ps) c r (live ps') ∧
          pagedStep g.word g.eraseSize g.pageCount ps c r ps') (pagesOf g.pageCount σ P) cs (qrun g cs s).1
          (pagesOf g.pageCount σ' P') := by
  induction cs with
  | nil => intro s σ P h hp _ _; exact ⟨σ, P, h, hp, rfl, rfl⟩
  | cons c cs ih =>
    intro s σ P h hp h1 h2
    obtain ⟨σ1, P1, hq1, hA1, hs1⟩ := qcall_det w hcf h c (h1 c (by simp)) (fun hn => h2 hn c (by simp)) hdm
    obtain ⟨hp1, hpk1⟩ := qcallA_paged w hcf hdm h hp c hA1
    obtain ⟨σ2, P2, hq2, hpk2, hr⟩ := ih hq1 hpk1 (fun c hc => h1 c (by simp [hc])) (fun hn c hc => h2 hn c (by simp [hc]))
    refine ⟨σ2, P2, hq2, hpk2, _, _, _, rfl, ⟨?_, hp1⟩, hr⟩
    rw [live_pagesOf, live_pagesOf]
    exact hs1

end
end SeqStorage
