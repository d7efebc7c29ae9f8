import Verif.Proofs.MapDet
import Verif.Proofs.Paged
import Verif.Spec.MapErases
/-
The pages of a map follow the specification of how full a map is.
-/

set_option linter.unusedSectionVars false

namespace SeqStorage
open Spec M

variable {K V : Type} [DecidableEq K] {k : K} {v : V}
variable {a b p later : List (MSlot K V)} {ps cs : List (List (MSlot K V))} {W page n size : Nat}

theorem hasKey_nil : ¬ hasKey k ([] : List (MSlot K V)) := by rintro ⟨x, h, _⟩; simp at h

theorem hasKey_append : hasKey k (a ++ b) ↔ hasKey k a ∨ hasKey k b := by
  unfold hasKey
  constructor
  · rintro ⟨x, h, hx⟩
    rcases List.mem_append.1 h with h | h
    · exact Or.inl ⟨x, h, hx⟩
    · exact Or.inr ⟨x, h, hx⟩
  · rintro (⟨x, h, hx⟩ | ⟨x, h, hx⟩)
    · exact ⟨x, by simp [h], hx⟩
    · exact ⟨x, by simp [h], hx⟩

theorem hasKey_cons {x : MSlot K V} : hasKey k (x :: a) ↔ x.2.map (·.1) = some k ∨ hasKey k a := by
  rw [← List.singleton_append, hasKey_append]
  constructor
  · rintro (⟨y, h, hy⟩ | h)
    · rw [List.mem_singleton] at h; subst h; exact Or.inl hy
    · exact Or.inr h
  · rintro (h | h)
    · exact Or.inl ⟨x, by simp, h⟩
    · exact Or.inr h

theorem current_sub {x : MSlot K V} (h : x ∈ current later p) : x ∈ p := by
  induction p with
  | nil => simp [current] at h
  | cons y p ih =>
    obtain ⟨b, _ | ⟨k, v⟩⟩ := y
    · exact List.mem_cons_of_mem _ (ih h)
    · rw [current] at h
      split at h
      · exact List.mem_cons_of_mem _ (ih h)
      · rcases List.mem_cons.1 h with rfl | h
        · exact List.mem_cons_self
        · exact List.mem_cons_of_mem _ (ih h)

/-- What counts is not followed by anything. -/
theorem current_last (h : hasKey k (current later p)) : ¬ hasKey k later := by
  induction p with
  | nil => exact absurd h hasKey_nil
  | cons y p ih =>
    obtain ⟨b, _ | ⟨k', v⟩⟩ := y
    · exact ih h
    · rw [current] at h
      split at h
      · exact ih h
      · rename_i hn
        rcases hasKey_cons.1 h with h | h
        · simp only [Option.map_some, Option.some.injEq] at h
          subst h
          exact fun hx => hn (Or.inr hx)
        · exact ih h

/-- What has other keys does not matter. -/
theorem current_append {c : List (MSlot K V)} (h : ∀ k, hasKey k c → ¬ hasKey k p) : current (later ++ c) p = current later p := by
  induction p with
  | nil => rfl
  | cons y p ih =>
    have ih := ih (fun k hk hp => h k hk (hasKey_cons.2 (Or.inr hp)))
    obtain ⟨b, _ | ⟨k', v⟩⟩ := y
    · exact ih
    · rw [current, current, ih]
      have : ¬ hasKey k' c := fun hx => h k' hx (hasKey_cons.2 (Or.inl rfl))
      simp only [hasKey_append, this, or_false]

theorem getLast?_snoc {α : Type} (l : List α) (x : α) : (l ++ [x]).getLast? = some x := by simp

theorem storePaged_full {left : Nat} (h : LastFull W page size ps) :
    storePaged W page n size k v (left + 1) ps = storePaged W page n size k v left (turnPages n ps) := by
  rw [storePaged.eq_def]
  simp only
  split
  · rename_i p hp
    rw [if_neg (h p hp)]
  · rfl

theorem storePaged_room {left : Nat} {p : List (MSlot K V)} (h : ps.getLast? = some p) (hr : HasRoom W page size p) :
    storePaged W page n size k v (left + 1) ps = (true, ps.dropLast ++ [p ++ [(size, some (k, v))]]) := by
  rw [storePaged.eq_def]
  simp only [h, if_pos hr]

theorem storeTurns_full {left : Nat} (h : LastFull W page size ps) :
    storeTurns W page n size (left + 1) ps = storeTurns W page n size left (turnPages n ps) + 1 := by
  rw [storeTurns.eq_def]
  simp only
  split
  · rename_i p hp
    rw [if_neg (h p hp)]
  · rfl

theorem storeTurns_room {left : Nat} {p : List (MSlot K V)} (h : ps.getLast? = some p) (hr : HasRoom W page size p) :
    storeTurns W page n size (left + 1) ps = 0 := by
  rw [storeTurns.eq_def]
  simp only [h, if_pos hr]

theorem lastFull_or (ps : List (List (MSlot K V))) : LastFull W page size ps ∨ ∃ p, ps.getLast? = some p ∧ HasRoom W page size p := by
  by_cases h : ∃ p, ps.getLast? = some p ∧ HasRoom W page size p
  · exact Or.inr h
  · exact Or.inl fun p hp hr => h ⟨p, hp, hr⟩

/-- All pages but one are in use: then every page is compacted in turn. -/
theorem storePaged_turns : ∀ (ps cs : List (List (MSlot K V))), (∀ k, hasKey k cs.flatten → ¬ hasKey k ps.flatten) →
    (ps ++ cs).length + 1 = n →
    ((storePaged W page n size k v (ps.length + 1) (ps ++ cs)).1 = false ↔
      LastFull W page size (ps ++ cs) ∧ ∀ p ∈ currents ps, ¬ HasRoom W page size p) := by
  intro ps
  induction ps with
  | nil =>
    intro cs _ hn
    simp only [List.nil_append, List.length_nil, Nat.zero_add, currents, List.not_mem_nil, false_imp_iff, implies_true, and_true]
    rcases lastFull_or (W := W) (page := page) (size := size) cs with h | ⟨p, hp, hr⟩
    · rw [storePaged_full h]
      simp [storePaged, h]
    · rw [storePaged_room hp hr]
      simp only [Bool.true_eq_false, false_iff]
      exact fun h => h p hp hr
  | cons p ps ih =>
    intro cs hk hn
    have hcur : current (ps ++ cs).flatten p = current ps.flatten p := by
      rw [List.flatten_append]
      exact current_append fun k hkc hkp => hk k hkc (by rw [List.flatten_cons, hasKey_append]; exact Or.inl hkp)
    rcases lastFull_or (W := W) (page := page) (size := size) (p :: ps ++ cs) with h | ⟨q, hq, hr⟩
    · rw [List.length_cons, storePaged_full h]
      have ht : turnPages n (p :: ps ++ cs) = ps ++ (cs ++ [current ps.flatten p]) := by
        unfold turnPages
        rw [if_neg (by omega), List.cons_append, List.tail_cons, List.headD_cons, hcur, List.append_assoc]
      have := ih (cs ++ [current ps.flatten p]) (by
        intro k' h1 h2
        rw [List.flatten_append, hasKey_append] at h1
        rcases h1 with h1 | h1
        · exact hk k' h1 (by rw [List.flatten_cons, hasKey_append]; exact Or.inr h2)
        · simp only [List.flatten_cons, List.flatten_nil, List.append_nil] at h1
          exact current_last h1 h2) (by simp only [List.length_append, List.length_cons, List.length_nil] at hn ⊢; omega)
      rw [ht, this]
      have hl : LastFull W page size (ps ++ (cs ++ [current ps.flatten p])) ↔ ¬ HasRoom W page size (current ps.flatten p) := by
        unfold LastFull
        rw [← List.append_assoc, getLast?_snoc]
        simp
      rw [hl]
      simp only [currents, List.mem_cons, forall_eq_or_imp, h, true_and]
    · rw [List.length_cons, storePaged_room hq hr]
      simp only [Bool.true_eq_false, false_iff]
      exact fun h => h.1 q hq hr

/-- When a store is refused. -/
theorem storePaged_refused (hn : 2 ≤ n) (hl : ps.length < n) (hs : size + 2 * W ≤ page) :
    (storePaged W page n size k v n ps).1 = false ↔
      ps.length + 1 = n ∧ LastFull W page size ps ∧ ∀ p ∈ currents ps, ¬ HasRoom W page size p := by
  by_cases hlen : ps.length + 1 = n
  · have h := storePaged_turns (W := W) (page := page) (n := n) (size := size) (k := k) (v := v) ps []
      (fun k hk => absurd hk hasKey_nil) (by simpa using hlen)
    rw [hlen, List.append_nil] at h
    rw [h]
    exact ⟨fun h => ⟨hlen, h⟩, fun h => h.2⟩
  · simp only [hlen, false_and, iff_false, Bool.not_eq_false]
    obtain ⟨m, rfl⟩ : ∃ m, n = m + 2 := ⟨n - 2, by omega⟩
    rcases lastFull_or (W := W) (page := page) (size := size) ps with h | ⟨p, hp, hr⟩
    · rw [storePaged_full h]
      have ht : turnPages (m + 2) ps = ps ++ [[]] := by unfold turnPages; rw [if_pos (by omega)]
      rw [ht, storePaged_room (getLast?_snoc _ _) (by unfold HasRoom occupied; simpa using hs)]
    · rw [storePaged_room hp hr]

theorem currents_length (ps : List (List (MSlot K V))) : (currents ps).length = ps.length := by
  induction ps with
  | nil => rfl
  | cons p ps ih => simp [currents, ih]

/-! ### How much counts -/

theorem current_some {x : MSlot K V} (h : x ∈ current later p) : ∃ k v, x.2 = some (k, v) := by
  induction p with
  | nil => simp [current] at h
  | cons y p ih =>
    obtain ⟨b, _ | ⟨k, v⟩⟩ := y
    · exact ih h
    · rw [current] at h
      split at h
      · exact ih h
      · rcases List.mem_cons.1 h with rfl | h
        · exact ⟨k, v, rfl⟩
        · exact ih h

theorem hasKey_lastOf : lastOf k (a.filterMap (·.2)) ≠ none ↔ hasKey k a := by
  induction a with
  | nil => simp [lastOf, hasKey_nil]
  | cons x a ih =>
    rw [hasKey_cons, ← ih]
    obtain ⟨b, _ | ⟨k', v⟩⟩ := x
    · simp
    · simp only [List.filterMap_cons, lastOf, Option.map_some, Option.some.injEq]
      cases hl : lastOf k (a.filterMap (·.2)) with
      | some y => simp
      | none => by_cases he : k' = k <;> simp [he]

theorem lastOf_append (l l' : List (K × V)) : lastOf k (l ++ l') = (lastOf k l').or (lastOf k l) := by
  induction l with
  | nil => simp [lastOf]
  | cons x l ih =>
    obtain ⟨k', v⟩ := x
    simp only [List.cons_append, lastOf, ih]
    cases lastOf k l' <;> simp

/-- What counts is what a fetch finds. -/
theorem current_value {x : MSlot K V} (h : x ∈ current later p) (hx : x.2 = some (k, v)) : valueIn (p ++ later) k = some v := by
  induction p with
  | nil => simp [current] at h
  | cons y p ih =>
    have hnext : ∀ y : MSlot K V, valueIn (p ++ later) k = some v → valueIn (y :: p ++ later) k = some v := by
      intro y hv
      unfold valueIn at hv ⊢
      obtain ⟨b, _ | ⟨k', v'⟩⟩ := y
      · exact hv
      · simp only [List.cons_append, List.filterMap_cons, lastOf]
        rw [hv]
    obtain ⟨b, _ | ⟨k', v'⟩⟩ := y
    · exact hnext _ (ih h)
    · rw [current] at h
      split at h
      · exact hnext _ (ih h)
      · rename_i hn
        rcases List.mem_cons.1 h with rfl | h
        · simp only [Option.some.injEq, Prod.mk.injEq] at hx
          obtain ⟨rfl, rfl⟩ := hx
          unfold valueIn
          simp only [List.cons_append, List.filterMap_cons, lastOf]
          have : lastOf k' ((p ++ later).filterMap (·.2)) = none := by
            apply Classical.byContradiction
            intro hc
            exact hn (hasKey_append.1 (hasKey_lastOf.1 hc))
          rw [this]; simp
        · exact hnext _ (ih h)

theorem currents_value {x : MSlot K V} (h : x ∈ (currents ps).flatten) (hx : x.2 = some (k, v)) : valueIn ps.flatten k = some v := by
  induction ps with
  | nil => simp [currents] at h
  | cons p ps ih =>
    rw [currents, List.flatten_cons, List.mem_append] at h
    rw [List.flatten_cons]
    rcases h with h | h
    · exact current_value h hx
    · have := ih h
      unfold valueIn at this ⊢
      rw [List.filterMap_append, lastOf_append, this]; rfl

theorem currents_sub {x : MSlot K V} (h : x ∈ (currents ps).flatten) : x ∈ ps.flatten ∧ ∃ k v, x.2 = some (k, v) := by
  induction ps with
  | nil => simp [currents] at h
  | cons p ps ih =>
    rw [currents, List.flatten_cons, List.mem_append] at h
    rw [List.flatten_cons]
    rcases h with h | h
    · exact ⟨List.mem_append_left _ (current_sub h), current_some h⟩
    · exact ⟨List.mem_append_right _ (ih h).1, (ih h).2⟩

theorem current_pairwise : (current later p).Pairwise (fun x y => x.2.map (·.1) ≠ y.2.map (·.1)) := by
  induction p with
  | nil => simp [current]
  | cons y p ih =>
    obtain ⟨b, _ | ⟨k, v⟩⟩ := y
    · exact ih
    · rw [current]
      split
      · exact ih
      · rename_i hn
        rw [List.pairwise_cons]
        refine ⟨fun x hx he => hn (Or.inl ⟨x, current_sub hx, he.symm⟩), ih⟩

theorem currents_pairwise : (currents ps).flatten.Pairwise (fun x y => x.2.map (·.1) ≠ y.2.map (·.1)) := by
  induction ps with
  | nil => simp [currents]
  | cons p ps ih =>
    rw [currents, List.flatten_cons, List.pairwise_append]
    refine ⟨current_pairwise, ih, fun x hx y hy he => ?_⟩
    obtain ⟨k, v, hk⟩ := current_some hx
    exact current_last ⟨x, hx, by rw [hk]; rfl⟩ ⟨y, (currents_sub hy).1, by rw [← he, hk]; rfl⟩

/-- The items take the space of their data. -/
def Sized (W : Nat) (c : Coding K V) (ps : List (List (MSlot K V))) : Prop :=
  ∀ x ∈ ps.flatten, ∀ k v, x.2 = some (k, v) → x.1 = itemSize W (c.data k v)

/-- What counts takes no more space than the values that a fetch finds. -/
theorem currents_total {c : Coding K V} (hs : Sized W c ps) (ks : List K) (hk : ∀ k, valueIn ps.flatten k ≠ none → k ∈ ks) :
    ((currents ps).map occupied).sum ≤ c.total W (valueIn ps.flatten) ks := by
  have h1 : ((currents ps).map occupied).sum = (((currents ps).flatten).map (·.1)).sum := by
    generalize currents ps = l
    induction l with
    | nil => rfl
    | cons p l ih => rw [List.map_cons, List.sum_cons, ih, List.flatten_cons, List.map_append, List.sum_append]; rfl
  rw [h1]
  unfold Coding.total
  rcases hl : (currents ps).flatten with _ | ⟨x0, l0⟩
  · simp
  · obtain ⟨_, k0, _, _⟩ := currents_sub (ps := ps) (x := x0) (by rw [hl]; simp)
    rw [← hl]
    refine sum_inj (fun x : MSlot K V => (x.2.map (·.1)).getD k0) (·.1) (fun k => match valueIn ps.flatten k with
      | some v => itemSize W (c.data k v)
      | none => 0) _ ks ?_ ?_ ?_ ?_
    · exact (currents_pairwise (ps := ps)).imp fun {x y} h he => h (by rw [he])
    · intro x hx y hy he
      obtain ⟨hx', kx, vx, hkx⟩ := currents_sub hx
      obtain ⟨hy', ky, vy, hky⟩ := currents_sub hy
      rw [hkx, hky] at he
      simp only [Option.map_some, Option.getD_some] at he
      subst he
      have e1 := currents_value hx hkx
      have e2 := currents_value hy hky
      rw [e1] at e2
      injection e2 with e2
      subst e2
      refine Prod.ext ?_ (hkx.trans hky.symm)
      rw [hs x hx' _ _ hkx, hs y hy' _ _ hky]
    · intro x hx
      obtain ⟨hx', kx, vx, hkx⟩ := currents_sub hx
      rw [hkx]
      simp only [Option.map_some, Option.getD_some]
      exact hk kx (by rw [currents_value hx hkx]; simp)
    · intro x hx
      obtain ⟨hx', kx, vx, hkx⟩ := currents_sub hx
      rw [hkx]
      simp only [Option.map_some, Option.getD_some]
      rw [currents_value hx hkx, hs x hx' _ _ hkx]
      exact Nat.le_refl _

/-- Many full pages hold much. -/
theorem full_total (l : List (List (MSlot K V))) (h : ∀ p ∈ l, ¬ HasRoom W page size p) :
    l.length * (page + 1) ≤ (l.map occupied).sum + l.length * (size + 2 * W) := by
  induction l with
  | nil => simp
  | cons p l ih =>
    have h1 := ih fun q hq => h q (by simp [hq])
    have h2 := h p (by simp)
    unfold HasRoom at h2
    rw [List.map_cons, List.sum_cons, List.length_cons, Nat.add_mul, Nat.add_mul]
    omega

/-! ### The pages of the model -/

section
variable {kc : KeyCodec K} {vc : ValCodec V} {g : Geo} {σ : Shape} {P : Nat → PK}

/-- The items of the pages in use, oldest first. -/
def itsOf (n : Nat) (σ : Shape) (P : Nat → PK) : List (List It) :=
  (List.range σ.m).map fun j => (P (ringPage n σ.o j)).its

/-- An item as a slot. -/
def slotOf (kc : KeyCodec K) (vc : ValCodec V) (g : Geo) (it : It) : MSlot K V :=
  (footI g it, if it.present = true then (keyOf kc it).bind fun k => (valOf kc vc it).map fun v => (k, v) else none)

/-- The pages in use as slots, oldest first. -/
def mpages (kc : KeyCodec K) (vc : ValCodec V) (g : Geo) (σ : Shape) (P : Nat → PK) : List (List (MSlot K V)) :=
  (itsOf g.pageCount σ P).map fun l => l.map (slotOf kc vc g)

@[simp] theorem itsOf_length : (itsOf n σ P).length = σ.m := by simp [itsOf]

@[simp] theorem itsOf_get {j : Nat} (h : j < (itsOf n σ P).length) : (itsOf n σ P)[j] = (P (ringPage n σ.o j)).its := by
  simp [itsOf]

theorem itsOf_flatten : (itsOf n σ P).flatten = icontent n σ P := by
  unfold itsOf icontent iseg
  rw [List.range_eq_range', List.flatMap_def]

theorem itsOf_older : (itsOf n σ P).dropLast.flatten = older n σ P := by
  unfold itsOf older iseg
  rw [List.range_eq_range', List.flatMap_def, List.dropLast_eq_take, List.length_map, List.length_range', ← List.map_take]
  congr 2
  apply List.ext_getElem
  · simp
  · simp

theorem itsOf_upd {j : Nat} (wf : σ.WF n) (hj : j < σ.m) (pk : PK) :
    itsOf n σ (upd P (ringPage n σ.o j) pk) = (itsOf n σ P).set j pk.its := by
  have hm := wf.m_le
  apply List.ext_getElem
  · simp
  · intro i h1 h2
    rw [List.length_set] at h2
    rw [List.getElem_set, itsOf_get, itsOf_get]
    rw [itsOf_length] at h1
    by_cases he : j = i
    · subst he; simp
    · rw [if_neg he, upd_ne]
      intro hx
      have := ringPage_inj wf.o_lt (by omega) (by omega) hx
      omega

theorem itsOf_other {i : Nat} (h : ∀ j, j < σ.m → ringPage n σ.o j ≠ i) (pk : PK) : itsOf n σ (upd P i pk) = itsOf n σ P := by
  apply List.ext_getElem
  · simp
  · intro j h1 h2
    rw [itsOf_length] at h1
    rw [itsOf_get, itsOf_get, upd_ne (h j h1)]

theorem itsOf_last (wf : σ.WF n) (hp : σ.part = true) : (itsOf n σ P).getLast? = some (P (σ.front n)).its := by
  have h := wf.part_pos hp
  have hf : σ.front n = ringPage n σ.o (σ.m - 1) := by unfold Shape.front; rw [hp, if_pos rfl]
  rw [List.getLast?_eq_getElem?, List.getElem?_eq_getElem (by simp; omega), itsOf_get, hf]
  simp

theorem itsOf_front {P : Nat → PK} (wf : σ.WF n) (hp : σ.part = true) (pk : PK) :
    itsOf n σ (upd P (σ.front n) pk) = (itsOf n σ P).dropLast ++ [pk.its] := by
  have h1 := wf.part_pos hp
  have hf : σ.front n = ringPage n σ.o (σ.m - 1) := by unfold Shape.front; rw [hp, if_pos rfl]
  rw [hf, itsOf_upd wf (by omega)]
  have := set_last (itsOf n σ P) (by intro h; have := congrArg List.length h; simp at this; omega) pk.its
  rw [itsOf_length] at this
  exact this

theorem itsOf_open (wf : σ.WF n) (hp : σ.part = false) (pk : PK) :
    itsOf n σ.openFront (upd P (σ.front n) pk) = itsOf n σ P ++ [pk.its] := by
  have hm := wf.m_le
  have hmn : σ.m < n := by
    rcases Nat.lt_or_ge σ.m n with h | h
    · exact h
    · have := (wf.full (by omega)).1; rw [hp] at this; simp at this
  have hf : σ.front n = ringPage n σ.o σ.m := by unfold Shape.front; rw [hp]; simp
  have hr : List.range (σ.m + 1) = List.range σ.m ++ [σ.m] := List.range_succ
  have h1 : itsOf n σ.openFront (upd P (σ.front n) pk) = itsOf n σ (upd P (σ.front n) pk) ++ [pk.its] := by
    unfold itsOf Shape.openFront
    simp only [hr, List.map_append, List.map_cons, List.map_nil]
    rw [hf, upd_same]
  rw [h1, itsOf_other]
  intro j hj he
  rw [hf] at he
  have := ringPage_inj wf.o_lt (by omega) (by omega) he
  omega

theorem itsOf_close {pk : PK} (h : pk.its = (P (σ.front n)).its) : itsOf n σ.closeFront (upd P (σ.front n) pk) = itsOf n σ P := by
  apply List.ext_getElem
  · simp [Shape.closeFront]
  · intro j h1 h2
    rw [itsOf_get, itsOf_get]
    simp only [Shape.closeFront]
    by_cases he : ringPage n σ.o j = σ.front n
    · rw [he, upd_same, h]
    · rw [upd_ne he]

theorem itsOf_drop (wf : σ.WF n) (hm : 2 ≤ σ.m) (pk : PK) :
    itsOf n (σ.dropOldest n) (upd P σ.o pk) = (itsOf n σ P).tail := by
  have hml := wf.m_le
  have ho := wf.o_lt
  apply List.ext_getElem
  · simp [Shape.dropOldest]
  · intro j h1 h2
    rw [List.getElem_tail, itsOf_get, itsOf_get]
    rw [itsOf_length] at h1
    simp only [Shape.dropOldest] at h1 ⊢
    rw [ringPage_shift ho (by omega), upd_ne]
    intro he
    have := ringPage_inj ho (by omega) (by omega) (he.trans (ringPage_zero ho).symm)
    omega

theorem itsOf_cons (wf : σ.WF n) (hm : 0 < σ.m) : itsOf n σ P = (P σ.o).its :: (itsOf n σ P).tail := by
  obtain ⟨k, hk⟩ : ∃ k, σ.m = k + 1 := ⟨σ.m - 1, by omega⟩
  unfold itsOf
  rw [hk, List.range_succ_eq_map]
  simp [ringPage_zero wf.o_lt]

theorem mpages_length : (mpages kc vc g σ P).length = σ.m := by simp [mpages]

/-! ### Slots and items -/

theorem slot_key (L : Lawful kc vc) {it : It} (h : it.present = true → ∃ k v, Enc kc vc it.data k v) (k : K) :
    (slotOf kc vc g it).2.map (·.1) = some k ↔ hits kc k it = true := by
  unfold slotOf
  rw [hits_iff]
  cases hp : it.present with
  | false => simp
  | true =>
    obtain ⟨k', v', he⟩ := h hp
    rw [if_pos rfl, he.keyOf L, he.valOf L]
    simp

theorem hasKey_slots (L : Lawful kc vc) {its : List It} (h : ∀ it ∈ its, it.present = true → ∃ k v, Enc kc vc it.data k v) (k : K) :
    hasKey k (its.map (slotOf kc vc g)) ↔ look kc k its ≠ none := by
  unfold hasKey look
  simp only [List.mem_map, ne_eq, List.find?_eq_none, List.mem_reverse]
  constructor
  · rintro ⟨_, ⟨it, hi, rfl⟩, hx⟩ hn
    exact hn it hi ((slot_key L (h it hi) k).1 hx)
  · intro hn
    simp only [Classical.not_forall, Classical.not_not] at hn
    obtain ⟨it, hi, hx⟩ := hn
    exact ⟨_, ⟨it, hi, rfl⟩, (slot_key L (h it hi) k).2 hx⟩

/-- The copies are what still counts. -/
theorem copyA_slots (L : Lawful kc vc) {mid : List It} : ∀ {pre todo : List It} {c : List It × Nat},
    (∀ it ∈ todo ++ mid, it.present = true → ∃ k v, Enc kc vc it.data k v) →
    (todo ++ mid).Pairwise (fun x y => x.addr ≠ y.addr) →
    (∀ k, look kc k c.1 ≠ none → look kc k (todo ++ mid) = none) →
    (copyA kc g (pre ++ todo ++ mid) todo c).1.map (slotOf kc vc g) =
      c.1.map (slotOf kc vc g) ++ current (mid.map (slotOf kc vc g)) (todo.map (slotOf kc vc g)) := by
  intro pre todo
  induction todo generalizing pre with
  | nil => intro c _ _ _; simp [copyA, current]
  | cons x todo ih =>
    intro c henc hun hc
    have hpre : pre ++ x :: todo ++ mid = (pre ++ [x]) ++ todo ++ mid := by simp
    have henc' : ∀ it ∈ todo ++ mid, it.present = true → ∃ k v, Enc kc vc it.data k v := fun it hi => henc it (by rw [List.cons_append]; exact List.mem_cons_of_mem _ hi)
    have hc' : ∀ k, look kc k c.1 ≠ none → look kc k (todo ++ mid) = none := by
      intro k hk
      have h1 := hc k hk
      rw [List.cons_append, look_cons] at h1
      cases h2 : look kc k (todo ++ mid) with
      | none => rfl
      | some y => rw [h2] at h1; simp at h1
    rw [List.cons_append, List.pairwise_cons] at hun
    cases hp : x.present with
    | false =>
      have h1 : copyA kc g (pre ++ x :: todo ++ mid) (x :: todo) c = copyA kc g (pre ++ x :: todo ++ mid) todo c :=
        copyA_absent (a := [x]) (by simp [hp])
      have h2 : slotOf kc vc g x = (footI g x, none) := by unfold slotOf; rw [hp]; rfl
      rw [h1, hpre, ih henc' hun.2 hc', List.map_cons, h2, current]
    | true =>
      obtain ⟨k, v, he⟩ := henc x (by simp) hp
      have hk := he.keyOf L
      have h2 : slotOf kc vc g x = (footI g x, some (k, v)) := by
        unfold slotOf; rw [if_pos hp, hk, he.valOf L]; rfl
      have hhit : hits kc k x = true := hits_iff.2 ⟨hp, hk⟩
      have hcn : look kc k c.1 = none := by
        apply Classical.byContradiction
        intro hx
        have := hc k hx
        rw [List.cons_append, look_cons, hhit] at this
        cases hl : look kc k (todo ++ mid) <;> rw [hl] at this <;> simp at this
      rw [copyA_step hk, List.map_cons, h2, current]
      have hlook : look kc k (pre ++ x :: todo ++ mid ++ c.1) = (look kc k (todo ++ mid)).or (some x) := by
        rw [look_append_none hcn, hpre, List.append_assoc, List.append_assoc, look_append]
        rw [List.singleton_append, look_cons, hhit, if_pos rfl]
        cases look kc k (todo ++ mid) <;> simp
      have hcond : (x.present = true ∧ (look kc k (pre ++ x :: todo ++ mid ++ c.1)).map It.addr = some x.addr) ↔
          look kc k (todo ++ mid) = none := by
        rw [hlook]
        cases hl : look kc k (todo ++ mid) with
        | none => simp [hp]
        | some y =>
          have hy := (look_some hl).1
          have := hun.1 y hy
          simp only [Option.some_or, Option.map_some, Option.some.injEq, reduceCtorEq, iff_false, not_and]
          exact fun _ h => this h.symm
      have hcond' : (hasKey k (todo.map (slotOf kc vc g)) ∨ hasKey k (mid.map (slotOf kc vc g))) ↔ look kc k (todo ++ mid) ≠ none := by
        rw [← hasKey_append, ← List.map_append, hasKey_slots L henc']
      by_cases hl : look kc k (todo ++ mid) = none
      · rw [if_pos (hcond.2 hl), if_neg (by rw [hcond']; simpa using hl), hpre, ih henc' hun.2]
        · rw [List.map_append, List.append_assoc]
          have : slotOf kc vc g ⟨c.2, x.hdr, x.data⟩ = (footI g x, some (k, v)) := h2
          rw [List.map_cons, List.map_nil, this, List.singleton_append]
        · intro k' hk'
          rw [look_append] at hk'
          by_cases hcc : look kc k' c.1 = none
          · have : look kc k' [⟨c.2, x.hdr, x.data⟩] ≠ none := by rw [hcc] at hk'; simpa using hk'
            rw [look_single] at this
            have h3 : hits kc k' (⟨c.2, x.hdr, x.data⟩ : It) = hits kc k' x := rfl
            rw [h3] at this
            have h4 : hits kc k' x = true := by
              cases hh : hits kc k' x with
              | true => rfl
              | false => rw [hh] at this; simp at this
            have := (hits_iff.1 h4).2
            rw [hk] at this
            injection this with this
            subst this
            exact hl
          · exact hc' k' hcc
      · rw [if_neg (fun h => hl (hcond.1 h)), if_pos (hcond'.2 hl), hpre, ih henc' hun.2 hc']

theorem slot_new (L : Lawful kc vc) {d : List Byte} {k : K} {v : V} (he : Enc kc vc d k v) (hl : d.length < 65536) (a : Nat) :
    slotOf kc vc g ⟨a, Header.ofData d, d⟩ = (itemSize g.word d, some (k, v)) := by
  have h1 : keyOf kc ⟨a, Header.ofData d, d⟩ = some k := he.keyOf L (it := ⟨a, Header.ofData d, d⟩)
  have h2 : valOf kc vc ⟨a, Header.ofData d, d⟩ = some v := he.valOf L (it := ⟨a, Header.ofData d, d⟩)
  unfold slotOf
  rw [if_pos (ofData_present a d), h1, h2]
  have : (Header.ofData d).len.toNat = d.length := by simp [Header.ofData]; omega
  refine Prod.ext ?_ rfl
  show g.hl + g.roundUp (Header.ofData d).len.toNat = _
  rw [this]; rfl

section
variable {md : Mode} {lim : Nat} (w : g.WF)
include w

/-- No two items have the same address. -/
theorem addr_pairwise {fl : Flash} (h : FS md g fl σ P) :
    (icontent g.pageCount σ P).Pairwise (fun x y => x.addr ≠ y.addr) := by
  have wf := h.wf
  have hml := wf.m_le
  rw [← itsOf_flatten, List.pairwise_flatten]
  have hmem : ∀ j, j < σ.m → ∀ x ∈ (P (ringPage g.pageCount σ.o j)).its, x ∈ icontent g.pageCount σ P :=
    fun j hj x hx => mem_icontent.2 ⟨j, hj, hx⟩
  constructor
  · intro l hl
    obtain ⟨j, hj, rfl⟩ := List.mem_map.1 hl
    rw [List.mem_range] at hj
    obtain ⟨c, f, hpk, hlt, lay⟩ := page_layout w h hj
    have hnd := lay.nodup w
    refine List.Pairwise.imp_of_mem ?_ hnd
    intro x y hx hy hne he
    exact hne (item_unique w h (hmem j hj x hx) (hmem j hj y hy) he)
  · unfold itsOf
    rw [List.pairwise_map]
    refine List.Pairwise.imp_of_mem ?_ List.pairwise_lt_range
    intro i j hi hj hij x hx y hy he
    rw [List.mem_range] at hi hj
    have heq := item_unique w h (hmem i hi x hx) (hmem j hj y hy) he
    subst heq
    obtain ⟨_, _, _, hlt, lay⟩ := page_layout w h hi
    obtain ⟨_, _, _, hlt', lay'⟩ := page_layout w h hj
    have ho := page_order w (ringPage g.pageCount σ.o i)
    have ho' := page_order w (ringPage g.pageCount σ.o j)
    have h1 := lay.mem_item w hx
    have h2 := lay'.mem_item w hy
    have h3 := lay.le_end w (by omega) (w.dataStart_word _)
    have h4 := lay'.le_end w (by omega) (w.dataStart_word _)
    have hn := Layout.next_gt w x.hdr x.addr
    have hne : ringPage g.pageCount σ.o i ≠ ringPage g.pageCount σ.o j := by
      intro hx
      have := ringPage_inj wf.o_lt (by omega) (by omega) hx
      omega
    have := w.page_disjoint (x := x.addr) hne (by omega) (by omega)
    omega

/-- Where a page in use is free. -/
theorem front_free {s : St K} {F : K → Prop} {big : Bool} (h : MG kc vc md g big s σ P F) (hb : big = true) (hp : σ.part = true) :
    ∃ its f, P (σ.front g.pageCount) = .used false its f ∧
      f = g.dataStart (σ.front g.pageCount) + occupied (its.map (slotOf kc vc g)) := by
  obtain ⟨its, f, hpk⟩ := h.mp.frontUsed h.good.fs hp
  have hpg := h.good.fs.pages _ (Shape.front_lt h.good.fs.wf)
  rw [hpk] at hpg
  have u : Used md g s.fl _ _ its f := hpg
  have hl := u.layout
  have hcf := (h.log hb).1
  rw [hcf] at hl
  refine ⟨its, f, hpk, ?_⟩
  rw [← hl.sum_eq w]
  unfold occupied
  rw [List.map_map]
  congr 2
  apply List.map_congr_left
  intro it hi
  have hmi := (hl.mem_item w hi).2.2.2
  show foot g it.data = footI g it
  unfold foot footI
  rw [hmi, dataAt_length]

theorem turnA_pages (L : Lawful kc vc) (hn : 2 ≤ g.pageCount) {s : St K} {F : K → Prop} {big : Bool} (h : MG kc vc md g big s σ P F)
    (hp : σ.part = true) (hm : σ.m < g.pageCount) (hc : σ.corr = false) :
    mpages kc vc g (turnA kc g σ P).1 (turnA kc g σ P).2 = turnPages g.pageCount (mpages kc vc g σ P) := by
  have wf := h.good.fs.wf
  have hm1 := wf.part_pos hp
  have wfc := CalcOk.closeFront_wf wf hp hm
  have hst : σ.closeFront.st g.pageCount (σ.closeFront.front g.pageCount) = .ok .open := by
    have : σ.closeFront.front g.pageCount = ringPage g.pageCount σ.o σ.m := by
      unfold Shape.front Shape.closeFront; simp
    rw [this, Shape.st_open]
    simp only [Shape.closeFront, ringPos_page wf.o_lt hm, hc]
    simp
  have wfo := CalcOk.openFront_wf wfc rfl hst
  obtain ⟨its, f, hpk⟩ := h.mp.frontUsed h.good.fs hp
  have hcl : itsOf g.pageCount (closeA g σ P).1 (closeA g σ P).2 = itsOf g.pageCount σ P := by
    unfold closeA
    exact itsOf_close (by rw [hpk]; rfl)
  have hop : itsOf g.pageCount (openA g (closeA g σ P).1 (closeA g σ P).2).1 (openA g (closeA g σ P).1 (closeA g σ P).2).2 =
      itsOf g.pageCount σ P ++ [[]] := by
    rw [← hcl]
    exact itsOf_open wfc rfl _
  unfold turnA turnPages
  rw [mpages_length]
  split
  · unfold mpages
    rw [hop, List.map_append]; rfl
  · have hmn : σ.m + 1 = g.pageCount := by omega
    generalize hσ1 : (openA g (closeA g σ P).1 (closeA g σ P).2).1 = σ1 at hop
    generalize hP1 : (openA g (closeA g σ P).1 (closeA g σ P).2).2 = P1 at hop
    have hσ1' : σ1 = σ.closeFront.openFront := hσ1.symm
    have wf1 : σ1.WF g.pageCount := by rw [hσ1']; exact wfo
    have hp1 : σ1.part = true := by rw [hσ1']; rfl
    have hm1' : σ1.m = g.pageCount := by rw [hσ1']; exact hmn
    have hcons := itsOf_cons (P := P) wf (by omega : 0 < σ.m)
    have ho : (P1 σ1.o).its = (P σ.o).its := by
      have h1 := itsOf_cons (P := P1) wf1 (by omega : 0 < σ1.m)
      rw [hop, hcons] at h1
      simp only [List.cons_append, List.cons.injEq] at h1
      exact h1.1.symm
    have hold : older g.pageCount σ1 P1 = [] ++ (P σ.o).its ++ (itsOf g.pageCount σ P).tail.flatten := by
      rw [← itsOf_older, hop, List.dropLast_concat]
      conv => lhs; rw [hcons]
      simp
    have hic : icontent g.pageCount σ P = (P σ.o).its ++ (itsOf g.pageCount σ P).tail.flatten := by
      rw [← itsOf_flatten]
      conv => lhs; rw [hcons]
      simp
    unfold migrateA mpages
    simp only
    rw [itsOf_drop wf1 (by omega), itsOf_front wf1 hp1, hop, List.dropLast_concat, hold, ho]
    have hcp := copyA_slots (g := g) L (pre := []) (c := ([], g.dataStart (σ1.front g.pageCount))) (mid := (itsOf g.pageCount σ P).tail.flatten)
      (todo := (P σ.o).its) (by rw [← hic]; exact h.mp.enc) (by rw [← hic]; exact addr_pairwise w h.good.fs) (fun k hk => absurd rfl hk)
    rw [hcons]
    simp only [List.cons_append, List.tail_cons, List.map_append, List.map_cons, List.map_nil, List.headD_cons]
    show _ ++ [List.map (slotOf kc vc g) (copyA kc g _ _ _).1] = _
    rw [hcp]
    simp [List.map_flatten]

omit w in
theorem turnA_count (hm : 0 < σ.m) : (turnA kc g σ P).1.d + (turnA kc g σ P).1.m = σ.d + σ.m + 1 := by
  unfold turnA
  split <;> simp only [migrateA, openA, closeA, Shape.openFront, Shape.closeFront, Shape.dropOldest] <;> omega

/-- A round that does not store leaves the map in order. -/
theorem round_next (L : Lawful kc vc) (hn : 2 ≤ g.pageCount) (hmd : md.OK g) {s : St K} {F : K → Prop}
    (h : MG kc vc md g true s σ P F) (hse : Settled true g.pageCount σ) {k : K} {v : V} {d : List Byte}
    (hd : encode kc vc k v s.buf.length = .ok d) (htb : g.tooBig d.length = false) (hst : Storable md g d)
    {size : K → V → Nat} (hsz : ∀ d k v, Enc kc vc d k v → d.length = size k v) (hr : (roundA kc g d σ P).1 = false) :
    ∃ s', MG kc vc md g true s' (roundA kc g d σ P).2.1 (roundA kc g d σ P).2.2 (fun _ => False) ∧
      Settled true g.pageCount (roundA kc g d σ P).2.1 ∧ s'.buf.length = s.buf.length := by
  rcases (storeRound_sat w L hn hmd h hse k v (fun d' hd' _ => by rw [hd] at hd'; injection hd' with hd'; subst hd'; exact hst) hsz).cases with
    ⟨r, s1, he1, hl1, σ1, P1, h1, hse1, hx⟩ | ⟨e, s1, he1, hl1, hE⟩
  · rcases hx with ⟨rfl, _, _, d', hd', _, _, hrA⟩ | ⟨rfl, _, _, _, hx⟩
    · rw [hd] at hd'; injection hd' with hd'; subst hd'
      rw [hrA] at hr; simp at hr
    · rcases hx with ⟨hp, he⟩ | ⟨hp, d', hd', _, hrA⟩
      · have : roundA kc g d σ P = (false, σ1, P1) := by
          unfold roundA; rw [if_neg (by rw [hp]; simp), ← he]
        rw [this]
        exact ⟨s1, h1, hse1, hl1⟩
      · rw [hd] at hd'; injection hd' with hd'; subst hd'
        rw [hrA]
        exact ⟨s1, h1, hse1, hl1⟩
  · exfalso
    rcases hE with ⟨_, hb, _⟩ | ⟨_, σ', P', _, _, _, hE⟩ | ⟨_, σ', P', hD, _⟩
    · simp at hb
    · rcases hE with hE | ⟨_, _, _, hE⟩
      · have := h.not_small hE; simp at this
      · rcases hE with ⟨e', _, hE⟩ | ⟨_, d', hd', htb'⟩
        · rw [hd] at hE; simp at hE
        · rw [hd] at hd'; injection hd' with hd'; subst hd'
          rw [htb] at htb'; simp at htb'
    · have h1 := hD.crash
      rw [(h.log rfl).1] at h1; simp at h1

/-- All rounds. -/
theorem loopA_paged (L : Lawful kc vc) (hn : 2 ≤ g.pageCount) (hmd : md.OK g) {k : K} {v : V} {d : List Byte} {b : Nat}
    (hd : encode kc vc k v b = .ok d) (htb : g.tooBig d.length = false) (hst : Storable md g d)
    {size : K → V → Nat} (hsz : ∀ d k v, Enc kc vc d k v → d.length = size k v) :
    ∀ (left : Nat) {s : St K} {F : K → Prop} {σ : Shape} {P : Nat → PK}, MG kc vc md g true s σ P F → Settled true g.pageCount σ →
      s.buf.length = b →
    (loopA kc g (.ok d) left σ P).1 = (if (storePaged g.word g.eraseSize g.pageCount (itemSize g.word d) k v left (mpages kc vc g σ P)).1 = true
        then .ok () else .error .fullStorage) ∧
      mpages kc vc g (loopA kc g (.ok d) left σ P).2.1 (loopA kc g (.ok d) left σ P).2.2 =
        (storePaged g.word g.eraseSize g.pageCount (itemSize g.word d) k v left (mpages kc vc g σ P)).2 ∧
      (loopA kc g (.ok d) left σ P).2.1.d + (loopA kc g (.ok d) left σ P).2.1.m =
        σ.d + σ.m + storeTurns g.word g.eraseSize g.pageCount (itemSize g.word d) left (mpages kc vc g σ P) := by
  have hlen : d.length < 65536 := by
    have := (notTooBig w htb 0).1
    omega
  intro left
  induction left with
  | zero => intro s F σ P h hse hb; exact ⟨rfl, rfl, rfl⟩
  | succ left ih =>
    intro s F σ P h hse hb
    have wf := h.good.fs.wf
    have hcorr := h.not_corr rfl
    have hroom := (hse rfl).1
    have hnext := round_next w L hn hmd h hse (by rw [hb]; exact hd) htb hst hsz
    rw [loopA.eq_def]
    simp only
    cases hp : σ.part with
    | false =>
      have hm0 := (hse rfl).2 hp
      have hr : roundA kc g d σ P = (false, openA g σ P) := by unfold roundA; rw [if_neg (by rw [hp]; simp)]
      rw [hr] at hnext
      obtain ⟨s1, h1, hse1, hb1⟩ := hnext rfl
      rw [if_neg (by simp)]
      have hnil : mpages kc vc g σ P = [] := by rw [← List.length_eq_zero_iff, mpages_length]; exact hm0
      have hop : mpages kc vc g (openA g σ P).1 (openA g σ P).2 = turnPages g.pageCount (mpages kc vc g σ P) := by
        have := itsOf_open (P := P) wf hp (.used false [] (g.dataStart (σ.front g.pageCount)))
        unfold turnPages
        rw [hnil, if_pos (by simp; omega)]
        unfold mpages openA
        simp only
        rw [this]
        have : itsOf g.pageCount σ P = [] := by rw [← List.length_eq_zero_iff, itsOf_length]; exact hm0
        rw [this]; rfl
      have hfull : LastFull g.word g.eraseSize (itemSize g.word d) (mpages kc vc g σ P) := by rw [hnil]; intro p hp; simp at hp
      rw [storePaged_full hfull, storeTurns_full hfull, ← hop]
      obtain ⟨i1, i2, i3⟩ := ih h1 hse1 (hb1.trans hb)
      refine ⟨i1, i2, ?_⟩
      rw [i3]
      simp only [openA, Shape.openFront]; omega
    | true =>
      rw [if_pos rfl, if_neg (by rw [htb]; simp)]
      obtain ⟨its, f, hpk, hf⟩ := front_free w h rfl hp
      have hlast : (mpages kc vc g σ P).getLast? = some (its.map (slotOf kc vc g)) := by
        unfold mpages
        rw [List.getLast?_map, itsOf_last wf hp, hpk]; rfl
      have hpe := page_eq w (σ.front g.pageCount)
      have hfit : Fits g (σ.front g.pageCount) f d.length ↔ HasRoom g.word g.eraseSize (itemSize g.word d) (its.map (slotOf kc vc g)) := by
        unfold Fits HasRoom
        rw [itemSize_eq]
        unfold foot
        omega
      by_cases hfi : Fits g (σ.front g.pageCount) f d.length
      · have hr : roundA kc g d σ P = (true, σ, upd P (σ.front g.pageCount)
            (.used false (its ++ [⟨f, Header.ofData d, d⟩]) ((Header.ofData d).next g f))) := by
          unfold roundA putA; rw [if_pos hp, hpk]; simp only; rw [if_pos hfi]
        rw [hr, if_pos rfl, storePaged_room hlast (hfit.1 hfi)]
        refine ⟨rfl, ?_, by rw [storeTurns_room hlast (hfit.1 hfi)]; rfl⟩
        unfold mpages
        rw [itsOf_front wf hp]
        have hnew := slot_new (g := g) L (encode_enc hd) hlen f
        simp only [List.map_append, List.map_dropLast, List.map_cons, List.map_nil, PK.its, hnew]
      · have hr : roundA kc g d σ P = (false, turnA kc g σ P) := by
          unfold roundA putA; rw [if_pos hp, hpk]; simp only; rw [if_neg hfi]
        rw [hr] at hnext
        obtain ⟨s1, h1, hse1, hb1⟩ := hnext rfl
        have hfull : LastFull g.word g.eraseSize (itemSize g.word d) (mpages kc vc g σ P) := by
          intro p hp'; rw [hlast] at hp'; injection hp' with hp'; subst hp'; exact fun h => hfi (hfit.2 h)
        rw [hr, if_neg (by simp), storePaged_full hfull, storeTurns_full hfull]
        rw [← turnA_pages w L hn h hp hroom hcorr]
        obtain ⟨i1, i2, i3⟩ := ih h1 hse1 (hb1.trans hb)
        refine ⟨i1, i2, ?_⟩
        have := turnA_count (kc := kc) (g := g) (σ := σ) (P := P) (wf.part_pos hp)
        rw [i3]; dsimp only; omega

omit w in
theorem wipeSeg_get {k? : Option K} {o : Nat} (ho : o < n) : ∀ (len j : Nat) (P : Nat → PK), j + len ≤ n → ∀ i, i < n →
    wipeSeg kc k? n o len j P (ringPage n o i) =
      if j ≤ i ∧ i < j + len then wipePage kc k? (P (ringPage n o i)) else P (ringPage n o i) := by
  intro len
  induction len with
  | zero => intro j P _ i _; rw [wipeSeg, if_neg (by omega)]
  | succ len ih =>
    intro j P hj i hi
    rw [wipeSeg, ih (j + 1) _ (by omega) i hi]
    by_cases hij : i = j
    · subst hij
      rw [if_neg (by omega), if_pos (by omega), upd_same]
    · have hne : ringPage n o i ≠ ringPage n o j := fun hx => hij (ringPage_inj ho hi (by omega) hx)
      rw [upd_ne hne]
      by_cases hc : j + 1 ≤ i ∧ i < j + 1 + len
      · rw [if_pos hc, if_pos (by omega)]
      · rw [if_neg hc, if_neg (by omega)]

omit w in
theorem slot_wipe (L : Lawful kc vc) {it : It} (h : it.present = true → ∃ k v, Enc kc vc it.data k v) (k? : Option K) :
    slotOf kc vc g (wipe kc k? it) = clear k? (slotOf kc vc g it) := by
  have habs : slotOf kc vc g ⟨it.addr, { it.hdr with crc := 0#32 }, it.data⟩ = (footI g it, none) := by
    unfold slotOf; rw [cleared_absent]; rfl
  cases hp : it.present with
  | false =>
    have h1 : slotOf kc vc g it = (footI g it, none) := by unfold slotOf; rw [hp]; rfl
    have h2 : wipe kc k? it = it := by
      unfold wipe
      rw [if_neg]
      cases k? with
      | none => simp [hp]
      | some k => simp [hits, hp]
    rw [h2, h1]
    unfold clear
    cases k? <;> rfl
  | true =>
    obtain ⟨k, v, he⟩ := h hp
    have hk := he.keyOf L
    have h1 : slotOf kc vc g it = (footI g it, some (k, v)) := by
      unfold slotOf; rw [if_pos hp, hk, he.valOf L]; rfl
    rw [h1]
    cases k? with
    | none =>
      have : wipe kc none it = ⟨it.addr, { it.hdr with crc := 0#32 }, it.data⟩ := by unfold wipe; rw [if_pos (by exact hp)]
      rw [this, habs]; rfl
    | some k' =>
      unfold clear
      simp only
      by_cases hkk : k = k'
      · subst hkk
        have : wipe kc (some k) it = ⟨it.addr, { it.hdr with crc := 0#32 }, it.data⟩ := by
          unfold wipe; rw [if_pos (hits_iff.2 ⟨hp, hk⟩)]
        rw [this, habs, if_pos rfl]
      · have : wipe kc (some k') it = it := by
          unfold wipe
          rw [if_neg]
          intro hx
          have := (hits_iff.1 hx).2
          rw [hk] at this
          injection this with this
          exact hkk this
        rw [this, if_neg hkk, h1]

theorem mpages_wipe (L : Lawful kc vc) {s : St K} {F : K → Prop} {big : Bool} (h : MG kc vc md g big s σ P F) (k? : Option K) :
    mpages kc vc g σ (wipeSeg kc k? g.pageCount σ.o σ.m 0 P) = (mpages kc vc g σ P).map fun p => p.map (clear k?) := by
  have wf := h.good.fs.wf
  have hml := wf.m_le
  unfold mpages itsOf
  simp only [List.map_map]
  apply List.map_congr_left
  intro j hj
  rw [List.mem_range] at hj
  simp only [Function.comp_apply]
  rw [wipeSeg_get wf.o_lt σ.m 0 P (by omega) j (by omega), if_pos (by omega)]
  obtain ⟨c, f, hpk, _, _⟩ := page_layout w h.good.fs hj
  rw [hpk]
  simp only [wipePage, PK.its, List.map_map]
  apply List.map_congr_left
  intro it hi
  exact slot_wipe L (h.mp.enc it (mem_icontent.2 ⟨j, hj, hi⟩)) k?

omit w in
theorem shown_slots (its : List It) : shown kc vc its = (its.map (slotOf kc vc g)).filterMap (·.2) := by
  unfold shown
  rw [List.filterMap_map]
  congr 1
  funext it
  simp only [Function.comp_apply, slotOf]
  cases it.present with
  | false => rfl
  | true =>
    simp only [if_true]
    cases keyOf kc it with
    | none => rfl
    | some k => cases valOf kc vc it <;> rfl

omit w in
theorem shown_mpages : shown kc vc (icontent g.pageCount σ P) = (mpages kc vc g σ P).flatten.filterMap (·.2) := by
  rw [shown_slots (g := g), ← itsOf_flatten, List.map_flatten]; rfl

omit w in
theorem asked_listing (all : List (K × V)) : ∀ (n : Nat) (todo : List (K × V)), listing all n todo = asked all n todo := by
  intro n
  induction n with
  | zero => intro todo; rfl
  | succ n ih =>
    intro todo
    cases todo with
    | nil => rw [listing, asked, ih]
    | cons x todo => rw [listing, asked, ih]

omit w in
theorem lookV_pages (L : Lawful kc vc) {s : St K} {F : K → Prop} {big : Bool} (h : MG kc vc md g big s σ P F) (k : K) :
    lookV kc vc k (icontent g.pageCount σ P) = valueIn (mpages kc vc g σ P).flatten k := by
  unfold valueIn
  rw [← shown_mpages, lastOf_shown L k _ h.mp.enc]

variable {c : Coding K V}

omit w in
theorem MI.have {s : St K} (L : Lawful kc vc) (h : MI kc vc g lim s σ P) :
    MHave kc vc ⟨true, false, some lim, fun _ => True, false⟩ g true s (valueIn (mpages kc vc g σ P).flatten, fun _ => False) := by
  obtain ⟨b, h, hse⟩ := h
  exact ⟨b, σ, P, h, hse, lookV_pages L h⟩

theorem mcall_paged (hc : Codes kc vc c) (hn : 2 ≤ g.pageCount) {s : St K} (h : MI kc vc g lim s σ P) (call : MCall K V (Cache K))
    (hd : MUsable g lim c call) :
    mapPagedStep g.word g.eraseSize g.pageCount c (mpages kc vc g σ P) call (mcallA kc vc g σ P call).1
      (mpages kc vc g (mcallA kc vc g σ P call).2.1 (mcallA kc vc g σ P call).2.2) := by
  have L := hc.lawful
  have hmd : (⟨true, false, some lim, fun _ => True, false⟩ : Mode).OK g := ⟨by simp, by simp⟩
  obtain ⟨b0, h, hse⟩ := h
  cases call with
  | store k v b =>
    have hb : lim ≤ b.length := hd.large
    have h1 := h.setBuf (b := b) (fun _ => wide_of rfl hb)
    have hwf := h1.good.fs.wf
    unfold mapPagedStep mcallA
    simp only
    constructor
    · intro hw
      obtain ⟨d, he⟩ : ∃ d, encode kc vc k v b.length = .ok d := by
        cases he : encode kc vc k v b.length with
        | ok d => exact ⟨d, rfl⟩
        | error e =>
          rcases hc.encode_err he with h2 | h2
          · exact absurd h2 hw.1
          · have := hw.2.1; omega
      obtain ⟨rfl, _, _⟩ := hc.encode_ok he
      have htb := (fitsPage_iff w).1 hw.2.2
      have hst : Storable ⟨true, false, some lim, fun _ => True, false⟩ g (c.data k v) :=
        ⟨⟨by simp, trivial⟩, fun n hn' => by rw [← Option.some.inj hn']; exact hd.within hw.2.2⟩
      have := loopA_paged w L hn hmd he htb hst (size := fun k v => (c.data k v).length)
        (fun d k v he => by rw [hc.enc he]) g.pageCount h1 hse rfl
      rw [he, this.1, this.2.1]
      refine ⟨?_, rfl⟩
      split <;> rfl
    · intro hw
      obtain ⟨m, hm⟩ : ∃ m, g.pageCount = m + 2 := ⟨g.pageCount - 2, by omega⟩
      -- with a page to write to nothing happens
      have key : ∀ {σ : Shape} {P : Nat → PK} (left : Nat), σ.part = true →
          (loopA kc g (encode kc vc k v b.length) (left + 1) σ P).2 = (σ, P) := by
        intro σ P left hp
        rw [loopA.eq_def]
        simp only
        rw [if_pos hp]
        cases he : encode kc vc k v b.length with
        | error e => rfl
        | ok d =>
          obtain ⟨rfl, hk, hl⟩ := hc.encode_ok he
          have htb : g.tooBig (c.data k v).length = true := by
            cases htb : g.tooBig (c.data k v).length with
            | true => rfl
            | false => exact absurd ⟨hk, hl, (fitsPage_iff w).2 htb⟩ hw
          simp only [htb, if_true]
      cases hp : σ.part with
      | true =>
        have hm1 := hwf.part_pos hp
        rw [hm, key (m + 1) hp]
        have : mpages kc vc g σ P ≠ [] := by
          intro hx
          have := congrArg List.length hx
          rw [mpages_length] at this
          simp at this; omega
        rw [if_neg (by simpa using this)]
      | false =>
        have hm0 := (hse rfl).2 hp
        have hnil : mpages kc vc g σ P = [] := by rw [← List.length_eq_zero_iff, mpages_length]; exact hm0
        rw [hnil]
        simp only [List.isEmpty_nil, if_true]
        have : loopA kc g (encode kc vc k v b.length) g.pageCount σ P =
            loopA kc g (encode kc vc k v b.length) (m + 1) (openA g σ P).1 (openA g σ P).2 := by
          rw [hm, loopA.eq_def]; simp only; rw [if_neg (by rw [hp]; simp)]
        rw [this, key m rfl]
        have := itsOf_open (P := P) hwf hp (.used false [] (g.dataStart (σ.front g.pageCount)))
        unfold mpages openA
        simp only
        rw [this]
        have : itsOf g.pageCount σ P = [] := by rw [← List.length_eq_zero_iff, itsOf_length]; exact hm0
        rw [this]; rfl
  | fetch k b =>
    refine ⟨?_, rfl⟩
    simp only [mcallA]
    rw [lookV_pages L h]
  | remove k b => exact mpages_wipe w L h _
  | removeAll b => exact mpages_wipe w L h _
  | fetchAll b steps =>
    refine ⟨?_, rfl⟩
    simp only [mcallA]
    rw [shown_mpages (g := g), asked_listing]
  | restart r => rfl

/-- Calls in a row. -/
theorem mrun_paged (hc : Codes kc vc c) (hn : 2 ≤ g.pageCount) (cs : List (MCall K V (Cache K))) :
    ∀ {s : St K} {σ : Shape} {P : Nat → PK}, MI kc vc g lim s σ P → (∀ call ∈ cs, MUsable g lim c call) →
    ∃ σ' P', MI kc vc g lim (mrun g kc vc cs s).2 σ' P' ∧
      Runs (fun ps call r ps' => mapStep g.word g.eraseSize lim c (valueIn ps.flatten) call r (valueIn ps'.flatten) ∧
        mapPagedStep g.word g.eraseSize g.pageCount c ps call r ps')
      (mpages kc vc g σ P) cs (mrun g kc vc cs s).1 (mpages kc vc g σ' P') := by
  induction cs with
  | nil => intro s σ P h _; exact ⟨σ, P, h, rfl, rfl⟩
  | cons call cs ih =>
    intro s σ P h hd
    have hd1 := hd call (by simp)
    obtain ⟨h1, h2⟩ := mcall_det w hc hn h call hd1
    obtain ⟨σ', P', h3, h4⟩ := ih h2 (fun x hx => hd x (by simp [hx]))
    refine ⟨σ', P', h3, _, _, _, rfl, ⟨?_, ?_⟩, h4⟩
    · obtain ⟨m', hm1, hm2⟩ := mcall_plain w hc hn rfl rfl (h.have hc.lawful) call hd1.doc hd1.within hd1.large (by simp)
      have := (hm2.fetches w hc hn rfl rfl).unique ((h2.have hc.lawful).fetches w hc hn rfl rfl)
      rw [← this]; exact hm1
    · rw [h1]
      exact mcall_paged w hc hn h call hd1

theorem mpages_sized (hc : Codes kc vc c) {s : St K} {F : K → Prop} {big : Bool} (h : MG kc vc md g big s σ P F) :
    Sized g.word c (mpages kc vc g σ P) := by
  intro x hx k v hkv
  have : (mpages kc vc g σ P).flatten = (icontent g.pageCount σ P).map (slotOf kc vc g) := by
    rw [← itsOf_flatten, List.map_flatten]; rfl
  rw [this] at hx
  obtain ⟨it, hi, rfl⟩ := List.mem_map.1 hx
  obtain ⟨j, _, f, hj, hi', _, _, lay, _⟩ := item_place w h.good.fs hi
  have hmi := (lay.mem_item w hi').2.2.2
  unfold slotOf at hkv ⊢
  simp only at hkv ⊢
  cases hp : it.present with
  | false => rw [hp] at hkv; simp at hkv
  | true =>
    obtain ⟨k', v', he⟩ := h.mp.enc it hi hp
    rw [if_pos hp, he.keyOf hc.lawful, he.valOf hc.lawful] at hkv
    simp only [Option.bind_some, Option.map_some, Option.some.injEq, Prod.mk.injEq] at hkv
    obtain ⟨rfl, rfl⟩ := hkv
    rw [← hc.enc he, itemSize_eq]
    unfold footI foot
    rw [show it.hdr.len.toNat = it.data.length by rw [hmi, dataAt_length]]

end

end

end SeqStorage
