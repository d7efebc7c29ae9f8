/-
Lists that say the same with repetitions. Independent of the model.
-/

namespace SeqStorage.Spec

/-- The second list is the first one in which every element may have been repeated. -/
inductive Repeats {α : Type} : List α → List α → Prop
  | nil : Repeats [] []
  | next (x : α) {l l' : List α} : Repeats l l' → Repeats (x :: l) (x :: l')
  | again (x : α) {l l' : List α} : Repeats (x :: l) (x :: l') → Repeats (x :: l) (x :: x :: l')

namespace Repeats
variable {α : Type}

theorem refl : ∀ l : List α, Repeats l l
  | [] => .nil
  | x :: l => .next x (refl l)

theorem snoc {l l' : List α} (h : Repeats l l') (x : α) : Repeats (l ++ [x]) (l' ++ [x]) := by
  induction h with
  | nil => exact .next x .nil
  | next y _ ih => exact .next y ih
  | again y _ ih => exact .again y ih

theorem append {l l' : List α} (h : Repeats l l') : ∀ t : List α, Repeats (l ++ t) (l' ++ t)
  | [] => by simpa using h
  | x :: t => by
    have := append (h.snoc x) t
    simpa using this

theorem dup {l v : List α} {x : α} : ∀ {u : List α}, Repeats l (u ++ x :: v) → Repeats l (u ++ x :: x :: v) := by
  intro u h
  generalize he : u ++ x :: v = t at h
  induction h generalizing u with
  | nil => simp at he
  | next y h ih =>
    cases u with
    | nil =>
      simp only [List.nil_append, List.cons.injEq] at he
      obtain ⟨rfl, rfl⟩ := he
      exact .again _ (.next _ h)
    | cons z u =>
      simp only [List.cons_append, List.cons.injEq] at he
      obtain ⟨rfl, he⟩ := he
      exact .next _ (ih he)
  | again y h ih =>
    cases u with
    | nil =>
      simp only [List.nil_append, List.cons.injEq] at he
      obtain ⟨rfl, rfl⟩ := he
      exact .again _ (.again _ h)
    | cons z u =>
      simp only [List.cons_append, List.cons.injEq] at he
      obtain ⟨rfl, he⟩ := he
      cases u with
      | nil =>
        simp only [List.nil_append, List.cons.injEq] at he
        obtain ⟨rfl, rfl⟩ := he
        exact .again _ (.again _ h)
      | cons z' u =>
        simp only [List.cons_append, List.cons.injEq] at he
        obtain ⟨rfl, rfl⟩ := he
        exact .again _ (ih (u := _ :: u) rfl)

theorem front {l : List α} {u v : List α} (h : Repeats l (u ++ v)) : ∃ l1, l1 <+: l ∧ Repeats l1 u := by
  generalize he : u ++ v = t at h
  induction h generalizing u with
  | nil =>
    have : u = [] := (List.append_eq_nil_iff.1 he).1
    subst this
    exact ⟨[], List.nil_prefix, .nil⟩
  | next y h ih =>
    cases u with
    | nil => exact ⟨[], List.nil_prefix, .nil⟩
    | cons z u =>
      simp only [List.cons_append, List.cons.injEq] at he
      obtain ⟨rfl, he⟩ := he
      obtain ⟨l1, h1, h2⟩ := ih he
      exact ⟨_, (List.prefix_cons_inj _).2 h1, .next _ h2⟩
  | again y h ih =>
    cases u with
    | nil => exact ⟨[], List.nil_prefix, .nil⟩
    | cons z u =>
      simp only [List.cons_append, List.cons.injEq] at he
      obtain ⟨rfl, he⟩ := he
      obtain ⟨l1, h1, h2⟩ := ih he
      cases u with
      | nil => exact ⟨[z], ⟨_, rfl⟩, .next _ .nil⟩
      | cons z' u =>
        simp only [List.cons_append, List.cons.injEq] at he
        obtain ⟨rfl, rfl⟩ := he
        cases h2 with
        | next _ h2 => exact ⟨_, h1, .again _ (.next _ h2)⟩
        | again _ h2 => exact ⟨_, h1, .again _ (.again _ h2)⟩

theorem mem {l l' : List α} (h : Repeats l l') {x : α} : x ∈ l' ↔ x ∈ l := by
  induction h with
  | nil => exact Iff.rfl
  | next y _ ih => simp [ih]
  | again y _ ih => rw [List.mem_cons, ih]; simp

end Repeats
end SeqStorage.Spec
