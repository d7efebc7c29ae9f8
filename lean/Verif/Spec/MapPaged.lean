import Verif.Spec.Map
/-
How full a map is: the pages in use, oldest first, each with the items that were written to it.
Independent of the model.
-/

namespace SeqStorage.Spec

/-- The bytes an item takes on its page, and what it holds, unless it was removed. -/
abbrev MSlot (K V : Type) := Nat × Option (K × V)

section
variable {K V : Type}

/-- The bytes of a page that are taken, also by items that no longer count. -/
def occupied (p : List (MSlot K V)) : Nat := (p.map (·.1)).sum

variable [DecidableEq K]

/-- The slots hold a value for the key. -/
def hasKey (k : K) (l : List (MSlot K V)) : Prop := ∃ x ∈ l, x.2.map (·.1) = some k

instance (k : K) (l : List (MSlot K V)) : Decidable (hasKey k l) := by unfold hasKey; infer_instance

/-- The value of a key: the one written last. -/
def valueIn (l : List (MSlot K V)) (k : K) : Option V := lastOf k (l.filterMap (·.2))

/-- The items of a page that still count if `later` was written after them: those that were neither removed nor
followed by another one of the same key. -/
def current (later : List (MSlot K V)) : List (MSlot K V) → List (MSlot K V)
  | [] => []
  | (_, none) :: p => current later p
  | (b, some (k, v)) :: p => if hasKey k p ∨ hasKey k later then current later p else (b, some (k, v)) :: current later p

/-- What still counts of every page. -/
def currents : List (List (MSlot K V)) → List (List (MSlot K V))
  | [] => []
  | p :: ps => current ps.flatten p :: currents ps

/-- The last page is full. Another one is taken into use. One page of `n` is to stay free: if there was only one left,
what still counts of the oldest page moves to the new one. -/
def turnPages (n : Nat) (ps : List (List (MSlot K V))) : List (List (MSlot K V)) :=
  if ps.length + 1 < n then ps ++ [[]] else ps.tail ++ [current ps.tail.flatten (ps.headD [])]

/-- `size` more bytes fit on the page. -/
def HasRoom (W page size : Nat) (p : List (MSlot K V)) : Prop := occupied p + size + 2 * W ≤ page

instance (W page size : Nat) (p : List (MSlot K V)) : Decidable (HasRoom W page size p) := by unfold HasRoom; infer_instance

/-- The last page does not have room for `size` more bytes. -/
def LastFull (W page size : Nat) (ps : List (List (MSlot K V))) : Prop := ∀ p, ps.getLast? = some p → ¬ HasRoom W page size p

/-- A store: the item goes behind the last one. If it does not fit there, the next page is tried, at most `left` times.
Was it stored? -/
def storePaged (W page n size : Nat) (k : K) (v : V) : Nat → List (List (MSlot K V)) → Bool × List (List (MSlot K V))
  | 0, ps => (false, ps)
  | left + 1, ps =>
    match ps.getLast? with
    | some p =>
      if HasRoom W page size p then (true, ps.dropLast ++ [p ++ [(size, some (k, v))]])
      else storePaged W page n size k v left (turnPages n ps)
    | none => storePaged W page n size k v left (turnPages n ps)

/-- A slot after a removal. -/
def clear (k? : Option K) (x : MSlot K V) : MSlot K V :=
  match x.2, k? with
  | some (k, _), some k' => if k = k' then (x.1, none) else x
  | some _, none => (x.1, none)
  | none, _ => x

/-- The answers of an iterator over `all` that has `todo` before it: it starts over at the end. -/
def asked (all : List (K × V)) : Nat → List (K × V) → List (Except Err (Option (K × V)))
  | 0, _ => []
  | n + 1, x :: todo => .ok (some x) :: asked all n todo
  | n + 1, [] => .ok none :: asked all n all

/-- What a call does to the pages. An iterator shows all that was not removed, also what no longer counts. A store that
is refused for its key, value or buffer at most takes the first page into use. -/
def mapPagedStep {ρ : Type} (W page n : Nat) (c : Coding K V) (ps : List (List (MSlot K V))) (call : MCall K V ρ)
    (r : Except Err (MAnswer K V)) (ps' : List (List (MSlot K V))) : Prop :=
  match call with
  | .store k v b =>
    (Writable W page c k v b →
      r = (if (storePaged W page n (itemSize W (c.data k v)) k v n ps).1 = true then .ok .done else .error .fullStorage) ∧
        ps' = (storePaged W page n (itemSize W (c.data k v)) k v n ps).2) ∧
    (¬ Writable W page c k v b → ps' = if ps.isEmpty then [[]] else ps)
  | .remove k _ => ps' = ps.map fun p => p.map (clear (some k))
  | .removeAll _ => ps' = ps.map fun p => p.map (clear none)
  | .fetch k _ => r = .ok (.value (valueIn ps.flatten k)) ∧ ps' = ps
  | .fetchAll _ steps => r = .ok (.items (asked (ps.flatten.filterMap (·.2)) steps.length (ps.flatten.filterMap (·.2)))) ∧ ps' = ps
  | .restart _ => ps' = ps

end

end SeqStorage.Spec
