import Verif.Spec.Paged
/-
How often pages are erased. Independent of the model.
-/

namespace SeqStorage.Spec

/-- 1 if the call begins a new page: a push that was accepted and did not fit behind the last item. -/
def startsPage {ρ : Type} (W page : Nat) (ps : List (List Slot)) (c : QCall ρ) (r : Except Err QAnswer) : Nat :=
  match c, r with
  | .push d _, .ok _ =>
    match ps.getLast? with
    | none => 1
    | some p => if taken W p + itemSize W d + 2 * W ≤ page then 0 else 1
  | _, _ => 0

/-- The bytes that a call adds to the flash: those of a push that was accepted. -/
def addedBytes {ρ : Type} (W : Nat) (c : QCall ρ) (r : Except Err QAnswer) : Nat :=
  match c, r with
  | .push d _, .ok _ => itemSize W d
  | _, _ => 0

/-- The bytes that the accepted pushes of a run take on the flash. -/
def bytesPushed {ρ : Type} (W : Nat) : List (QCall ρ) → List (Except Err QAnswer) → Nat
  | c :: cs, r :: rs => addedBytes W c r + bytesPushed W cs rs
  | _, _ => 0

/-- The number of accepted pushes of a run. -/
def pushesDone {ρ : Type} : List (QCall ρ) → List (Except Err QAnswer) → Nat
  | .push _ _ :: cs, .ok _ :: rs => 1 + pushesDone cs rs
  | _ :: cs, _ :: rs => pushesDone cs rs
  | _, _ => 0

/-- A page is erased only when it is given up: every page that was begun is in use or was erased once since. -/
def eraseStep {ρ : Type} (W page n : Nat) (a : List (List Slot) × Nat) (c : QCall ρ) (r : Except Err QAnswer)
    (b : List (List Slot) × Nat) : Prop :=
  pagedStep W page n a.1 c r b.1 ∧ b.2 + b.1.length = a.2 + a.1.length + startsPage W page a.1 c r

end SeqStorage.Spec
