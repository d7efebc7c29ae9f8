import Verif.Spec.MapPaged
/-
How often a map erases pages. Independent of the model.
-/

namespace SeqStorage.Spec

section
variable {K V : Type} [DecidableEq K]

/-- How many times a store goes to another page, with `left` tries. -/
def storeTurns (W page n size : Nat) : Nat → List (List (MSlot K V)) → Nat
  | 0, _ => 0
  | left + 1, ps =>
    match ps.getLast? with
    | some p => if HasRoom W page size p then 0 else storeTurns W page n size left (turnPages n ps) + 1
    | none => storeTurns W page n size left (turnPages n ps) + 1

/-- How many times a call goes to another page. Only stores do. -/
def callTurns {ρ : Type} (W page n : Nat) (c : Coding K V) (ps : List (List (MSlot K V))) (call : MCall K V ρ) (turns : Nat) : Prop :=
  match call with
  | .store k v b =>
    (Writable W page c k v b → turns = storeTurns W page n (itemSize W (c.data k v)) n ps) ∧
    (¬ Writable W page c k v b → turns = if ps.isEmpty then 1 else 0)
  | _ => turns = 0

/-- A page is erased only when it is given up for another one: every page that was begun is in use or was erased once
since. -/
def mapEraseStep {ρ : Type} (W page n : Nat) (c : Coding K V) (a : List (List (MSlot K V)) × Nat) (call : MCall K V ρ)
    (r : Except Err (MAnswer K V)) (b : List (List (MSlot K V)) × Nat) : Prop :=
  mapPagedStep W page n c a.1 call r b.1 ∧
  ∃ turns, callTurns W page n c a.1 call turns ∧ b.2 + b.1.length = a.2 + a.1.length + turns

/-- The bytes that the successful stores of a run take on the flash. -/
def bytesStored {ρ : Type} (W : Nat) (c : Coding K V) : List (MCall K V ρ) → List (Except Err (MAnswer K V)) → Nat
  | .store k v _ :: cs, .ok _ :: rs => itemSize W (c.data k v) + bytesStored W c cs rs
  | _ :: cs, _ :: rs => bytesStored W c cs rs
  | _, _ => 0

/-- The number of successful stores of a run. -/
def storesDone {ρ : Type} : List (MCall K V ρ) → List (Except Err (MAnswer K V)) → Nat
  | .store _ _ _ :: cs, .ok _ :: rs => 1 + storesDone cs rs
  | _ :: cs, _ :: rs => storesDone cs rs
  | _, _ => 0

end

end SeqStorage.Spec
