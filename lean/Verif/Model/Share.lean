import Verif.Model.MapUse
/-
Two storage objects on one flash chip, each with its own range, used in turns.

A storage object owns its flash (/repo/src/lib.rs 44-51), so an application that keeps two of them on one chip gives
each a handle to the chip. Calls do not overlap. Everything else (cache, buffer, iterator) is separate.
-/

namespace SeqStorage
open M Spec

variable {K K' C C' A A' : Type}

/-- Calls on either of two `GenericStorage`s (/repo/src/lib.rs 46-51) with ranges of one flash, each with its own number of bytes until power is lost (`none`: never). The answers of
the first, the answers of the second, and the final states. Both states carry the one flash; the call that comes next
finds it as the last call left it. -/
def runBoth (f : C → M K A) (f' : C' → M K' A') :
    List ((C ⊕ C') × Option Nat) → St K → St K' → (List (Except Err A) × List (Except Err A')) × St K × St K'
  | [], s, s' => (([], []), s, s')
  | (.inl c, fuel) :: cs, s, s' =>
    let r := f c { s with fl := { s.fl with fuel := fuel } }
    let rs := runBoth f f' cs r.2 { s' with fl := r.2.fl }
    ((r.1 :: rs.1.1, rs.1.2), rs.2)
  | (.inr c, fuel) :: cs, s, s' =>
    let r := f' c { s' with fl := { s'.fl with fuel := fuel } }
    let rs := runBoth f f' cs { s with fl := r.2.fl } r.2
    ((rs.1.1, r.1 :: rs.1.2), rs.2)

/-- The calls on the first storage (/repo/src/lib.rs 46-51). -/
def firstOnly (cs : List ((C ⊕ C') × Option Nat)) : List (C × Option Nat) :=
  cs.filterMap fun x => match x with
    | (.inl c, fuel) => some (c, fuel)
    | (.inr _, _) => none

/-- The calls on the second storage (/repo/src/lib.rs 46-51). -/
def secondOnly (cs : List ((C ⊕ C') × Option Nat)) : List (C' × Option Nat) :=
  cs.filterMap fun x => match x with
    | (.inl _, _) => none
    | (.inr c, fuel) => some (c, fuel)

/-- A sequence of calls on one storage (/repo/src/lib.rs 46-51). -/
def runOne (f : C → M K A) : List (C × Option Nat) → St K → List (Except Err A) × St K
  | [], s => ([], s)
  | (c, fuel) :: cs, s =>
    let r := f c { s with fl := { s.fl with fuel := fuel } }
    let rs := runOne f cs r.2
    (r.1 :: rs.1, rs.2)

end SeqStorage
