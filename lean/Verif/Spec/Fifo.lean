import Verif.Model.Basic
/-
Specifications of first-in first-out behaviour, independent of the model.
-/

namespace SeqStorage.Spec

/-- Calls on a bounded FIFO of byte strings. -/
inductive FifoOp where
  | push (d : List Byte)
  | pushOverwriting (d : List Byte)
  | peek (bufLen : Nat)
  | discard
  deriving Repr

/-- What a call answers. -/
inductive FifoOut where
  | accepted (b : Bool)
  | peeked (d : Option (List Byte))
  | done
  deriving DecidableEq, Repr

/-- Room taken by a list of items, with two bytes of overhead each. -/
def footprint (l : List (List Byte)) : Nat := (l.map fun d => d.length + 2).sum

/-- Drop as many of the oldest items as needed, and no more, to have `room` bytes left. -/
def dropUntilRoom (cap room : Nat) : List (List Byte) → List (List Byte)
  | [] => []
  | d :: l => if footprint (d :: l) + room ≤ cap then d :: l else dropUntilRoom cap room l

/-- A FIFO list bounded to a footprint of `cap` bytes and items of at most 65535 bytes. -/
def fifoStep (cap : Nat) (l : List (List Byte)) : FifoOp → FifoOut × List (List Byte)
  | .push d =>
    if d.length ≤ 65535 ∧ footprint (l ++ [d]) ≤ cap then (.accepted true, l ++ [d])
    else (.accepted false, l)
  | .pushOverwriting d =>
    if d.length ≤ 65535 ∧ footprint [d] ≤ cap then
      (.accepted true, dropUntilRoom cap (footprint [d]) l ++ [d])
    else (.accepted false, l)
  | .peek n =>
    (.peeked (match l with
      | [] => none
      | d :: _ => if d.length ≤ n then some d else none), l)
  | .discard => (.done, l.tail)

/-- Run a sequence of calls, collecting the answers. -/
def fifoRun (cap : Nat) : List FifoOp → List (List Byte) → List FifoOut × List (List Byte)
  | [], l => ([], l)
  | op :: ops, l =>
    let (o, l') := fifoStep cap l op
    let (os, l'') := fifoRun cap ops l'
    (o :: os, l'')

end SeqStorage.Spec
