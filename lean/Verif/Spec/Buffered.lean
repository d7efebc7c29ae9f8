import Verif.Spec.Queue
import Verif.Spec.Fifo
/-
What a queue with a buffer in RAM is supposed to do. Independent of the model.
-/

namespace SeqStorage.Spec

/-- What can be done with a buffered queue. `restart` is a new start of the program, which loses the items in RAM. -/
inductive BCall (ρ : Type) where
  | enqueue (d : List Byte) (discard : Bool)
  | drainOne (scratch : List Byte) (overwrite : Bool)
  | drainAll (scratch : List Byte) (overwrite : Bool)
  | pop (buf : List Byte)
  | peek (buf : List Byte)
  | status
  | restart (r : ρ)

/-- What comes back. `status` tells the number of items in RAM, the bytes they take and the bytes left. -/
inductive BAnswer where
  | accepted (b : Bool)
  | drained (b : Bool)
  | done
  | item (d : Option (List Byte))
  | status (count used free : Nat)
  deriving DecidableEq

/-- The items in flash and the items in RAM, oldest first. -/
abbrev Split := List (List Byte) × List (List Byte)

section
variable {ρ : Type} (step : List (List Byte) → QCall ρ → Except Err QAnswer → List (List Byte) → Prop)

/-- Move the oldest item from RAM to flash. -/
def moveStep (flash : List (List Byte)) (scratch : List Byte) (overwrite : Bool) (r : Except Err Bool) (p' : Split) :
    List (List Byte) → Prop
  | [] => r = .ok false ∧ p' = (flash, [])
  | d :: rest =>
    if d.length ≤ scratch.length then
      ∃ a, step flash (.push d overwrite) a p'.1 ∧
        match a with
        | .ok _ => r = .ok true ∧ p'.2 = rest
        | .error e => r = .error e ∧ p'.2 = d :: rest
    else r = .ok false ∧ p' = (flash, d :: rest)

/-- Move items from RAM to flash until that fails or nothing can be moved. -/
def movesStep (scratch : List Byte) (overwrite : Bool) (r : Except Err Unit) (p' : Split) :
    List (List Byte) → List (List Byte) → Prop
  | flash, [] => r = .ok () ∧ p' = (flash, [])
  | flash, d :: rest =>
    if d.length ≤ scratch.length then
      ∃ a flash1, step flash (.push d overwrite) a flash1 ∧
        match a with
        | .ok _ => movesStep scratch overwrite r p' flash1 rest
        | .error e => r = .error e ∧ p' = (flash1, d :: rest)
    else r = .ok () ∧ p' = (flash, d :: rest)

/-- The oldest item in RAM, if the buffer is large enough. -/
def oldest (buf : List Byte) : List (List Byte) → Option (List Byte)
  | [] => none
  | d :: _ => if d.length ≤ buf.length then some d else none

/-- One call on a flash queue whose calls behave like `step` and `cap` bytes of RAM in front of it. -/
def splitStep (cap : Nat) (p : Split) (c : BCall ρ) (r : Except Err BAnswer) (p' : Split) : Prop :=
  match c with
  | .enqueue d discard =>
    ∃ b, r = .ok (.accepted b) ∧ p'.1 = p.1 ∧
      fifoStep cap p.2 (if discard then .pushOverwriting d else .push d) = (.accepted b, p'.2)
  | .drainOne scratch overwrite =>
    ∃ x, r = x.map .drained ∧ moveStep step p.1 scratch overwrite x p' p.2
  | .drainAll scratch overwrite =>
    ∃ x, r = x.map (fun _ => .done) ∧ movesStep step scratch overwrite x p' p.1 p.2
  | .pop buf =>
    ∃ a, step p.1 (.pop buf) a p'.1 ∧
      match a with
      | .ok (.item (some d)) => r = .ok (.item (some d)) ∧ p'.2 = p.2
      | .ok _ => r = .ok (.item (oldest buf p.2)) ∧ p'.2 = if (oldest buf p.2).isSome then p.2.tail else p.2
      | .error e => r = .error e ∧ p'.2 = p.2
  | .peek buf =>
    ∃ a, step p.1 (.peek buf) a p'.1 ∧ p'.2 = p.2 ∧
      match a with
      | .ok (.item (some d)) => r = .ok (.item (some d))
      | .ok _ => r = .ok (.item (oldest buf p.2))
      | .error e => r = .error e
  | .status => r = .ok (.status p.2.length (footprint p.2) (cap - footprint p.2)) ∧ p' = p
  | .restart c => r = .ok .done ∧ (∃ a, step p.1 (.restart c) a p'.1) ∧ p'.2 = []

end

/-- One call on a single first-in first-out queue. Items are only lost where the caller asked for it:
`enqueue` may be told to discard items from RAM, a drain may be told to overwrite the oldest items. -/
def oneQueue {ρ : Type} (cap : Nat) (q : List (List Byte)) (c : BCall ρ) (r : Except Err BAnswer) (q' : List (List Byte)) : Prop :=
  match c with
  | .enqueue d discard =>
    (r = .ok (.accepted true) ∧ ∃ old lost kept, q = old ++ lost ++ kept ∧ q' = old ++ kept ++ [d] ∧ (discard = false → lost = [])) ∨
    (r = .ok (.accepted false) ∧ q' = q ∧ (discard = true → 65535 < d.length ∨ cap < d.length + 2))
  | .drainOne _ overwrite =>
    (∃ lost, q = lost ++ q' ∧ (overwrite = false → lost = [])) ∧
      ((∃ b, r = .ok (.drained b)) ∨ ((r = .error .itemTooBig ∨ r = .error .fullStorage ∧ overwrite = false) ∧ q' = q))
  | .drainAll _ overwrite =>
    (∃ lost, q = lost ++ q' ∧ (overwrite = false → lost = [])) ∧
      (r = .ok .done ∨ r = .error .itemTooBig ∨ (r = .error .fullStorage ∧ overwrite = false))
  | .pop _ => r = .ok (.item q.head?) ∧ q' = q.tail
  | .peek _ => r = .ok (.item q.head?) ∧ q' = q
  | .status => q' = q ∧ ∃ n used free, r = .ok (.status n used free) ∧ n ≤ q.length ∧ used + free = cap
  | .restart _ => r = .ok .done ∧ q' <+: q

/-- The same when the flash may fail at any time. A failing drain may leave the item in flash and in RAM as well. -/
def oneQueueTorn {ρ : Type} (cap : Nat) (q : List (List Byte)) (c : BCall ρ) (r : Except Err BAnswer) (q' : List (List Byte)) : Prop :=
  match c with
  | .drainOne _ overwrite =>
    (∃ lost kept, q = lost ++ kept ∧ (overwrite = false → lost = []) ∧
      (q' = kept ∨ r = .error .shutoff ∧ ∃ a d b, kept = a ++ d :: b ∧ q' = a ++ d :: d :: b)) ∧
      ((∃ b, r = .ok (.drained b)) ∨ (r = .error .itemTooBig ∨ r = .error .fullStorage ∧ overwrite = false) ∧ q' = q ∨
        r = .error .shutoff)
  | .drainAll _ overwrite =>
    (∃ lost kept, q = lost ++ kept ∧ (overwrite = false → lost = []) ∧
      (q' = kept ∨ r = .error .shutoff ∧ ∃ a d b, kept = a ++ d :: b ∧ q' = a ++ d :: d :: b)) ∧
      (r = .ok .done ∨ r = .error .itemTooBig ∨ (r = .error .fullStorage ∧ overwrite = false) ∨ r = .error .shutoff)
  | .pop _ => (r = .ok (.item q.head?) ∧ q' = q.tail) ∨ (r = .error .shutoff ∧ (q' = q ∨ q' = q.tail))
  | .peek _ => (r = .ok (.item q.head?) ∨ r = .error .shutoff) ∧ q' = q
  | c => oneQueue cap q c r q'

end SeqStorage.Spec
