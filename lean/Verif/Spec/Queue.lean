import Verif.Model.Basic
/-
What a queue is supposed to do, as a list of byte strings, oldest first. Independent of the model.
-/

namespace SeqStorage.Spec

/-- The bytes taken by `n` bytes when only whole words of `W` bytes can be used. -/
def pad (W n : Nat) : Nat := (n + W - 1) / W * W

/-- The bytes an item takes: an eight byte header and the data, both padded. -/
def itemSize (W : Nat) (d : List Byte) : Nat := pad W 8 + pad W d.length

/-- The data fits in a page of its own, next to the page's two markers of a word each. -/
def FitsPage (W page : Nat) (d : List Byte) : Prop := d.length ≤ 65535 ∧ itemSize W d + 2 * W ≤ page

/-- What can be done with a queue. `iterate` makes an iterator and asks it for the next item once per
list element, with the given buffer, and pops the item it gets if the flag is set. `restart` throws
away everything but the flash contents; `ρ` says what to go on with. -/
inductive QCall (ρ : Type) where
  | push (d : List Byte) (overwrite : Bool)
  | pop (buf : List Byte)
  | peek (buf : List Byte)
  | iterate (steps : List (List Byte × Bool))
  | maxFit
  | spaceLeft
  | restart (r : ρ)

/-- What comes back. -/
inductive QAnswer where
  | done
  | item (d : Option (List Byte))
  | items (l : List (Except Err (Option (List Byte))))
  | fit (n : Option Nat)
  | space (n : Nat)
  deriving DecidableEq

/-- An iteration: `seen` are the items that were passed and left alone, `todo` the others. -/
def iterate (W : Nat) (seen : List (List Byte)) :
    (todo : List (List Byte)) → List (List Byte × Bool) → List (Except Err (Option (List Byte))) × List (List Byte)
  | todo, [] => ([], seen ++ todo)
  | [], _ :: steps =>
    let r := iterate W seen [] steps
    (.ok none :: r.1, r.2)
  | d :: todo, (buf, pop) :: steps =>
    if pad W d.length ≤ buf.length then
      let r := iterate W (if pop then seen else seen ++ [d]) todo steps
      (.ok (some d) :: r.1, r.2)
    else
      let r := iterate W seen (d :: todo) steps
      (.error (.bufferTooSmall (pad W d.length)) :: r.1, r.2)

/-- One call on the list `q`, answered by `r`, leaving `q'`, for a queue on `pages` pages of `page`
bytes. A push is never refused for lack of space while the queue is empty, unless there is only one page. On a
single page `maxFit` may wrongly report corruption. -/
def queueStep {ρ : Type} (W page pages : Nat) (q : List (List Byte)) (c : QCall ρ) (r : Except Err QAnswer)
    (q' : List (List Byte)) : Prop :=
  match c with
  | .push d overwrite =>
    (¬ FitsPage W page d ∧ r = .error .itemTooBig ∧ q' = q) ∨
    (FitsPage W page d ∧ overwrite = false ∧ r = .error .fullStorage ∧ q' = q ∧ (2 ≤ pages → q ≠ [])) ∨
    (FitsPage W page d ∧ r = .ok .done ∧ ∃ lost kept, q = lost ++ kept ∧ q' = kept ++ [d] ∧
      (overwrite = false → lost = []) ∧ (lost.map (itemSize W)).sum + 2 * W ≤ page)
  | .pop buf =>
    match q with
    | [] => r = .ok (.item none) ∧ q' = []
    | d :: rest =>
      if pad W d.length ≤ buf.length then r = .ok (.item (some d)) ∧ q' = rest
      else r = .error (.bufferTooSmall (pad W d.length)) ∧ q' = q
  | .peek buf =>
    match q with
    | [] => r = .ok (.item none) ∧ q' = []
    | d :: _ =>
      if pad W d.length ≤ buf.length then r = .ok (.item (some d)) ∧ q' = q
      else r = .error (.bufferTooSmall (pad W d.length)) ∧ q' = q
  | .iterate steps => r = .ok (.items (iterate W [] q steps).1) ∧ q' = (iterate W [] q steps).2
  | .maxFit => q' = q ∧ ((∃ v, r = .ok (.fit v)) ∨ (pages = 1 ∧ r = .error .corrupted))
  | .spaceLeft => q' = q ∧ ∃ v, r = .ok (.space v) ∧ v + pages * (2 * W) ≤ pages * page
  | .restart _ => r = .ok .done ∧ q' = q

/-- Several calls in a row. -/
def Runs {C R S : Type} (step : S → C → R → S → Prop) : S → List C → List R → S → Prop
  | q, [], rs, q' => rs = [] ∧ q' = q
  | q, c :: cs, rs, q' => ∃ r rs' q1, rs = r :: rs' ∧ step q c r q1 ∧ Runs step q1 cs rs' q'

/-! ### With power loss -/

/-- An iteration after power losses: torn items may still be in the way, and a buffer too small for
one of them is reported as well. -/
def iterateTorn (W page : Nat) : (seen todo : List (List Byte)) → List (List Byte × Bool) →
    List (Except Err (Option (List Byte))) → (left : List (List Byte)) → Prop
  | seen, todo, [], l, left => l = [] ∧ left = seen ++ todo
  | seen, todo, (buf, pop) :: steps, l, left =>
    (todo = [] ∧ ∃ l', l = .ok none :: l' ∧ iterateTorn W page seen [] steps l' left) ∨
    (∃ d rest l', todo = d :: rest ∧ pad W d.length ≤ buf.length ∧ l = .ok (some d) :: l' ∧
      iterateTorn W page (if pop then seen else seen ++ [d]) rest steps l' left) ∨
    (∃ n l', buf.length < n ∧ n + pad W 8 + 2 * W ≤ page ∧ l = .error (.bufferTooSmall n) :: l' ∧ iterateTorn W page seen todo steps l' left)

/-- One call during which power may be lost, or which comes after a power loss. -/
def crashStep {ρ : Type} (W page pages : Nat) (q : List (List Byte)) (c : QCall ρ) (r : Except Err QAnswer)
    (q' : List (List Byte)) : Prop :=
  match c with
  | .push d overwrite =>
    (¬ FitsPage W page d ∧ r = .error .itemTooBig ∧ q' = q) ∨
    (FitsPage W page d ∧ overwrite = false ∧ r = .error .fullStorage ∧ q' = q) ∨
    (FitsPage W page d ∧ r = .ok .done ∧ ∃ lost kept, q = lost ++ kept ∧ q' = kept ++ [d] ∧
      (overwrite = false → lost = []) ∧ (lost.map (itemSize W)).sum + 2 * W ≤ page) ∨
    (r = .error .shutoff ∧ ∃ lost kept, q = lost ++ kept ∧ (q' = kept ∨ q' = kept ++ [d]) ∧
      (overwrite = false → lost = []) ∧ (lost.map (itemSize W)).sum + 2 * W ≤ page)
  | .pop buf =>
    (q = [] ∧ r = .ok (.item none) ∧ q' = []) ∨
    (∃ d, q = d :: q' ∧ r = .ok (.item (some d)) ∧ pad W d.length ≤ buf.length) ∨
    (∃ n, buf.length < n ∧ n + pad W 8 + 2 * W ≤ page ∧ r = .error (.bufferTooSmall n) ∧ q' = q) ∨
    (r = .error .shutoff ∧ (q' = q ∨ ∃ d, q = d :: q'))
  | .peek buf =>
    q' = q ∧ ((r = .ok (.item q.head?) ∧ ∀ d, q.head? = some d → pad W d.length ≤ buf.length) ∨
      (∃ n, buf.length < n ∧ n + pad W 8 + 2 * W ≤ page ∧ r = .error (.bufferTooSmall n)) ∨ r = .error .shutoff)
  | .iterate steps =>
    (∃ l, r = .ok (.items l) ∧ iterateTorn W page [] q steps l q') ∨
    (r = .error .shutoff ∧ ∃ done rest l, steps = done ++ rest ∧ iterateTorn W page [] q done l q')
  | .maxFit => q' = q ∧ ((∃ v, r = .ok (.fit v)) ∨ r = .error .shutoff)
  | .spaceLeft => q' = q ∧ ((∃ v, r = .ok (.space v) ∧ v + pages * (2 * W) ≤ pages * page) ∨ r = .error .shutoff)
  | .restart _ => r = .ok .done ∧ q' = q

end SeqStorage.Spec
