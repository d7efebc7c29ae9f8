import Verif.Spec.Queue
/-
How full a queue is: the pages in use, oldest first, each with the items that were written to it.
Independent of the model.
-/

namespace SeqStorage.Spec

/-- An item that was written, and whether it is still in the queue. -/
abbrev Slot := List Byte × Bool

/-- The bytes of a page that are taken, also by items that are no longer in the queue. -/
def taken (W : Nat) (p : List Slot) : Nat := (p.map fun x => itemSize W x.1).sum

/-- None of the items of a page is still in the queue. -/
def spent (p : List Slot) : Bool := p.all fun x => !x.2

/-- The items that are still in the queue. -/
def live (ps : List (List Slot)) : List (List Byte) := (ps.flatten.filter (·.2)).map (·.1)

/-- The oldest pages without items are given up, but not the last page. -/
def dropSpent : List (List Slot) → List (List Slot)
  | p :: p' :: ps => if spent p then dropSpent (p' :: ps) else p :: p' :: ps
  | ps => ps

/-- A page after its oldest item was taken out. -/
def takePage : List Slot → List Slot
  | [] => []
  | (d, b) :: p => if b then (d, false) :: p else (d, b) :: takePage p

/-- The oldest item was taken out of the oldest page. -/
def takeHead : List (List Slot) → List (List Slot)
  | [] => []
  | p :: ps => takePage p :: ps

/-- Items of a page were taken out here and there. -/
def WornPage : List Slot → List Slot → Prop
  | [], q => q = []
  | (d, b) :: p, q => ∃ b' q', q = (d, b') :: q' ∧ (b' = true → b = true) ∧ WornPage p q'

/-- Items were taken out here and there. -/
def Worn : List (List Slot) → List (List Slot) → Prop
  | [], qs => qs = []
  | p :: ps, qs => ∃ q qs', qs = q :: qs' ∧ WornPage p q ∧ Worn ps qs'

/-- Some of the oldest pages were given up, but not all, and none with items. -/
def GivenUp (ps ps' : List (List Slot)) : Prop :=
  ∃ gone, ps = gone ++ ps' ∧ (∀ p ∈ gone, spent p = true) ∧ (ps' = [] → ps = [])

instance (W page : Nat) (d : List Byte) : Decidable (FitsPage W page d) := by unfold FitsPage; infer_instance

/-- A push: an item goes behind the last one, if it fits there, otherwise on a new page, otherwise on the
oldest page if that one has no items any more or may be overwritten. Only if none of this is possible
it is refused. A single page is not used again even if it has no items any more. -/
def pushPaged (W page n : Nat) (ps : List (List Slot)) (d : List Byte) (overwrite : Bool) (r : Except Err QAnswer)
    (ps' : List (List Slot)) : Prop :=
  if ¬ FitsPage W page d then r = .error .itemTooBig ∧ ps' = ps
  else match ps.getLast? with
    | none => r = .ok .done ∧ ps' = [[(d, true)]]
    | some p =>
      if taken W p + itemSize W d + 2 * W ≤ page then r = .ok .done ∧ ps' = ps.dropLast ++ [p ++ [(d, true)]]
      else if ps.length < n then r = .ok .done ∧ ps' = ps ++ [[(d, true)]]
      else if overwrite = true ∨ (2 ≤ n ∧ spent (ps.headD []) = true) then r = .ok .done ∧ ps' = ps.tail ++ [[(d, true)]]
      else r = .error .fullStorage ∧ ps' = ps

/-- The bytes that can go behind the items of a page. -/
def fitBehind (W page : Nat) (p : List Slot) : Option Nat :=
  if taken W p + pad W 8 + 2 * W ≤ page then some (page - 2 * W - taken W p - pad W 8) else none

/-- The answer of `find_max_fit` on two or more pages. -/
def maxFitPaged (W page n : Nat) (ps : List (List Slot)) : Option Nat :=
  if ps.length < n ∨ spent (ps.headD []) = true then some (page - 2 * W) else fitBehind W page (ps.getLast?.getD [])

/-- The space left on the pages in use: a page without items counts if nothing can be written behind
its items, otherwise only the last page counts. -/
def spaceUsed (W page : Nat) : List (List Slot) → Nat
  | [] => 0
  | [p] => if taken W p + pad W 8 + 2 * W ≤ page ∨ spent p = false then page - 2 * W - taken W p else page - 2 * W
  | p :: ps => (if spent p then page - 2 * W else 0) + spaceUsed W page ps

/-- What a call does to the pages. -/
def pagedStep {ρ : Type} (W page n : Nat) (ps : List (List Slot)) (c : QCall ρ) (r : Except Err QAnswer)
    (ps' : List (List Slot)) : Prop :=
  match c with
  | .push d overwrite => pushPaged W page n ps d overwrite r ps'
  | .pop _ => ((∃ d, r = .ok (.item (some d))) ∧ ps' = takeHead (dropSpent ps)) ∨
      ((∀ d, r ≠ .ok (.item (some d))) ∧ ps' = dropSpent ps)
  | .peek _ => ps' = dropSpent ps
  | .iterate _ => ∃ ps1, Worn ps ps1 ∧ GivenUp ps1 ps'
  | .maxFit => ps' = ps ∧ (2 ≤ n → r = .ok (.fit (maxFitPaged W page n ps)))
  | .spaceLeft => ps' = ps ∧ r = .ok (.space ((n - ps.length) * (page - 2 * W) + spaceUsed W page ps))
  | .restart _ => ps' = ps

end SeqStorage.Spec
