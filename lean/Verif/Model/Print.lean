import Verif.Model.Item
/-
The listing of everything in flash. Follows `GenericStorage::print_items` (/repo/src/lib.rs 333-393). The code writes text;
here the same facts are collected in a list.
-/

namespace SeqStorage
open M

variable {K : Type} [DecidableEq K]

/-- The line for an item (/repo/src/lib.rs 384-388): the item, where it starts, where the next one starts, and the
bytes its `Debug` shows (/repo/src/item.rs 238-248, 396-408), none for an erased item. -/
structure ItemLine where
  item : MaybeItem
  addr : Nat
  next : Nat
  data : List Byte
  deriving DecidableEq, Repr

/-- The lines for a page (/repo/src/lib.rs 346-389): its state or the error of reading it, and the items. -/
structure PageLines where
  state : Except Err PageState
  items : List ItemLine

/-- The buffer the items are read into (/repo/src/lib.rs 339). -/
def printBuf : Nat := 1024 * 16

/-- The bytes shown for an item that was read into the buffer (/repo/src/item.rs 238-248, 396-408). -/
def MaybeItem.shownBytes (buf : List Byte) : MaybeItem → List Byte
  | .erased _ => []
  | .corrupted h | .present h => buf.take h.len.toNat

/-- The loop over the items of a page (/repo/src/lib.rs 363-389). The failures of `unwrap` and the `panic!` are the panic. -/
def printLoop (g : Geo) (e : Nat) : (rounds a : Nat) → M K (List ItemLine)
  | 0, _ => M.throw .diverge
  | rounds + 1, a => do
    match ← M.attempt (traverse g e (fun _ => false) g.rounds a) with
    | .error _ => M.throw .panic
    | .ok (none, _, _) => pure []
    | .ok (some h, addr, next) => do
      match ← M.attempt (readItem g h addr e) with
      | .error _ => M.throw .panic
      | .ok item => do
        let s ← M.get
        let rest ← printLoop g e rounds next
        pure (⟨item, addr, h.next g addr, item.shownBytes s.buf⟩ :: rest)

/-- One page (/repo/src/lib.rs 346-390). -/
def printPage (g : Geo) (i : Nat) : M K PageLines := do
  let state ← M.attempt (getPageState g i)
  let items ← printLoop g (g.dataEnd i) g.rounds (g.dataStart i)
  pure ⟨state, items⟩

/-- The loop over the pages (/repo/src/lib.rs 346). -/
def printPages (g : Geo) : List Nat → M K (List PageLines)
  | [] => pure []
  | i :: is => do
    let p ← printPage g i
    let ps ← printPages g is
    pure (p :: ps)

/-- `print_items` (/repo/src/lib.rs 333-393). Its buffer is its own; the caller's is as before. -/
def printItems (g : Geo) : M K (List PageLines) := do
  let s0 ← M.get
  M.modify fun s => { s with buf := List.replicate printBuf 0#8 }
  let ps ← printPages g (g.pages 0)
  M.modify fun s => { s with buf := s0.buf }
  pure ps

end SeqStorage
