import Verif.Model.Item
/-
The queue. Follows /repo/src/queue/mod.rs lines 155-571 and 650-870.
-/

namespace SeqStorage
namespace Queue
open M

variable {K : Type} [DecidableEq K]

/-- `find_youngest_page` (/repo/src/queue/mod.rs 488-523). -/
def findYoungest (g : Geo) : M K Nat := do
  match ← findFirstPage g 0 .partialOpen with
  | some p => pure p
  | none => do
    match ← findFirstPage g 0 .closed with
    | some anchor => do
      match ← findFirstPage g anchor .open with
      | some p => pure p
      | none => M.throw .corrupted
    | none => pure 0

/-- `find_oldest_page` (/repo/src/queue/mod.rs 525-535). -/
def findOldest (g : Geo) : M K Nat := do
  let youngest ← findYoungest g
  let r ← findFirstPage g youngest .closed
  pure (r.getD youngest)

/-- `try_repair` (/repo/src/queue/mod.rs 547-552). -/
def tryRepair (g : Geo) : M K Unit := do
  modifyCache Cache.invalidate
  tryGeneralRepair g

/-- The part of `push_inner` that moves to the next page (/repo/src/queue/mod.rs 214-257). Returns
the address to write to. -/
def advancePage (g : Geo) (cur : Nat) (allowOverwrite : Bool) : M K Nat := do
  let next := g.nextPage cur
  let st ← getPageStateCached g next
  let single : Bool := next = cur
  match st, single with
  | .open, _ => do
    closePage g cur
    let _ ← partialClosePage g next
    pure (g.dataStart next)
  | .partialOpen, false => M.throw .corrupted
  | st, single => do
    let empty ← if allowOverwrite then pure true else isPageEmpty g next st
    if empty = false then do
      unmarkDirty
      M.throw .fullStorage
    else do
      openPage g next
      if single then pure () else closePage g cur
      let _ ← partialClosePage g next
      pure (g.dataStart next)

/-- `push_inner` (/repo/src/queue/mod.rs 174-271). -/
def pushInner (g : Geo) (data : List Byte) (allowOverwrite : Bool) : M K Unit := do
  checkDirty
  if g.tooBig data.length then do
    unmarkDirty
    M.throw .itemTooBig
  else do
    let cur ← findYoungest g
    let _ ← partialClosePage g cur
    let spot ← findFreeSpot g (g.dataStart cur) (g.dataEnd cur) data.length
    let addr ← match spot with
      | some a => pure a
      | none => advancePage g cur allowOverwrite
    writeNew g addr data
    unmarkDirty

/-- `push` (/repo/src/queue/mod.rs 163-172). -/
def push (g : Geo) (data : List Byte) (allowOverwrite : Bool) : M K Unit :=
  withRepair (pushInner g data allowOverwrite) (tryRepair g)

/-- The address of the first free spot of a page as used by `find_max_fit_inner` and
`space_left_inner` (/repo/src/queue/mod.rs 384-398, 449-463). -/
def nextItemAddress (g : Geo) (i : Nat) : M K Nat := do
  let s ← M.get
  match s.cache.pp.afterWritten i with
  | some f => pure f
  | none => do
    let r ← traverse g (g.dataEnd i) (fun _ => true) g.rounds
      ((s.cache.pp.afterErased i).getD (g.dataStart i))
    pure r.2.1

/-- `find_max_fit_inner` (/repo/src/queue/mod.rs 349-404). -/
def findMaxFitInner (g : Geo) : M K (Option Nat) := do
  checkDirty
  let cur ← findYoungest g
  let next := g.nextPage cur
  let here : M K (Option Nat) := do
    let f ← nextItemAddress g cur
    unmarkDirty
    pure (g.availableDataBytes (g.dataEnd cur - f))
  match ← getPageStateCached g next with
  | .closed => do
    if ← isPageEmpty g next .closed then do
      unmarkDirty
      pure (some (g.eraseSize - 2 * g.word))
    else here
  | .open => do
    unmarkDirty
    pure (some (g.eraseSize - 2 * g.word))
  | .partialOpen => M.throw .corrupted

/-- `find_max_fit` (/repo/src/queue/mod.rs 342-347). -/
def findMaxFit (g : Geo) : M K (Option Nat) := withRepair (findMaxFitInner g) (tryRepair g)

/-- The body of the loop of `space_left_inner` for one page: what it adds to the total
(/repo/src/queue/mod.rs 430-481). -/
def spaceLeftPage (g : Geo) (i : Nat) : M K Nat := do
  let st ← getPageStateCached g i
  let empty ← isPageEmpty g i st
  if st.isClosed && !empty then pure 0
  else if empty then pure (g.dataEnd i - g.dataStart i)
  else do
    let f ← nextItemAddress g i
    if (g.availableDataBytes (g.dataEnd i - f)).isNone then do
      if ← isPageEmpty g i .closed then pure (g.dataEnd i - g.dataStart i)
      else pure (g.dataEnd i - f)
    else pure (g.dataEnd i - f)

/-- The loop of `space_left_inner` (/repo/src/queue/mod.rs 429-482). -/
def spaceLeftIn (g : Geo) (total : Nat) : List Nat → M K Nat
  | [] => pure total
  | i :: rest => do
    let n ← spaceLeftPage g i
    spaceLeftIn g (total + n) rest

/-- `space_left_inner` (/repo/src/queue/mod.rs 422-486). -/
def spaceLeftInner (g : Geo) : M K Nat := do
  checkDirty
  let total ← spaceLeftIn g 0 (g.pages 0)
  unmarkDirty
  pure total

/-- `space_left` (/repo/src/queue/mod.rs 415-420). -/
def spaceLeft (g : Geo) : M K Nat := withRepair (spaceLeftInner g) (tryRepair g)

/-- `find_start_address` (/repo/src/queue/mod.rs 554-571); it always returns
`NextAddress::Address`. -/
def findStart (g : Geo) : M K Nat := do
  checkDirty
  let oldest ← findOldest g
  let s ← M.get
  pure ((s.cache.pp.afterErased oldest).getD (g.dataStart oldest))

/-- `QueueIterator::new`, called by `iter` (/repo/src/queue/mod.rs 279-282, 651-670). The new
iterator is put in the state. -/
def iterNew (g : Geo) : M K Unit := do
  let a ← withRepair (findStart g) (tryRepair g)
  M.modify fun s => { s with qit := ⟨.address a, .allPopped, g.pageIndex a⟩ }

/-- Change the fields of `QueueIterator` (/repo/src/queue/mod.rs 629-634). -/
def setIter (f : QIter → QIter) : M K Unit := M.modify fun s => { s with qit := f s.qit }

/-- Where the iterator goes after the item that ends at `nxt` (/repo/src/queue/mod.rs 778-783,
793-798). -/
def afterItem (g : Geo) (page nxt : Nat) : NextAddr :=
  if nxt ≥ g.dataEnd page then .pageAfter page else .address nxt

/-- The part of one round of `next_inner` after the current page and address are known
(/repo/src/queue/mod.rs 753-812): `some` when an item is returned, `none` to go round again. -/
def nextScan (g : Geo) (page addr : Nat) : M K (Option (Header × Nat)) := do
  match ← traverse g (g.dataEnd page) (fun h => h.crc = 0#32) g.rounds addr with
  | (some h, a, _) => do
    match ← readItem g h a (g.dataEnd page) with
    | .corrupted h => do
      setIter fun it => { it with next := afterItem g page (h.next g a) }
      pure none
    | .erased _ => M.throw .logicBug
    | .present h => do
      setIter fun it => { it with next := afterItem g page (h.next g a) }
      setIter fun it =>
        if it.prev = .allPopped then { it with prev := .allButCurrentPopped } else it
      unmarkDirty
      pure (some (h, a))
  | (none, _, _) => do
    setIter fun it => { it with next := .pageAfter page }
    pure none

/-- The loop of `next_inner` (/repo/src/queue/mod.rs 714-813). `rounds` bounds the loop; running
out is `diverge`. -/
def nextLoop (g : Geo) : (rounds : Nat) → M K (Option (Header × Nat))
  | 0 => M.throw .diverge
  | rounds + 1 => do
    let s ← M.get
    match s.qit.next with
    | .pageAfter prev => do
      let next := g.nextPage prev
      let st ← getPageStateCached g next
      if st.isOpen || decide (next = s.qit.oldest) then do
        unmarkDirty
        pure none
      else do
        if s.qit.prev = .allPopped then openPage g prev else pure ()
        setIter fun it => { it with next := .address (g.dataStart next) }
        match ← nextScan g next (g.dataStart next) with
        | some r => pure (some r)
        | none => nextLoop g rounds
    | .address a => do
      match ← nextScan g (g.pageIndex a) a with
      | some r => pure (some r)
      | none => nextLoop g rounds

/-- Enough rounds for any walk over the whole flash range, so that the loop of `next_inner` (/repo/src/queue/mod.rs 706-814) becomes
a total function. -/
def loopRounds (g : Geo) : Nat := (g.pageCount + 1) * (g.eraseSize + 1) + 1

/-- `next_inner` (/repo/src/queue/mod.rs 706-814). -/
def nextInner (g : Geo) : M K (Option (Header × Nat)) := do
  checkDirty
  nextLoop g (loopRounds g)

/-- `QueueIterator::next` (/repo/src/queue/mod.rs 677-704) with `reborrow`
(/repo/src/item.rs 381-387). Returns the entry's header, address and data. -/
def iterNext (g : Geo) : M K (Option (Header × Nat × List Byte)) := do
  setIter fun it => if it.prev = .allButCurrentPopped then { it with prev := .unpopped } else it
  match ← withRepair (nextInner g) (tryRepair g) with
  | some (h, a) => do
    let s ← M.get
    if s.buf.length < h.len.toNat then M.throw .logicBug
    else pure (some (h, a, s.buf.take h.len.toNat))
  | none => pure none

/-- `QueueIteratorEntry::pop` (/repo/src/queue/mod.rs 848-870). -/
def entryPop (g : Geo) (h : Header) (a : Nat) : M K Unit := do
  setIter fun it => if it.prev = .allButCurrentPopped then { it with prev := .allPopped } else it
  eraseItem g h a
  unmarkDirty

/-- `peek` (/repo/src/queue/mod.rs 294-307). -/
def peek (g : Geo) : M K (Option (List Byte)) := do
  iterNew g
  match ← iterNext g with
  | some (_, _, d) => pure (some d)
  | none => pure none

/-- `pop` (/repo/src/queue/mod.rs 319-334). -/
def pop (g : Geo) : M K (Option (List Byte)) := do
  iterNew g
  match ← iterNext g with
  | some (h, a, d) => do
    entryPop g h a
    pure (some d)
  | none => pure none

end Queue
end SeqStorage
