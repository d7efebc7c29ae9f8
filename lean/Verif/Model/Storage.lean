import Verif.Model.Monad
/-
Page handling. Follows /repo/src/lib.rs lines 53-331.
-/

namespace SeqStorage
open M

variable {K : Type} [DecidableEq K]

/-- `erase_all` (/repo/src/lib.rs 57-66). -/
def eraseAll (g : Geo) : M K Unit := flashErase g g.start g.stop

/-- `u8::count_zeros` (/repo/src/lib.rs 198-216). -/
def countZeros (b : Byte) : Nat :=
  (List.range 8).foldl (fun acc i => if b.getLsbD i then acc else acc + 1) 0

/-- Whether a marker word counts as set: at least `HALF_MARKER_BITS` zero bits in it
(/repo/src/lib.rs 198-216, 229-233). -/
def marked (bs : List Byte) : Bool := decide (4 ≤ (bs.map countZeros).sum)

/-- The result of the state detection from the two markers (/repo/src/lib.rs 235-246). -/
def stateOfMarkers (startMarked endMarked : Bool) : Except Err PageState :=
  match startMarked, endMarked with
  | true, true => .ok .closed
  | true, false => .ok .partialOpen
  | false, true => .error .corrupted
  | false, false => .ok .open

/-- `get_page_state` (/repo/src/lib.rs 196-249). -/
def getPageState (g : Geo) (i : Nat) : M K PageState := do
  let first ← flashRead g (g.pageAddr i) g.readSize
  let last ← flashRead g (g.pageAddr i + (g.eraseSize - g.readSize)) g.readSize
  M.lift (stateOfMarkers (marked first) (marked last))

/-- `cache.notice_page_state` (/repo/src/cache/mod.rs 159-168). -/
def noticePage (i : Nat) (st : PageState) (dirty : Bool) : M K Unit :=
  updateCache fun c => c.noticePage i st dirty

/-- `get_page_state_cached` (/repo/src/lib.rs 170-193), without the `_check-cache` test feature. -/
def getPageStateCached (g : Geo) (i : Nat) : M K PageState := do
  let s ← M.get
  match ← M.lift (s.cache.ps.get i) with
  | some st => pure st
  | none => do
    let st ← getPageState g i
    noticePage i st false
    pure st

/-- `open_page` (/repo/src/lib.rs 252-270). -/
def openPage (g : Geo) (i : Nat) : M K Unit := do
  noticePage i .open true
  flashErase g (g.pageAddr i) (g.pageEnd i)

/-- A word of `MARKER` bytes (/repo/src/lib.rs 283, 318, 461). -/
def markerWord (g : Geo) : List Byte := List.replicate g.word 0#8

/-- `partial_close_page` (/repo/src/lib.rs 301-331). -/
def partialClosePage (g : Geo) (i : Nat) : M K PageState := do
  let cur ← getPageStateCached g i
  if cur ≠ .open then pure cur
  else do
    noticePage i .partialOpen true
    flashWrite g (g.pageAddr i) (markerWord g)
    pure .partialOpen

/-- `close_page` (/repo/src/lib.rs 273-298). -/
def closePage (g : Geo) (i : Nat) : M K Unit := do
  let cur ← partialClosePage g i
  if cur ≠ .partialOpen then pure ()
  else do
    noticePage i .closed true
    flashWrite g (g.pageEnd i - g.word) (markerWord g)

/-- The loop of `find_first_page` over the given pages (/repo/src/lib.rs 103-109). -/
def findFirstIn (g : Geo) (st : PageState) : List Nat → M K (Option Nat)
  | [] => pure none
  | i :: rest => do
    let cur ← getPageStateCached g i
    if st = cur then pure (some i) else findFirstIn g st rest

/-- `find_first_page` (/repo/src/lib.rs 98-110). -/
def findFirstPage (g : Geo) (start : Nat) (st : PageState) : M K (Option Nat) :=
  findFirstIn g st (g.pages start)

/-- The loop of `find_last_page` over the given pages (/repo/src/lib.rs 124-135). -/
def findLastIn (g : Geo) (st : PageState) (last : Option Nat) : List Nat → M K (Option Nat)
  | [] => pure last
  | i :: rest => do
    let cur ← getPageStateCached g i
    if st = cur then findLastIn g st (some i) rest
    else if last.isSome then pure last
    else findLastIn g st last rest

/-- `find_last_page` (/repo/src/lib.rs 119-136). -/
def findLastPage (g : Geo) (start : Nat) (st : PageState) : M K (Option Nat) :=
  findLastIn g st none (g.pages start)

/-- The loop of `try_general_repair` over the given pages (/repo/src/lib.rs 80-87). -/
def generalRepairIn (g : Geo) : List Nat → M K Unit
  | [] => pure ()
  | i :: rest => do
    let r ← M.attempt (getPageState g i)
    match r with
    | .error .corrupted => do
      openPage g i
      generalRepairIn g rest
    | _ => generalRepairIn g rest

/-- `try_general_repair` (/repo/src/lib.rs 77-93). -/
def tryGeneralRepair (g : Geo) : M K Unit := generalRepairIn g (g.pages 0)

end SeqStorage
