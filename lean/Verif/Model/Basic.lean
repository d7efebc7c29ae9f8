/-
Addresses, alignment, page arithmetic and configuration checks.
Follows /repo/src/lib.rs lines 32-36, 138-167, 413-474, 504-543, 607-632,
/repo/src/map.rs lines 28-65 and /repo/src/queue/mod.rs lines 22-59.
-/

namespace SeqStorage

deriving instance DecidableEq for Except

/-- One byte of flash or RAM: `u8` (e.g. /repo/src/mock_flash.rs 24-35). -/
abbrev Byte := BitVec 8

/-- `map::SerializationError` (/repo/src/map.rs 1438-1455). The payload of `Custom` is kept. -/
inductive SerErr where
  | bufferTooSmall
  | invalidData
  | invalidFormat
  | custom (code : Int)
  deriving DecidableEq, Repr

/-- `Error<S::Error>` (/repo/src/lib.rs 507-543) with the flash errors of
/repo/src/mock_flash.rs 300-312 (`shutoff`, `outOfBounds`, `notAligned`) folded in.
`panic` stands for a Rust panic and `diverge` for a loop that did not finish in the number of
rounds the model gives it; neither exists as a value in Rust. -/
inductive Err where
  | shutoff
  | outOfBounds
  | notAligned
  | fullStorage
  | corrupted
  | logicBug
  | bufferTooBig
  | bufferTooSmall (needed : Nat)
  | serialization (e : SerErr)
  | itemTooBig
  | panic
  | diverge
  deriving DecidableEq, Repr

/-- `PageState` (/repo/src/lib.rs 467-474). -/
inductive PageState where
  | closed
  | partialOpen
  | «open»
  deriving DecidableEq, Repr

namespace PageState
/-- `PageState::is_closed` (/repo/src/lib.rs 482-484). -/
def isClosed : PageState → Bool
  | closed => true
  | _ => false
/-- `PageState::is_open` (/repo/src/lib.rs 498-500). -/
def isOpen : PageState → Bool
  | «open» => true
  | _ => false
end PageState

/-- The flash geometry (`S::READ_SIZE`, `S::WRITE_SIZE`, `S::ERASE_SIZE`) together with the
configured `flash_range`; this is the static part of `GenericStorage` (/repo/src/lib.rs 46-51). -/
structure Geo where
  readSize : Nat
  writeSize : Nat
  eraseSize : Nat
  start : Nat
  stop : Nat
  deriving DecidableEq, Repr

/-- `MAX_WORD_SIZE` (/repo/src/lib.rs 36). -/
def maxWordSize : Nat := 32

namespace Geo

/-- `NorFlashExt::WORD_SIZE` (/repo/src/lib.rs 614-624). -/
def word (g : Geo) : Nat := if g.writeSize > g.readSize then g.writeSize else g.readSize

/-- `round_up_to_alignment` and its `usize` twin (/repo/src/lib.rs 415-423). -/
def roundUp (g : Geo) (v : Nat) : Nat := (v + g.word - 1) / g.word * g.word

/-- `round_down_to_alignment` and its `usize` twin (/repo/src/lib.rs 427-436). -/
def roundDown (g : Geo) (v : Nat) : Nat := v / g.word * g.word

/-- `ItemHeader::LENGTH` (/repo/src/item.rs 45). -/
def headerLength : Nat := 8

/-- The programmed size of a header, `round_up_to_alignment(ItemHeader::LENGTH)`
(/repo/src/item.rs 60, 187, 213). Also `item_overhead_size` (/repo/src/lib.rs 73-75). -/
def hl (g : Geo) : Nat := g.roundUp headerLength

/-- `calculate_page_address` (/repo/src/lib.rs 439-441). -/
def pageAddr (g : Geo) (i : Nat) : Nat := g.start + g.eraseSize * i

/-- `calculate_page_end_address` (/repo/src/lib.rs 444-449). -/
def pageEnd (g : Geo) (i : Nat) : Nat := g.start + g.eraseSize * (i + 1)

/-- `calculate_page_index` (/repo/src/lib.rs 452-454). -/
def pageIndex (g : Geo) (addr : Nat) : Nat := (addr - g.start) / g.eraseSize

/-- `calculate_page_size` (/repo/src/lib.rs 456-459). -/
def pageSize (g : Geo) : Nat := g.eraseSize - g.word * 2

/-- First data address of a page: `calculate_page_address + WORD_SIZE`
(e.g. /repo/src/queue/mod.rs 195-196). -/
def dataStart (g : Geo) (i : Nat) : Nat := g.pageAddr i + g.word

/-- End of the data area of a page: `calculate_page_end_address - WORD_SIZE`
(e.g. /repo/src/queue/mod.rs 197-198). -/
def dataEnd (g : Geo) (i : Nat) : Nat := g.pageEnd i - g.word

/-- `page_count` (/repo/src/lib.rs 138-142), including the `max(1)`. -/
def pageCount (g : Geo) : Nat := max ((g.stop - g.start) / g.eraseSize) 1

/-- `next_page` (/repo/src/lib.rs 154-157). -/
def nextPage (g : Geo) (i : Nat) : Nat := (i + 1) % g.pageCount

/-- `previous_page` (/repo/src/lib.rs 160-167). -/
def prevPage (g : Geo) (i : Nat) : Nat :=
  match i with
  | 0 => g.pageCount - 1
  | j + 1 => j

/-- `get_pages` (/repo/src/lib.rs 145-151). -/
def pages (g : Geo) (start : Nat) : List Nat :=
  (List.range g.pageCount).map (fun i => (i + start) % g.pageCount)

/-- `ItemHeader::available_data_bytes` (/repo/src/item.rs 224-229). -/
def availableDataBytes (g : Geo) (total : Nat) : Option Nat :=
  if g.hl ≤ g.roundDown total then some (g.roundDown total - g.hl) else none

/-- The size limit checked by `push_inner` (/repo/src/queue/mod.rs 184-188) and
`store_item_inner` (/repo/src/map.rs 486-490): true when the data is too big. -/
def tooBig (g : Geo) (len : Nat) : Bool :=
  decide (len > 65535) || decide (len > g.pageSize - g.hl)

end Geo

/-- `MapConfigError` / `QueueConfigError` (/repo/src/map.rs 67-83, /repo/src/queue/mod.rs 64-75). -/
inductive ConfigErr where
  | startRangeNotAtPageBoundary
  | endRangeNotAtPageBoundary
  | rangeTooSmall
  | pagesTooSmall
  | wordSizeTooLarge
  deriving DecidableEq, Repr

/-- `MapConfig::try_new` (`minPages = 2`, /repo/src/map.rs 40-64) and `QueueConfig::try_new`
(`minPages = 1`, /repo/src/queue/mod.rs 34-58), in a release build: the range bounds are `u32` and
the subtraction on line 42 (resp. 48) wraps around; a debug build panics instead when it would wrap.
`S::ERASE_SIZE as u32` truncates to 32 bits; `x.is_multiple_of(0)` is `x == 0`. -/
def tryNew (minPages : BitVec 32) (readSize writeSize eraseSize : Nat)
    (start stop : BitVec 32) : Except ConfigErr Geo :=
  let g : Geo := ⟨readSize, writeSize, eraseSize, start.toNat, stop.toNat⟩
  let es : BitVec 32 := BitVec.ofNat 32 eraseSize
  if start.toNat % es.toNat ≠ 0 then .error .startRangeNotAtPageBoundary
  else if stop.toNat % es.toNat ≠ 0 then .error .endRangeNotAtPageBoundary
  else if stop - start < es * minPages then .error .rangeTooSmall
  else if eraseSize < g.word * 3 + g.hl then .error .pagesTooSmall
  else if g.word > maxWordSize then .error .wordSizeTooLarge
  else .ok g

end SeqStorage
