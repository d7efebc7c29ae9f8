import Verif.Model.Storage
import Verif.Model.Crc
/-
Items: headers, data, scanning. Follows /repo/src/item.rs lines 37-659.
-/

namespace SeqStorage
open M

variable {K : Type} [DecidableEq K]

/-- `ItemHeader` (/repo/src/item.rs 38-42). `crc = 0` stands for `None`. -/
structure Header where
  len : BitVec 16
  crc : BitVec 32
  deriving DecidableEq, Repr

/-- `next_item_address` (/repo/src/item.rs 217-220). -/
def Header.next (g : Geo) (h : Header) (a : Nat) : Nat := a + g.hl + g.roundUp h.len.toNat

/-- Decoding of the header bytes that were read (/repo/src/item.rs 77-120). `none`: all bytes are
`0xFF`; `error`: the length checksum does not match. -/
def decodeHeader (bs : List Byte) : Except Err (Option Header) :=
  if bs.all (· == 0xff#8) then .ok none
  else
    let b (i : Nat) : Byte := bs.getD i 0#8
    if crc16 [b 4, b 5] ≠ ofLe16 (b 6) (b 7) then .error .corrupted
    else .ok (some ⟨ofLe16 (b 4) (b 5), ofLe32 (b 0) (b 1) (b 2) (b 3)⟩)

/-- `ItemHeader::read_new` (/repo/src/item.rs 54-121). The single retry after a failed length
checksum (lines 66-97) is left out: reads of the modelled flash are repeatable (see Model/Reread.lean). -/
def readHeader (g : Geo) (a e : Nat) : M K (Option Header) :=
  if a + g.hl > e then pure none
  else do
    let bs ← flashRead g a g.hl
    match ← M.lift (decodeHeader bs) with
    | none => pure none
    | some h => if h.next g a > e then M.throw .corrupted else pure (some h)

/-- `MaybeItem` (/repo/src/item.rs 390-394). The data of a present item is a prefix of the
caller's buffer, which is part of the state. -/
inductive MaybeItem where
  | corrupted (h : Header)
  | erased (h : Header)
  | present (h : Header)
  deriving DecidableEq, Repr

/-- `flash.read(address, &mut data_buffer[..n])`, skipped for `n = 0` (/repo/src/item.rs 144-153). -/
def readIntoBuf (g : Geo) (a n : Nat) : M K Unit :=
  if n = 0 then pure ()
  else do
    let bs ← flashRead g a n
    M.modify fun s => { s with buf := bs ++ s.buf.drop n }

/-- `ItemHeader::read_item` (/repo/src/item.rs 123-173). The single retry after a failed data
checksum (lines 142-170) is left out: reads of the modelled flash are repeatable (see Model/Reread.lean). -/
def readItem (g : Geo) (h : Header) (a e : Nat) : M K MaybeItem :=
  if h.crc = 0#32 then pure (.erased h)
  else if a + g.hl + g.roundUp h.len.toNat > e then pure (.corrupted h)
  else do
    let s ← M.get
    if s.buf.length < g.roundUp h.len.toNat then M.throw (.bufferTooSmall (g.roundUp h.len.toNat))
    else do
      readIntoBuf g (a + g.hl) (g.roundUp h.len.toNat)
      let s ← M.get
      if adaptedCrc32 (s.buf.take h.len.toNat) = h.crc then pure (.present h)
      else pure (.corrupted h)

/-- The bytes `ItemHeader::write` programs (/repo/src/item.rs 176-187). -/
def Header.encode (g : Geo) (h : Header) : List Byte :=
  le32 h.crc ++ le16 h.len ++ le16 (crc16 (le16 h.len)) ++ List.replicate (g.hl - 8) 0xff#8

/-- `ItemHeader::write` (/repo/src/item.rs 175-195). -/
def writeHeader (g : Geo) (h : Header) (a : Nat) : M K Unit := flashWrite g a (h.encode g)

/-- `erase_data` (/repo/src/item.rs 198-209). -/
def eraseItem (g : Geo) (h : Header) (a : Nat) : M K Unit := do
  let h' : Header := { h with crc := 0#32 }
  modifyCache fun c =>
    { c with
      dirty := true
      pp := c.pp.noticeErased (g.pageIndex a) (g.pageAddr (g.pageIndex a) + g.word) a (h'.next g a) }
  writeHeader g h' a

/-- `write_raw` (/repo/src/item.rs 284-345). The two `LogicBug` branches (lines 298-303, 322-328)
cannot be taken: the split point is at most the length and the tail is shorter than a word. -/
def writeRaw (g : Geo) (h : Header) (data : List Byte) (a : Nat) : M K Unit := do
  modifyCache fun c =>
    { c with dirty := true, pp := c.pp.noticeWritten (g.pageIndex a) (h.next g a) }
  writeHeader g h a
  let k := g.roundDown data.length
  if k ≠ 0 then flashWrite g (a + g.hl) (data.take k) else pure ()
  let tail := data.drop k
  if tail.length ≠ 0 then
    flashWrite g (a + g.hl + k) (tail ++ List.replicate (g.roundUp tail.length - tail.length) 0#8)
  else pure ()

/-- The header `write_new` makes (/repo/src/item.rs 274-277); `as u16` truncates. -/
def Header.ofData (data : List Byte) : Header :=
  ⟨BitVec.ofNat 16 data.length, adaptedCrc32 data⟩

/-- `Item::write_new` (/repo/src/item.rs 267-282). -/
def writeNew (g : Geo) (a : Nat) (data : List Byte) : M K Unit :=
  writeRaw g (Header.ofData data) data a

/-- `ItemHeaderIter::traverse` (/repo/src/item.rs 632-658) from address `a`: skips headers for which
`skip` holds and, word by word, unreadable spots. Returns the header, its address and the iterator's
next address. `rounds` bounds the loop; running out is `diverge`. -/
def traverse (g : Geo) (e : Nat) (skip : Header → Bool) :
    (rounds a : Nat) → M K (Option Header × Nat × Nat)
  | 0, _ => M.throw .diverge
  | rounds + 1, a => do
    match ← M.attempt (readHeader g a e) with
    | .ok (some h) =>
      if skip h then traverse g e skip rounds (h.next g a)
      else pure (some h, a, h.next g a)
    | .ok none => pure (none, a, a)
    | .error .corrupted => traverse g e skip rounds (a + g.word)
    | .error err => M.throw err

/-- Enough rounds for any scan of one page, so that the loops of /repo/src/item.rs 583-604 and 632-658 become total functions. -/
def Geo.rounds (g : Geo) : Nat := g.eraseSize + 1

/-- `ItemIter::next` (/repo/src/item.rs 583-604) from address `a`: the next present item, its
address and the iterator's next address. -/
def itemNext (g : Geo) (e : Nat) : (rounds a : Nat) → M K (Option (Header × Nat) × Nat)
  | 0, _ => M.throw .diverge
  | rounds + 1, a => do
    match ← traverse g e (fun _ => false) g.rounds a with
    | (some h, addr, nxt) => do
      match ← readItem g h addr e with
      | .present h => pure (some (h, addr), nxt)
      | _ => itemNext g e rounds nxt
    | (none, _, nxt) => pure (none, nxt)

/-- `find_next_free_item_spot` (/repo/src/item.rs 494-529). -/
def findFreeSpot (g : Geo) (a e len : Nat) : M K (Option Nat) := do
  let s ← M.get
  let page := g.pageIndex a
  let free ← match s.cache.pp.afterWritten page with
    | some f => pure f
    | none => do
      let r ← traverse g e (fun _ => true) g.rounds (max ((s.cache.pp.afterErased page).getD 0) a)
      pure r.2.1
  match g.availableDataBytes (e - free) with
  | some avail => if len ≤ avail then pure (some free) else pure none
  | none => pure none

/-- `is_page_empty` (/repo/src/item.rs 536-569) with the page state given, as all callers do. -/
def isPageEmpty (g : Geo) (i : Nat) (st : PageState) : M K Bool :=
  match st with
  | .closed => do
    let s ← M.get
    let r ← traverse g (g.dataEnd i) (fun h => h.crc = 0#32) g.rounds
      ((s.cache.pp.afterErased i).getD (g.dataStart i))
    pure r.1.isNone
  | .partialOpen => pure false
  | .open => pure true

end SeqStorage
