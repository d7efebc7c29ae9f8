import Verif.Model.Item
/-
Reading items over a connection that does not always return what is in the flash: `read_new` and `read_item` with
their retries. Follows /repo/src/item.rs lines 54-173, 583-604 and 632-658.
-/

namespace SeqStorage

/-- `NorFlash::read` as the loops of /repo/src/item.rs 67-151 see it: what the read number `t` of `n` bytes at address `a` returns. -/
abbrev Bus := Nat → Nat → Nat → Except Err (List Byte)

/-- A bus that returns what is in the flash (/repo/src/mock_flash.rs 187-200). -/
def Flash.bus (g : Geo) (f : Flash) : Bus := fun _ a n => f.read g a n

/-- One pass of the loop of `read_new` (/repo/src/item.rs 67-97): `none` asks for another one. -/
def headerPass (bs : List Byte) : Option (Option Header) :=
  match decodeHeader bs with
  | .ok o => some o
  | .error _ => none

/-- The check behind the loop of `read_new` (/repo/src/item.rs 99-120). -/
def headerCheck (g : Geo) (a e : Nat) : Option Header → Except Err (Option Header)
  | none => .ok none
  | some h => if h.next g a > e then .error .corrupted else .ok (some h)

/-- `ItemHeader::read_new` with its retry (/repo/src/item.rs 54-121), and the number of the next read. -/
def rereadHeader (g : Geo) (rd : Bus) (a e t : Nat) : Except Err (Option Header) × Nat :=
  if a + g.hl > e then (.ok none, t)
  else match rd t a g.hl with
    | .error err => (.error err, t + 1)
    | .ok bs => match headerPass bs with
      | some o => (headerCheck g a e o, t + 1)
      | none => match rd (t + 1) a g.hl with
        | .error err => (.error err, t + 2)
        | .ok bs => match headerPass bs with
          | some o => (headerCheck g a e o, t + 2)
          | none => (.error .corrupted, t + 2)

/-- One pass of the loop of `read_item` (/repo/src/item.rs 143-153): the data, unless reading failed. Nothing is
read if there is no data. -/
def readData (g : Geo) (rd : Bus) (h : Header) (a t : Nat) : Except Err (List Byte) × Nat :=
  if g.roundUp h.len.toNat = 0 then (.ok [], t)
  else (rd t (a + g.hl) (g.roundUp h.len.toNat), t + 1)

/-- `ItemHeader::read_item` with its retry (/repo/src/item.rs 123-173) and a buffer of `blen` bytes: the kind of item,
the data, and the number of the next read. -/
def rereadItem (g : Geo) (rd : Bus) (h : Header) (a e blen t : Nat) : Except Err (MaybeItem × List Byte) × Nat :=
  if h.crc = 0#32 then (.ok (.erased h, []), t)
  else if a + g.hl + g.roundUp h.len.toNat > e then (.ok (.corrupted h, []), t)
  else if blen < g.roundUp h.len.toNat then (.error (.bufferTooSmall (g.roundUp h.len.toNat)), t)
  else match readData g rd h a t with
    | (.error err, t) => (.error err, t)
    | (.ok bs, t) =>
      if adaptedCrc32 (bs.take h.len.toNat) = h.crc then (.ok (.present h, bs.take h.len.toNat), t)
      else match readData g rd h a t with
        | (.error err, t) => (.error err, t)
        | (.ok bs, t) =>
          if adaptedCrc32 (bs.take h.len.toNat) = h.crc then (.ok (.present h, bs.take h.len.toNat), t)
          else (.ok (.corrupted h, []), t)

/-- `ItemHeaderIter::traverse` without a filter (/repo/src/item.rs 632-658): the header, its address and the next
address. -/
def rereadTraverse (g : Geo) (rd : Bus) (e : Nat) : (rounds a t : Nat) → Except Err (Option Header × Nat × Nat) × Nat
  | 0, _, t => (.error .diverge, t)
  | rounds + 1, a, t =>
    match rereadHeader g rd a e t with
    | (.ok (some h), t) => (.ok (some h, a, h.next g a), t)
    | (.ok none, t) => (.ok (none, a, a), t)
    | (.error .corrupted, t) => rereadTraverse g rd e rounds (a + g.word) t
    | (.error err, t) => (.error err, t)

/-- `ItemIter::next` (/repo/src/item.rs 583-604): the data of the next present item, its address and the iterator's next
address. -/
def rereadNext (g : Geo) (rd : Bus) (e blen : Nat) :
    (rounds a t : Nat) → Except Err (Option (Header × Nat × List Byte) × Nat) × Nat
  | 0, _, t => (.error .diverge, t)
  | rounds + 1, a, t =>
    match rereadTraverse g rd e g.rounds a t with
    | (.ok (some h, addr, nxt), t) =>
      match rereadItem g rd h addr e blen t with
      | (.ok (.present h, d), t) => (.ok (some (h, addr, d), nxt), t)
      | (.ok _, t) => rereadNext g rd e blen rounds nxt t
      | (.error err, t) => (.error err, t)
    | (.ok (none, _, nxt), t) => (.ok (none, nxt), t)
    | (.error err, t) => (.error err, t)

end SeqStorage
