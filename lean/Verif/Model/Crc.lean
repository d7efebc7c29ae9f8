import Verif.Model.Basic
/-
The two checksums. Follows /repo/src/item.rs lines 429-488.
-/

namespace SeqStorage

/-- One of the eight rounds of `crc16` (/repo/src/item.rs 434-440). -/
def crc16Round (crc : BitVec 16) : BitVec 16 :=
  if crc &&& 1#16 = 1#16 then (crc >>> 1) ^^^ 0x1a2e#16 else crc >>> 1

/-- Apply `f` `n` times: `for _ in 0..8` (/repo/src/item.rs 432-441). -/
def iter {α : Type} (f : α → α) : Nat → α → α
  | 0, a => a
  | n + 1, a => iter f n (f a)

/-- The loop body of `crc16` for one byte (/repo/src/item.rs 432-441). -/
def crc16Byte (crc : BitVec 16) (b : Byte) : BitVec 16 :=
  iter crc16Round 8 (crc ^^^ b.setWidth 16)

/-- `crc16` (/repo/src/item.rs 430-447). -/
def crc16 (data : List Byte) : BitVec 16 :=
  let crc := data.foldl crc16Byte 0xffff#16 ^^^ 0xffff#16
  if crc = 0xffff#16 then 0xfffe#16 else crc

/-- One of the eight rounds of `crc32_with_initial` (/repo/src/item.rs 478-484). -/
def crc32Round (crc : BitVec 32) : BitVec 32 :=
  if crc &&& 1#32 = 0#32 then crc >>> 1 else (crc >>> 1) ^^^ 0x82f63b78#32

/-- The loop body of `crc32_with_initial` for one byte (/repo/src/item.rs 475-485). -/
def crc32Byte (crc : BitVec 32) (b : Byte) : BitVec 32 :=
  iter crc32Round 8 (crc ^^^ b.setWidth 32)

/-- `crc32_with_initial` (/repo/src/item.rs 470-488). -/
def crc32WithInitial (data : List Byte) (initial : BitVec 32) : BitVec 32 :=
  ~~~ (data.foldl crc32Byte initial)

/-- `crc32` (/repo/src/item.rs 464-468). -/
def crc32 (data : List Byte) : BitVec 32 := crc32WithInitial data 0xEEEEEEEE#32

/-- The adjustment made by `adapted_crc32` (/repo/src/item.rs 451-461). -/
def adapt (v : BitVec 32) : BitVec 32 :=
  if v = 0#32 then 1#32
  else if v.setWidth 8 = 0#8 ∨ v.setWidth 8 = 0xff#8 then v ^^^ 1#32
  else v

/-- `adapted_crc32` (/repo/src/item.rs 450-462). That the result is a `NonZeroU32` is a theorem. -/
def adaptedCrc32 (data : List Byte) : BitVec 32 := adapt (crc32 data)

/-- `u32::to_le_bytes`. -/
def le32 (v : BitVec 32) : List Byte :=
  [v.setWidth 8, (v >>> 8).setWidth 8, (v >>> 16).setWidth 8, (v >>> 24).setWidth 8]

/-- `u16::to_le_bytes`. -/
def le16 (v : BitVec 16) : List Byte := [v.setWidth 8, (v >>> 8).setWidth 8]

/-- `u16::from_le_bytes`. -/
def ofLe16 (b0 b1 : Byte) : BitVec 16 := b1 ++ b0

/-- `u32::from_le_bytes`. -/
def ofLe32 (b0 b1 b2 b3 : Byte) : BitVec 32 := b3 ++ b2 ++ b1 ++ b0

end SeqStorage
