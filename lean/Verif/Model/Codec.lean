import Verif.Model.Map
import Verif.Model.Crc
/-
The key and value (de)serializers the crate ships. Follows /repo/src/map.rs lines 1148-1430,
/repo/src/alloc_impl.rs, /repo/src/arrayvec_impl.rs, /repo/src/heapless_impl.rs and
/repo/src/heapless_09_impl.rs. `PostcardValue` (/repo/src/map.rs 1314-1359) is not modelled.
-/

namespace SeqStorage
namespace Codec

/-- `to_le_bytes` (/repo/src/map.rs 1148-1190) of an `n`-byte number given by its bits. Signed integers and floats are their
two's complement resp. IEEE bits. -/
def leBytes (n : Nat) (v : BitVec (8 * n)) : List Byte :=
  (List.range n).map fun i => (v >>> (8 * i)).setWidth 8

/-- The number whose little-endian bytes are given, for `from_le_bytes` (/repo/src/map.rs 1148-1190). -/
def natOfLe : List Byte → Nat
  | [] => 0
  | b :: bs => b.toNat + 256 * natOfLe bs

/-- `from_le_bytes` (/repo/src/map.rs 1148-1190) for an `n`-byte number. -/
def ofLeBytes (n : Nat) (bs : List Byte) : BitVec (8 * n) := BitVec.ofNat (8 * n) (natOfLe bs)

/-- A buffer of `n` bytes takes `bs`, or the given error: the length checks of the serialisers (e.g. /repo/src/map.rs 1148-1190). -/
def fit (bs : List Byte) (n : Nat) (e : SerErr) : Except SerErr (List Byte) :=
  if n < bs.length then .error e else .ok bs

/-! ### Keys -/

/-- `impl_key_num!` (/repo/src/map.rs 1148-1190) for a number of `n` bytes. -/
def numKey (n : Nat) : KeyCodec (BitVec (8 * n)) where
  ser v len := fit (leBytes n v) len .bufferTooSmall
  de buf :=
    if buf.length < n then .error .bufferTooSmall else .ok (ofLeBytes n (buf.take n), n)
  getLen _ := .ok n

/-- `Key for [u8; N]` (/repo/src/map.rs 1192-1215). -/
def arrayKey (n : Nat) : KeyCodec { l : List Byte // l.length = n } where
  ser v len := fit v.1 len .bufferTooSmall
  de buf :=
    if h : (buf.take n).length = n then .ok (⟨buf.take n, h⟩, n) else .error .bufferTooSmall
  getLen _ := .ok n

/-- `Key for ()` (/repo/src/map.rs 1217-1225). -/
def unitKey : KeyCodec Unit where
  ser _ _ := .ok []
  de _ := .ok ((), 0)
  getLen _ := .ok 0

/-- The `serialize_into` shared by the variable-length keys (/repo/src/alloc_impl.rs 8-22,
/repo/src/arrayvec_impl.rs 6-19, /repo/src/heapless_impl.rs 10-23, 75-88). `small` is the error for
a buffer that is too small, which is `InvalidFormat` for heapless strings (line 81) and
`BufferTooSmall` for the rest. -/
def lenPrefixedSer (small : SerErr) (bs : List Byte) (len : Nat) : Except SerErr (List Byte) :=
  if bs.length > 65535 then .error .invalidData
  else if len < bs.length + 2 then .error small
  else .ok (le16 (BitVec.ofNat 16 bs.length) ++ bs)

/-- The `get_len` shared by the variable-length keys (/repo/src/alloc_impl.rs 38-46). -/
def lenPrefixedLen (buf : List Byte) : Except SerErr Nat :=
  match buf with
  | b0 :: b1 :: _ => .ok ((ofLe16 b0 b1).toNat + 2)
  | _ => .error .bufferTooSmall

/-- The part of `deserialize_from` shared by the variable-length keys: the bytes and the total
length (/repo/src/alloc_impl.rs 24-36). -/
def lenPrefixedDe (buf : List Byte) : Except SerErr (List Byte × Nat) :=
  match lenPrefixedLen buf with
  | .error e => .error e
  | .ok total =>
    if buf.length < total then .error .bufferTooSmall
    else .ok ((buf.drop 2).take (total - 2), total)

/-- `Key for Vec<u8>`, `ArrayVec<u8, CAP>` and `heapless::Vec<u8, CAP>` (/repo/src/alloc_impl.rs
7-47, /repo/src/arrayvec_impl.rs 5-45, /repo/src/heapless_impl.rs 9-50): byte vectors of at most
`cap` bytes; `none` is `alloc`'s unbounded vector. -/
def vecKey (cap : Option Nat) : KeyCodec { l : List Byte // ∀ c ∈ cap, l.length ≤ c } where
  ser v len := lenPrefixedSer .bufferTooSmall v.1 len
  de buf :=
    match lenPrefixedDe buf with
    | .error e => .error e
    | .ok (bs, total) =>
      if h : ∀ c ∈ cap, bs.length ≤ c then .ok (⟨bs, h⟩, total) else .error .invalidFormat
  getLen := lenPrefixedLen

/-- The UTF-8 bytes of a string: `as_bytes` (/repo/src/alloc_impl.rs 70-113). -/
def utf8 (s : String) : List Byte := s.toByteArray.data.toList.map (fun b => b.toBitVec)

/-- `core::str::from_utf8` (/repo/src/alloc_impl.rs 70-113). -/
def ofUtf8 (bs : List Byte) : Option String :=
  String.fromUTF8? (ByteArray.mk (bs.map UInt8.ofBitVec).toArray)

/-- `Key for String`, `ArrayString<CAP>` and `heapless::String<CAP>` (/repo/src/alloc_impl.rs
70-113, /repo/src/arrayvec_impl.rs 47-90, /repo/src/heapless_impl.rs 74-118): strings of at most
`cap` bytes. `small` is the error for a buffer that is too small, see `lenPrefixedSer`. -/
def strKey (small : SerErr) (cap : Option Nat) :
    KeyCodec { s : String // ∀ c ∈ cap, (utf8 s).length ≤ c } where
  ser v len := lenPrefixedSer small (utf8 v.1) len
  de buf :=
    match lenPrefixedDe buf with
    | .error e => .error e
    | .ok (bs, total) =>
      match ofUtf8 bs with
      | none => .error .invalidFormat
      | some s =>
        if h : ∀ c ∈ cap, (utf8 s).length ≤ c then .ok (⟨s, h⟩, total) else .error .invalidFormat
  getLen := lenPrefixedLen

/-! ### Values -/

/-- `impl_map_item_num!` for a single number of `n` bytes (/repo/src/map.rs 1363-1386). -/
def numVal (n : Nat) : ValCodec (BitVec (8 * n)) where
  ser v len := fit (leBytes n v) len .bufferTooSmall
  de buf :=
    if buf.length < n then .error .bufferTooSmall else .ok (ofLeBytes n (buf.take n), n)

/-- The `chunks_exact(n).zip(array)` loop of the array decoder (/repo/src/map.rs 1409-1412). -/
def decodeNums (n : Nat) : (count : Nat) → List Byte → List (BitVec (8 * n))
  | 0, _ => []
  | count + 1, bs => ofLeBytes n (bs.take n) :: decodeNums n count (bs.drop n)

theorem decodeNums_length (n : Nat) : ∀ count bs, (decodeNums n count bs).length = count
  | 0, _ => rfl
  | count + 1, bs => by simp [decodeNums, decodeNums_length n count]

/-- `Value for [$num; N]` (/repo/src/map.rs 1389-1415) for `count` numbers of `n` bytes. -/
def numArrayVal (n count : Nat) : ValCodec { l : List (BitVec (8 * n)) // l.length = count } where
  ser v len := fit (v.1.flatMap (leBytes n)) len .bufferTooSmall
  de buf :=
    if buf.length < n * count then .error .bufferTooSmall
    else .ok (⟨decodeNums n count buf, decodeNums_length n count buf⟩, n * count)

/-- `Value for bool` (/repo/src/map.rs 1248-1260). -/
def boolVal : ValCodec Bool where
  ser v len := (numVal 1).ser (if v then 1#8 else 0#8) len
  de buf :=
    match (numVal 1).de buf with
    | .error e => .error e
    | .ok (b, size) => .ok (decide (b ≠ 0#8), size)

/-- `Value for Option<T>` (/repo/src/map.rs 1262-1295). -/
def optionVal {T : Type} (vc : ValCodec T) : ValCodec (Option T) where
  ser v len :=
    match v with
    | some x =>
      match boolVal.ser true len with
      | .error e => .error e
      | .ok tag =>
        match vc.ser x (len - tag.length) with
        | .error e => .error e
        | .ok bs => .ok (tag ++ bs)
    | none => boolVal.ser false len
  de buf :=
    match boolVal.de buf with
    | .error e => .error e
    | .ok (isSome, tagSize) =>
      if isSome then
        match vc.de (buf.drop tagSize) with
        | .error e => .error e
        | .ok (x, size) => .ok (some x, tagSize + size)
      else .ok (none, tagSize)

/-- `Value for &[u8]`, `Vec<u8>` and `heapless::Vec<u8, CAP>` (/repo/src/map.rs 1297-1312,
/repo/src/alloc_impl.rs 49-66, /repo/src/heapless_impl.rs 52-70). `full` is the error when the bytes
exceed the capacity. -/
def bytesVal (cap : Option Nat) : ValCodec { l : List Byte // ∀ c ∈ cap, l.length ≤ c } where
  ser v len := fit v.1 len .bufferTooSmall
  de buf :=
    if h : ∀ c ∈ cap, buf.length ≤ c then .ok (⟨buf, h⟩, buf.length) else .error .invalidFormat

/-- `Value for String` and `heapless::String<CAP>` (/repo/src/alloc_impl.rs 115-137,
/repo/src/heapless_impl.rs 120-142). -/
def strVal (cap : Option Nat) : ValCodec { s : String // ∀ c ∈ cap, (utf8 s).length ≤ c } where
  ser v len := fit (utf8 v.1) len .bufferTooSmall
  de buf :=
    match ofUtf8 buf with
    | none => .error .invalidFormat
    | some s =>
      if h : ∀ c ∈ cap, (utf8 s).length ≤ c then .ok (⟨s, h⟩, buf.length)
      else .error .bufferTooSmall

end Codec
end SeqStorage
