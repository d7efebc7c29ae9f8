import Verif.Model.Codec
/-
C21, C22: the built-in keys and values survive the round trip.
-/

namespace SeqStorage.Props
open Codec

/-! ### Specification -/

/-- What a lawful key serializer does: it writes the same bytes whatever the buffer size, fails
exactly when the buffer is shorter than that, and reading back those bytes followed by anything gives
the key and their number; `get_len` agrees. -/
def KeyRoundTrip {K : Type} (kc : KeyCodec K) (valid : K → Prop) : Prop :=
  ∀ k, valid k → ∃ bs : List Byte,
    (∀ n, (bs.length ≤ n → kc.ser k n = .ok bs) ∧ (n < bs.length → ∃ e, kc.ser k n = .error e)) ∧
    (∀ rest, kc.de (bs ++ rest) = .ok (k, bs.length) ∧ kc.getLen (bs ++ rest) = .ok bs.length)

/-- What a lawful value serializer does: it fits any buffer that is large enough and reading back
exactly those bytes gives the value and uses all of them. -/
def ValRoundTrip {V : Type} (vc : ValCodec V) : Prop :=
  ∀ v, ∃ bs : List Byte,
    (∀ n, (bs.length ≤ n → vc.ser v n = .ok bs) ∧ (n < bs.length → ∃ e, vc.ser v n = .error e)) ∧
    vc.de bs = .ok (v, bs.length)

/-! ### Numbers -/

theorem leBytes_length (n : Nat) (v : BitVec (8 * n)) : (leBytes n v).length = n := by
  simp [leBytes]

theorem natOfLe_range (x : Nat) : ∀ n, natOfLe ((List.range n).map fun i => BitVec.ofNat 8 (x >>> (8 * i))) = x % 2 ^ (8 * n) := by
  intro n
  induction n generalizing x with
  | zero => simp [natOfLe]; omega
  | succ n ih =>
    rw [List.range_succ_eq_map, List.map_cons, List.map_map, natOfLe]
    have h := ih (x >>> 8)
    have e : (List.range n).map ((fun i => BitVec.ofNat 8 (x >>> (8 * i))) ∘ Nat.succ) =
        (List.range n).map fun i => BitVec.ofNat 8 ((x >>> 8) >>> (8 * i)) := by
      apply List.map_congr_left
      intro i _
      simp only [Function.comp, ← Nat.shiftRight_add]
      congr 2; omega
    rw [e, h]
    simp only [Nat.mul_zero, Nat.shiftRight_zero, BitVec.toNat_ofNat]
    rw [show 8 * (n + 1) = 8 + 8 * n from by omega, Nat.pow_add, Nat.shiftRight_eq_div_pow, Nat.mod_mul]

theorem ofLeBytes_leBytes (n : Nat) (v : BitVec (8 * n)) : ofLeBytes n (leBytes n v) = v := by
  apply BitVec.eq_of_toNat_eq
  have e : leBytes n v = (List.range n).map fun i => BitVec.ofNat 8 (v.toNat >>> (8 * i)) := by
    apply List.map_congr_left
    intro i _
    apply BitVec.eq_of_toNat_eq
    simp
  rw [ofLeBytes, e, natOfLe_range]
  simp [Nat.mod_eq_of_lt v.isLt]

theorem fit_ok {bs : List Byte} {n : Nat} {e : SerErr} (h : bs.length ≤ n) : fit bs n e = .ok bs := by
  simp [fit, Nat.not_lt.2 h]

theorem fit_err {bs : List Byte} {n : Nat} {e : SerErr} (h : n < bs.length) : fit bs n e = .error e := by
  simp [fit, h]

theorem fit_spec (bs : List Byte) (e : SerErr) (n : Nat) :
    (bs.length ≤ n → fit bs n e = .ok bs) ∧ (n < bs.length → ∃ e', fit bs n e = .error e') :=
  ⟨fit_ok, fun h => ⟨e, fit_err h⟩⟩

/-! ### Keys -/

/-- **C21** for integer keys of any width. -/
theorem num_key_round_trip (n : Nat) : KeyRoundTrip (numKey n) (fun _ => True) := by
  intro v _
  refine ⟨leBytes n v, fit_spec _ _, ?_⟩
  intro rest
  have hl := leBytes_length n v
  refine ⟨?_, by simp [numKey, hl]⟩
  simp only [numKey, List.length_append, hl]
  rw [if_neg (by omega), List.take_left' hl, ofLeBytes_leBytes]

/-- **C21** for `[u8; N]` keys. -/
theorem array_key_round_trip (n : Nat) : KeyRoundTrip (arrayKey n) (fun _ => True) := by
  rintro ⟨l, hl⟩ _
  refine ⟨l, fit_spec _ _, ?_⟩
  intro rest
  subst hl
  refine ⟨?_, by simp [arrayKey]⟩
  simp [arrayKey]

/-- **C21** for the unit key. -/
theorem unit_key_round_trip : KeyRoundTrip unitKey (fun _ => True) := by
  intro v _
  refine ⟨[], ?_, ?_⟩
  · intro n; simp [unitKey]
  · intro rest; simp [unitKey]

theorem ofLe16_le16 (x : BitVec 16) : ofLe16 (x.setWidth 8) ((x >>> 8).setWidth 8) = x := by
  apply BitVec.eq_of_getLsbD_eq
  intro i hi
  simp only [ofLe16, BitVec.getLsbD_append, BitVec.getLsbD_setWidth, BitVec.getLsbD_ushiftRight]
  by_cases h : i < 8
  · simp [h]
  · simp [h, show 8 + (i - 8) = i from by omega, show i - 8 < 8 from by omega]

theorem lenPrefixed_spec (small : SerErr) (bs : List Byte) (h : bs.length ≤ 65535) :
    (∀ n, ((le16 (BitVec.ofNat 16 bs.length) ++ bs).length ≤ n →
        lenPrefixedSer small bs n = .ok (le16 (BitVec.ofNat 16 bs.length) ++ bs)) ∧
      (n < (le16 (BitVec.ofNat 16 bs.length) ++ bs).length → ∃ e, lenPrefixedSer small bs n = .error e)) ∧
    ∀ rest, lenPrefixedDe (le16 (BitVec.ofNat 16 bs.length) ++ bs ++ rest) = .ok (bs, bs.length + 2) ∧
      lenPrefixedLen (le16 (BitVec.ofNat 16 bs.length) ++ bs ++ rest) = .ok (bs.length + 2) := by
  have hl : (le16 (BitVec.ofNat 16 bs.length) ++ bs).length = bs.length + 2 := by simp [le16]
  constructor
  · intro n
    rw [hl]
    simp only [lenPrefixedSer, Nat.not_lt.2 h, if_false]
    refine ⟨fun hn => ?_, fun hn => ⟨small, ?_⟩⟩
    · rw [if_neg (by omega)]
    · rw [if_pos (by omega)]
  · intro rest
    have h2 : lenPrefixedLen (le16 (BitVec.ofNat 16 bs.length) ++ bs ++ rest) = .ok (bs.length + 2) := by
      simp only [le16, List.cons_append, List.nil_append, lenPrefixedLen, ofLe16_le16]
      simp; omega
    refine ⟨?_, h2⟩
    simp only [lenPrefixedDe, h2]
    rw [if_neg (by simp [le16])]
    simp [le16]

/-- **C21** for `Vec<u8>`, `ArrayVec<u8, CAP>` and `heapless::Vec<u8, CAP>` keys of at most 65535
bytes; longer ones are refused, see `vec_key_too_long`. -/
theorem vec_key_round_trip (cap : Option Nat) :
    KeyRoundTrip (vecKey cap) (fun k => k.1.length ≤ 65535) := by
  rintro ⟨l, hc⟩ hl
  obtain ⟨h1, h2⟩ := lenPrefixed_spec .bufferTooSmall l hl
  refine ⟨_, h1, ?_⟩
  intro rest
  refine ⟨?_, ?_⟩
  · simp only [vecKey, (h2 rest).1]
    rw [dif_pos hc]; simp [le16]
  · simp only [vecKey, (h2 rest).2]; simp [le16]

/-- A vector key that does not fit its 16-bit length field is refused whatever the buffer. -/
theorem vec_key_too_long (cap : Option Nat) (k) (h : k.1.length > 65535) (n : Nat) :
    (vecKey cap).ser k n = .error .invalidData := by
  simp [vecKey, lenPrefixedSer, h]

theorem ofUtf8_utf8 (s : String) : ofUtf8 (utf8 s) = some s := by
  have h : (ByteArray.mk ((utf8 s).map UInt8.ofBitVec).toArray) = s.toByteArray := by
    simp only [utf8, List.map_map]
    have : (UInt8.ofBitVec ∘ fun b : UInt8 => b.toBitVec) = id := by
      funext b; rfl
    rw [this, List.map_id]
  rw [ofUtf8, h, String.fromUTF8?, dif_pos s.isValidUTF8]
  rfl

/-- **C21** for `String`, `ArrayString<CAP>` and `heapless::String<CAP>` keys. -/
theorem str_key_round_trip (small : SerErr) (cap : Option Nat) :
    KeyRoundTrip (strKey small cap) (fun k => (utf8 k.1).length ≤ 65535) := by
  rintro ⟨s, hc⟩ hl
  obtain ⟨h1, h2⟩ := lenPrefixed_spec small (utf8 s) hl
  refine ⟨_, h1, ?_⟩
  intro rest
  refine ⟨?_, ?_⟩
  · simp only [strKey, (h2 rest).1, ofUtf8_utf8]
    rw [dif_pos hc]; simp [le16]
  · simp only [strKey, (h2 rest).2]; simp [le16]

/-- A key longer than a word, a string key and a too small buffer. -/
example :
    (numKey 4).ser 0xdeadbeef#32 4 = .ok [0xef#8, 0xbe#8, 0xad#8, 0xde#8] ∧
    (numKey 4).ser 0xdeadbeef#32 3 = .error .bufferTooSmall ∧
    (vecKey (some 3)).ser ⟨[7#8, 8#8], by simp⟩ 9 = .ok [2#8, 0#8, 7#8, 8#8] := by decide

/-! ### Values -/

/-- **C22** for numbers (integers, and floats as their bits). -/
theorem num_val_round_trip (n : Nat) : ValRoundTrip (numVal n) := by
  intro v
  refine ⟨leBytes n v, fit_spec _ _, ?_⟩
  have hl := leBytes_length n v
  simp only [numVal, hl]
  rw [if_neg (by omega), List.take_of_length_le (by omega), ofLeBytes_leBytes]

theorem decodeNums_flatMap (n : Nat) : ∀ l : List (BitVec (8 * n)),
    decodeNums n l.length (l.flatMap (leBytes n)) = l
  | [] => rfl
  | v :: l => by
    have hl := leBytes_length n v
    simp only [List.length_cons, decodeNums, List.flatMap_cons]
    rw [List.take_left' hl, List.drop_left' hl, ofLeBytes_leBytes, decodeNums_flatMap n l]

theorem flatMap_leBytes_length (n : Nat) : ∀ l : List (BitVec (8 * n)),
    (l.flatMap (leBytes n)).length = n * l.length
  | [] => by simp
  | v :: l => by
    rw [List.flatMap_cons, List.length_append, leBytes_length, flatMap_leBytes_length n l,
      List.length_cons, Nat.mul_add]
    omega

/-- **C22** for arrays of numbers. -/
theorem num_array_val_round_trip (n count : Nat) : ValRoundTrip (numArrayVal n count) := by
  rintro ⟨l, rfl⟩
  refine ⟨l.flatMap (leBytes n), fit_spec _ _, ?_⟩
  simp only [numArrayVal, flatMap_leBytes_length, Nat.lt_irrefl, if_false, decodeNums_flatMap]

/-- **C22** for `bool`. -/
theorem bool_val_round_trip : ValRoundTrip boolVal := by
  intro v
  refine ⟨[if v then 1#8 else 0#8], ?_, ?_⟩
  · intro n
    have e : leBytes 1 (if v then 1#8 else 0#8) = [if v then 1#8 else 0#8] := by
      cases v <;> decide
    have := fit_spec (leBytes 1 (if v then 1#8 else 0#8)) .bufferTooSmall n
    simp only [boolVal, numVal]
    rw [e] at this ⊢
    exact this
  · cases v <;> decide

/-- **C22** for `Option` of any value that survives the round trip, so for arbitrarily nested ones. -/
theorem option_val_round_trip {V : Type} (vc : ValCodec V) (h : ValRoundTrip vc) :
    ValRoundTrip (optionVal vc) := by
  intro v
  have hb : ∀ b n, boolVal.ser b n = if n < 1 then .error .bufferTooSmall else .ok [if b then 1#8 else 0#8] := by
    intro b n
    have e : leBytes 1 (if b then 1#8 else 0#8) = [if b then 1#8 else 0#8] := by
      cases b <;> decide
    simp only [boolVal, numVal, fit]
    rw [e]; rfl
  have hd : ∀ (b : Bool) rest, boolVal.de ((if b then 1#8 else 0#8) :: rest) = .ok (b, 1) := by
    intro b rest
    cases b <;> simp [boolVal, numVal, ofLeBytes, natOfLe]
  cases v with
  | none =>
    refine ⟨[0#8], ?_, ?_⟩
    · intro n
      simp only [optionVal, hb, List.length_singleton]
      refine ⟨fun h => ?_, fun h => ⟨.bufferTooSmall, ?_⟩⟩
      · rw [if_neg (by omega)]; rfl
      · rw [if_pos (by omega)]
    · have := hd false []
      simp only [Bool.false_eq_true, if_false] at this
      simp [optionVal, this]
  | some x =>
    obtain ⟨bs, h1, h2⟩ := h x
    refine ⟨1#8 :: bs, ?_, ?_⟩
    · intro n
      simp only [optionVal, hb, List.length_cons]
      by_cases hn : n < 1
      · rw [if_pos hn]
        exact ⟨fun _ => by omega, fun _ => ⟨_, rfl⟩⟩
      · rw [if_neg hn]
        simp only [if_true, List.length_singleton]
        refine ⟨fun hh => ?_, fun hh => ?_⟩
        · rw [(h1 (n - 1)).1 (by omega)]; rfl
        · obtain ⟨e, he⟩ := (h1 (n - 1)).2 (by omega)
          exact ⟨e, by rw [he]⟩
    · have := hd true bs
      simp only [if_true] at this
      simp only [optionVal, this, if_true, List.drop_one, List.tail_cons, h2, List.length_cons]
      rw [Nat.add_comm]

/-- **C22** for `&[u8]`, `Vec<u8>` and `heapless::Vec<u8, CAP>`. -/
theorem bytes_val_round_trip (cap : Option Nat) : ValRoundTrip (bytesVal cap) := by
  rintro ⟨l, hl⟩
  refine ⟨l, fit_spec _ _, ?_⟩
  simp only [bytesVal]
  rw [dif_pos hl]

/-- **C22** for `String` and `heapless::String<CAP>`. -/
theorem str_val_round_trip (cap : Option Nat) : ValRoundTrip (strVal cap) := by
  rintro ⟨s, hs⟩
  refine ⟨utf8 s, fit_spec _ _, ?_⟩
  simp only [strVal, ofUtf8_utf8]
  rw [dif_pos hs]

/-- A nested option of a number, its bytes and back. -/
example :
    (optionVal (optionVal (numVal 2))).ser (some (some 0x1234#16)) 4 = .ok [1#8, 1#8, 0x34#8, 0x12#8] ∧
    (optionVal (optionVal (numVal 2))).de [1#8, 1#8, 0x34#8, 0x12#8] = .ok (some (some 0x1234#16), 4) ∧
    (optionVal (optionVal (numVal 2))).ser (some (some 0x1234#16)) 3 = .error .bufferTooSmall := by decide

end SeqStorage.Props
