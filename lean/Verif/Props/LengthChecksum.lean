import Verif.Proofs.LengthChecksum
/-
How many flipped bits the checksum over the length of an item notices (C51).
-/

namespace SeqStorage.Props
open Spec

/-- The bits in which the length field and the checksum field of a header differ from those written for `h`. -/
def lenFlips (bs : List Byte) (h : Header) : Nat :=
  ones 16 (ofLe16 (bs.getD 4 0#8) (bs.getD 5 0#8) ^^^ h.len).toNat +
  ones 16 (ofLe16 (bs.getD 6 0#8) (bs.getD 7 0#8) ^^^ crc16 (le16 h.len)).toNat

theorem ones_zero : ∀ n, ones n 0 = 0
  | 0 => rfl
  | n + 1 => by rw [ones, ones_zero n]

theorem bytes_of (b0 b1 : Byte) : le16 (ofLe16 b0 b1) = [b0, b1] := by
  have hb : ∀ i, (ofLe16 b0 b1).getLsbD i = if i < 8 then b0.getLsbD i else b1.getLsbD (i - 8) := by
    intro i
    simp only [ofLe16, BitVec.getLsbD_append]
  have h0 : (ofLe16 b0 b1).setWidth 8 = b0 := by
    apply BitVec.eq_of_getLsbD_eq
    intro i hi
    rw [BitVec.getLsbD_setWidth, hb]
    simp [hi]
  have h1 : (ofLe16 b0 b1 >>> 8).setWidth 8 = b1 := by
    apply BitVec.eq_of_getLsbD_eq
    intro i hi
    rw [BitVec.getLsbD_setWidth, BitVec.getLsbD_ushiftRight, hb]
    simp [hi]
  rw [le16, h0, h1]

theorem decode_flipped {bs : List Byte} (hff : bs.getD 0 0#8 ≠ 0xff#8) (h8 : 8 ≤ bs.length)
    (hne : crc16 [bs.getD 4 0#8, bs.getD 5 0#8] ≠ ofLe16 (bs.getD 6 0#8) (bs.getD 7 0#8)) :
    decodeHeader bs = .error .corrupted := by
  have hall : ¬ bs.all (· == 0xff#8) = true := by
    intro ha
    rw [List.all_eq_true] at ha
    apply hff
    have := ha bs[0] (List.getElem_mem (by omega))
    rw [List.getD_eq_getElem?_getD, List.getElem?_eq_getElem (by omega), Option.getD_some]
    simpa using this
  unfold decodeHeader
  rw [if_neg hall]
  exact if_pos hne

/-- C51, as far as it goes. One or two flipped bits in the length of an item and its checksum are always
noticed; so are three, unless a checksum is the `0xfffe` that stands for two values. The statement in full, with up to
five flipped bits as the named polynomial offers, is refuted by `four_flips_unnoticed`. -/
theorem flipped_length_noticed_partial {bs : List Byte} {h : Header} (h8 : 8 ≤ bs.length) (hff : bs.getD 0 0#8 ≠ 0xff#8)
    (h1 : 1 ≤ lenFlips bs h)
    (h3 : lenFlips bs h ≤ 2 ∨ (lenFlips bs h ≤ 3 ∧ crc16 (le16 h.len) ≠ 0xfffe#16 ∧
      ofLe16 (bs.getD 6 0#8) (bs.getD 7 0#8) ≠ 0xfffe#16)) :
    decodeHeader bs = .error .corrupted := by
  refine decode_flipped hff h8 (fun he => ?_)
  rw [← bytes_of] at he
  unfold lenFlips at h1 h3
  rw [← he] at h1 h3
  by_cases hl : ofLe16 (bs.getD 4 0#8) (bs.getD 5 0#8) = h.len
  · rw [hl, BitVec.xor_self, BitVec.xor_self] at h1
    simp only [BitVec.toNat_zero, ones_zero] at h1
    omega
  · have hf := crc16_far hl
    rcases h3 with h3 | ⟨h3, ha, hb⟩
    · omega
    · have := hf.2 hb ha
      omega

/-- C51 is false: four flipped bits can turn the header of an item of length 0 into one of length 529. -/
theorem four_flips_unnoticed : ∃ (bs : List Byte) (h h' : Header), bs.length = 8 ∧ bs.getD 0 0#8 ≠ 0xff#8 ∧
    decodeHeader bs = .ok (some h') ∧ lenFlips bs h = 4 ∧ h.len = 0#16 ∧ h'.len = 529#16 :=
  ⟨[1#8, 2#8, 3#8, 4#8, 0x11#8, 0x02#8, 0x01#8, 0xe2#8], ⟨0#16, 0x04030201#32⟩, ⟨529#16, 0x04030201#32⟩, by decide +kernel⟩

/-- With the value `0xfffe` standing for two, three are enough. -/
theorem three_flips_unnoticed : ∃ (bs : List Byte) (h h' : Header), bs.length = 8 ∧ bs.getD 0 0#8 ≠ 0xff#8 ∧
    decodeHeader bs = .ok (some h') ∧ lenFlips bs h = 3 ∧ h.len = 6870#16 ∧ h'.len = 4694#16 :=
  ⟨[1#8, 2#8, 3#8, 4#8, 0x56#8, 0x12#8, 0xfe#8, 0xfe#8], ⟨6870#16, 0x04030201#32⟩, ⟨4694#16, 0x04030201#32⟩, by decide +kernel⟩

/-- The polynomial the comment names would notice any five flipped bits: the remainders of two different lengths
differ so much. -/
theorem named_polynomial_notices_five {e : Nat} (he : e < 65536) (h0 : e ≠ 0) :
    6 ≤ ones 16 e + ones 16 (checkOf crc16F42 e) := far_of far_named he h0

/-- The code's polynomial is another one: the constant lacks the last digit. Its top three bits are zero, so three
bits of every checksum are the same. -/
theorem length_checksum_top_bits (l : BitVec 16) : crc16 (le16 l) &&& 0xe000#16 = 0xe000#16 := by
  have hr : ∀ (k c : Nat), 13 ≤ k → c < 2 ^ (k + 1) → lenRound c < 2 ^ k := by
    intro k c hk hc
    rw [Nat.pow_succ] at hc
    unfold lenRound
    cases Nat.beq (Nat.mod c 2) 1 with
    | false => exact Nat.div_lt_of_lt_mul (by omega)
    | true =>
      refine Nat.xor_lt_two_pow (Nat.div_lt_of_lt_mul (by omega)) ?_
      exact Nat.lt_of_lt_of_le (by decide : 0x1a2e < 2 ^ 13) (Nat.pow_le_pow_right (by omega) hk)
  have hs : ∀ c, c < 2 ^ 13 → lenRound c < 2 ^ 13 := fun c hc => hr 13 c (Nat.le_refl _) (by rw [Nat.pow_succ]; omega)
  have hlt : (iter crc16Round 16 l).toNat < 2 ^ 13 := by
    rw [← lenRounds_eq]
    unfold lenRounds
    iterate 13 refine hs _ ?_
    exact hr 13 _ (by omega) (hr 14 _ (by omega) (hr 15 _ (by omega) l.isLt))
  have hbit : ∀ i, 13 ≤ i → (iter crc16Round 16 l).getLsbD i = false := by
    intro i hi
    rw [← BitVec.testBit_toNat]
    exact Nat.testBit_lt_two_pow (Nat.lt_of_lt_of_le hlt (Nat.pow_le_pow_right (by omega) hi))
  have hraw : rawCrc16 l &&& 0xe000#16 = 0xe000#16 := by
    have e0 : rawCrc16 0#16 &&& 0xe000#16 = 0xe000#16 := by decide
    rw [raw_eq]
    apply BitVec.eq_of_getLsbD_eq
    intro i hi
    rw [BitVec.getLsbD_and, BitVec.getLsbD_xor]
    rcases Nat.lt_or_ge i 13 with h | h
    · have : (0xe000#16).getLsbD i = false := by
        have : ∀ i : Fin 13, (0xe000#16).getLsbD i = false := by decide
        exact this ⟨i, h⟩
      rw [this, Bool.and_false]
    · rw [hbit i h, Bool.false_xor, ← BitVec.getLsbD_and, e0]
  rw [crc16_raw]
  split
  · decide
  · exact hraw

/-- And every checksum belongs to eight lengths. -/
theorem length_checksum_shared (l : BitVec 16) :
    crc16 (le16 (l ^^^ 0x345d#16)) = crc16 (le16 l) ∧ crc16 (le16 (l ^^^ 0x5ce7#16)) = crc16 (le16 l) ∧
    crc16 (le16 (l ^^^ 0x8d93#16)) = crc16 (le16 l) := by
  have h : ∀ d, iter crc16Round 16 d = 0#16 → crc16 (le16 (l ^^^ d)) = crc16 (le16 l) := by
    intro d hd
    have := raw_diff (l ^^^ d) l
    have e : l ^^^ d ^^^ l = d := by rw [BitVec.xor_comm l, BitVec.xor_assoc, BitVec.xor_self, BitVec.xor_zero]
    rw [e, hd] at this
    have he : rawCrc16 (l ^^^ d) = rawCrc16 l := by
      have := congrArg (· ^^^ rawCrc16 l) this
      simpa [BitVec.xor_assoc] using this
    rw [crc16_raw, crc16_raw, he]
  exact ⟨h _ (by decide), h _ (by decide), h _ (by decide)⟩

/-- A stored item of length 3 with two flipped bits in its length field: 0x0003 becomes 0x0103, and the
checksum's lowest bit flips. -/
example : decodeHeader [0x61#8, 0x30#8, 0x81#8, 0xea#8, 0x03#8, 0x01#8, 0xb7#8, 0xe0#8] = .error .corrupted :=
  flipped_length_noticed_partial (h := Header.ofData [1#8, 2#8, 3#8]) (by decide) (by decide) (by decide +kernel)
    (Or.inl (by decide +kernel))

end SeqStorage.Props
