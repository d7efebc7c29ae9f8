import Verif.Proofs.Header
import Verif.Spec.Parity
/-
The length checksum is linear up to the one value it avoids.
-/

namespace SeqStorage

open Spec

/-- `f` holds for all numbers `b + p * y` where `y` has `n` bits and at most `k` of them are ones. -/
def allFew (f : Nat → Bool) : (n k b p : Nat) → Bool
  | 0, _, b, _ => f b
  | n + 1, 0, b, p => allFew f n 0 b (Nat.mul p 2)
  | n + 1, k + 1, b, p => allFew f n (k + 1) b (Nat.mul p 2) && allFew f n k (Nat.add b p) (Nat.mul p 2)

theorem allFew_spec {f : Nat → Bool} : ∀ {n k b p : Nat}, allFew f n k b p = true → ∀ y, y < 2 ^ n → ones n y ≤ k →
    f (b + p * y) = true
  | 0, k, b, p, h, y, hy, _ => by
    have : y = 0 := by simpa using hy
    subst this
    cases k <;> simpa [allFew] using h
  | n + 1, k, b, p, h, y, hy, ho => by
    rw [Nat.pow_succ] at hy
    rw [ones] at ho
    have e : p * y = p * (y % 2) + p * 2 * (y / 2) := by
      rw [Nat.mul_assoc, ← Nat.mul_add, Nat.mod_add_div]
    rcases Nat.mod_two_eq_zero_or_one y with h0 | h1
    · rw [h0] at ho e
      have hc : allFew f n k b (p * 2) = true := by
        cases k with
        | zero => rw [allFew] at h; exact h
        | succ k => rw [allFew, Bool.and_eq_true] at h; exact h.1
      have := allFew_spec hc (y / 2) (by omega) (by omega)
      rwa [e, Nat.mul_zero, Nat.zero_add]
    · rw [h1] at ho e
      cases k with
      | zero => omega
      | succ k =>
        rw [allFew, Bool.and_eq_true] at h
        have := allFew_spec h.2 (y / 2) (by omega) (by omega)
        rw [e, Nat.mul_one, ← Nat.add_assoc]
        exact this

theorem allFew_all {f : Nat → Bool} {n k : Nat} (h : allFew f n k 0 1 = true) {y : Nat} (hy : y < 2 ^ n) (ho : ones n y ≤ k) :
    f y = true := by
  have := allFew_spec h y hy ho
  rwa [Nat.one_mul, Nat.zero_add] at this

/-- `crc16Round` on natural numbers. -/
def lenRound (c : Nat) : Nat := bif Nat.beq (Nat.mod c 2) 1 then Nat.xor (Nat.div c 2) 0x1a2e else Nat.div c 2

/-- Sixteen rounds. -/
def lenRounds (c : Nat) : Nat :=
  lenRound (lenRound (lenRound (lenRound (lenRound (lenRound (lenRound (lenRound
    (lenRound (lenRound (lenRound (lenRound (lenRound (lenRound (lenRound (lenRound c)))))))))))))))

/-! All changes of at most three and of at most five bits of the length, by evaluation in the kernel. -/

set_option maxRecDepth 100000 in
theorem far_used : allFew (fun e => Nat.beq e 0 || Nat.ble 4 (Nat.add (ones 16 e) (ones 16 (lenRounds e)))) 16 3 0 1 = true := by
  decide +kernel

set_option maxRecDepth 100000 in
theorem far_named : allFew (fun e => Nat.beq e 0 || Nat.ble 6 (Nat.add (ones 16 e) (ones 16 (checkOf crc16F42 e)))) 16 5 0 1 = true := by
  decide +kernel

theorem far_of {f : Nat → Nat} {k : Nat}
    (h : allFew (fun e => Nat.beq e 0 || Nat.ble (k + 1) (Nat.add (ones 16 e) (ones 16 (f e)))) 16 k 0 1 = true)
    {e : Nat} (he : e < 65536) (h0 : e ≠ 0) : k + 1 ≤ ones 16 e + ones 16 (f e) := by
  rcases Nat.lt_or_ge k (ones 16 e) with hk | hk
  · omega
  · have := allFew_all h (y := e) he hk
    rw [Bool.or_eq_true] at this
    rcases this with h1 | h1
    · exact absurd (Nat.eq_of_beq_eq_true h1) h0
    · exact Nat.le_of_ble_eq_true h1

theorem low_bit (z : BitVec 16) : (z &&& 1#16 = 1#16) ↔ z.getLsbD 0 = true := by
  constructor
  · intro h
    have := congrArg (fun v => BitVec.getLsbD v 0) h
    simpa using this
  · intro h
    apply BitVec.eq_of_getLsbD_eq
    intro i hi
    simp only [BitVec.getLsbD_and]
    by_cases h0 : i = 0
    · subst h0; rw [h, Bool.true_and]
    · have : (1#16).getLsbD i = false := by
        simp [BitVec.getLsbD_one]; omega
      rw [this, Bool.and_false]

theorem round16_xor (x y : BitVec 16) : crc16Round (x ^^^ y) = crc16Round x ^^^ crc16Round y := by
  unfold crc16Round
  simp only [low_bit, BitVec.getLsbD_xor]
  cases x.getLsbD 0 <;> cases y.getLsbD 0 <;> simp [BitVec.ushiftRight_xor_distrib]
  · rw [← BitVec.xor_assoc]
  · rw [BitVec.xor_assoc, BitVec.xor_assoc]; congr 1; rw [BitVec.xor_comm]
  · rw [BitVec.xor_assoc]; congr 1; rw [← BitVec.xor_assoc, BitVec.xor_comm _ (y >>> 1), BitVec.xor_assoc]; simp

theorem lenRound_eq (c : BitVec 16) : lenRound c.toNat = (crc16Round c).toNat := by
  have hdiv : (c >>> 1).toNat = c.toNat / 2 := by
    rw [BitVec.toNat_ushiftRight, Nat.shiftRight_eq_div_pow]
  have hmod : (c &&& 1#16 = 1#16) ↔ c.toNat % 2 = 1 := by
    rw [← BitVec.toNat_inj, BitVec.toNat_and]
    simp [Nat.and_one_is_mod]
  unfold crc16Round lenRound
  by_cases h : c.toNat % 2 = 1
  · rw [if_pos (hmod.2 h), show Nat.beq (Nat.mod c.toNat 2) 1 = true from by rw [show Nat.mod c.toNat 2 = 1 from h]; rfl, cond_true, BitVec.toNat_xor, hdiv]
    rfl
  · rw [if_neg (fun h' => h (hmod.1 h')),
      show Nat.beq (Nat.mod c.toNat 2) 1 = false from by rw [Bool.eq_false_iff]; intro h'; exact h (Nat.eq_of_beq_eq_true h'),
      cond_false, hdiv]
    rfl

theorem lenRounds_eq (c : BitVec 16) : lenRounds c.toNat = (iter crc16Round 16 c).toNat := by
  simp only [lenRounds, iter, lenRound_eq]

theorem iter16_xor (x y : BitVec 16) : iter crc16Round 8 (x ^^^ y) = iter crc16Round 8 x ^^^ iter crc16Round 8 y := by
  simp only [iter, round16_xor]

/-- The low byte. -/
def loOf (l : BitVec 16) : BitVec 16 := (l.setWidth 8 : Byte).setWidth 16
/-- The high byte. -/
def hiOf (l : BitVec 16) : BitVec 16 := ((l >>> 8).setWidth 8 : Byte).setWidth 16

theorem split_bytes (l : BitVec 16) : l = loOf l ^^^ hiOf l <<< 8 := by
  apply BitVec.eq_of_getLsbD_eq
  intro i hi
  rw [loOf, hiOf, BitVec.getLsbD_xor, BitVec.getLsbD_shiftLeft, BitVec.getLsbD_setWidth, BitVec.getLsbD_setWidth,
    BitVec.getLsbD_setWidth, BitVec.getLsbD_setWidth, BitVec.getLsbD_ushiftRight]
  by_cases h : i < 8
  · simp [h, hi]
  · simp [h, hi, show i - 8 < 8 from by omega, show i - 8 < 16 from by omega, show 8 + (i - 8) = i from by omega]

theorem high_byte (b : Byte) : iter crc16Round 8 (b.setWidth 16 <<< 8) = b.setWidth 16 := by
  revert b; decide +kernel

/-- The checksum before the value `0xffff` is avoided. -/
def rawCrc16 (l : BitVec 16) : BitVec 16 := (le16 l).foldl crc16Byte 0xffff#16 ^^^ 0xffff#16

theorem crc16_raw (l : BitVec 16) : crc16 (le16 l) = if rawCrc16 l = 0xffff#16 then 0xfffe#16 else rawCrc16 l := rfl

theorem xor_swap {n : Nat} (a b c d : BitVec n) : (a ^^^ b) ^^^ (c ^^^ d) = (a ^^^ c) ^^^ (b ^^^ d) := by
  rw [BitVec.xor_assoc, BitVec.xor_assoc, ← BitVec.xor_assoc b, BitVec.xor_comm b c, BitVec.xor_assoc c]

theorem raw_eq (l : BitVec 16) : rawCrc16 l = iter crc16Round 16 l ^^^ rawCrc16 0#16 := by
  have h1 : rawCrc16 l = iter crc16Round 8 (iter crc16Round 8 (0xffff#16 ^^^ loOf l) ^^^ hiOf l) ^^^ 0xffff#16 := rfl
  have h2 : rawCrc16 0#16 = iter crc16Round 8 (iter crc16Round 8 0xffff#16) ^^^ 0xffff#16 := by decide
  have h3 : ∀ x, iter crc16Round 16 x = iter crc16Round 8 (iter crc16Round 8 x) := fun x => rfl
  have h4 : iter crc16Round 8 (hiOf l <<< 8) = hiOf l := high_byte _
  rw [h1, h2, h3, ← BitVec.xor_assoc]
  congr 1
  have e := congrArg (iter crc16Round 8) (split_bytes l)
  rw [iter16_xor, h4] at e
  rw [e, iter16_xor 0xffff#16, BitVec.xor_assoc, iter16_xor, BitVec.xor_comm]

theorem raw_diff (l l' : BitVec 16) : rawCrc16 l ^^^ rawCrc16 l' = iter crc16Round 16 (l ^^^ l') := by
  rw [raw_eq l, raw_eq l', xor_swap, BitVec.xor_self, BitVec.xor_zero]
  simp only [iter, round16_xor]

theorem ones_one (x : Nat) : ∀ n, ones n x ≤ ones n (x ^^^ 1) + 1
  | 0 => by simp [ones]
  | n + 1 => by
    have e : (x ^^^ 1) / 2 = x / 2 := by
      have := Nat.shiftRight_xor_distrib (a := x) (b := 1) (i := 1)
      simpa [Nat.shiftRight_eq_div_pow] using this
    rw [ones, ones, e]
    omega

/-- How far the checksums of two lengths are apart. -/
theorem raw_far {l l' : BitVec 16} (h : l ≠ l') :
    4 ≤ ones 16 (l ^^^ l').toNat + ones 16 (rawCrc16 l ^^^ rawCrc16 l').toNat := by
  rw [raw_diff, ← lenRounds_eq]
  refine far_of far_used (l ^^^ l').isLt (fun h0 => h ?_)
  have : l ^^^ l' = 0#16 := BitVec.eq_of_toNat_eq h0
  have := congrArg (· ^^^ l') this
  simpa [BitVec.xor_assoc] using this

theorem xor_one (a b : BitVec 16) : ((a ^^^ 1#16) ^^^ b) = (a ^^^ b) ^^^ 1#16 := by
  rw [BitVec.xor_assoc, BitVec.xor_comm 1#16, BitVec.xor_assoc]

theorem crc16_far {l l' : BitVec 16} (h : l ≠ l') :
    3 ≤ ones 16 (l ^^^ l').toNat + ones 16 (crc16 (le16 l) ^^^ crc16 (le16 l')).toNat ∧
    (crc16 (le16 l) ≠ 0xfffe#16 → crc16 (le16 l') ≠ 0xfffe#16 →
      4 ≤ ones 16 (l ^^^ l').toNat + ones 16 (crc16 (le16 l) ^^^ crc16 (le16 l')).toNat) := by
  have hf := raw_far h
  rw [crc16_raw, crc16_raw]
  by_cases h1 : rawCrc16 l = 0xffff#16 <;> by_cases h2 : rawCrc16 l' = 0xffff#16
  · rw [if_pos h1, if_pos h2]
    rw [h1, h2] at hf
    have e : ones 16 (0xffff#16 ^^^ 0xffff#16).toNat = ones 16 (0xfffe#16 ^^^ 0xfffe#16).toNat := by decide
    rw [e] at hf
    exact ⟨by omega, fun _ _ => hf⟩
  · rw [if_pos h1, if_neg h2]
    refine ⟨?_, fun h => absurd rfl h⟩
    have e : 0xfffe#16 ^^^ rawCrc16 l' = (rawCrc16 l ^^^ rawCrc16 l') ^^^ 1#16 := by
      rw [← xor_one, h1]; rfl
    have := ones_one (rawCrc16 l ^^^ rawCrc16 l').toNat 16
    rw [e, BitVec.toNat_xor (_ ^^^ _) 1#16]
    have e1 : (1#16).toNat = 1 := rfl
    rw [e1]
    omega
  · rw [if_neg h1, if_pos h2]
    refine ⟨?_, fun _ h => absurd rfl h⟩
    have e : rawCrc16 l ^^^ 0xfffe#16 = (rawCrc16 l ^^^ rawCrc16 l') ^^^ 1#16 := by
      rw [BitVec.xor_assoc, h2]; rfl
    have := ones_one (rawCrc16 l ^^^ rawCrc16 l').toNat 16
    rw [e, BitVec.toNat_xor (_ ^^^ _) 1#16]
    have e1 : (1#16).toNat = 1 := rfl
    rw [e1]
    omega
  · rw [if_neg h1, if_neg h2]
    exact ⟨by omega, fun _ _ => hf⟩
end SeqStorage
