import Verif.Model.Crc
/-
C26: blank flash never carries a valid checksum.
-/

namespace SeqStorage.Props

/-- `crc32Round` on natural numbers. -/
def roundNat (c : Nat) : Nat :=
  bif Nat.beq (Nat.land c 1) 0 then Nat.shiftRight c 1
  else Nat.xor (Nat.shiftRight c 1) 0x82f63b78

/-- `crc32Byte` for the byte `0xFF` on natural numbers. -/
def byteNat (c : Nat) : Nat :=
  roundNat (roundNat (roundNat (roundNat (roundNat (roundNat (roundNat (roundNat (Nat.xor c 255))))))))

/-- None of the first `n + 1` states of the checksum is zero. -/
def neverZero : Nat → Nat → Bool
  | 0, c => !(Nat.beq c 0)
  | n + 1, c => !(Nat.beq c 0) && neverZero n (byteNat c)

set_option maxRecDepth 1000000 in
/-- Checked for all 65536 lengths by evaluation in the kernel. -/
theorem neverZero_all : neverZero 65535 0xEEEEEEEE = true := by decide +kernel

theorem roundNat_eq (c : BitVec 32) : roundNat c.toNat = (crc32Round c).toNat := by
  have h : (c &&& 1#32 = 0#32) ↔ Nat.land c.toNat 1 = 0 := by
    constructor
    · intro h; have := congrArg BitVec.toNat h; simpa using this
    · intro h; apply BitVec.eq_of_toNat_eq; simpa using h
  unfold roundNat crc32Round
  by_cases hz : c &&& 1#32 = 0#32
  · have := h.1 hz
    rw [if_pos hz, this]; rfl
  · have h2 : Nat.land c.toNat 1 ≠ 0 := fun e => hz (h.2 e)
    have h3 : Nat.beq (Nat.land c.toNat 1) 0 = false := by
      revert h2
      cases Nat.land c.toNat 1 with
      | zero => intro h2; exact absurd rfl h2
      | succ n => intro _; rfl
    rw [if_neg hz, h3]; rfl

theorem byteNat_eq (c : BitVec 32) : byteNat c.toNat = (crc32Byte c 0xff#8).toNat := by
  have e : Nat.xor c.toNat 255 = (c ^^^ (0xff#8).setWidth 32).toNat := by
    rw [BitVec.toNat_xor]; rfl
  unfold byteNat crc32Byte
  rw [e]
  simp only [roundNat_eq, iter]

theorem neverZero_spec : ∀ (n : Nat) (c : BitVec 32), neverZero n c.toNat = true →
    ∀ i ≤ n, (List.replicate i 0xff#8).foldl crc32Byte c ≠ 0#32
  | 0, c, h, i, hi => by
    obtain rfl : i = 0 := by omega
    intro hc
    simp only [List.replicate, List.foldl_nil] at hc
    subst hc
    exact absurd h (by decide)
  | n + 1, c, h, i, hi => by
    rw [neverZero, Bool.and_eq_true, byteNat_eq] at h
    cases i with
    | zero =>
      intro hc
      simp only [List.replicate, List.foldl_nil] at hc
      subst hc
      exact absurd h.1 (by decide)
    | succ i =>
      simp only [List.replicate_succ, List.foldl_cons]
      exact neverZero_spec n _ h.2 i (by omega)

/-- **C26.** For every length up to the longest possible item, the CRC-32 of blank flash is not the
blank checksum. -/
theorem crc32_of_blank (n : Nat) (h : n ≤ 65535) :
    crc32 (List.replicate n 0xff#8) ≠ 0xffffffff#32 := by
  intro hc
  have h0 := neverZero_spec 65535 0xEEEEEEEE#32 neverZero_all n h
  apply h0
  have : ~~~ (~~~ ((List.replicate n 0xff#8).foldl crc32Byte 0xEEEEEEEE#32)) = ~~~ 0xffffffff#32 :=
    congrArg _ hc
  simpa using this

/-- The checksum stored for an item is never all ones and never zero, whatever the data: its lowest
byte is neither `0xFF` (blank) nor `0x00` (what removal programs). -/
theorem stored_checksum_low_byte (d : List Byte) :
    (adaptedCrc32 d).setWidth 8 ≠ 0xff#8 ∧ (adaptedCrc32 d).setWidth 8 ≠ 0#8 := by
  unfold adaptedCrc32 adapt
  generalize crc32 d = v
  split
  · decide
  · split
    · rename_i h
      have e : (v ^^^ 1#32).setWidth 8 = v.setWidth 8 ^^^ 1#8 := by
        apply BitVec.eq_of_getLsbD_eq
        intro i hi
        simp [hi]
      rw [e]
      rcases h with h | h <;> rw [h] <;> decide
    · rename_i h
      exact ⟨fun h' => h (Or.inr h'), fun h' => h (Or.inl h')⟩

/-- **C26** for the checksum actually stored: it is not all ones, so blank flash of any length is not
a valid item. -/
theorem stored_checksum_of_blank (n : Nat) :
    adaptedCrc32 (List.replicate n 0xff#8) ≠ 0xffffffff#32 := by
  intro h
  have := (stored_checksum_low_byte (List.replicate n 0xff#8)).1
  rw [h] at this
  exact this (by decide)

/-- The checksum of three blank bytes. -/
example : crc32 (List.replicate 3 0xff#8) = 0xe44e3d7f#32 := by decide +kernel

end SeqStorage.Props
