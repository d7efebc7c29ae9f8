import Verif.Props.Torn
/-
The checksum of an item notices every change of a single byte (C47).
-/

namespace SeqStorage.Props

/-- `crc32Round` undone, on natural numbers. -/
def unroundNat (c : Nat) : Nat :=
  bif Nat.ble 0x80000000 c then Nat.add (Nat.mul (Nat.xor c 0x82f63b78) 2) 1 else Nat.mul c 2

/-- `crcMix` undone, on natural numbers. -/
def unmixNat (c : Nat) : Nat :=
  unroundNat (unroundNat (unroundNat (unroundNat (unroundNat (unroundNat (unroundNat (unroundNat c)))))))

/-- Undo `n` bytes; zero if a value below 256 comes up. -/
def walkBack : Nat → Nat → Nat
  | 0, c => c
  | n + 1, c => bif Nat.ble (unmixNat c) 255 then 0 else walkBack n (unmixNat c)

/-! Checked for all 65536 lengths by evaluation in the kernel. -/

set_option maxRecDepth 1000000 in
theorem walk1 : walkBack 16384 1 = 2769888708 := by decide +kernel
set_option maxRecDepth 1000000 in
theorem walk2 : walkBack 16384 2769888708 = 4272721110 := by decide +kernel
set_option maxRecDepth 1000000 in
theorem walk3 : walkBack 16384 4272721110 = 3972099543 := by decide +kernel
set_option maxRecDepth 1000000 in
theorem walk4 : walkBack 16384 3972099543 = 596503962 := by decide +kernel

theorem walkBack_zero (n : Nat) : walkBack n 0 = 0 := by
  cases n with
  | zero => rfl
  | succ n => rfl

theorem walkBack_add (m n : Nat) : ∀ c, walkBack (m + n) c = walkBack n (walkBack m c) := by
  induction m with
  | zero => intro c; rw [Nat.zero_add]; rfl
  | succ m ih =>
    intro c
    rw [Nat.succ_add, walkBack, walkBack]
    cases Nat.ble (unmixNat c) 255 with
    | true => exact (walkBack_zero n).symm
    | false => exact ih _

theorem walk_all : walkBack 65536 1 ≠ 0 := by
  have e : 65536 = 16384 + (16384 + (16384 + 16384)) := rfl
  rw [e, walkBack_add, walk1, walkBack_add, walk2, walkBack_add, walk3, walk4]
  decide

theorem shift_top (c : BitVec 32) : (c >>> 1).toNat < 0x80000000 := by
  rw [BitVec.toNat_ushiftRight, Nat.shiftRight_eq_div_pow]
  have := c.isLt
  omega

theorem unround_round (c : BitVec 32) : unroundNat (crc32Round c).toNat = c.toNat := by
  have hlt := shift_top c
  have hdiv : (c >>> 1).toNat = c.toNat / 2 := by
    rw [BitVec.toNat_ushiftRight, Nat.shiftRight_eq_div_pow]
  have hmod : (c &&& 1#32 = 0#32) ↔ c.toNat % 2 = 0 := by
    rw [← BitVec.toNat_inj, BitVec.toNat_and]
    simp [Nat.and_one_is_mod]
  unfold crc32Round
  split
  · rename_i h
    have h0 := hmod.1 h
    unfold unroundNat
    have : Nat.ble 0x80000000 (c >>> 1).toNat = false := by
      rw [Bool.eq_false_iff]; intro h; have := Nat.le_of_ble_eq_true h; omega
    rw [this]
    show (c >>> 1).toNat * 2 = _
    omega
  · rename_i h
    have h0 : c.toNat % 2 = 1 := by
      have : ¬ c.toNat % 2 = 0 := fun h' => h (hmod.2 h')
      omega
    have hx : ((c >>> 1) ^^^ 0x82f63b78#32).toNat = Nat.xor (c >>> 1).toNat 0x82f63b78 := by
      rw [BitVec.toNat_xor]; rfl
    have hge : 0x80000000 ≤ ((c >>> 1) ^^^ 0x82f63b78#32).toNat := by
      have h31 : ((c >>> 1) ^^^ 0x82f63b78#32).getLsbD 31 = true := by
        rw [BitVec.getLsbD_xor, BitVec.getLsbD_ushiftRight]
        have : c.getLsbD (1 + 31) = false := BitVec.getLsbD_of_ge _ _ (by omega)
        rw [this]; decide
      exact Nat.ge_two_pow_of_testBit h31
    unfold unroundNat
    have : Nat.ble 0x80000000 ((c >>> 1) ^^^ 0x82f63b78#32).toNat = true := Nat.ble_eq_true_of_le hge
    rw [this]
    have hxx : Nat.xor ((c >>> 1) ^^^ 0x82f63b78#32).toNat 0x82f63b78 = (c >>> 1).toNat := by
      rw [hx]
      show ((c >>> 1).toNat ^^^ 0x82f63b78) ^^^ 0x82f63b78 = _
      rw [Nat.xor_assoc, Nat.xor_self, Nat.xor_zero]
    show Nat.xor ((c >>> 1) ^^^ 0x82f63b78#32).toNat 0x82f63b78 * 2 + 1 = _
    rw [hxx, hdiv]
    omega

theorem unmix_mix (c : BitVec 32) : unmixNat (crcMix c).toNat = c.toNat := by
  simp only [unmixNat, crcMix, iter, unround_round]

theorem mix_inj {x y : BitVec 32} (h : crcMix x = crcMix y) : x = y := by
  apply BitVec.eq_of_toNat_eq
  rw [← unmix_mix x, ← unmix_mix y, h]

theorem walk_spec : ∀ (n : Nat) (c : Nat), walkBack n c ≠ 0 → ∀ (k : Nat), k < n → ∀ x : BitVec 32,
    (iter crcMix (k + 1) x).toNat = c → 255 < x.toNat
  | 0, _, _, k, hk, _, _ => by omega
  | n + 1, c, h, k, hk, x, hx => by
    rw [walkBack] at h
    have hi : ∀ (m : Nat) (y : BitVec 32), iter crcMix (m + 1) y = crcMix (iter crcMix m y) := by
      intro m
      induction m with
      | zero => intro y; rfl
      | succ m ih => intro y; rw [iter, ih]; rfl
    rw [hi] at hx
    have h1 : (iter crcMix k x).toNat = unmixNat c := by rw [← hx, unmix_mix]
    rw [← h1] at h
    cases hb : Nat.ble (iter crcMix k x).toNat 255 with
    | true => rw [hb] at h; exact absurd rfl h
    | false =>
      rw [hb] at h
      cases k with
      | zero =>
        have hb' : Nat.ble x.toNat 255 = false := hb
        have : ¬ x.toNat ≤ 255 := fun h' => by rw [Nat.ble_eq_true_of_le h'] at hb'; simp at hb'
        omega
      | succ k => exact walk_spec n _ h k (by omega) x rfl

/-- What is left of a difference after equal bytes. -/
theorem fold_diff (l : List Byte) : ∀ (c c' : BitVec 32),
    l.foldl crc32Byte c ^^^ l.foldl crc32Byte c' = iter crcMix l.length (c ^^^ c') := by
  induction l with
  | nil => intro c c'; rfl
  | cons b l ih =>
    intro c c'
    rw [List.foldl_cons, List.foldl_cons, ih, byte_xor]
    simp [iter]

/-- Two checksums that are stored alike differ in the lowest bit at most. -/
theorem adapt_collide {v v' : BitVec 32} (h : adapt v = adapt v') : v ^^^ v' = 0#32 ∨ v ^^^ v' = 1#32 := by
  have h0 : (0#32).setWidth 8 = 0#8 := by decide
  have key : ∀ {x : BitVec 32}, adapt x = x ∨ adapt x = x ^^^ 1#32 := by
    intro x
    unfold adapt
    split
    · rename_i h; right; rw [h]; decide
    · split
      · exact Or.inr rfl
      · exact Or.inl rfl
  rcases key (x := v) with h1 | h1 <;> rcases key (x := v') with h2 | h2 <;> rw [h1, h2] at h
  · left; rw [h, BitVec.xor_self]
  · right; rw [h, BitVec.xor_comm v', BitVec.xor_assoc, BitVec.xor_self, BitVec.xor_zero]
  · right; rw [← h, ← BitVec.xor_assoc, BitVec.xor_self, BitVec.zero_xor]
  · left
    have : v = v' := by
      have := congrArg (· ^^^ 1#32) h
      simpa [BitVec.xor_assoc] using this
    rw [this, BitVec.xor_self]

/-- A single changed byte changes the stored checksum, whatever the data. -/
theorem changed_byte_detected (pre post : List Byte) (b b' : Byte) (hb : b ≠ b') (hl : post.length < 65535) :
    adaptedCrc32 (pre ++ b :: post) ≠ adaptedCrc32 (pre ++ b' :: post) := by
  intro h
  have h1 := adapt_collide h
  have hx : ∀ x y : BitVec 32, ~~~ x ^^^ ~~~ y = x ^^^ y := by
    intro x y
    apply BitVec.eq_of_getLsbD_eq
    intro i hi
    simp [hi]
  simp only [crc32, crc32WithInitial, hx, List.foldl_append, List.foldl_cons, fold_diff, byte_xor, BitVec.xor_self,
    BitVec.zero_xor] at h1
  have hne : b ^^^ b' ≠ 0#8 := fun h => hb (xor_eq_zero h)
  have hk : iter crcMix post.length (crcMix ((b ^^^ b').setWidth 32)) = iter crcMix (post.length + 1) ((b ^^^ b').setWidth 32) := rfl
  rw [hk] at h1
  have hsmall : ((b ^^^ b').setWidth 32 : BitVec 32).toNat ≤ 255 := by
    rw [BitVec.toNat_setWidth, Nat.mod_eq_of_lt] <;> have := (b ^^^ b').isLt <;> omega
  rcases h1 with h1 | h1
  · have hz : ∀ (n : Nat) (x : BitVec 32), iter crcMix n x = 0#32 → x = 0#32 := by
      intro n
      induction n with
      | zero => intro x h; exact h
      | succ n ih =>
        intro x h
        have h0 := ih _ h
        apply mix_inj
        rw [h0]; decide
    have := hz _ _ h1
    apply hne
    have h2 := congrArg BitVec.toNat this
    apply BitVec.eq_of_toNat_eq
    rw [BitVec.toNat_setWidth, Nat.mod_eq_of_lt] at h2
    · simpa using h2
    · have := (b ^^^ b').isLt; omega
  · have := walk_spec 65536 1 walk_all post.length (by omega) _ (by rw [h1]; rfl)
    omega

/-- The data `01 02 03` and the same with a flipped bit in the middle byte. -/
example : adaptedCrc32 [1#8, 2#8, 3#8] = 0xea813061#32 ∧ adaptedCrc32 [1#8, 0x42#8, 3#8] ≠ 0xea813061#32 := by decide +kernel
end SeqStorage.Props
