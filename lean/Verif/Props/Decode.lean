import Verif.Props.MapTypes
/-
The decoders of the built-in keys and values accept nothing but encodings: C55.
-/

namespace SeqStorage.Props
open SeqStorage Spec M Codec

variable {K V : Type} {kc : KeyCodec K} {vc : ValCodec V} {ke : K → Option (List Byte)} {ve : V → List Byte}

/-! ### Bytes, numbers and strings -/

theorem natOfLe_lt : ∀ bs : List Byte, natOfLe bs < 2 ^ (8 * bs.length)
  | [] => by simp [natOfLe]
  | b :: bs => by
    have h := natOfLe_lt bs
    have hb := b.isLt
    simp only [natOfLe, List.length_cons, Nat.mul_add, Nat.pow_add]
    omega

theorem natOfLe_inj : ∀ {as bs : List Byte}, as.length = bs.length → natOfLe as = natOfLe bs → as = bs
  | [], [], _, _ => rfl
  | a :: as, b :: bs, hl, h => by
    simp only [natOfLe] at h
    have ha := a.isLt
    have hb := b.isLt
    have h1 : a = b := BitVec.eq_of_toNat_eq (by omega)
    have h2 : natOfLe as = natOfLe bs := by subst h1; omega
    rw [h1, natOfLe_inj (by simpa using hl) h2]

theorem leBytes_ofLeBytes {n : Nat} {bs : List Byte} (h : bs.length = n) : leBytes n (ofLeBytes n bs) = bs := by
  refine natOfLe_inj (by rw [leBytes_length, h]) ?_
  have h1 := congrArg BitVec.toNat (ofLeBytes_leBytes n (ofLeBytes n bs))
  have h2 := natOfLe_lt bs
  have h3 := natOfLe_lt (leBytes n (ofLeBytes n bs))
  rw [leBytes_length] at h3
  rw [h] at h2
  simp only [ofLeBytes, BitVec.toNat_ofNat] at h1 h3 ⊢
  rw [Nat.mod_eq_of_lt h3, Nat.mod_eq_of_lt h2] at h1
  exact h1

theorem utf8_of {bs : List Byte} {s : String} (h : ofUtf8 bs = some s) : utf8 s = bs := by
  unfold ofUtf8 String.fromUTF8? at h
  split at h
  · cases h
    simp [utf8, String.fromUTF8, Function.comp_def]
  · cases h

theorem lenPrefixedDe_ok {buf bs : List Byte} {n : Nat} (h : lenPrefixedDe buf = .ok (bs, n)) :
    bs.length ≤ 65535 ∧ n ≤ buf.length ∧ le16 (BitVec.ofNat 16 bs.length) ++ bs = buf.take n := by
  unfold lenPrefixedDe at h
  match buf, h with
  | [], h => cases h
  | [_], h => cases h
  | a :: b :: rest, h =>
    simp only [lenPrefixedLen] at h
    split at h
    · cases h
    · next hl =>
      cases h
      have hlt := (ofLe16 a b).isLt
      simp only [List.length_cons] at hl
      have hlen : (rest.take (ofLe16 a b).toNat).length = (ofLe16 a b).toNat := by
        rw [List.length_take]; omega
      simp only [List.drop_succ_cons, List.drop_zero, Nat.add_sub_cancel, hlen, List.length_cons]
      refine ⟨by omega, by omega, ?_⟩
      rw [show BitVec.ofNat 16 (ofLe16 a b).toNat = ofLe16 a b by simp, le16_ofLe16]
      simp

theorem decodeNums_bytes (n : Nat) : ∀ (count : Nat) (bs : List Byte), n * count ≤ bs.length →
    (decodeNums n count bs).flatMap (leBytes n) = bs.take (n * count)
  | 0, bs, _ => by simp [decodeNums]
  | count + 1, bs, h => by
    rw [Nat.mul_add, Nat.mul_one] at h ⊢
    simp only [decodeNums, List.flatMap_cons]
    rw [decodeNums_bytes n count (bs.drop n) (by rw [List.length_drop]; omega),
      leBytes_ofLeBytes (by rw [List.length_take]; omega), Nat.add_comm, List.take_add]

/-! ### The properties -/

/-- C55. A key decoder takes exactly the encodings: it gives a key and a length if and only if the buffer starts with the
bytes of that key, and the length is theirs. In particular it never claims more bytes than there are, two byte strings
are never read as the same key unless they share these bytes, and `get_len` agrees. -/
theorem key_decodes_iff (h : BuiltInKey kc ke) (buf : List Byte) (k : K) (n : Nat) :
    kc.de buf = .ok (k, n) ↔ ∃ bs rest, ke k = some bs ∧ buf = bs ++ rest ∧ n = bs.length := by
  constructor
  · intro hd
    suffices n ≤ buf.length ∧ ke k = some (buf.take n) by
      exact ⟨_, buf.drop n, this.2, (List.take_append_drop n buf).symm, by rw [List.length_take]; omega⟩
    cases h with
    | num m =>
      simp only [numKey] at hd
      split at hd
      · cases hd
      · next hl =>
        cases hd
        refine ⟨by omega, ?_⟩
        dsimp only
        rw [leBytes_ofLeBytes (by rw [List.length_take]; omega)]
    | array m =>
      simp only [arrayKey] at hd
      split at hd
      · next hl =>
        cases hd
        rw [List.length_take] at hl
        exact ⟨by omega, rfl⟩
      · cases hd
    | unit => cases hd; simp
    | vec cap =>
      simp only [vecKey] at hd
      split at hd
      · cases hd
      · next heq =>
        have hp := lenPrefixedDe_ok heq
        split at hd
        · cases hd
          exact ⟨hp.2.1, by dsimp only; rw [if_pos hp.1, hp.2.2]⟩
        · cases hd
    | str small cap =>
      simp only [strKey] at hd
      split at hd
      · cases hd
      · next heq =>
        have hp := lenPrefixedDe_ok heq
        split at hd
        · cases hd
        · next hs =>
          have hu := utf8_of hs
          split at hd
          · cases hd
            exact ⟨hp.2.1, by dsimp only; rw [hu, if_pos hp.1, hp.2.2]⟩
          · cases hd
  · rintro ⟨bs, rest, hk, rfl, rfl⟩
    exact ((h.round_trip.1 k bs hk).2 rest).1

/-- The value types without a tag byte, and their bytes. -/
inductive Untagged : {V : Type} → ValCodec V → (V → List Byte) → Prop
  | num (n : Nat) : Untagged (numVal n) (leBytes n)
  | numArray (n count : Nat) : Untagged (numArrayVal n count) (fun v => v.1.flatMap (leBytes n))
  | bytes (cap : Option Nat) : Untagged (bytesVal cap) (fun v => v.1)
  | str (cap : Option Nat) : Untagged (strVal cap) (fun v => utf8 v.1)

/-- Bytes read in place of those written: the same, save that a `1` may have been any other byte but zero. -/
inductive ReadAs : List Byte → List Byte → Prop
  | nil : ReadAs [] []
  | same (a : Byte) {l l' : List Byte} : ReadAs l l' → ReadAs (a :: l) (a :: l')
  | tag {a : Byte} {l l' : List Byte} : a ≠ 0#8 → ReadAs l l' → ReadAs (a :: l) (1#8 :: l')

/-- C55. A value decoder reads only bytes that are there, and they are the encoding of what it returns. -/
theorem value_decodes_to_its_bytes (h : Untagged vc ve) {buf : List Byte} {v : V} {n : Nat}
    (hd : vc.de buf = .ok (v, n)) : ∃ rest, buf = ve v ++ rest ∧ n = (ve v).length := by
  suffices n ≤ buf.length ∧ ve v = buf.take n by
    exact ⟨buf.drop n, by rw [this.2, List.take_append_drop], by rw [this.2, List.length_take]; omega⟩
  cases h with
  | num m =>
    simp only [numVal] at hd
    split at hd
    · cases hd
    · next hl =>
      cases hd
      exact ⟨by omega, leBytes_ofLeBytes (by rw [List.length_take]; omega)⟩
  | numArray m count =>
    simp only [numArrayVal] at hd
    split at hd
    · cases hd
    · next hl =>
      cases hd
      exact ⟨by omega, decodeNums_bytes m count buf (by omega)⟩
  | bytes cap =>
    simp only [bytesVal] at hd
    split at hd
    · cases hd; simp
    · cases hd
  | str cap =>
    simp only [strVal] at hd
    split at hd
    · cases hd
    · next hs =>
      split at hd
      · cases hd
        exact ⟨Nat.le_refl _, by dsimp only; rw [utf8_of hs, List.take_length]⟩
      · cases hd

/-- C55. With tag bytes the decoder is lenient: `bool` and the tag of `Option` take every non-zero byte for true. Apart
from that the bytes are the encoding of what is returned, and there are as many as the decoder says. -/
theorem value_decodes_up_to_tags (h : BuiltInVal vc ve) {buf : List Byte} {v : V} {n : Nat} (hd : vc.de buf = .ok (v, n)) :
    n = (ve v).length ∧ n ≤ buf.length ∧ ReadAs (buf.take n) (ve v) := by
  have same : ∀ l : List Byte, ReadAs l l := fun l => by
    induction l with
    | nil => exact .nil
    | cons a l ih => exact .same a ih
  have exact' : ∀ {V : Type} {vc : ValCodec V} {ve : V → List Byte}, Untagged vc ve →
      ∀ {buf : List Byte} {v : V} {n : Nat}, vc.de buf = .ok (v, n) →
      n = (ve v).length ∧ n ≤ buf.length ∧ ReadAs (buf.take n) (ve v) := by
    intro V vc ve hu buf v n hd
    obtain ⟨rest, rfl, rfl⟩ := value_decodes_to_its_bytes hu hd
    exact ⟨rfl, by simp, by simpa using same _⟩
  have tag : ∀ {buf : List Byte} {t : Bool} {m : Nat}, boolVal.de buf = .ok (t, m) →
      ∃ a rest, buf = a :: rest ∧ m = 1 ∧
      ∀ l l' : List Byte, ReadAs l l' → ReadAs (a :: l) ((if t then 1#8 else 0#8) :: l') := by
    intro buf t m hb
    simp only [boolVal] at hb
    split at hb
    · cases hb
    · next b size heq =>
      obtain ⟨rest, hbuf, hsz⟩ := value_decodes_to_its_bytes (.num 1) heq
      cases hb
      obtain ⟨a, ha⟩ : ∃ a, leBytes 1 b = [a] := List.length_eq_one_iff.1 (leBytes_length 1 b)
      rw [ha] at hbuf hsz
      have hab : a = b := by
        have : leBytes 1 b = [b] := by simp [leBytes]
        rw [this] at ha; exact (List.cons.inj ha).1.symm
      refine ⟨a, rest, hbuf, hsz, fun l l' hl => ?_⟩
      subst hab
      by_cases h0 : a = 0#8
      · subst h0; exact .same _ hl
      · simpa [h0] using ReadAs.tag h0 hl
  induction h generalizing buf n with
  | num m => exact exact' (.num m) hd
  | numArray m c => exact exact' (.numArray m c) hd
  | bytes cap => exact exact' (.bytes cap) hd
  | str cap => exact exact' (.str cap) hd
  | bool =>
    obtain ⟨a, rest, rfl, rfl, hr⟩ := tag hd
    exact ⟨rfl, by simp, by simpa using hr [] [] .nil⟩
  | @option V vc enc _ ih =>
    simp only [optionVal] at hd
    split at hd
    · cases hd
    · next isSome sz hb =>
      obtain ⟨a, rest, rfl, rfl, hr⟩ := tag hb
      split at hd
      · next ht =>
        split at hd
        · cases hd
        · next x size hx =>
          cases hd
          obtain ⟨h1, h2, h3⟩ := ih hx
          simp only [List.drop_succ_cons, List.drop_zero] at h2 h3
          rw [ht] at hr
          refine ⟨by simp [Option.elim, h1, Nat.add_comm], by simp; omega, ?_⟩
          rw [Nat.add_comm, List.take_succ_cons]
          exact hr _ _ h3
      · next ht =>
        cases hd
        have ht : isSome = false := by simpa using ht
        rw [ht] at hr
        exact ⟨rfl, by simp, by simpa using hr [] [] .nil⟩

/-- So a value with a tag byte has several byte strings: what is read need not be what the value is written as. -/
theorem tagged_values_have_several_bytes :
    ∃ buf buf' : List Byte, buf ≠ buf' ∧ boolVal.de buf = .ok (true, 1) ∧ boolVal.de buf' = .ok (true, 1) :=
  ⟨[1#8], [2#8], by decide, by rfl, by rfl⟩

/-! ### The hypotheses can be met -/

/-- A key of three bytes with bytes behind it, a key cut short, and a text. -/
example : (vecKey none).de [3#8, 0#8, 7#8, 8#8, 9#8, 1#8] = .ok (⟨[7#8, 8#8, 9#8], by simp⟩, 5) ∧
    (vecKey none).de [3#8, 0#8, 7#8, 8#8] = .error .bufferTooSmall ∧
    (vecKey (some 2)).de [3#8, 0#8, 7#8, 8#8, 9#8] = .error .invalidFormat := ⟨by rfl, by rfl, by rfl⟩

example : ∃ bs rest, (fun v : { l : List Byte // ∀ c ∈ (none : Option Nat), l.length ≤ c } =>
      if v.1.length ≤ 65535 then some (le16 (BitVec.ofNat 16 v.1.length) ++ v.1) else none) ⟨[7#8, 8#8, 9#8], by simp⟩ = some bs ∧
    [3#8, 0#8, 7#8, 8#8, 9#8, 1#8] = bs ++ rest ∧ 5 = bs.length :=
  (key_decodes_iff (.vec none) _ _ _).1 (by rfl)

example : ∃ rest, [1#8, 2#8, 3#8] = leBytes 2 (0x201 : BitVec 16) ++ rest ∧ 2 = (leBytes 2 (0x201 : BitVec 16)).length :=
  value_decodes_to_its_bytes (.num 2) (by rfl)

/-- A tag of five is read as `Some`, and written as one. -/
example : (optionVal (numVal 1)).de [5#8, 9#8] = .ok (some 9#8, 2) ∧ ReadAs [5#8, 9#8] [1#8, 9#8] :=
  ⟨by rfl, .tag (by decide) (.same _ .nil)⟩

end SeqStorage.Props
