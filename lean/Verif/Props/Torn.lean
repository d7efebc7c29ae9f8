import Verif.Proofs.Write
import Verif.Props.Header
/-
C25: torn item data is detected.
-/

set_option linter.unusedSectionVars false

namespace SeqStorage.Props
open M

variable {K : Type} [DecidableEq K]

/-! ### The checksum tells apart data that differ in the last three bytes -/

/-- What one byte does to the checksum. -/
def crcMix (c : BitVec 32) : BitVec 32 := iter crc32Round 8 c

theorem round_xor (x y : BitVec 32) : crc32Round (x ^^^ y) = crc32Round x ^^^ crc32Round y := by
  unfold crc32Round
  have hx : ∀ z : BitVec 32, (z &&& 1#32 = 0#32) ↔ z.getLsbD 0 = false := by
    intro z
    constructor
    · intro h
      have := congrArg (fun v => BitVec.getLsbD v 0) h
      simpa using this
    · intro h
      apply BitVec.eq_of_getLsbD_eq
      intro i hi
      simp only [BitVec.getLsbD_and, BitVec.getLsbD_zero]
      by_cases h0 : i = 0
      · subst h0; rw [h, Bool.false_and]
      · have : (1#32).getLsbD i = false := by
          simp [BitVec.getLsbD_one]; omega
        rw [this, Bool.and_false]
  simp only [hx, BitVec.getLsbD_xor]
  cases x.getLsbD 0 <;> cases y.getLsbD 0 <;> simp [BitVec.ushiftRight_xor_distrib]
  · rw [← BitVec.xor_assoc]
  · rw [BitVec.xor_assoc, BitVec.xor_assoc]; congr 1; rw [BitVec.xor_comm]
  · rw [BitVec.xor_assoc]; congr 1; rw [← BitVec.xor_assoc, BitVec.xor_comm _ (y >>> 1), BitVec.xor_assoc]; simp

theorem mix_xor (x y : BitVec 32) : crcMix (x ^^^ y) = crcMix x ^^^ crcMix y := by
  simp only [crcMix, iter, round_xor]

theorem round_even {x : BitVec 32} (h : x.getLsbD 0 = false) : crc32Round x = x >>> 1 := by
  unfold crc32Round
  rw [if_pos]
  apply BitVec.eq_of_getLsbD_eq
  intro i hi
  simp only [BitVec.getLsbD_and, BitVec.getLsbD_zero]
  by_cases h0 : i = 0
  · subst h0; rw [h, Bool.false_and]
  · have : (1#32).getLsbD i = false := by simp [BitVec.getLsbD_one]; omega
    rw [this, Bool.and_false]

theorem rounds_even (n : Nat) : ∀ x : BitVec 32, (∀ i, i < n → x.getLsbD i = false) → iter crc32Round n x = x >>> n := by
  induction n with
  | zero => intro x _; simp [iter]
  | succ n ih =>
    intro x h
    rw [iter, round_even (h 0 (by omega)), ih]
    · rw [← BitVec.shiftRight_add, Nat.add_comm]
    · intro i hi
      rw [BitVec.getLsbD_ushiftRight]
      exact h _ (by omega)

/-- The highest byte shows which byte went in. -/
theorem table_top : ∀ b : BitVec 8, crcMix (b.setWidth 32) >>> 24 = 0#32 → b = 0#8 := by decide +kernel

/-- If the highest byte is zero after a step, so was the lowest before, and nothing was mixed in. -/
theorem mix_top {x : BitVec 32} (h : crcMix x >>> 24 = 0#32) : x.setWidth 8 = 0#8 ∧ crcMix x = x >>> 8 := by
  have hs : x = (x >>> 8 <<< 8) ^^^ (x.setWidth 8).setWidth 32 := by
    apply BitVec.eq_of_getLsbD_eq
    intro i hi
    simp only [BitVec.getLsbD_xor, BitVec.getLsbD_shiftLeft, BitVec.getLsbD_ushiftRight, BitVec.getLsbD_setWidth, hi, decide_true,
      Bool.true_and]
    by_cases h8 : i < 8
    · simp [h8]
    · have : 8 + (i - 8) = i := by omega
      simp [h8, this]
  have h1 : crcMix (x >>> 8 <<< 8) = x >>> 8 := by
    unfold crcMix
    rw [rounds_even 8 _ (by intro i hi; simp [BitVec.getLsbD_shiftLeft, hi])]
    apply BitVec.eq_of_getLsbD_eq
    intro i hi
    simp only [BitVec.getLsbD_ushiftRight, BitVec.getLsbD_shiftLeft]
    by_cases h24 : i < 24
    · have : decide (8 + i < 32) = true := by simp; omega
      have e : 8 + i - 8 = i := by omega
      simp [this, e]
    · have e1 : x.getLsbD (8 + i) = false := BitVec.getLsbD_of_ge _ _ (by omega)
      have e2 : decide (8 + i < 32) = false := by simp; omega
      rw [e1, e2]; rfl
  have h2 : crcMix x = x >>> 8 ^^^ crcMix ((x.setWidth 8).setWidth 32) := by
    conv => lhs; rw [hs]
    rw [mix_xor, h1]
  have h3 : (x >>> 8) >>> 24 = 0#32 := by
    rw [← BitVec.shiftRight_add]
    exact BitVec.ushiftRight_eq_zero (by omega)
  have h4 : x.setWidth 8 = 0#8 := by
    apply table_top
    rw [h2, BitVec.ushiftRight_xor_distrib, h3] at h
    simpa using h
  refine ⟨h4, ?_⟩
  rw [h2, h4]
  have : crcMix ((0#8 : BitVec 8).setWidth 32) = 0#32 := by decide +kernel
  rw [this]; simp

theorem byte_xor (c c' : BitVec 32) (b b' : Byte) :
    crc32Byte c b ^^^ crc32Byte c' b' = crcMix ((c ^^^ c') ^^^ (b ^^^ b').setWidth 32) := by
  have e : (c ^^^ c') ^^^ (b ^^^ b').setWidth 32 = (c ^^^ b.setWidth 32) ^^^ (c' ^^^ b'.setWidth 32) := by
    rw [BitVec.setWidth_xor]
    simp only [BitVec.xor_assoc]
    congr 1
    simp only [← BitVec.xor_assoc]
    rw [BitVec.xor_comm c']
  rw [e, mix_xor]; rfl

theorem xor_eq_zero {n : Nat} {x y : BitVec n} (h : x ^^^ y = 0#n) : x = y := by
  have : x ^^^ y ^^^ y = 0#n ^^^ y := by rw [h]
  simpa [BitVec.xor_assoc] using this

/-- Up to three different bytes leave a difference in the checksum beyond its lowest byte. -/
theorem crc_tail (n : Nat) (hn : n ≤ 3) : ∀ (l l' : List Byte), l.length = n → l'.length = n → ∀ c : BitVec 32,
    (l.foldl crc32Byte c ^^^ l'.foldl crc32Byte c) >>> (32 - 8 * n) = 0#32 → l = l' := by
  induction n with
  | zero =>
    intro l l' h h' c _
    rw [List.length_eq_zero_iff.1 h, List.length_eq_zero_iff.1 h']
  | succ n ih =>
    intro l l' h h' c hz
    rcases List.eq_nil_or_concat l with rfl | ⟨i, b, rfl⟩
    · simp at h
    rcases List.eq_nil_or_concat l' with rfl | ⟨i', b', rfl⟩
    · simp at h'
    simp only [List.concat_eq_append, List.length_append, List.length_cons, List.length_nil, Nat.zero_add,
      Nat.add_right_cancel_iff] at h h'
    simp only [List.concat_eq_append, List.foldl_append, List.foldl_cons, List.foldl_nil] at hz
    rw [byte_xor] at hz
    obtain ⟨h1, h2⟩ := mix_top (x := (i.foldl crc32Byte c ^^^ i'.foldl crc32Byte c) ^^^ (b ^^^ b').setWidth 32) (by
      have : 24 = (32 - 8 * (n + 1)) + 8 * n := by omega
      rw [this, BitVec.shiftRight_add, hz]; simp)
    have hi : i = i' := by
      rcases Nat.eq_zero_or_pos n with rfl | hp
      · rw [List.length_eq_zero_iff.1 h, List.length_eq_zero_iff.1 h']
      · apply ih (by omega) i i' h h' c
        rw [h2, BitVec.ushiftRight_xor_distrib] at hz
        have hb : (b ^^^ b').setWidth 32 >>> 8 = 0#32 := by
          apply BitVec.eq_of_getLsbD_eq
          intro j hj
          simp
        rw [hb, BitVec.xor_zero, ← BitVec.shiftRight_add] at hz
        have : 32 - 8 * n = 8 + (32 - 8 * (n + 1)) := by omega
        rw [this]; exact hz
    subst hi
    rw [BitVec.xor_self, BitVec.zero_xor] at h1
    have hb : b ^^^ b' = 0#8 := by
      rw [BitVec.setWidth_setWidth_of_le _ (by omega), BitVec.setWidth_eq] at h1
      exact h1
    rw [xor_eq_zero hb]

/-- The stored checksum is the checksum except for its lowest bit. -/
theorem adapt_shift (v : BitVec 32) : adapt v >>> 8 = v >>> 8 := by
  have h1 : (1#32) >>> 8 = 0#32 := by decide
  unfold adapt
  split
  · rename_i h; rw [h]; decide
  · split
    · rw [BitVec.ushiftRight_xor_distrib, h1, BitVec.xor_zero]
    · rfl

/-- Data of the same length that differ only in the last three bytes have different stored checksums. -/
theorem checksum_tells_tails_apart (pre l l' : List Byte) (h : l.length ≤ 3) (hl : l.length = l'.length)
    (he : adaptedCrc32 (pre ++ l) = adaptedCrc32 (pre ++ l')) : l = l' := by
  apply crc_tail l.length h l l' rfl hl.symm (pre.foldl crc32Byte 0xEEEEEEEE#32)
  have h1 := congrArg (fun v : BitVec 32 => v >>> 8) he
  simp only [adaptedCrc32, adapt_shift, crc32, crc32WithInitial, List.foldl_append] at h1
  have h2 : ∀ x y : BitVec 32, (~~~ x) >>> 8 = (~~~ y) >>> 8 → (x ^^^ y) >>> 8 = 0#32 := by
    intro x y hxy
    have : x ^^^ y = ~~~ x ^^^ ~~~ y := by
      apply BitVec.eq_of_getLsbD_eq
      intro i hi
      simp [hi]
    rw [this, BitVec.ushiftRight_xor_distrib, hxy, BitVec.xor_self]
  have h3 := h2 _ _ h1
  have : 32 - 8 * l.length = 8 + (24 - 8 * l.length) := by omega
  rw [this, BitVec.shiftRight_add, h3]; simp

/-! ### Torn items -/

/-- The flash after an item's header and the first `k` bytes of its data were programmed. -/
theorem torn_read {g : Geo} (w : g.WF) (s : St K) (d : List Byte) {a e k : Nat} (hp : Placed g (Header.ofData d) a e)
    (hl : d.length ≤ 65535) (hb : Blank s.fl.mem a (g.hl + g.roundUp d.length)) (hk : k < d.length)
    (hf : s.fl.fuel = some (g.hl + k)) :
    ∃ s', writeNew g a d s = (.error .shutoff, s') ∧ readHeader g a e s' = (.ok (some (Header.ofData d)), s') ∧
      dataAt g s'.fl.mem a d.length = tornData d k ∧ s'.buf = s.buf := by
  have hdl : d.length = (Header.ofData d).len.toNat := by simp [Header.ofData]; omega
  have ha := Nat.dvd_of_mod_eq_zero hp.aligned
  have h1 := hp.upper
  have h2 := hp.inRange
  have h3 := w.hl_ge
  have hr := w.le_roundUp d.length
  rw [← hdl] at h1
  have hbl := itemBytes_length w (Header.ofData d) d
  have hel := encode_length w (Header.ofData d)
  have hsp : spend (some (g.hl + k)) (itemBytes g (Header.ofData d) d).length = (g.hl + k, none, false) := by
    unfold spend; simp only [hbl]; rw [if_neg (by omega)]
  unfold writeNew
  rw [writeRaw_run w s hdl ha hp.lower (by unfold Header.next; rw [← hdl]; omega)]
  have hall : s.fl.all (itemBytes g (Header.ofData d) d).length = false := by
    unfold Flash.all; rw [hf, hsp]
  have hgot : s.fl.got (itemBytes g (Header.ofData d) d).length = g.hl + k := by
    unfold Flash.got; rw [hf, hsp]
  rw [hall]
  refine ⟨_, rfl, ?_, ?_, rfl⟩
  · rw [readHeader_run w _ ha hp.lower (by omega)]
    simp only [Flash.prog, hgot]
    rw [hdrAt_some (h := Header.ofData d) (by omega) ?_ (by unfold Header.next; rw [← hdl]; omega)]
    have : readBytes (programBytes s.fl.mem a ((itemBytes g (Header.ofData d) d).take (g.hl + k))) a g.hl =
        (Header.ofData d).encode g := by
      have h4 := torn_mem w (Header.ofData d) g.hl (mem := s.fl.mem) (a := a) (fun x hx1 hx2 => hb x hx1 (by omega))
      rw [tornHeader_full w _ h3, ← hel, List.take_length, hel] at h4
      refine Eq.trans ?_ h4
      apply readBytes_congr
      intro x hx1 hx2
      unfold programBytes itemBytes
      simp only [List.length_take, List.length_append, List.length_replicate, hel]
      rw [if_pos (by omega), if_pos (by omega)]
      congr 1
      simp only [List.getD]
      congr 1
      rw [List.getElem?_take, if_pos (by omega), List.getElem?_append_left (by omega)]
    rw [this]
    exact decode_encode g _
  · simp only [Flash.prog, hgot]
    unfold dataAt
    rw [← readBytes_program_torn (mem := s.fl.mem) (a := a + g.hl) (k := k) rfl (fun x hx1 hx2 => hb x (by omega) (by omega))]
    apply readBytes_congr
    intro x hx1 hx2
    unfold programBytes itemBytes
    simp only [List.length_take, List.length_append, List.length_replicate, hel]
    by_cases hx : x < a + g.hl + k
    · rw [if_pos (by omega), if_pos (by omega)]
      congr 1
      simp only [List.getD]
      congr 1
      rw [List.getElem?_take, List.getElem?_take, if_pos (by omega), if_pos (by omega),
        List.getElem?_append_right (by omega), hel, List.getElem?_append_left (by omega)]
      congr 1; omega
    · rw [if_neg (by omega), if_neg (by omega)]

theorem torn_item {g : Geo} (w : g.WF) (s : St K) (d : List Byte) {a e k : Nat} (hp : Placed g (Header.ofData d) a e)
    (hl : d.length ≤ 65535) (hb : Blank s.fl.mem a (g.hl + g.roundUp d.length)) (hk : k < d.length)
    (hf : s.fl.fuel = some (g.hl + k)) (hbuf : g.roundUp d.length ≤ s.buf.length)
    (hno : adaptedCrc32 (tornData d k) = adaptedCrc32 d → tornData d k = d) :
    ∃ s', writeNew g a d s = (.error .shutoff, s') ∧ readHeader g a e s' = (.ok (some (Header.ofData d)), s') ∧
      ((readItem g (Header.ofData d) a e s').1 = .ok (.corrupted (Header.ofData d)) ∨
        ((readItem g (Header.ofData d) a e s').1 = .ok (.present (Header.ofData d)) ∧
          (readItem g (Header.ofData d) a e s').2.buf.take d.length = d)) := by
  obtain ⟨s', h1, h2, h3, h4⟩ := torn_read w s d hp hl hb hk hf
  refine ⟨s', h1, h2, ?_⟩
  have hdl : d.length = (Header.ofData d).len.toNat := by simp [Header.ofData]; omega
  have hup := hp.upper
  have hin := hp.inRange
  rw [readItem_run w s' (Nat.dvd_of_mod_eq_zero hp.aligned) hp.lower (by unfold Header.next; omega) (by unfold Header.next; omega)]
  rw [if_neg (show (Header.ofData d).crc ≠ 0#32 from adapted_ne_zero d), if_neg (by rw [h4, ← hdl]; omega)]
  by_cases hpr : Present g s'.fl.mem a (Header.ofData d)
  · right
    have h5 := present_iff.1 hpr
    rw [← hdl, h3] at h5
    refine ⟨by rw [if_pos hpr], ?_⟩
    simp only
    have := bufAfter_take w (mem := s'.fl.mem) (a := a) (h := Header.ofData d) (buf := s'.buf)
    rw [← hdl, h3, hno h5] at this
    exact this
  · left
    rw [if_neg hpr]

/-- C25. Power is lost after `k` bytes of the data of an item. If the checksum can tell torn versions of this data
from the whole, the item reads as corrupt, unless it is complete. Missing: data of which a torn version has the
same checksum, for which it is false, see `torn_data_returned` and `torn_data_accepted`. -/
theorem torn_data_detected_partial {g : Geo} (w : g.WF) (s : St K) (d : List Byte) {a e k : Nat}
    (hp : Placed g (Header.ofData d) a e) (hl : d.length ≤ 65535) (hb : Blank s.fl.mem a (g.hl + g.roundUp d.length))
    (hk : k < d.length) (hf : s.fl.fuel = some (g.hl + k)) (hbuf : g.roundUp d.length ≤ s.buf.length)
    (hno : TornSeen d) :
    ∃ s', writeNew g a d s = (.error .shutoff, s') ∧ readHeader g a e s' = (.ok (some (Header.ofData d)), s') ∧
      ((readItem g (Header.ofData d) a e s').1 = .ok (.corrupted (Header.ofData d)) ∨
        ((readItem g (Header.ofData d) a e s').1 = .ok (.present (Header.ofData d)) ∧
          (readItem g (Header.ofData d) a e s').2.buf.take d.length = d)) :=
  torn_item w s d hp hl hb hk hf hbuf (hno k)

/-- C25, for any data: a tear that leaves out at most the last three bytes is always detected. -/
theorem torn_tail_detected_partial {g : Geo} (w : g.WF) (s : St K) (d : List Byte) {a e k : Nat}
    (hp : Placed g (Header.ofData d) a e) (hl : d.length ≤ 65535) (hb : Blank s.fl.mem a (g.hl + g.roundUp d.length))
    (hk : k < d.length) (hk3 : d.length ≤ k + 3) (hf : s.fl.fuel = some (g.hl + k)) (hbuf : g.roundUp d.length ≤ s.buf.length) :
    ∃ s', writeNew g a d s = (.error .shutoff, s') ∧ readHeader g a e s' = (.ok (some (Header.ofData d)), s') ∧
      ((readItem g (Header.ofData d) a e s').1 = .ok (.corrupted (Header.ofData d)) ∨
        ((readItem g (Header.ofData d) a e s').1 = .ok (.present (Header.ofData d)) ∧
          (readItem g (Header.ofData d) a e s').2.buf.take d.length = d)) := by
  refine torn_item w s d hp hl hb hk hf hbuf ?_
  intro he
  have hd : d = d.take k ++ d.drop k := (List.take_append_drop k d).symm
  have := checksum_tells_tails_apart (d.take k) (List.replicate (d.length - k) 0xff#8) (d.drop k) (by simp; omega) (by simp)
    (by rw [List.take_append_drop]; exact he)
  unfold tornData
  rw [this, List.take_append_drop]

example : ∃ s', writeNew geo4 8 [1#8, 2#8, 3#8, 4#8] (blankSt (some 10)) = (.error .shutoff, s') ∧
    (readItem geo4 (Header.ofData [1#8, 2#8, 3#8, 4#8]) 8 56 s').1 = .ok (.corrupted (Header.ofData [1#8, 2#8, 3#8, 4#8])) := by
  obtain ⟨s', h1, _, h2⟩ := torn_tail_detected_partial geo4_wf (blankSt (some 10)) [1#8, 2#8, 3#8, 4#8] (a := 8) (e := 56) (k := 2)
    ⟨by decide, by decide, by decide +kernel, by decide⟩ (by decide) (fun _ _ _ => rfl) (by decide) (by decide) rfl (by decide)
  refine ⟨s', h1, ?_⟩
  rcases h2 with h2 | h2
  · exact h2
  · have : s' = (writeNew geo4 8 [1#8, 2#8, 3#8, 4#8] (blankSt (some 10))).2 := by rw [h1]
    exact absurd h2.1 (by rw [this]; decide +kernel)

/-- C25 is false in general: here only one byte of the data was programmed and the item still reads as present. -/
theorem torn_data_accepted :
    (writeNew geo4 8 [65#8, 1#8, 2#8, 3#8, 225#8, 242#8, 48#8, 241#8] (blankSt (some 9))).1 = .error .shutoff ∧
    (readItem geo4 (Header.ofData [65#8, 1#8, 2#8, 3#8, 225#8, 242#8, 48#8, 241#8]) 8 56
        (writeNew geo4 8 [65#8, 1#8, 2#8, 3#8, 225#8, 242#8, 48#8, 241#8] (blankSt (some 9))).2).1 =
      .ok (.present (Header.ofData [65#8, 1#8, 2#8, 3#8, 225#8, 242#8, 48#8, 241#8])) := by decide +kernel

end SeqStorage.Props
