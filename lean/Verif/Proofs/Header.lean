import Verif.Proofs.Mem
import Verif.Props.Crc
/-
Header bytes.
-/

namespace SeqStorage

theorem crc16_ne (d : List Byte) : crc16 d ≠ 0xffff#16 := by
  unfold crc16
  generalize d.foldl crc16Byte 0xffff#16 ^^^ 0xffff#16 = v
  simp only
  split
  · decide
  · assumption

theorem ofLe16_le16 (x : BitVec 16) : ofLe16 (x.setWidth 8) ((x >>> 8).setWidth 8) = x := by
  apply BitVec.eq_of_getLsbD_eq
  intro i hi
  simp only [ofLe16, BitVec.getLsbD_append, BitVec.getLsbD_setWidth, BitVec.getLsbD_ushiftRight]
  by_cases h : i < 8
  · simp [h]
  · simp [h, show 8 + (i - 8) = i from by omega, show i - 8 < 8 from by omega]

theorem ofLe32_le32 (x : BitVec 32) :
    ofLe32 (x.setWidth 8) ((x >>> 8).setWidth 8) ((x >>> 16).setWidth 8) ((x >>> 24).setWidth 8) = x := by
  apply BitVec.eq_of_getLsbD_eq
  intro i hi
  simp only [ofLe32, BitVec.getLsbD_append, BitVec.getLsbD_setWidth, BitVec.getLsbD_ushiftRight]
  by_cases h1 : i < 8
  · simp [h1]
  · by_cases h2 : i < 16
    · simp [h1, show i - 8 < 8 from by omega, show 8 + (i - 8) = i from by omega]
    · by_cases h3 : i < 24
      · simp [h1, show ¬ i - 8 < 8 from by omega, show i - 8 - 8 < 8 from by omega,
          show 16 + (i - 8 - 8) = i from by omega]
      · simp [h1, show ¬ i - 8 < 8 from by omega, show ¬ i - 8 - 8 < 8 from by omega,
          show i - 8 - 8 - 8 < 8 from by omega, show 24 + (i - 8 - 8 - 8) = i from by omega]

theorem ofLe16_inj_hi {a b : Byte} (x : BitVec 16) (h : ofLe16 a b = x) : b = (x >>> 8).setWidth 8 := by
  subst h
  apply BitVec.eq_of_getLsbD_eq
  intro i hi
  simp only [ofLe16, BitVec.getLsbD_append, BitVec.getLsbD_setWidth, BitVec.getLsbD_ushiftRight]
  simp [hi, show ¬ 8 + i < 8 from by omega]

theorem ofLe16_ff : ofLe16 0xff#8 0xff#8 = 0xffff#16 := by decide

theorem setWidth8_ofLe32 (b0 b1 b2 b3 : Byte) : (ofLe32 b0 b1 b2 b3).setWidth 8 = b0 := by
  apply BitVec.eq_of_getLsbD_eq
  intro i hi
  simp only [ofLe32, BitVec.getLsbD_append, BitVec.getLsbD_setWidth]
  simp [hi]

/-- The eight bytes of a header. -/
theorem encode_eq (g : Geo) (h : Header) : h.encode g =
    h.crc.setWidth 8 :: (h.crc >>> 8).setWidth 8 :: (h.crc >>> 16).setWidth 8 ::
    (h.crc >>> 24).setWidth 8 :: h.len.setWidth 8 :: (h.len >>> 8).setWidth 8 ::
    (crc16 (le16 h.len)).setWidth 8 :: (crc16 (le16 h.len) >>> 8).setWidth 8 ::
    List.replicate (g.hl - 8) 0xff#8 := by
  simp [Header.encode, le32, le16]

theorem encode_length {g : Geo} (w : g.WF) (h : Header) : (h.encode g).length = g.hl := by
  have := w.hl_ge
  rw [encode_eq]; simp; omega

/-- Eight bytes and padding. -/
theorem decode_cons8 (b0 b1 b2 b3 b4 b5 b6 b7 : Byte) (rest : List Byte)
    (hrest : ∀ b ∈ rest, b = 0xff#8) :
    decodeHeader (b0 :: b1 :: b2 :: b3 :: b4 :: b5 :: b6 :: b7 :: rest) =
      if crc16 [b4, b5] = ofLe16 b6 b7 then .ok (some ⟨ofLe16 b4 b5, ofLe32 b0 b1 b2 b3⟩)
      else if b0 = 0xff#8 ∧ b1 = 0xff#8 ∧ b2 = 0xff#8 ∧ b3 = 0xff#8 ∧ b4 = 0xff#8 ∧ b5 = 0xff#8 ∧
        b6 = 0xff#8 ∧ b7 = 0xff#8 then .ok none
      else .error .corrupted := by
  have hr : rest.all (· == 0xff#8) = true := by
    rw [List.all_eq_true]; intro b hb; simp [hrest b hb]
  unfold decodeHeader
  simp only [List.all_cons, hr, Bool.and_true, List.getD_eq_getElem?_getD,
    List.getElem?_cons_succ, List.getElem?_cons_zero, Option.getD_some]
  by_cases hall : b0 = 0xff#8 ∧ b1 = 0xff#8 ∧ b2 = 0xff#8 ∧ b3 = 0xff#8 ∧ b4 = 0xff#8 ∧ b5 = 0xff#8 ∧
        b6 = 0xff#8 ∧ b7 = 0xff#8
  · obtain ⟨rfl, rfl, rfl, rfl, rfl, rfl, rfl, rfl⟩ := hall
    rw [if_pos (by decide), if_neg (by rw [ofLe16_ff]; exact crc16_ne _)]
    simp
  · rw [if_neg (by simp only [Bool.and_eq_true, beq_iff_eq]; exact hall), if_neg hall]
    by_cases hc : crc16 [b4, b5] = ofLe16 b6 b7
    · rw [if_neg (by simp [hc]), if_pos hc]
    · rw [if_pos hc, if_neg hc]

theorem decode_encode (g : Geo) (h : Header) : decodeHeader (h.encode g) = .ok (some h) := by
  rw [encode_eq, decode_cons8 _ _ _ _ _ _ _ _ _ (fun b hb => (List.mem_replicate.1 hb).2)]
  rw [ofLe16_le16, ofLe16_le16, ofLe32_le32]
  simp [le16]

theorem decode_blank (n : Nat) : decodeHeader (List.replicate n 0xff#8) = .ok none := by
  unfold decodeHeader
  rw [if_pos]
  rw [List.all_eq_true]
  intro b hb; simp [(List.mem_replicate.1 hb).2]

/-- What is in flash after `k` bytes of a header were programmed on blank flash. -/
def tornHeader (g : Geo) (h : Header) (k : Nat) : List Byte :=
  (h.encode g).take k ++ List.replicate (g.hl - k) 0xff#8

theorem tornHeader_full {g : Geo} (w : g.WF) (h : Header) {k : Nat} (hk : 8 ≤ k) : tornHeader g h k = h.encode g := by
  have hl := w.hl_ge
  unfold tornHeader
  rw [encode_eq]
  obtain ⟨j, rfl⟩ : ∃ j, k = j + 8 := ⟨k - 8, by omega⟩
  simp only [List.take_succ_cons, List.cons_append, List.take_replicate, List.replicate_append_replicate]
  congr 9; omega

/-- A torn header is unreadable unless it happens to equal the complete header. -/
theorem decode_torn {g : Geo} (w : g.WF) (h : Header) {k : Nat} (hk : 0 < k)
    (hb : h.crc.setWidth 8 ≠ 0xff#8) :
    decodeHeader (tornHeader g h k) = .error .corrupted ∨ tornHeader g h k = h.encode g := by
  have hl := w.hl_ge
  rcases Nat.lt_or_ge k 8 with h8 | h8
  · obtain ⟨m, hm⟩ : ∃ m, g.hl = m + 8 := ⟨g.hl - 8, by omega⟩
    have hrep : ∀ j, ∀ b ∈ List.replicate j (0xff#8), b = 0xff#8 := fun j b hb => (List.mem_replicate.1 hb).2
    have hne : ∀ a b : Byte, crc16 [a, b] ≠ ofLe16 0xff#8 0xff#8 := by
      intro a b; rw [ofLe16_ff]; exact crc16_ne _
    unfold tornHeader
    rw [encode_eq, hm]
    have hcases : k = 1 ∨ k = 2 ∨ k = 3 ∨ k = 4 ∨ k = 5 ∨ k = 6 ∨ k = 7 := by omega
    rcases hcases with rfl | rfl | rfl | rfl | rfl | rfl | rfl
    case inr.inr.inr.inr.inr.inr =>
      simp only [List.take_succ_cons, List.take_zero, List.cons_append, List.nil_append,
        show m + 8 - 7 = m + 1 from by omega, List.replicate_succ, show m + 8 - 8 = m from by omega]
      rw [decode_cons8 _ _ _ _ _ _ _ _ _ (hrep _)]
      by_cases hc : crc16 [BitVec.setWidth 8 h.len, BitVec.setWidth 8 (h.len >>> 8)] =
          ofLe16 (BitVec.setWidth 8 (crc16 (le16 h.len))) 255#8
      · right
        have := ofLe16_inj_hi _ hc.symm
        rw [this]
        rfl
      · left
        rw [if_neg hc, if_neg (fun h' => hb h'.1)]
    all_goals
      left
      simp only [List.take_succ_cons, List.take_zero, List.cons_append, List.nil_append]
      first
        | rw [show m + 8 - 1 = m + 7 from by omega]
        | rw [show m + 8 - 2 = m + 6 from by omega]
        | rw [show m + 8 - 3 = m + 5 from by omega]
        | rw [show m + 8 - 4 = m + 4 from by omega]
        | rw [show m + 8 - 5 = m + 3 from by omega]
        | rw [show m + 8 - 6 = m + 2 from by omega]
      simp only [List.replicate_succ]
      rw [decode_cons8 _ _ _ _ _ _ _ _ _ (hrep _), if_neg (hne _ _), if_neg (fun h' => hb h'.1)]
  · right; exact tornHeader_full w h h8

/-- The checksum field after `k` bytes of a removal were programmed over it. -/
def clearedCrc (c : BitVec 32) (k : Nat) : BitVec 32 :=
  if k = 0 then c else if k = 1 then c &&& 0xffffff00#32 else if k = 2 then c &&& 0xffff0000#32
  else if k = 3 then c &&& 0xff000000#32 else 0#32

theorem clearedCrc_low (c : BitVec 32) {k : Nat} (h : 0 < k) : (clearedCrc c k).setWidth 8 = 0#8 := by
  have key : ∀ m : BitVec 32, m.setWidth 8 = 0#8 → (c &&& m).setWidth 8 = 0#8 := by
    intro m hm
    rw [BitVec.setWidth_and, hm]; simp
  unfold clearedCrc
  rw [if_neg (by omega)]
  split
  · exact key _ (by decide)
  · split
    · exact key _ (by decide)
    · split
      · exact key _ (by decide)
      · decide

theorem clearedCrc_full (c : BitVec 32) {k : Nat} (h : 4 ≤ k) : clearedCrc c k = 0#32 := by
  unfold clearedCrc
  rw [if_neg (by omega), if_neg (by omega), if_neg (by omega), if_neg (by omega)]

theorem ff_and (b : Byte) : b &&& 0xff#8 = b := by rw [BitVec.and_comm, and_ff]

theorem ofLe32_and (a b c d a' b' c' d' : Byte) :
    ofLe32 a b c d &&& ofLe32 a' b' c' d' = ofLe32 (a &&& a') (b &&& b') (c &&& c') (d &&& d') := by
  apply BitVec.eq_of_getLsbD_eq
  intro i hi
  simp only [ofLe32, BitVec.getLsbD_and, BitVec.getLsbD_append]
  by_cases h1 : i < 8
  · simp only [h1, if_true]
  · by_cases h2 : i - 8 < 8
    · simp only [h1, h2, if_true, if_false]
    · by_cases h3 : i - 8 - 8 < 8
      · simp only [h1, h2, h3, if_true, if_false]
      · simp only [h1, h2, h3, if_false]

theorem clearedCrc_bytes (a b c d : Byte) (k : Nat) :
    clearedCrc (ofLe32 a b c d) k = ofLe32 (if 0 < k then 0#8 else a) (if 1 < k then 0#8 else b)
      (if 2 < k then 0#8 else c) (if 3 < k then 0#8 else d) := by
  have m1 : 0xffffff00#32 = ofLe32 0#8 0xff#8 0xff#8 0xff#8 := by decide
  have m2 : 0xffff0000#32 = ofLe32 0#8 0#8 0xff#8 0xff#8 := by decide
  have m3 : 0xff000000#32 = ofLe32 0#8 0#8 0#8 0xff#8 := by decide
  have m4 : 0#32 = ofLe32 0#8 0#8 0#8 0#8 := by decide
  unfold clearedCrc
  rcases k with _ | _ | _ | _ | k
  · simp
  · simp [m1, ofLe32_and, ff_and]
  · simp [m2, ofLe32_and, ff_and]
  · simp [m3, ofLe32_and, ff_and]
  · simp [m4]

theorem decode_some_iff {bs : List Byte} (hl : 8 ≤ bs.length) (h : Header) :
    decodeHeader bs = .ok (some h) ↔
      crc16 [bs.getD 4 0#8, bs.getD 5 0#8] = ofLe16 (bs.getD 6 0#8) (bs.getD 7 0#8) ∧
      h = ⟨ofLe16 (bs.getD 4 0#8) (bs.getD 5 0#8),
        ofLe32 (bs.getD 0 0#8) (bs.getD 1 0#8) (bs.getD 2 0#8) (bs.getD 3 0#8)⟩ := by
  unfold decodeHeader
  by_cases hall : bs.all (· == 0xff#8) = true
  · rw [if_pos hall]
    have hff : ∀ i, i < 8 → bs.getD i 0#8 = 0xff#8 := by
      intro i hi
      rw [List.all_eq_true] at hall
      have := hall bs[i] (List.getElem_mem (by omega))
      simp at this
      simp [show i < bs.length from by omega, this]
    constructor
    · intro h; simp at h
    · rintro ⟨hc, -⟩
      rw [hff 6 (by omega), hff 7 (by omega), ofLe16_ff] at hc
      exact absurd hc (crc16_ne _)
  · rw [if_neg hall]
    by_cases hc : crc16 [bs.getD 4 0#8, bs.getD 5 0#8] = ofLe16 (bs.getD 6 0#8) (bs.getD 7 0#8)
    · simp only [ne_eq, hc, not_true_eq_false, if_false, true_and, Except.ok.injEq, Option.some.injEq]
      exact eq_comm
    · simp only [ne_eq, hc, not_false_eq_true, if_true, false_and, iff_false]
      intro h; cases h

theorem getD_readBytes (mem : Nat → Byte) (a n i : Nat) (h : i < n) (d : Byte) :
    (readBytes mem a n).getD i d = mem (a + i) := by
  simp [readBytes, h]

theorem le16_ofLe16 (a b : Byte) : le16 (ofLe16 a b) = [a, b] := by
  have h1 : (ofLe16 a b).setWidth 8 = a := by
    apply BitVec.eq_of_getLsbD_eq
    intro i hi
    simp only [ofLe16, BitVec.getLsbD_append, BitVec.getLsbD_setWidth, hi]
    simp
  have h2 := (ofLe16_inj_hi (ofLe16 a b) rfl).symm
  simp [le16, h1, h2]

/-- The bytes that clear the checksum of a header that is in flash. -/
theorem encode_clear {g : Geo} (w : g.WF) {mem : Nat → Byte} {a : Nat} {h : Header}
    (hd : decodeHeader (readBytes mem a g.hl) = .ok (some h)) {i : Nat} (hi : i < g.hl) :
    (Header.encode g { h with crc := 0#32 })[i]'(by rw [encode_length w]; exact hi) =
      if i < 4 then 0#8 else if i < 8 then mem (a + i) else 0xff#8 := by
  have hl := w.hl_ge
  rw [decode_some_iff (by simpa using hl)] at hd
  obtain ⟨h1, h2⟩ := hd
  simp only [getD_readBytes _ _ _ _ (show 0 < g.hl from by omega),
    getD_readBytes _ _ _ _ (show 1 < g.hl from by omega), getD_readBytes _ _ _ _ (show 2 < g.hl from by omega),
    getD_readBytes _ _ _ _ (show 3 < g.hl from by omega), getD_readBytes _ _ _ _ (show 4 < g.hl from by omega),
    getD_readBytes _ _ _ _ (show 5 < g.hl from by omega), getD_readBytes _ _ _ _ (show 6 < g.hl from by omega),
    getD_readBytes _ _ _ _ (show 7 < g.hl from by omega)] at h1 h2
  have e := le16_ofLe16 (mem (a+4)) (mem (a+5))
  simp [le16] at e
  have hc : crc16 (le16 h.len) = ofLe16 (mem (a+6)) (mem (a+7)) := by
    rw [h2, le16_ofLe16, h1]
  have hc2 := le16_ofLe16 (mem (a+6)) (mem (a+7))
  simp [le16] at hc2
  have hcase : i = 0 ∨ i = 1 ∨ i = 2 ∨ i = 3 ∨ i = 4 ∨ i = 5 ∨ i = 6 ∨ i = 7 ∨ 8 ≤ i := by omega
  rcases hcase with rfl | rfl | rfl | rfl | rfl | rfl | rfl | rfl | h8
  · simp [encode_eq]
  · simp [encode_eq]
  · simp [encode_eq]
  · simp [encode_eq]
  · simp [encode_eq, h2, e.1]
  · simp [encode_eq, h2, e.2]
  · simp only [encode_eq, hc]; simp [hc2.1]
  · simp only [encode_eq, hc]; simp [hc2.2]
  · rw [if_neg (by omega), if_neg (by omega)]
    obtain ⟨j, rfl⟩ : ∃ j, i = j + 8 := ⟨i - 8, by omega⟩
    simp [encode_eq]

/-- Clearing the checksum, possibly interrupted after `k` bytes, keeps the header readable. -/
theorem decode_clear {g : Geo} (w : g.WF) {mem : Nat → Byte} {a k : Nat} {h : Header}
    (hd : decodeHeader (readBytes mem a g.hl) = .ok (some h)) :
    decodeHeader (readBytes (programBytes mem a ((Header.encode g { h with crc := 0#32 }).take k)) a g.hl) =
      .ok (some { h with crc := clearedCrc h.crc k }) := by
  have hl := w.hl_ge
  rw [decode_some_iff (by simpa using hl)] at hd ⊢
  obtain ⟨h1, h2⟩ := hd
  simp only [getD_readBytes _ _ _ _ (show 0 < g.hl from by omega),
    getD_readBytes _ _ _ _ (show 1 < g.hl from by omega), getD_readBytes _ _ _ _ (show 2 < g.hl from by omega),
    getD_readBytes _ _ _ _ (show 3 < g.hl from by omega), getD_readBytes _ _ _ _ (show 4 < g.hl from by omega),
    getD_readBytes _ _ _ _ (show 5 < g.hl from by omega), getD_readBytes _ _ _ _ (show 6 < g.hl from by omega),
    getD_readBytes _ _ _ _ (show 7 < g.hl from by omega)] at h1 h2 ⊢
  have hlen := encode_length w { h with crc := 0#32 }
  have pr : ∀ i b, (h' : i < (Header.encode g { h with crc := 0#32 }).length) → 
      (Header.encode g { h with crc := 0#32 })[i] = b →
      programBytes mem a ((Header.encode g { h with crc := 0#32 }).take k) (a + i) =
        if i < k then mem (a + i) &&& b else mem (a + i) := by
    intro i b h' hb
    by_cases hk : i < k
    · rw [programBytes_inside (by simp; omega), if_pos hk, List.getElem_take, hb]
    · rw [programBytes_outside (Or.inr (by simp; omega)), if_neg hk]
  have e4 : (Header.encode g { h with crc := 0#32 })[4]'(by omega) = mem (a + 4) := by
    have : h.len = ofLe16 (mem (a+4)) (mem (a+5)) := by rw [h2]
    have := le16_ofLe16 (mem (a+4)) (mem (a+5))
    simp [le16] at this
    simp [encode_eq, h2, this.1]
  have e5 : (Header.encode g { h with crc := 0#32 })[5]'(by omega) = mem (a + 5) := by
    have := le16_ofLe16 (mem (a+4)) (mem (a+5))
    simp [le16] at this
    simp [encode_eq, h2, this.2]
  have hc : crc16 (le16 h.len) = ofLe16 (mem (a+6)) (mem (a+7)) := by
    rw [h2, le16_ofLe16, h1]
  have hc2 := le16_ofLe16 (mem (a+6)) (mem (a+7))
  simp [le16] at hc2
  have e6 : (Header.encode g { h with crc := 0#32 })[6]'(by omega) = mem (a + 6) := by
    simp only [encode_eq, hc]; simp [hc2.1]
  have e7 : (Header.encode g { h with crc := 0#32 })[7]'(by omega) = mem (a + 7) := by
    simp only [encode_eq, hc]; simp [hc2.2]
  have z : ∀ i, (hi : i < 4) → (Header.encode g { h with crc := 0#32 })[i]'(by omega) = 0#8 := by
    intro i hi
    have : i = 0 ∨ i = 1 ∨ i = 2 ∨ i = 3 := by omega
    rcases this with rfl | rfl | rfl | rfl <;> simp [encode_eq]
  rw [pr 0 _ (by omega) (z 0 (by omega)), pr 1 _ (by omega) (z 1 (by omega)), pr 2 _ (by omega) (z 2 (by omega)),
    pr 3 _ (by omega) (z 3 (by omega)), pr 4 _ (by omega) e4, pr 5 _ (by omega) e5, pr 6 _ (by omega) e6, pr 7 _ (by omega) e7]
  simp only [BitVec.and_self, ite_self, BitVec.and_zero]
  refine ⟨h1, ?_⟩
  rw [← clearedCrc_bytes, h2]

end SeqStorage
