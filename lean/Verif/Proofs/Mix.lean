import Verif.Proofs.Layout
import Verif.Props.LengthChecksum
/-
Sets of data whose interrupted headers cannot be taken for a header, for any word size.
-/

namespace SeqStorage

/-- The high byte of a length checksum is at least 0xe0. -/
theorem fake_high {a b c d : Byte} {l : List Byte} (h : Fake (a :: b :: c :: d :: l)) : 0xe0 ≤ d.toNat := by
  have h1 : crc16 [a, b] = ofLe16 c d := h
  have h2 := Props.length_checksum_top_bits (ofLe16 a b)
  rw [le16_ofLe16, h1] at h2
  have key : ∀ d : Byte, (d.setWidth 16 <<< 8) &&& 0xe000#16 = 0xe000#16 → 0xe0 ≤ d.toNat := by decide +kernel
  apply key
  rw [← h2]
  apply BitVec.eq_of_getLsbD_eq
  intro i hi
  rw [← h2]
  simp only [ofLe16, BitVec.getLsbD_and, BitVec.getLsbD_shiftLeft, BitVec.getLsbD_setWidth, BitVec.getLsbD_append]
  by_cases h8 : i < 8
  · have : (0xe000#16).getLsbD i = false := by
      have : ∀ i : Fin 8, (0xe000#16).getLsbD i = false := by decide
      exact this ⟨i, h8⟩
    simp [this]
  · have : i - 8 < 16 := by omega
    simp [h8, hi, this]

theorem fake_ff (a b : Byte) (l : List Byte) : ¬ Fake (a :: b :: 0xff#8 :: 0xff#8 :: l) := by
  intro h
  have h1 : crc16 [a, b] = ofLe16 0xff#8 0xff#8 := h
  exact crc16_ne _ (h1.trans (by decide))

/-- The bytes that interrupted headers leave behind. -/
def scrapBytes (L : List (List Byte)) : List Byte := 0xff#8 :: L.flatMap fun d => (headBytes (Header.ofData d)).take 7

/-- The first byte of the checksum, and so on. -/
def crcByte (d : List Byte) (i : Nat) : Byte := (headBytes (Header.ofData d)).getD i 0#8

/-- The header of `d` never completes one of the scraps to a header. -/
def Tame (L : List (List Byte)) (d : List Byte) : Prop :=
  ((crcByte d 0).toNat < 0xe0 ∧ (crcByte d 1).toNat < 0xe0 ∧ (crcByte d 2).toNat < 0xe0) ∧
  (∀ k < 8, ∀ x < 4, ¬ Fake ((tornData (headBytes (Header.ofData d)) (k + 1)).drop x)) ∧
  (∀ k < 5, ∀ x < 4, ¬ Fake ((headBytes { Header.ofData d with crc := clearedCrc (adaptedCrc32 d) k }).drop x)) ∧
  (∀ u ∈ scrapBytes L, ¬ Fake [u, crcByte d 0, crcByte d 1, 0xff#8] ∧ ∀ v ∈ scrapBytes L, ¬ Fake [u, v, crcByte d 0, 0xff#8])

instance (L : List (List Byte)) (d : List Byte) : Decidable (Tame L d) := by unfold Tame; infer_instance

theorem scraps_bytes {W : Nat} {L : List (List Byte)} {t : List Byte} (h : Scraps W (· ∈ L) t) : ∀ b ∈ t, b ∈ scrapBytes L := by
  induction h with
  | nil => simp
  | @add t bs d k _ hd hk hW hn hb ih =>
    intro b hbm
    rcases List.mem_append.1 hbm with h | h
    · exact ih b h
    · obtain ⟨i, hi, rfl⟩ := List.mem_iff_getElem.1 h
      have h1 := hb i
      rw [List.getD_eq_getElem?_getD, List.getElem?_eq_getElem hi] at h1
      simp only [Option.getD_some] at h1
      rw [h1]
      unfold tornData
      have hl := headBytes_length (Header.ofData d)
      rw [List.getD_eq_getElem?_getD]
      by_cases hik : i < k
      · rw [List.getElem?_append_left (by simp [hl]; omega), List.getElem?_take, if_pos hik, List.getElem?_eq_getElem (by omega)]
        refine List.mem_cons_of_mem _ (List.mem_flatMap.2 ⟨d, hd, ?_⟩)
        refine List.mem_iff_getElem.2 ⟨i, by simp [hl]; omega, ?_⟩
        simp
      · rw [List.getElem?_append_right (by simp [hl]; omega), List.getElem?_replicate]
        have : (if i - (List.take k (headBytes (Header.ofData d))).length < (headBytes (Header.ofData d)).length - k then some 0xff#8 else none).getD 0xff#8 = 0xff#8 := by
          split <;> rfl
        rw [this]
        exact List.mem_cons_self

theorem head_cons (h : Header) : headBytes h = h.crc.setWidth 8 :: (h.crc >>> 8).setWidth 8 :: (h.crc >>> 16).setWidth 8 ::
    (h.crc >>> 24).setWidth 8 :: (le16 h.len ++ le16 (crc16 (le16 h.len))) := rfl

/-- Whether a set of data is safe can be computed. -/
theorem noMix_of {L : List (List Byte)} (hL : ∀ d ∈ L, Tame L d) (W : Nat) : NoMix W (· ∈ L) := by
  intro t i d k ht _ h2 h3 hd
  obtain ⟨⟨c0, c1, c2⟩, hT, hC, hU⟩ := hL d hd
  have hbytes := scraps_bytes ht
  simp only [crcByte, head_cons, List.getD_cons_zero, List.getD_cons_succ] at c0 c1 c2 hU
  rcases Nat.lt_or_ge (i + 4) t.length with h4 | h4
  · -- some of the four bytes are scraps
    have hdrop : ∀ X : List Byte, (t ++ X).drop (i + 4) = t.drop (i + 4) ++ X := fun X => List.drop_append_of_le_length (by omega)
    have hmem : ∀ b ∈ t.drop (i + 4), b ∈ scrapBytes L := fun b hb => hbytes b (List.mem_of_mem_drop hb)
    have hlen : (t.drop (i + 4)).length = t.length - (i + 4) := List.length_drop
    rw [hdrop, hdrop]
    generalize t.drop (i + 4) = r at hmem hlen
    have hz : ∀ (m : Nat) (b : Byte), b.toNat < 0xe0 → (if m < k then (0#8 : Byte) else b).toNat < 0xe0 := by
      intro m b hb; split
      · decide
      · exact hb
    have hcl : headBytes { Header.ofData d with crc := clearedCrc (adaptedCrc32 d) k } =
        (if 0 < k then 0#8 else (Header.ofData d).crc.setWidth 8) :: (if 1 < k then 0#8 else ((Header.ofData d).crc >>> 8).setWidth 8) ::
        (if 2 < k then 0#8 else ((Header.ofData d).crc >>> 16).setWidth 8) :: (if 3 < k then 0#8 else ((Header.ofData d).crc >>> 24).setWidth 8) ::
        (le16 (Header.ofData d).len ++ le16 (crc16 (le16 (Header.ofData d).len))) := by
      have h5 : ∀ c : BitVec 32, le32 (clearedCrc c k) = [if 0 < k then 0#8 else c.setWidth 8, if 1 < k then 0#8 else (c >>> 8).setWidth 8,
          if 2 < k then 0#8 else (c >>> 16).setWidth 8, if 3 < k then 0#8 else (c >>> 24).setWidth 8] := by
        intro c
        have h6 := clearedCrc_bytes (c.setWidth 8) ((c >>> 8).setWidth 8) ((c >>> 16).setWidth 8) ((c >>> 24).setWidth 8) k
        rw [ofLe32_le32] at h6
        rw [h6, le32_ofLe32]
      unfold headBytes
      simp only [h5]
      rfl
    rcases r with _ | ⟨u, _ | ⟨v, _ | ⟨x, _ | ⟨y, r⟩⟩⟩⟩
    · simp only [List.length_nil] at hlen; omega
    · refine ⟨fun hk h => ?_, fun h => ?_⟩
      · rcases k with _ | _ | _ | k
        · omega
        · simp only [tornData, head_cons, List.take_succ_cons, List.take_zero, List.length_cons, List.replicate_succ, List.cons_append, List.nil_append,
            Nat.add_sub_cancel, Nat.zero_add] at h
          exact fake_ff _ _ _ h
        · simp only [tornData, head_cons, List.take_succ_cons, List.take_zero, List.length_cons, List.cons_append, List.nil_append, Nat.zero_add,
            Nat.reduceAdd, Nat.reduceSubDiff, List.replicate_succ] at h
          exact (hU u (hmem u (by simp))).1 h
        · simp only [tornData, head_cons, List.take_succ_cons, List.cons_append, List.nil_append] at h
          have := fake_high h
          omega
      · rw [hcl] at h
        have := fake_high h
        have := hz 2 _ c2
        omega
    · refine ⟨fun hk h => ?_, fun h => ?_⟩
      · rcases k with _ | _ | k
        · omega
        · simp only [tornData, head_cons, List.take_succ_cons, List.take_zero, List.length_cons, List.replicate_succ, List.cons_append, List.nil_append,
            Nat.add_sub_cancel, Nat.zero_add] at h
          exact (hU u (hmem u (by simp))).2 v (hmem v (by simp)) h
        · simp only [tornData, head_cons, List.take_succ_cons, List.cons_append, List.nil_append] at h
          have := fake_high h
          omega
      · rw [hcl] at h
        have := fake_high h
        have := hz 1 _ c1
        omega
    · refine ⟨fun hk h => ?_, fun h => ?_⟩
      · rcases k with _ | k
        · omega
        · simp only [tornData, head_cons, List.take_succ_cons, List.cons_append, List.nil_append] at h
          have := fake_high h
          omega
      · rw [hcl] at h
        have := fake_high h
        have := hz 0 _ c0
        omega
    · simp only [List.length_cons] at hlen; omega
  · -- all of them belong to the new header
    have hdrop : ∀ X : List Byte, (t ++ X).drop (i + 4) = X.drop (i + 4 - t.length) := by
      intro X; rw [List.drop_append, List.drop_of_length_le h4, List.nil_append]
    rw [hdrop, hdrop]
    have hx : i + 4 - t.length < 4 := by omega
    refine ⟨fun hk => ?_, ?_⟩
    · rcases Nat.lt_or_ge k 9 with h9 | h9
      · obtain ⟨m, rfl⟩ : ∃ m, k = m + 1 := ⟨k - 1, by omega⟩
        exact hT m (by omega) _ hx
      · have := hT 7 (by decide) _ hx
        rw [tornData_full _ (by rw [headBytes_length]; decide)] at this
        rw [tornData_full _ (by rw [headBytes_length]; omega)]
        exact this
    · rcases Nat.lt_or_ge k 5 with h9 | h9
      · exact hC k h9 _ hx
      · have := hC 4 (by decide) _ hx
        rw [clearedCrc_full _ (by decide)] at this
        rw [clearedCrc_full _ (by omega)]
        exact this

end SeqStorage
