import Verif.Proofs.Run
/-
C23: item headers cannot be mistaken for free space and interrupted headers never validate.
C24: an item whose removal was interrupted never reads as present.
-/

set_option linter.unusedSectionVars false

namespace SeqStorage
namespace Props
open M

variable {K : Type} [DecidableEq K]

/-- An address an item with header `h` can have when its page's data area ends at `e`. -/
structure Placed (g : Geo) (h : Header) (a e : Nat) : Prop where
  aligned : a % g.word = 0
  lower : g.start ≤ a
  upper : a + g.hl + g.roundUp h.len.toNat ≤ e
  inRange : e ≤ g.stop

/-- The `n` bytes from `a` on are erased flash. -/
def Blank (mem : Nat → Byte) (a n : Nat) : Prop := ∀ x, a ≤ x → x < a + n → mem x = 0xff#8

theorem encode_dvd {g : Geo} (w : g.WF) (h : Header) : g.word ∣ (h.encode g).length := by
  rw [encode_length w]; exact w.hl_dvd

theorem torn_mem {g : Geo} (w : g.WF) {mem : Nat → Byte} {a : Nat} (h : Header) (k : Nat)
    (hb : Blank mem a g.hl) :
    readBytes (programBytes mem a ((h.encode g).take k)) a g.hl = tornHeader g h k := by
  have hl := encode_length w h
  have e1 : programBytes mem a ((h.encode g).take k) =
      programBytes mem a (tornHeader g h k) := by
    unfold tornHeader
    rw [programBytes_append]
    funext x
    by_cases hx : a + ((h.encode g).take k).length ≤ x ∧
        x < a + ((h.encode g).take k).length + (List.replicate (g.hl - k) 0xff#8).length
    · unfold programBytes
      rw [if_pos hx, if_neg (by omega), ]
      simp only [List.length_take, List.length_replicate, hl] at hx
      have : (List.replicate (g.hl - k) 0xff#8).getD (x - (a + ((h.encode g).take k).length)) 0xff#8 = 0xff#8 := by
        simp [List.getD, List.getElem?_replicate]
        split <;> rfl
      rw [this, ff_and]
    · generalize programBytes mem a ((h.encode g).take k) = m at *
      exact (programBytes_outside (by omega)).symm
  have hlen : (tornHeader g h k).length = g.hl := by
    unfold tornHeader; simp [hl]; omega
  rw [e1]
  have := readBytes_program_blank (mem := mem) (a := a) (bs := tornHeader g h k) (by rw [hlen]; exact hb)
  rwa [hlen] at this

/-- C23, complete header: what was written is read back; in particular the spot does not look like
free space (that would be `none`). -/
theorem header_round_trip {g : Geo} (w : g.WF) (s : St K) (h : Header) {a e : Nat}
    (hp : Placed g h a e) (hb : Blank s.fl.mem a g.hl) (hf : s.fl.fuel = none) :
    ∃ s', writeHeader g h a s = (.ok (), s') ∧ readHeader g a e s' = (.ok (some h), s') := by
  have hl := encode_length w h
  have ha := Nat.dvd_of_mod_eq_zero hp.aligned
  have h1 := hp.upper
  have h2 := hp.inRange
  have h3 := w.hl_ge
  unfold writeHeader
  rw [flashWrite_run w s ha (encode_dvd w h) (by omega) hp.lower (by omega), hf, spend_none]
  refine ⟨_, rfl, ?_⟩
  rw [readHeader_run w _ ha hp.lower (by omega)]
  have := torn_mem w h g.hl hb
  rw [tornHeader_full w h h3, ← hl] at this
  rw [hdrAt_some (h := h) (by omega) (by rw [← hl, this]; exact decode_encode g h)
    (by unfold Header.next; omega)]

/-- C23, interrupted header of an item with the given data: after `k` bytes were programmed the spot
is free if `k = 0`; otherwise it is rejected, unless flash holds exactly the bytes that the complete
write would have left. -/
theorem interrupted_header {g : Geo} (w : g.WF) (s : St K) (d : List Byte) {a e k : Nat}
    (hp : Placed g (Header.ofData d) a e) (hb : Blank s.fl.mem a g.hl)
    (hk : k < g.hl) (hf : s.fl.fuel = some k) :
    ∃ s', writeHeader g (Header.ofData d) a s = (.error .shutoff, s') ∧
      ((k = 0 ∧ readHeader g a e s' = (.ok none, s')) ∨
       (0 < k ∧ readHeader g a e s' = (.error .corrupted, s')) ∨
       (0 < k ∧ readHeader g a e s' = (.ok (some (Header.ofData d)), s') ∧
        readBytes s'.fl.mem a g.hl = readBytes (writeHeader g (Header.ofData d) a
          { s with fl := { s.fl with fuel := none } }).2.fl.mem a g.hl)) := by
  have hl := encode_length w (Header.ofData d)
  have ha := Nat.dvd_of_mod_eq_zero hp.aligned
  have h1 := hp.upper
  have h2 := hp.inRange
  have h3 := w.hl_ge
  have hfull := torn_mem w (Header.ofData d) g.hl hb
  rw [tornHeader_full w _ h3, ← hl, List.take_length, hl] at hfull
  unfold writeHeader
  rw [flashWrite_run w s ha (encode_dvd w _) (by omega) hp.lower (by omega),
    flashWrite_run w _ ha (encode_dvd w _) (by omega) hp.lower (by omega), hf]
  have hs : spend (some k) (Header.encode g (Header.ofData d)).length = (k, none, false) := by
    unfold spend; simp only [hl]; rw [if_neg (by omega)]
  rw [hs]
  refine ⟨_, rfl, ?_⟩
  rw [readHeader_run w _ ha hp.lower (by omega)]
  simp only [spend_none, List.take_length, hfull]
  have ht := torn_mem w (Header.ofData d) k hb
  rcases Nat.eq_zero_or_pos k with rfl | hpos
  · left
    refine ⟨rfl, ?_⟩
    have : tornHeader g (Header.ofData d) 0 = List.replicate g.hl 0xff#8 := by simp [tornHeader]
    rw [this] at ht
    rw [hdrAt_none_iff.2 (Or.inr (by rw [ht]; exact decode_blank _))]
  · right
    rcases decode_torn w (Header.ofData d) hpos (Props.stored_checksum_low_byte d).1 with h | h
    · left
      refine ⟨hpos, ?_⟩
      unfold hdrAt
      rw [if_neg (by omega), ht, h]
    · right
      refine ⟨hpos, ?_, by rw [ht, h]⟩
      rw [hdrAt_some (h := Header.ofData d) (by omega) (by rw [ht, h]; exact decode_encode g _)
        (by unfold Header.next; omega)]

/-- C24. `s` holds an intact item at `a`. Power is lost after `k` bytes of the removal. Afterwards
the header is still readable with the same length, so that the items behind it are still found; if
nothing was programmed the item reads back as before, otherwise it does not read as present. -/
theorem interrupted_removal {g : Geo} (w : g.WF) (s s1 : St K) (h : Header) {a e k : Nat}
    (hp : Placed g h a e)
    (hh : readHeader g a e s = (.ok (some h), s))
    (hi : readItem g h a e s = (.ok (.present h), s1))
    (hk : k < g.hl) (hf : s.fl.fuel = some k) :
    ∃ s' h', eraseItem g h a s = (.error .shutoff, s') ∧
      readHeader g a e s' = (.ok (some h'), s') ∧ h'.len = h.len ∧
      (k = 0 → h' = h ∧ ∃ s2, readItem g h' a e s' = (.ok (.present h), s2) ∧ s2.buf = s1.buf) ∧
      (0 < k → ∀ h'' s2, readItem g h' a e s' ≠ (.ok (.present h''), s2)) := by
  have hl := encode_length w { h with crc := 0#32 }
  have ha := Nat.dvd_of_mod_eq_zero hp.aligned
  have h1 := hp.upper
  have h2 := hp.inRange
  have h3 := w.hl_ge
  have hs : spend (some k) (Header.encode g { h with crc := 0#32 }).length = (k, none, false) := by
    unfold spend; simp only [hl]; rw [if_neg (by omega)]
  unfold eraseItem
  rw [bind_run, modifyCache_run]
  simp only
  unfold writeHeader
  rw [flashWrite_run w _ ha (encode_dvd w _) (by omega) hp.lower (by omega)]
  simp only [hf, hs]
  rw [readHeader_run w _ ha hp.lower (by omega)] at hh
  have hdec := (hdrAt_some_iff.1 (congrArg Prod.fst hh)).2.1
  refine ⟨_, { h with crc := clearedCrc h.crc k }, rfl, ?_, rfl, ?_, ?_⟩
  · rw [readHeader_run w _ ha hp.lower (by omega)]
    rw [hdrAt_some (by omega) (decode_clear w hdec) (by unfold Header.next; simp only; omega)]
  · rintro rfl
    have hc : clearedCrc h.crc 0 = h.crc := by simp [clearedCrc]
    rw [hc]
    refine ⟨rfl, ?_⟩
    simp only [List.take_zero, programBytes_nil]
    rw [readItem_run w _ ha hp.lower (by unfold Header.next; (try simp only); omega)
      (by unfold Header.next; (try simp only); omega)] at hi ⊢
    simp only
    split at hi
    · simp at hi
    · split at hi
      · simp at hi
      · rename_i c1 c2
        simp only [Prod.mk.injEq] at hi
        rw [if_neg c1, if_neg c2]
        refine ⟨_, Prod.ext hi.1 rfl, ?_⟩
        rw [← hi.2]
  · intro hpos h'' s2
    rw [readItem_run w _ ha hp.lower (by unfold Header.next; (try simp only); omega)
      (by unfold Header.next; (try simp only); omega)]
    split
    · simp
    · split
      · simp
      · rw [if_neg]
        · simp
        · intro hpr
          have l1 := clearedCrc_low h.crc hpos
          rw [show clearedCrc h.crc k = _ from (present_iff.1 hpr).symm] at l1
          exact (Props.stored_checksum_low_byte _).2 l1

/-! Concrete cases. -/

/-- An erased chip. -/
def blankSt (fuel : Option Nat) : St Unit :=
  ⟨⟨fun _ => 0xff#8, fuel, [], fun _ => 0, fun _ => 0, 0, 0⟩, ⟨false, .uncached, .uncached, .uncached⟩,
    List.replicate 32 0#8, ⟨.address 0, .allPopped, 0⟩, ⟨0, 0, 0, 0⟩⟩

example : ∃ s', writeHeader geo4 (Header.ofData [1#8, 2#8, 3#8]) 8 (blankSt none) = (.ok (), s') ∧
    readHeader geo4 8 56 s' = (.ok (some (Header.ofData [1#8, 2#8, 3#8])), s') :=
  header_round_trip geo4_wf _ _ ⟨by decide, by decide, by decide +kernel, by decide⟩
    (fun _ _ _ => rfl) rfl

example : ∃ s', writeHeader geo4 (Header.ofData [1#8, 2#8, 3#8]) 8 (blankSt (some 5)) = (.error .shutoff, s') ∧
    readHeader geo4 8 56 s' = (.error .corrupted, s') := by
  obtain ⟨s', h1, h2⟩ := interrupted_header geo4_wf (blankSt (some 5)) [1#8, 2#8, 3#8] (a := 8) (e := 56)
    (k := 5) ⟨by decide, by decide, by decide +kernel, by decide⟩ (fun _ _ _ => rfl) (by decide) rfl
  refine ⟨s', h1, ?_⟩
  rcases h2 with h2 | h2 | h2
  · simp at h2
  · exact h2.2
  · have : s' = (writeHeader geo4 (Header.ofData [1#8, 2#8, 3#8]) 8 (blankSt (some 5))).2 := by rw [h1]
    exact absurd (congrArg Prod.fst h2.2.1) (by rw [this]; decide +kernel)

theorem pair_of_fst {α β : Type} {p : α × β} {a : α} (h : p.1 = a) : ∃ b, p = (a, b) := ⟨p.2, by rw [← h]⟩

/-- The state after an item was written, with two more bytes before power is lost. -/
def itemSt : St Unit :=
  let s := (writeNew geo4 8 [1#8, 2#8, 3#8] (blankSt none)).2
  { s with fl := { s.fl with fuel := some 2 } }

example : ∃ s1 s' h', readItem geo4 (Header.ofData [1#8, 2#8, 3#8]) 8 56 itemSt =
      (.ok (.present (Header.ofData [1#8, 2#8, 3#8])), s1) ∧
    eraseItem geo4 (Header.ofData [1#8, 2#8, 3#8]) 8 itemSt = (.error .shutoff, s') ∧
    readHeader geo4 8 56 s' = (.ok (some h'), s') := by
  have hp : Placed geo4 (Header.ofData [1#8, 2#8, 3#8]) 8 56 :=
    ⟨by decide, by decide, by decide +kernel, by decide⟩
  have hh1 : (readHeader geo4 8 56 itemSt).1 = .ok (some (Header.ofData [1#8, 2#8, 3#8])) := by decide +kernel
  have hi1 : (readItem geo4 (Header.ofData [1#8, 2#8, 3#8]) 8 56 itemSt).1 =
      .ok (.present (Header.ofData [1#8, 2#8, 3#8])) := by decide +kernel
  rw [readHeader_run geo4_wf _ (by decide) (by decide) (by decide)] at hh1
  have hh : readHeader geo4 8 56 itemSt = (.ok (some (Header.ofData [1#8, 2#8, 3#8])), itemSt) := by
    rw [readHeader_run geo4_wf _ (by decide) (by decide) (by decide)]; exact Prod.ext hh1 rfl
  obtain ⟨s1, e1⟩ := pair_of_fst hi1
  obtain ⟨s', h', r⟩ := interrupted_removal geo4_wf itemSt _ (Header.ofData [1#8, 2#8, 3#8]) (k := 2) hp hh e1
    (by decide) rfl
  exact ⟨_, s', h', e1, r.1, r.2.1⟩

end Props
end SeqStorage
