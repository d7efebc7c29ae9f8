import Verif.Proofs.Reread
import Verif.Props.LengthChecksum
import Verif.Props.Damage
/-
Bus that are wrong now and then (C52).
-/

namespace SeqStorage.Props
open M Spec

variable {K : Type} [DecidableEq K] {g : Geo}

/-! ### Specification -/

/-- What a slip while reading a header may look like. In a stored header one or two bits of the length and its checksum are
wrong, and possibly more elsewhere; where nothing is stored, not all bytes are `ff` but those of the length's
checksum are. -/
def HeaderSlip (good bs : List Byte) : Prop :=
  8 ≤ bs.length ∧
  match decodeHeader good with
  | .ok (some h) => bs.getD 0 0#8 ≠ 0xff#8 ∧ 1 ≤ lenFlips bs h ∧ lenFlips bs h ≤ 2
  | .ok none => bs.getD 6 0#8 = 0xff#8 ∧ bs.getD 7 0#8 = 0xff#8 ∧ ∃ b ∈ bs, b ≠ 0xff#8
  | .error _ => False

/-- The two lists differ in one place. -/
def OneByteOff (d d' : List Byte) : Prop := ∃ pre post b b', d = pre ++ b :: post ∧ d' = pre ++ b' :: post ∧ b ≠ b'

/-- The reads sometimes slip, but never twice in a row: either they return what is in the flash, or they slip and a
repetition returns it. The data of an item slips in one byte, and only if it is sound. -/
structure Mild (g : Geo) (f : Flash) (rd : Bus) : Prop where
  header : ∀ t a, rd t a g.hl = f.read g a g.hl ∨
    ∃ good bs, f.read g a g.hl = .ok good ∧ rd t a g.hl = .ok bs ∧ HeaderSlip good bs ∧ rd (t + 1) a g.hl = .ok good
  data : ∀ t a bs h, f.read g a g.hl = .ok bs → decodeHeader bs = .ok (some h) →
    rd t (a + g.hl) (g.roundUp h.len.toNat) = f.read g (a + g.hl) (g.roundUp h.len.toNat) ∨
    ∃ good bad, f.read g (a + g.hl) (g.roundUp h.len.toNat) = .ok good ∧
      rd t (a + g.hl) (g.roundUp h.len.toNat) = .ok bad ∧
      adaptedCrc32 (good.take h.len.toNat) = h.crc ∧ OneByteOff (good.take h.len.toNat) (bad.take h.len.toNat) ∧
      rd (t + 1) (a + g.hl) (g.roundUp h.len.toNat) = .ok good

/-! ### Proofs -/

theorem off_noticed {d d' : List Byte} (h : OneByteOff d d') (hl : d.length ≤ 65535) : adaptedCrc32 d ≠ adaptedCrc32 d' := by
  obtain ⟨pre, post, b, b', rfl, rfl, hb⟩ := h
  refine changed_byte_detected pre post b b' hb ?_
  simp only [List.length_append, List.length_cons] at hl
  omega

theorem slip_noticed {good bs : List Byte} (h : HeaderSlip good bs) : headerPass bs = none := by
  obtain ⟨h8, hm⟩ := h
  have hd : decodeHeader bs = .error .corrupted := by
    match hg : decodeHeader good with
    | .ok (some h) =>
      rw [hg] at hm
      exact flipped_length_noticed_partial h8 hm.1 hm.2.1 (Or.inl hm.2.2)
    | .ok none =>
      rw [hg] at hm
      obtain ⟨h6, h7, b, hb, hne⟩ := hm
      unfold decodeHeader
      rw [if_neg (by rw [List.all_eq_true]; intro h; exact hne (by simpa using h b hb))]
      simp only [h6, h7]
      rw [if_pos (by rw [ofLe16_ff]; exact crc16_ne _)]
    | .error e => rw [hg] at hm; exact hm.elim
  unfold headerPass
  rw [hd]

theorem mild_header {f : Flash} {rd : Bus} (hm : Mild g f rd) (a e t t' : Nat) :
    (rereadHeader g rd a e t).1 = (rereadHeader g (f.bus g) a e t').1 := by
  unfold rereadHeader
  split
  · rfl
  · simp only [Flash.bus]
    rcases hm.header t a with h | ⟨good, bs, hgood, hbs, hslip, hnext⟩
    · rw [h]
      cases hr : f.read g a g.hl with
      | error err => rfl
      | ok bs =>
        simp only
        cases hp : headerPass bs with
        | some o => rfl
        | none =>
          simp only
          rcases hm.header (t + 1) a with h2 | ⟨good, bs2, hgood, hbs2, hslip, hnext⟩
          · rw [h2, hr]; simp only [hp]
          · -- a slip needs something to slip on
            rw [hr] at hgood
            cases hgood
            rw [hbs2]
            simp only [slip_noticed hslip]
    · rw [hbs, hgood]
      simp only [slip_noticed hslip, hnext]
      cases hp : headerPass good with
      | some o => rfl
      | none => rfl

theorem mild_item {f : Flash} {rd : Bus} (hm : Mild g f rd) {a e : Nat} {bs : List Byte} {h : Header}
    (hr : f.read g a g.hl = .ok bs) (hd : decodeHeader bs = .ok (some h)) (blen t t' : Nat) :
    (rereadItem g rd h a e blen t).1 = (rereadItem g (f.bus g) h a e blen t').1 := by
  unfold rereadItem
  split
  · rfl
  · split
    · rfl
    · split
      · rfl
      · simp only [readData]
        by_cases h0 : g.roundUp h.len.toNat = 0
        · simp only [if_pos h0]
          split
          · rfl
          · rfl
        · simp only [if_neg h0, Flash.bus]
          rcases hm.data t a bs h hr hd with h1 | ⟨good, bad, hgood, hbad, hs, hoff, hnext⟩
          · rw [h1]
            cases hx : f.read g (a + g.hl) (g.roundUp h.len.toNat) with
            | error err => rfl
            | ok ds =>
              simp only
              by_cases hc : adaptedCrc32 (ds.take h.len.toNat) = h.crc
              · rw [if_pos hc, if_pos hc]
              · rw [if_neg hc, if_neg hc]
                rcases hm.data (t + 1) a bs h hr hd with h2 | ⟨good, bad, hgood, _, hs, _, _⟩
                · rw [h2, hx]
                  simp only [if_neg hc]
                · rw [hx] at hgood
                  cases hgood
                  exact absurd hs hc
          · rw [hbad, hgood]
            have hlen : (good.take h.len.toNat).length ≤ 65535 := by
              rw [List.length_take]
              have := h.len.isLt
              omega
            have hne : ¬ adaptedCrc32 (bad.take h.len.toNat) = h.crc := by
              rw [← hs]; exact fun h => off_noticed hoff hlen h.symm
            simp only [if_neg hne, hnext, if_pos hs]

theorem header_found {f : Flash} {a e t : Nat} {h : Header}
    (hh : (rereadHeader g (f.bus g) a e t).1 = .ok (some h)) :
    ∃ bs, f.read g a g.hl = .ok bs ∧ decodeHeader bs = .ok (some h) := by
  have hc : ∀ o, headerCheck g a e o = .ok (some h) → o = some h := by
    intro o ho
    match o with
    | none => simp [headerCheck] at ho
    | some h' =>
      simp only [headerCheck] at ho
      split at ho
      · simp at ho
      · simpa using ho
  unfold rereadHeader at hh
  split at hh
  · simp at hh
  · simp only [Flash.bus] at hh
    cases hr : f.read g a g.hl with
    | error err => rw [hr] at hh; simp at hh
    | ok bs =>
      rw [hr] at hh
      refine ⟨bs, rfl, ?_⟩
      simp only [headerPass] at hh
      cases hd : decodeHeader bs with
      | error err => rw [hd] at hh; simp at hh
      | ok o =>
        rw [hd] at hh
        simp only at hh
        rw [hc o hh]

theorem mild_traverse {f : Flash} {rd : Bus} (hm : Mild g f rd) (e : Nat) : ∀ (r a t t' : Nat),
    (rereadTraverse g rd e r a t).1 = (rereadTraverse g (f.bus g) e r a t').1 ∧
    ∀ h ad nx, (rereadTraverse g (f.bus g) e r a t').1 = .ok (some h, ad, nx) →
      ∃ bs, f.read g ad g.hl = .ok bs ∧ decodeHeader bs = .ok (some h)
  | 0, _, _, _ => ⟨rfl, fun _ _ _ h => by simp [rereadTraverse] at h⟩
  | r + 1, a, t, t' => by
    have h1 := mild_header hm a e t t'
    have hf := fun h => header_found (g := g) (f := f) (a := a) (e := e) (t := t') (h := h)
    rw [rereadTraverse, rereadTraverse]
    rcases hx : rereadHeader g rd a e t with ⟨x, u⟩
    rcases hy : rereadHeader g (f.bus g) a e t' with ⟨y, u'⟩
    rw [hx, hy] at h1
    rw [hy] at hf
    simp only at h1 hf
    subst h1
    match x with
    | .ok (some h) =>
      refine ⟨rfl, fun h' ad nx hh => ?_⟩
      simp only [Except.ok.injEq, Prod.mk.injEq, Option.some.injEq] at hh
      obtain ⟨rfl, rfl, rfl⟩ := hh
      exact hf h rfl
    | .ok none => exact ⟨rfl, fun h' ad nx hh => by simp at hh⟩
    | .error err =>
      by_cases hc : err = .corrupted
      · subst hc
        exact mild_traverse hm e r (a + g.word) u u'
      · cases err <;> first | exact absurd rfl hc | exact ⟨rfl, fun h' ad nx hh => by simp at hh⟩

/-- C52, as far as it goes. Reading the items of a page while the reads slip now and then gives the same items as reading
without slips. A slip in the data checksum of a header, or one that makes a header look like free space or free
space like a header, is not covered: see `checksum_slip_not_retried`, `blank_read_not_retried` and
`blank_slip_not_retried`. -/
theorem slips_do_not_show_partial {f : Flash} {rd : Bus} (hm : Mild g f rd) (e blen : Nat) : ∀ (r a t t' : Nat),
    (rereadNext g rd e blen r a t).1 = (rereadNext g (f.bus g) e blen r a t').1
  | 0, _, _, _ => rfl
  | r + 1, a, t, t' => by
    obtain ⟨h1, h2⟩ := mild_traverse hm e g.rounds a t t'
    rw [rereadNext, rereadNext]
    rcases hx : rereadTraverse g rd e g.rounds a t with ⟨x, u⟩
    rcases hy : rereadTraverse g (f.bus g) e g.rounds a t' with ⟨y, u'⟩
    rw [hx, hy] at h1
    rw [hy] at h2
    simp only at h1 h2
    subst h1
    match x with
    | .error err => rfl
    | .ok (none, ad, nx) => rfl
    | .ok (some h, ad, nx) =>
      obtain ⟨bs, hb, hd⟩ := h2 h ad nx rfl
      have hi := mild_item hm (e := e) hb hd blen u u'
      simp only
      rcases hv : rereadItem g rd h ad e blen u with ⟨v, w⟩
      rcases hv' : rereadItem g (f.bus g) h ad e blen u' with ⟨v', w'⟩
      rw [hv, hv'] at hi
      simp only at hi
      subst hi
      match v with
      | .error err => rfl
      | .ok (.present h', d) => rfl
      | .ok (.erased h', d) => exact slips_do_not_show_partial hm e blen r nx w w'
      | .ok (.corrupted h', d) => exact slips_do_not_show_partial hm e blen r nx w w'

/-- Together: what the model's `itemNext` answers is what the code with its retries answers, slips or not. -/
theorem next_item_despite_slips_partial (w : g.WF) {s : St K} {rd : Bus} (hm : Mild g s.fl rd) (e r a t : Nat) :
    SameNext (itemNext g e r a s) (rereadNext g rd e s.buf.length r a t).1 := by
  rw [slips_do_not_show_partial hm e _ r a t t]
  exact reread_next_same (fun n => w.le_roundUp n) e r a t s

/-- However often the reads slip, data that is off by a byte is never handed out: an item that is returned has the data that
was stored. -/
theorem wrong_data_not_returned (w : g.WF) {rd : Bus} {h h' : Header} {d d' : List Byte} {a e blen t : Nat}
    (hd : adaptedCrc32 d = h.crc) (hl : d.length = h.len.toNat)
    (hr : ∀ t bs, rd t (a + g.hl) (g.roundUp h.len.toNat) = .ok bs → bs.take h.len.toNat = d ∨ OneByteOff d (bs.take h.len.toNat))
    (hp : (rereadItem g rd h a e blen t).1 = .ok (.present h', d')) : h' = h ∧ d' = d := by
  have hlen : d.length ≤ 65535 := by have := h.len.isLt; omega
  have key : ∀ t bs t', readData g rd h a t = (.ok bs, t') → adaptedCrc32 (bs.take h.len.toNat) = h.crc →
      bs.take h.len.toNat = d := by
    intro t bs t' hb hc
    unfold readData at hb
    by_cases h0 : g.roundUp h.len.toNat = 0
    · rw [if_pos h0] at hb
      have := w.le_roundUp h.len.toNat
      have : d = [] := List.eq_nil_of_length_eq_zero (by omega)
      cases hb; rw [this]; simp
    · rw [if_neg h0] at hb
      simp only [Prod.mk.injEq] at hb
      rcases hr t bs hb.1 with h1 | h1
      · exact h1
      · exact absurd (hd.trans hc.symm) (off_noticed h1 hlen)
  unfold rereadItem at hp
  split at hp
  · simp at hp
  · split at hp
    · simp at hp
    · split at hp
      · simp at hp
      · rcases h1 : readData g rd h a t with ⟨r1, t1⟩
        rw [h1] at hp
        match r1 with
        | .error _ => simp at hp
        | .ok bs =>
          simp only at hp
          split at hp
          · rename_i hc
            simp only [Except.ok.injEq, Prod.mk.injEq, MaybeItem.present.injEq] at hp
            exact ⟨hp.1.symm, hp.2.symm.trans (key t bs t1 h1 hc)⟩
          · rcases h2 : readData g rd h a t1 with ⟨r2, t2⟩
            rw [h2] at hp
            match r2 with
            | .error _ => simp at hp
            | .ok bs =>
              simp only at hp
              split at hp
              · rename_i hc
                simp only [Except.ok.injEq, Prod.mk.injEq, MaybeItem.present.injEq] at hp
                exact ⟨hp.1.symm, hp.2.symm.trans (key t1 bs t2 h2 hc)⟩
              · simp at hp

/-! ### Witnesses -/

/-- The read number `t` of the bytes at `a` slips and returns `bs`. -/
def slipAt (rd : Bus) (t a : Nat) (bs : List Byte) : Bus := fun t' a' n =>
  if t' = t ∧ a' = a ∧ n = bs.length then .ok bs else rd t' a' n

/-- The header of the first item of `st2` with `0103` as its length, and its data with a wrong second byte. -/
def twoSlips : Bus :=
  slipAt (slipAt (st2.fl.bus geo2) 0 4 [0x61#8, 0x30#8, 0x81#8, 0xea#8, 0x03#8, 0x01#8, 0xb6#8, 0xe0#8])
    2 12 [0x01#8, 0x42#8, 0x03#8, 0x00#8]

theorem twoSlips_mild : Mild geo2 st2.fl twoSlips where
  header := by
    intro t a
    by_cases h : t = 0 ∧ a = 4
    · obtain ⟨rfl, rfl⟩ := h
      right
      refine ⟨[0x61#8, 0x30#8, 0x81#8, 0xea#8, 0x03#8, 0x00#8, 0xb6#8, 0xe0#8],
        [0x61#8, 0x30#8, 0x81#8, 0xea#8, 0x03#8, 0x01#8, 0xb6#8, 0xe0#8], by decide +kernel, by decide +kernel, ⟨by decide, ?_⟩, by decide +kernel⟩
      have : decodeHeader [0x61#8, 0x30#8, 0x81#8, 0xea#8, 0x03#8, 0x00#8, 0xb6#8, 0xe0#8] = .ok (some ⟨3#16, 0xea813061#32⟩) := by
        decide +kernel
      rw [this]
      decide +kernel
    · left
      have h8 : geo2.hl = 8 := by decide
      unfold twoSlips slipAt
      rw [h8, if_neg (by simp), if_neg (by simp only [List.length_cons, List.length_nil]; omega)]
      rfl
  data := by
    intro t a bs h hr hd
    by_cases hc : t = 2 ∧ a = 4
    · obtain ⟨rfl, rfl⟩ := hc
      right
      have e : st2.fl.read geo2 4 geo2.hl = .ok [0x61#8, 0x30#8, 0x81#8, 0xea#8, 0x03#8, 0x00#8, 0xb6#8, 0xe0#8] := by decide +kernel
      rw [e] at hr
      cases hr
      have : decodeHeader [0x61#8, 0x30#8, 0x81#8, 0xea#8, 0x03#8, 0x00#8, 0xb6#8, 0xe0#8] = .ok (some ⟨3#16, 0xea813061#32⟩) := by
        decide +kernel
      rw [this] at hd
      cases hd
      exact ⟨[1#8, 2#8, 3#8, 0#8], [1#8, 0x42#8, 3#8, 0#8], by decide +kernel, by decide +kernel, by decide +kernel,
        ⟨[1#8], [3#8], 2#8, 0x42#8, by decide, by decide, by decide⟩, by decide +kernel⟩
    · left
      have h8 : geo2.hl = 8 := by decide
      unfold twoSlips slipAt
      rw [h8, if_neg (by omega), if_neg (by omega)]
      rfl

/-- The address and the data of the item that was found, and the number of the next read. -/
def found (x : Except Err (Option (Header × Nat × List Byte) × Nat) × Nat) : Option (Nat × List Byte) × Nat :=
  match x with
  | (.ok (some (_, a, d), _), t) => (some (a, d), t)
  | (_, t) => (none, t)

attribute [local irreducible] SameNext in
/-- Both slips are noticed: four reads instead of two, and the first item is found with its data. -/
example : found (rereadNext geo2 twoSlips 28 32 geo2.rounds 4 0) = (some (4, [1#8, 2#8, 3#8]), 4) ∧
    SameNext (itemNext geo2 28 geo2.rounds 4 st2) (rereadNext geo2 twoSlips 28 st2.buf.length geo2.rounds 4 0).1 :=
  by
  have h := next_item_despite_slips_partial (s := st2) geo2_wf twoSlips_mild 28 geo2.rounds 4 0
  exact And.intro (by decide +kernel) h

/-- A header whose data checksum was misread is accepted at once. The item is then taken for a damaged one and the
next item is returned in its place, although the second read would have been right. -/
theorem checksum_slip_not_retried :
    found (rereadNext geo2 (slipAt (st2.fl.bus geo2) 0 4 [0x60#8, 0x30#8, 0x81#8, 0xea#8, 0x03#8, 0x00#8, 0xb6#8, 0xe0#8]) 28 32
      geo2.rounds 4 0) = (some (16, [4#8]), 5) ∧
    found (rereadNext geo2 (st2.fl.bus geo2) 28 32 geo2.rounds 4 0) = (some (4, [1#8, 2#8, 3#8]), 2) := by
  decide +kernel

/-- A read that returns nothing but ones ends the page, without a second try. -/
theorem blank_read_not_retried :
    found (rereadNext geo2 (slipAt (st2.fl.bus geo2) 0 4 (List.replicate 8 0xff#8)) 28 32 geo2.rounds 4 0) = (none, 1) := by
  decide +kernel

/-- One wrong bit makes the free space behind the items of the second page look like a header of the length 65535:
it is reported as unreadable without a second try. -/
theorem blank_slip_not_retried :
    rereadHeader geo2 (slipAt (st2.fl.bus geo2) 0 52 [0xff#8, 0xff#8, 0xff#8, 0xff#8, 0xff#8, 0xff#8, 0xfe#8, 0xff#8]) 52 60 0 =
      (.error .corrupted, 1) ∧
    rereadHeader geo2 (st2.fl.bus geo2) 52 60 0 = (.ok none, 1) := by
  decide +kernel

/-- What this does to a queue: a bit of a data checksum is read wrongly during one `pop` only. The second item comes
out first and the first one afterwards. -/
theorem passing_error_reorders :
    (qcall geo2 (.pop buf32) st2).1 = .ok (.item (some [1#8, 2#8, 3#8])) ∧
    (qcall geo2 (.pop buf32) (stSet st2 4 0x60#8)).1 = .ok (.item (some [4#8])) ∧
    (qcall geo2 (.pop buf32) (stSet (qcall geo2 (.pop buf32) (stSet st2 4 0x60#8)).2 4 0x61#8)).1 =
      .ok (.item (some [1#8, 2#8, 3#8])) := by
  decide +kernel

/-- Data that is misread twice is not returned. -/
example : rereadItem geo2 (fun _ _ _ => .ok [1#8, 0x42#8, 3#8, 0#8]) ⟨3#16, 0xea813061#32⟩ 4 28 32 0 =
    (.ok (.corrupted ⟨3#16, 0xea813061#32⟩, []), 2) := by decide +kernel

/-- Data that is misread once is returned as it was stored. -/
example : ∀ d', (rereadItem geo2 (fun t _ _ => .ok [1#8, if t = 0 then 0x42#8 else 2#8, 3#8, 0#8]) ⟨3#16, 0xea813061#32⟩ 4 28 32 0).1 =
    .ok (.present ⟨3#16, 0xea813061#32⟩, d') → d' = [1#8, 2#8, 3#8] := by
  intro d' h
  refine (wrong_data_not_returned geo2_wf (d := [1#8, 2#8, 3#8]) (by decide +kernel) (by decide) ?_ h).2
  intro t bs hb
  cases hb
  by_cases ht : t = 0
  · right; rw [if_pos ht]; exact ⟨[1#8], [3#8], 2#8, 0x42#8, by decide, by decide, by decide⟩
  · left; rw [if_neg ht]; decide

end SeqStorage.Props
