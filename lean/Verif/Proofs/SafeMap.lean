import Verif.Proofs.SafeQueue
import Verif.Model.MapUse
/-
Map calls on arbitrary flash contents: they end and make no refused flash access; the only panic is
that of slicing an item whose key is longer than the item.
-/

namespace SeqStorage
open M Map Spec

set_option linter.unusedSectionVars false

variable {K : Type} [DecidableEq K] {V : Type} {g : Geo} {s s' : St K} {i : Nat} {α : Type} {kc : KeyCodec K}

/-! ### The key cache -/

section
variable (w : g.WF)
include w

theorem At.pos {a : Nat} (h : At g i a) : a ≠ 0 := by
  have := h.lo; have := w.word_pos; unfold Geo.dataStart at *; omega

theorem noticeKey_safe (h : SInv true g s) (k : K) {a : Nat} {d : Bool} (hi : i < g.pageCount) (ha : At g i a) :
    SatS true g (noticeKey k a d) s (fun _ s' => ∃ c, s' = { s with cache := c } ∧ c.ps = s.cache.ps) := by
  have hne := ha.pos w
  have key : ∃ kp, s.cache.kp.noticeLocation k a = .ok kp ∧ kp ≠ .tracked [] ∧
      ∀ l k' a', kp = .tracked l → some (k', a') ∈ l → ∃ i, i < g.pageCount ∧ At g i a' := by
    cases hkp : s.cache.kp with
    | uncached => exact ⟨.uncached, rfl, by simp, by simp⟩
    | tracked l =>
      have hl : l ≠ [] := fun h' => h.kne rfl (by rw [hkp, h'])
      have hlen : 0 < l.length := List.length_pos_iff.2 hl
      have mk : ∀ n, n < l.length → ∃ kp, Except.ok (KPCache.tracked (KPCache.moveToFront (l.set n (some (k, a))) n)) = Except.ok (ε := Err) kp ∧
          kp ≠ .tracked [] ∧ ∀ l' k' a', kp = .tracked l' → some (k', a') ∈ l' → ∃ i, i < g.pageCount ∧ At g i a' := by
        intro n hn
        refine ⟨_, rfl, ?_, ?_⟩
        · simp [KPCache.moveToFront, hn]
        · intro l' k' a' hl' hm
          simp only [KPCache.tracked.injEq] at hl'
          subst hl'
          have : some (k', a') ∈ l.set n (some (k, a)) := by
            unfold KPCache.moveToFront at hm
            split at hm
            · rename_i x hx
              rcases List.mem_cons.1 hm with rfl | hm
              · exact List.mem_of_getElem? hx
              · exact List.mem_of_mem_eraseIdx hm
            · exact hm
          rcases List.mem_or_eq_of_mem_set this with hm | hm
          · exact h.kp l k' a' hkp hm
          · simp only [Option.some.injEq, Prod.mk.injEq] at hm
            rw [hm.2]; exact ⟨i, hi, ha⟩
      simp only [KPCache.noticeLocation, hne, if_false]
      cases hf : l.findIdx? (KPCache.isKey k) with
      | some n => exact mk n (List.findIdx?_eq_some_iff_findIdx_eq.1 hf).1
      | none => simp only [Nat.ne_of_gt hlen, if_false]; exact mk _ (by omega)
  obtain ⟨kp, h1, h2, h3⟩ := key
  refine SatS.of_ok (a := ()) (s' := { s with cache := { s.cache with dirty := s.cache.dirty || d, kp := kp } })
    (by simp [noticeKey, updateCache, Cache.noticeKey, h1]) ?_ ⟨rfl, rfl⟩ ⟨_, rfl, rfl⟩
  exact ⟨h.faults, h.ps, h.ppE, h.ppW, h3, fun _ => h2⟩

omit w in
theorem noticeKeyErased_safe (h : SInv true g s) (k : K) :
    SatS true g (modifyCache fun c => c.noticeKeyErased k) s (fun _ _ => True) := by
  refine SatS.of_ok (modifyCache_run _ s) ?_ ⟨rfl, rfl⟩ trivial
  refine ⟨h.faults, h.ps, h.ppE, h.ppW, ?_, fun _ => ?_⟩
  · intro l k' a' hl hm
    simp only [Cache.noticeKeyErased] at hl
    cases hkp : s.cache.kp with
    | uncached => simp [hkp, KPCache.noticeErased] at hl
    | tracked l0 =>
      simp only [hkp, KPCache.noticeErased] at hl
      refine h.kp l0 k' a' hkp ?_
      split at hl
      · simp only [KPCache.tracked.injEq] at hl
        subst hl
        rename_i n _
        have : some (k', a') ∈ l0.set n none := by
          unfold KPCache.moveToBack at hm
          split at hm
          · rename_i x hx
            rcases List.mem_append.1 hm with hm | hm
            · exact List.mem_of_mem_eraseIdx hm
            · simp only [List.mem_singleton] at hm
              subst hm
              exact List.mem_of_getElem? hx
          · exact hm
        rcases List.mem_or_eq_of_mem_set this with hm | hm
        · exact hm
        · simp at hm
      · simp only [KPCache.tracked.injEq] at hl; subst hl; exact hm
  · simp only [Cache.noticeKeyErased]
    cases hkp : s.cache.kp with
    | uncached => simp [KPCache.noticeErased]
    | tracked l0 =>
      have hl : l0 ≠ [] := fun h' => h.kne rfl (by rw [hkp, h'])
      simp only [KPCache.noticeErased]
      split
      · rename_i n hn
        intro he
        simp only [KPCache.tracked.injEq] at he
        have hn' := (List.findIdx?_eq_some_iff_findIdx_eq.1 hn).1
        unfold KPCache.moveToBack at he
        split at he
        · simp at he
        · apply hl; simpa using he
      · simpa using hl

/-! ### Reading -/

omit w in
theorem liftSer_safe (h : SInv mp g s) (r : Except SerErr α) :
    SatS mp g (liftSer r) s (fun a s' => s' = s ∧ r = .ok a) := by
  cases r with
  | ok a => exact SatS.of_ok rfl h (.refl s) ⟨rfl, rfl⟩
  | error e => exact SatS.of_err rfl h (.refl s) trivial

/-- An item that was read. -/
structure Entry (g : Geo) (s : St K) (i : Nat) (h : Header) (a : Nat) : Prop where
  page : i < g.pageCount
  hdr : HdrAt g s.fl.mem i a h
  len : h.len.toNat ≤ s.buf.length
  present : Present g s.fl.mem a h

omit w in
theorem ReadItem.entry {a : Nat} {h : Header} (hr : ReadItem g s a h (.present h) s') (hi : i < g.pageCount)
    (hx : HdrAt g s.fl.mem i a h) : Entry g s' i h a := by
  obtain ⟨b, hb⟩ := hr.eq
  have hm : s'.fl = s.fl := by rw [hb]
  exact ⟨hi, by rw [hm]; exact hx, (hr.present rfl).2, by rw [hm]; exact (hr.present rfl).1⟩

theorem itemNext_safe (h : SInv mp g s) (hi : i < g.pageCount) {rounds a : Nat} (ha : At g i a)
    (hr : g.dataEnd i < a + rounds) :
    SatS mp g (itemNext g (g.dataEnd i) rounds a) s (fun r s' => (∃ b, s' = { s with buf := b }) ∧
      ∀ hd ad, r.1 = some (hd, ad) → Entry g s' i hd ad ∧ a ≤ ad ∧ r.2 = hd.next g ad) := by
  induction rounds generalizing a s with
  | zero => have := ha.hi; omega
  | succ rounds ih =>
    unfold itemNext
    obtain ⟨r, hr1, ht⟩ := traverse_page w hi (fun _ => false) s ha
    refine SatS.bind_eq hr1 (.refl s) ?_
    obtain ⟨o, r1, r2⟩ := r
    cases o with
    | none => exact SatS.pure h ⟨⟨s.buf, rfl⟩, by simp⟩
    | some hd =>
      obtain ⟨hx, hnx, -⟩ := ht.found hd rfl
      have hle : a ≤ r1 := ht.le
      have hgt := Layout.next_gt w hd r1
      simp only at hnx hx
      refine (readItem_safe w h hi hx).bind fun mi s1 h1 _ hri => ?_
      have again : SatS mp g (itemNext g (g.dataEnd i) rounds r2) s1 (fun r s' => (∃ b, s' = { s with buf := b }) ∧
          ∀ hd ad, r.1 = some (hd, ad) → Entry g s' i hd ad ∧ a ≤ ad ∧ r.2 = hd.next g ad) := by
        refine (ih h1 (a := r2) (by rw [hnx]; exact hx.next w) (by omega)).mono fun r s' _ hq => ⟨?_, ?_⟩
        · obtain ⟨b, hb⟩ := hri.eq
          obtain ⟨b', hb'⟩ := hq.1
          exact ⟨b', by rw [hb', hb]⟩
        · intro hd' ad he
          obtain ⟨h3, h4, h5⟩ := hq.2 hd' ad he
          exact ⟨h3, by omega, h5⟩
      rcases hri.hdr with rfl | rfl | rfl
      · refine SatS.pure h1 ⟨hri.eq, ?_⟩
        intro hd' ad he
        simp only [Option.some.injEq, Prod.mk.injEq] at he
        obtain ⟨rfl, rfl⟩ := he
        exact ⟨hri.entry hi hx, hle, hnx⟩
      · exact again
      · exact again

theorem scanPage_safe (h : SInv mp g s) (hi : i < g.pageCount) {rounds a : Nat} (ha : At g i a)
    (hr : g.dataEnd i < a + rounds) (k : K) (found : Option (Nat × Nat))
    (hf : ∀ ad n, found = some (ad, n) → ∃ hd, HdrAt g s.fl.mem i ad hd ∧ Present g s.fl.mem ad hd) :
    SatS mp g (scanPage g kc k (g.dataEnd i) rounds a found) s (fun r s' => (∃ b, s' = { s with buf := b }) ∧
      ∀ ad n, r = some (ad, n) → ∃ hd, HdrAt g s.fl.mem i ad hd ∧ Present g s.fl.mem ad hd) := by
  induction rounds generalizing a s found with
  | zero => have := ha.hi; omega
  | succ rounds ih =>
    unfold scanPage
    refine (itemNext_safe w h hi ha (rounds_enough w ha)).bind fun r s1 h1 _ hq => ?_
    obtain ⟨⟨b, rfl⟩, hq⟩ := hq
    obtain ⟨o, nxt⟩ := r
    cases o with
    | none => exact SatS.pure h1 ⟨⟨b, rfl⟩, hf⟩
    | some x =>
      obtain ⟨hd, ad⟩ := x
      obtain ⟨he, hle, hnx⟩ := hq hd ad rfl
      have hgt := Layout.next_gt w hd ad
      simp only at hnx
      refine SatS.bind_eq (get_run _) (.refl _) ?_
      refine (liftSer_safe h1 _).bind fun kn s2 h2 _ hk => ?_
      obtain ⟨rfl, -⟩ := hk
      obtain ⟨k', klen⟩ := kn
      refine (ih h2 (a := nxt) (by rw [hnx]; exact he.hdr.next w) (by omega) _ ?_).mono fun r s' _ hq => ?_
      · intro ad' n hfn
        split at hfn
        · simp only [Option.some.injEq, Prod.mk.injEq] at hfn
          rw [← hfn.1]
          exact ⟨hd, he.hdr, he.present⟩
        · exact hf ad' n hfn
      · obtain ⟨⟨b', rfl⟩, h4⟩ := hq
        exact ⟨⟨b', rfl⟩, h4⟩

/-- Nothing in flash changed. -/
structure Reads (s s' : St K) : Prop where
  fl : s'.fl = s.fl

theorem fetchCached_safe (h : SInv true g s) (k : K) :
    SatS true g (fetchCached g k) s (fun r s' => Reads s s' ∧ ∀ hd a, r = some (hd, a) → ∃ i, Entry g s' i hd a) := by
  unfold fetchCached
  refine SatS.bind_eq (get_run s) (.refl s) ?_
  cases hloc : s.cache.kp.location k with
  | none => exact SatS.pure h ⟨⟨rfl⟩, by simp⟩
  | some loc =>
    have hat : ∃ i, i < g.pageCount ∧ At g i loc := by
      cases hkp : s.cache.kp with
      | uncached => simp [hkp, KPCache.location] at hloc
      | tracked l =>
        simp only [hkp, KPCache.location, Option.map_eq_some_iff] at hloc
        obtain ⟨⟨k', a⟩, h1, rfl⟩ := hloc
        rw [Option.join_eq_some_iff] at h1
        exact h.kp l k' a hkp (List.mem_of_find?_eq_some h1)
    obtain ⟨i, hi, ha⟩ := hat
    simp only
    rw [ha.index w]
    have hinv : SatS true g (do
        modifyCache Cache.invalidate
        pure none) s (fun r s' => Reads s s' ∧ ∀ hd a, r = some (hd, a) → ∃ i, Entry g s' i hd a) :=
      (invalidate_safe h).bind fun _ s1 h1 _ hq => SatS.pure h1 ⟨⟨hq.1⟩, by simp⟩
    have hh := header_any w hi ha s
    cases ho : hdrAt g s.fl.mem loc (g.dataEnd i) with
    | error e =>
      obtain rfl := hdrAt_err ho
      rw [ho] at hh
      exact SatS.bind (Q := fun _ _ => False) (SatS.of_err hh h (.refl s) trivial) fun _ _ _ _ hf => hf.elim
    | ok o =>
      rw [ho] at hh
      refine SatS.bind_eq hh (.refl s) ?_
      cases o with
      | none => exact hinv
      | some hd =>
        have hx : HdrAt g s.fl.mem i loc hd := ⟨ha, ho⟩
        refine (readItem_safe w h hi hx).bind fun mi s1 h1 _ hri => ?_
        have hfl : s1.fl = s.fl := by obtain ⟨b, hb⟩ := hri.eq; rw [hb]
        have hinv' : SatS true g (do
            modifyCache Cache.invalidate
            pure none) s1 (fun r s' => Reads s s' ∧ ∀ hd a, r = some (hd, a) → ∃ i, Entry g s' i hd a) :=
          (invalidate_safe h1).bind fun _ s2 h2 _ hq => SatS.pure h2 ⟨⟨hq.1.trans hfl⟩, by simp⟩
        rcases hri.hdr with rfl | rfl | rfl
        · refine SatS.pure h1 ⟨⟨hfl⟩, ?_⟩
          intro hd' a he
          simp only [Option.some.injEq, Prod.mk.injEq] at he
          obtain ⟨rfl, rfl⟩ := he
          exact ⟨i, hri.entry hi hx⟩
        · exact hinv'
        · exact hinv'

theorem lastUsed_safe (h : SInv mp g s) :
    SatS mp g (lastUsedPage g) s (fun r s' => RO s s' ∧
      ∀ p, r = some p → p < g.pageCount ∧ ∃ z, z < g.pageCount ∧ Stop g z s') := by
  unfold lastUsedPage
  refine (findFirst_safe w 0 .partialOpen h).bind fun r s1 h1 _ hq => ?_
  cases r with
  | some p =>
    obtain ⟨hp, sx, hl⟩ := hq.2 p rfl
    refine SatS.pure h1 ⟨hq.1.ro, fun p' he => ?_⟩
    simp only [Option.some.injEq] at he
    subst he
    exact ⟨hp, p, hp, hl.stop (by simp)⟩
  | none =>
    refine (findFirst_safe w 0 .open h1).bind fun r s2 h2 _ hq2 => ?_
    cases r with
    | none => exact SatS.throw h2 trivial
    | some f =>
      obtain ⟨hp, sx, hl⟩ := hq2.2 f rfl
      have hpl := w.prev_lt hp
      refine (look_safe w h2 hpl).bind fun st s3 h3 _ hl3 => ?_
      have hro : RO s s3 := (hq.1.ro.trans hq2.1.ro).trans hl3.ro
      cases st with
      | closed =>
        refine SatS.pure h3 ⟨hro, fun p' he => ?_⟩
        simp only [Option.some.injEq] at he
        subst he
        exact ⟨hpl, f, hp, hl3.keepStop rfl f (hl.stop (by simp))⟩
      | «open» => exact SatS.pure h3 ⟨hro, by simp⟩
      | partialOpen => exact SatS.pure h3 ⟨hro, by simp⟩

/-- How many pages before page `p` a search that stops at page `z` can reach. -/
def ringBack (n z p : Nat) : Nat := if z < p then p - z else p + n - z

theorem prevPage_if {p : Nat} (hp : p < g.pageCount) : g.prevPage p = if p = 0 then g.pageCount - 1 else p - 1 := by
  rw [w.prevPage_eq hp]
  split
  · subst p; rw [Nat.mod_eq_of_lt] <;> omega
  · rw [show p + g.pageCount - 1 = p - 1 + g.pageCount by omega, Nat.add_mod_right, Nat.mod_eq_of_lt (by omega)]

theorem Stop.buf {z : Nat} {b : List Byte} (h : Stop g z s) : Stop g z { s with buf := b } := h

theorem searchPages_safe (h : SInv true g s) (k : K) {rounds p z : Nat} (hp : p < g.pageCount) (hz : z < g.pageCount)
    (hst : Stop g z s) (hr : ringBack g.pageCount z p ≤ rounds) :
    SatS true g (searchPages g kc k rounds p) s (fun r s' => Reads s s' ∧
      ∀ a n, r = some (a, n) → ∃ i hd, i < g.pageCount ∧ HdrAt g s.fl.mem i a hd ∧ Present g s.fl.mem a hd) := by
  induction rounds generalizing s p with
  | zero => unfold ringBack at hr; split at hr <;> omega
  | succ rounds ih =>
    unfold searchPages
    refine (scanPage_safe w h hp (At.start p w) (rounds_enough w (At.start p w)) k none (by simp)).bind fun r s1 h1 _ hq => ?_
    obtain ⟨⟨b, rfl⟩, hq⟩ := hq
    cases r with
    | some x =>
      obtain ⟨a, n⟩ := x
      obtain ⟨hd, hx, hpr⟩ := hq a n rfl
      refine (noticeKey_safe w h1 k hp hx.at_).bind fun _ s2 h2 _ hc => ?_
      obtain ⟨c, rfl, -⟩ := hc
      refine SatS.pure h2 ⟨⟨rfl⟩, ?_⟩
      intro a' n' he
      simp only [Option.some.injEq, Prod.mk.injEq] at he
      obtain ⟨rfl, rfl⟩ := he
      exact ⟨p, hd, hp, hx, hpr⟩
    | none =>
      have hpl := w.prev_lt hp
      refine (look_safe w h1 hpl).bind fun st s2 h2 _ hl => ?_
      have hfl : s2.fl = s.fl := hl.ro.fl
      by_cases hc : st = .closed
      · subst hc
        rw [if_neg (by simp)]
        have hnz : g.prevPage p ≠ z := fun he => by
          have := hl.atStop (by rw [he]; exact hst.buf w)
          simp at this
        have hm : ringBack g.pageCount z (g.prevPage p) ≤ rounds := by
          rw [prevPage_if w hp] at hnz ⊢
          unfold ringBack at hr ⊢
          by_cases p = 0 <;> by_cases z < p <;> simp_all <;> split <;> omega
        refine (ih h2 hpl (hl.keepStop rfl z (hst.buf w)) hm).mono fun r s' _ hq => ?_
        rw [hfl] at hq
        exact ⟨⟨hq.1.fl.trans hfl⟩, hq.2⟩
      · rw [if_pos (by simpa using hc)]
        exact SatS.pure h2 ⟨⟨hfl⟩, by simp⟩

theorem hdrAt_u32 {mem : Nat → Byte} {a : Nat} {hd : Header} (hi : i < g.pageCount) (hx : HdrAt g mem i a hd) :
    hdrAt g mem a u32Max = .ok (some hd) ∧ a + g.hl ≤ g.stop ∧ hd.next g a ≤ u32Max ∧ hd.next g a ≤ g.stop := by
  obtain ⟨h1, h2, h3⟩ := hdrAt_some_iff.1 hx.hdr
  have h4 := at_stop w hi
  have h5 := w.u32
  have h6 : hd.next g a ≤ u32Max := by unfold u32Max; omega
  exact ⟨hdrAt_some_iff.2 ⟨by unfold u32Max; omega, h2, h6⟩, by omega, h6, by omega⟩

theorem fetchLoc_safe (h : SInv true g s) (k : K) :
    SatS true g (fetchLoc g kc k) s (fun r s' => Reads s s' ∧ ∀ hd a n, r = some (hd, a, n) → ∃ i, Entry g s' i hd a) := by
  unfold fetchLoc
  refine (checkDirty_safe h).bind fun _ s1 h1 _ hcd => ?_
  refine (fetchCached_safe w h1 k).bind fun r s2 h2 _ hq => ?_
  have hfl2 : s2.fl = s.fl := hq.1.fl.trans hcd.1
  cases r with
  | some x =>
    obtain ⟨hd, a⟩ := x
    refine SatS.pure h2 ⟨⟨hfl2⟩, ?_⟩
    intro hd' a' n he
    simp only [Option.some.injEq, Prod.mk.injEq] at he
    obtain ⟨rfl, rfl, -⟩ := he
    exact hq.2 hd a rfl
  | none =>
    refine (lastUsed_safe w h2).bind fun r s3 h3 _ hq3 => ?_
    have hfl3 : s3.fl = s.fl := hq3.1.fl.trans hfl2
    cases r with
    | none =>
      refine (unmark_safe h3).bind fun _ s4 h4 _ hu => ?_
      exact SatS.pure h4 ⟨⟨by rw [hu]; exact hfl3⟩, by simp⟩
    | some p =>
      obtain ⟨hp, z, hz, hst⟩ := hq3.2 p rfl
      refine (searchPages_safe w h3 k hp hz hst (by unfold ringBack; split <;> omega)).bind fun r s4 h4 _ hq4 => ?_
      have hfl4 : s4.fl = s.fl := hq4.1.fl.trans hfl3
      cases r with
      | none =>
        refine (unmark_safe h4).bind fun _ s5 h5 _ hu => ?_
        exact SatS.pure h5 ⟨⟨by rw [hu]; exact hfl4⟩, by simp⟩
      | some x =>
        obtain ⟨a, klen⟩ := x
        obtain ⟨i, hd, hi, hx, hpr⟩ := hq4.2 a klen rfl
        rw [← hq4.1.fl] at hx hpr
        refine (unmark_safe h4).bind fun _ s5 h5 _ hu => ?_
        have hfl5 : s5.fl = s4.fl := by rw [hu]
        rw [← hfl5] at hx hpr
        obtain ⟨u1, u2, u3, u4⟩ := hdrAt_u32 w hi hx
        refine SatS.bind_eq ((readHeader_run w s5 hx.at_.al (at_start w hx.at_) (fun _ => u2)).trans (by rw [u1])) (.refl s5) ?_
        have hr := readItem_run w s5 hx.at_.al (at_start w hx.at_) u3 u4
        rw [if_neg hpr.1] at hr
        by_cases hb : s5.buf.length < g.roundUp hd.len.toNat
        · rw [if_pos hb] at hr
          exact SatS.bind (Q := fun _ _ => False) (SatS.of_err hr h5 (.refl _) trivial) fun _ _ _ _ hf => hf.elim
        · rw [if_neg hb, if_pos hpr] at hr
          refine SatS.bind_eq hr ⟨rfl, rfl⟩ (SatS.pure (h5.setBuf _) ⟨⟨hfl5.trans hfl4⟩, ?_⟩)
          intro hd' a' n he
          simp only [Option.some.injEq, Prod.mk.injEq] at he
          obtain ⟨rfl, rfl, -⟩ := he
          refine ⟨i, hi, hx, ?_, hpr⟩
          simp only
          rw [bufAfter_length (by omega)]
          have := w.le_roundUp hd.len.toNat
          omega

/-! ### Moving items -/

theorem migrateLoop_safe (h : SInv true g s) {src tgt : Nat} (hs : src < g.pageCount) (ht : tgt < g.pageCount)
    {rounds a b : Nat} (ha : At g src a) (hb : At g tgt b) (hab : b + g.dataStart src ≤ a + g.dataStart tgt)
    (hr : g.dataEnd src < a + rounds) :
    SatS true g (migrateLoop g kc (g.dataEnd src) rounds a b) s (fun _ _ => True) := by
  induction rounds generalizing s a b with
  | zero => have := ha.hi; omega
  | succ rounds ih =>
    unfold migrateLoop
    refine (itemNext_safe w h hs ha (rounds_enough w ha)).bind fun r s1 h1 _ hq => ?_
    obtain ⟨o, nxt⟩ := r
    cases o with
    | none => exact SatS.pure h1 trivial
    | some x =>
      obtain ⟨hd, ad⟩ := x
      obtain ⟨he, hle, hnx⟩ := hq.2 hd ad rfl
      have hgt := Layout.next_gt w hd ad
      have hnle := he.hdr.next_le
      simp only at hnx
      refine SatS.bind_eq (get_run _) (.refl _) ?_
      refine (liftSer_safe h1 _).bind fun kn s2 h2 _ hk => ?_
      obtain ⟨rfl, -⟩ := hk
      obtain ⟨k, klen⟩ := kn
      refine (unmark_safe h2).bind fun _ s3 h3 _ hu => ?_
      have hfl3 : s3.fl = s2.fl := by rw [hu]
      refine (fetchLoc_safe w h3 k).bind fun r s4 h4 _ hq4 => ?_
      have hfl4 : s4.fl = s2.fl := hq4.1.fl.trans hfl3
      cases r with
      | none => exact SatS.throw h4 trivial
      | some x =>
        obtain ⟨hd', found, n⟩ := x
        obtain ⟨i, he'⟩ := hq4.2 hd' found n rfl
        refine SatS.bind_eq (get_run _) (.refl _) ?_
        rw [if_neg (by have := he'.len; omega)]
        by_cases hf : found = ad
        · rw [if_pos hf]
          subst hf
          have hii : i = src := by rw [← he'.hdr.at_.index w, he.hdr.at_.index w]
          subst hii
          have hhd : hd' = hd := by
            have h5 := he'.hdr.hdr
            rw [hfl4, he.hdr.hdr] at h5
            simpa using h5.symm
          subst hhd
          have hroom : hd'.next g b ≤ g.dataEnd tgt := by
            have e1 := w.dataEnd_add i
            have e2 := w.dataEnd_add tgt
            have e3 := w.pageEnd_eq i
            have e4 := w.pageEnd_eq tgt
            unfold Header.next Geo.dataStart at *
            omega
          refine (noticeKey_safe w h4 k ht hb).bind fun _ s5 h5 _ hc => ?_
          obtain ⟨c, rfl, -⟩ := hc
          refine (writeRaw_safe w h5 ht hb hroom (by have := he'.len; simp; omega)).bind fun _ s6 h6 _ _ => ?_
          refine ih h6 (by rw [hnx]; exact he.hdr.next w) (next_at w hb hroom) ?_ (by omega)
          rw [hnx]
          unfold Header.next
          omega
        · rw [if_neg hf]
          exact ih h4 (by rw [hnx]; exact he.hdr.next w) hb (by omega) (by omega)

theorem migrate_safe (h : SInv true g s) {src tgt : Nat} (hs : src < g.pageCount) (ht : tgt < g.pageCount) :
    SatS true g (migrate g kc src tgt) s (fun _ _ => True) := by
  unfold migrate
  refine (migrateLoop_safe w h hs ht (At.start src w) (At.start tgt w) (by omega) (rounds_enough w (At.start src w))).bind
    fun _ s1 h1 _ _ => ?_
  exact (openPage_safe w h1 hs).mono fun _ _ _ _ => trivial

theorem mapRepair_safe (h : SInv true g s) : SatS true g (Map.tryRepair g kc) s (fun _ _ => True) := by
  unfold Map.tryRepair
  refine (invalidate_safe h).bind fun _ s1 h1 _ _ => ?_
  refine (generalRepair_safe w h1).bind fun _ s2 h2 _ _ => ?_
  refine (findFirst_safe w 0 .partialOpen h2).bind fun r s3 h3 _ hq => ?_
  cases r with
  | none => exact SatS.pure h3 trivial
  | some p =>
    have hp := (hq.2 p rfl).1
    refine (look_safe w h3 w.next_lt).bind fun st s4 h4 _ _ => ?_
    cases st with
    | «open» => exact SatS.pure h4 trivial
    | _ =>
      refine (openPage_safe w h4 hp).bind fun _ s5 h5 _ _ => ?_
      refine (partialClose_safe w h5 hp).bind fun _ s6 h6 _ _ => ?_
      exact migrate_safe w h6 w.next_lt hp

/-! ### Storing -/

omit w in
theorem serializeItem_safe (h : SInv mp g s) (k : K) (vser : Nat → Except SerErr (List Byte)) :
    SatS mp g (serializeItem kc k vser) s (fun _ s' => ∃ b, s' = { s with buf := b }) := by
  unfold serializeItem
  refine SatS.bind_eq (get_run _) (.refl _) ?_
  refine (liftSer_safe h _).bind fun kb s1 h1 _ hk => ?_
  obtain ⟨rfl, -⟩ := hk
  refine SatS.bind_eq (modify_run _ _) ⟨rfl, rfl⟩ ?_
  refine (liftSer_safe (h1.setBuf _) _).bind fun vb s2 h2 _ hv => ?_
  obtain ⟨rfl, -⟩ := hv
  exact SatS.bind_eq (modify_run _ _) ⟨rfl, rfl⟩ (SatS.pure (h2.setBuf _) ⟨_, rfl⟩)

theorem storeAdvance_safe (h : SInv true g s) (hi : i < g.pageCount) :
    SatS true g (storeAdvance g kc i) s (fun _ _ => True) := by
  unfold storeAdvance
  refine (look_safe w h hi).bind fun st s1 h1 _ _ => ?_
  split
  · exact SatS.throw h1 trivial
  · refine (partialClose_safe w h1 hi).bind fun _ s2 h2 _ _ => ?_
    refine (look_safe w h2 w.next_lt).bind fun st s3 h3 _ _ => ?_
    split
    · exact SatS.pure h3 trivial
    · exact migrate_safe w h3 w.next_lt hi

theorem storeRound_safe (h : SInv true g s) (k : K) (vser : Nat → Except SerErr (List Byte)) :
    SatS true g (storeRound g kc k vser) s (fun _ _ => True) := by
  unfold storeRound
  refine (findFirst_safe w 0 .partialOpen h).bind fun r s1 h1 _ hq => ?_
  cases r with
  | none =>
    refine (findFirst_safe w 0 .open h1).bind fun r s2 h2 _ hq2 => ?_
    cases r with
    | none => exact SatS.throw h2 trivial
    | some p => exact (partialClose_safe w h2 (hq2.2 p rfl).1).bind fun _ s3 h3 _ _ => SatS.pure h3 trivial
  | some p =>
    obtain ⟨hp, sx, hlp⟩ := hq.2 p rfl
    refine (look_safe w h1 w.next_lt).bind fun st s2 h2 _ hl => ?_
    cases st with
    | closed => exact SatS.throw h2 trivial
    | partialOpen => exact SatS.throw h2 trivial
    | «open» =>
      have hpart := hl.keepPart (by simp) p hp (hlp.part rfl)
      have htwo := hl.two rfl p hp (hlp.part rfl)
      refine (serializeItem_safe h2 k vser).bind fun data s3 h3 _ hb => ?_
      obtain ⟨b, rfl⟩ := hb
      cases htb : g.tooBig data.length with
      | true => exact (unmark_safe h3).bind fun _ s4 h4 _ _ => SatS.throw h4 trivial
      | false =>
        simp only [Bool.false_eq_true, if_false]
        refine (findFreeSpot_safe w h3 hp data.length).bind fun spot s4 h4 _ hsp => ?_
        obtain ⟨rfl, hsp⟩ := hsp
        cases spot with
        | some a =>
          obtain ⟨ha, hn⟩ := hsp a rfl
          refine (noticeKey_safe w h4 k hp ha).bind fun _ s5 h5 _ _ => ?_
          refine (writeNew_safe w h5 hp ha (notTooBig w htb p).1 hn).bind fun _ s6 h6 _ _ => ?_
          exact (unmark_safe h6).bind fun _ s7 h7 _ _ => SatS.pure h7 trivial
        | none =>
          refine (closePage_safe w h4 hp hpart htwo).bind fun _ s5 h5 _ _ => ?_
          exact (storeAdvance_safe w h5 w.next_lt).bind fun _ s6 h6 _ _ => SatS.pure h6 trivial

theorem storeLoop_safe (left : Nat) (h : SInv true g s) (k : K) (vser : Nat → Except SerErr (List Byte)) :
    SatS true g (storeLoop g kc k vser left) s (fun _ _ => True) := by
  induction left generalizing s with
  | zero =>
    unfold storeLoop
    exact (unmark_safe h).bind fun _ s1 h1 _ _ => SatS.throw h1 trivial
  | succ left ih =>
    unfold storeLoop
    refine (storeRound_safe w h k vser).bind fun b s1 h1 _ _ => ?_
    cases b with
    | true => exact SatS.pure h1 trivial
    | false => exact ih h1

/-! ### Removing -/

theorem removePage_safe (h : SInv true g s) (k? : Option K) (hi : i < g.pageCount) {rounds a : Nat} (ha : At g i a)
    (hr : g.dataEnd i < a + rounds) :
    SatS true g (removePage g kc k? (g.dataEnd i) rounds a) s (fun _ _ => True) := by
  induction rounds generalizing s a with
  | zero => have := ha.hi; omega
  | succ rounds ih =>
    unfold removePage
    obtain ⟨r, hr1, ht⟩ := traverse_page w hi (fun _ => false) s ha
    refine SatS.bind_eq hr1 (.refl s) ?_
    obtain ⟨o, r1, r2⟩ := r
    cases o with
    | none => exact SatS.pure h trivial
    | some hd =>
      obtain ⟨hx, hnx, -⟩ := ht.found hd rfl
      have hle : a ≤ r1 := ht.le
      have hgt := Layout.next_gt w hd r1
      simp only at hnx hx
      have again : ∀ s1 : St K, SInv true g s1 → SatS true g (removePage g kc k? (g.dataEnd i) rounds r2) s1 (fun _ _ => True) :=
        fun s1 h1 => ih h1 (by rw [hnx]; exact hx.next w) (by omega)
      refine (readItem_safe w h hi hx).bind fun mi s1 h1 _ hri => ?_
      rcases hri.hdr with rfl | rfl | rfl
      · refine SatS.bind_eq (get_run _) (.refl _) ?_
        have act : ∀ (s2 : St K) (hit : Bool), SInv true g s2 → SatS true g (do
            if hit = true then eraseItem g hd r1 else pure ()
            removePage g kc k? (g.dataEnd i) rounds r2) s2 (fun _ _ => True) := by
          intro s2 hit h2
          cases hit with
          | true => exact (eraseItem_safe w h2 hi hx.at_ hx.next_le).bind fun _ s3 h3 _ _ => again s3 h3
          | false => exact again s2 h2
        cases k? with
        | none => exact SatS.bind_eq (pure_run true s1) (.refl s1) (act s1 true h1)
        | some k =>
          refine (liftSer_safe h1 _).bind fun kn s2 h2 _ hk => ?_
          exact SatS.bind_eq (pure_run _ s2) (.refl s2) (act s2 _ h2)
      · exact again s1 h1
      · exact again s1 h1

theorem removeIn_safe (l : List Nat) (hl : ∀ i ∈ l, i < g.pageCount) (h : SInv true g s) (k? : Option K) :
    SatS true g (removeIn g kc k? l) s (fun _ _ => True) := by
  induction l generalizing s with
  | nil => exact SatS.pure h trivial
  | cons i rest ih =>
    have hi := hl i (by simp)
    have hr : ∀ j ∈ rest, j < g.pageCount := fun j hj => hl j (by simp [hj])
    unfold removeIn
    refine (look_safe w h hi).bind fun st s1 h1 _ _ => ?_
    split
    · exact ih hr h1
    · exact (removePage_safe w h1 k? hi (At.start i w) (rounds_enough w (At.start i w))).bind fun _ s2 h2 _ _ => ih hr h2

theorem removeInner_safe (h : SInv true g s) (k? : Option K) :
    SatS true g (removeInner g kc k?) s (fun _ _ => True) := by
  have rest : ∀ s : St K, SInv true g s → SatS true g (do
      let last ← match ← findFirstPage g 0 .partialOpen with
        | some p => pure p
        | none => do
          let r ← findLastPage g 0 .closed
          pure (r.getD 0)
      removeIn g kc k? (g.pages (g.nextPage last))
      unmarkDirty) s (fun _ _ => True) := by
    intro s hs
    refine (findFirst_safe w 0 .partialOpen hs).bind fun r s1 h1 _ hq => ?_
    have fin : ∀ (last : Nat) (s1 : St K), SInv true g s1 → SatS true g (do
        removeIn g kc k? (g.pages (g.nextPage last))
        unmarkDirty) s1 (fun _ _ => True) := fun last s1 h1 =>
      (removeIn_safe w _ (pages_lt w) h1 k?).bind fun _ s2 h2 _ _ => (unmark_safe h2).mono fun _ _ _ _ => trivial
    cases r with
    | some p => exact SatS.bind_eq (pure_run p s1) (.refl s1) (fin p s1 h1)
    | none =>
      refine SatS.bind (findLastIn_safe w .closed _ (pages_lt w) none (by simp) h1) fun r s2 h2 _ _ => ?_
      exact SatS.bind_eq (pure_run _ s2) (.refl s2) (fin _ s2 h2)
  unfold removeInner
  cases k? with
  | some k => exact (noticeKeyErased_safe h k).bind fun _ s1 h1 _ _ => rest s1 h1
  | none => exact (invalidate_safe h).bind fun _ s1 h1 _ _ => rest s1 h1

/-! ### The iterator -/

/-- An iterator that stays in the flash range. -/
structure MItOk (g : Geo) (it : MIter) : Prop where
  first : it.first < g.pageCount
  page : it.page < g.pageCount
  cur : ∃ i, i < g.pageCount ∧ it.fin = g.dataEnd i ∧ At g i it.cur

/-- The invariant while iterating. -/
abbrev MInv (g : Geo) (s : St K) : Prop := SInv true g s ∧ MItOk g s.mit

omit w in
theorem SInv.setMit {mp : Bool} {it : MIter} (h : SInv mp g s) : SInv mp g { s with mit := it } :=
  ⟨h.faults, h.ps, h.ppE, h.ppW, h.kp, h.kne⟩

omit w in
/-- A run that does not touch the iterators, in the context of an iteration. -/
theorem SatS.toM {m : M K α} {Q : α → St K → Prop} (h : SatS true g m s Q) (hq : MItOk g s.mit) :
    SatI (MInv g) m s (fun a s' => s'.mit = s.mit ∧ Q a s') :=
  Sat.mono h (fun _ _ h => ⟨⟨h.1.1, by rw [h.1.2.mit]; exact hq⟩, h.1.2.mit, h.2⟩)
    (fun _ _ h => ⟨⟨h.1.1, by rw [h.1.2.mit]; exact hq⟩, h.2⟩)

theorem iterItem_safe (h : MInv g s) (hi : i < g.pageCount) {rounds : Nat} (hf : s.mit.fin = g.dataEnd i)
    (ha : At g i s.mit.cur) (hr : g.dataEnd i < s.mit.cur + rounds) :
    SatI (MInv g) (iterItem g rounds) s (fun _ s' => s'.mit.page = s.mit.page ∧ s'.mit.first = s.mit.first) := by
  induction rounds generalizing s with
  | zero => have := ha.hi; omega
  | succ rounds ih =>
    unfold iterItem
    refine SatI.bind_eq (get_run s) ?_
    obtain ⟨r, hr1, ht⟩ := traverse_page w hi (fun _ => false) s ha
    rw [hf]
    refine SatI.bind_eq hr1 ?_
    obtain ⟨o, r1, r2⟩ := r
    have hset : MInv g { s with mit := { s.mit with cur := r2 } } :=
      ⟨h.1.setMit, h.2.first, h.2.page, i, hi, hf, ht.at2⟩
    cases o with
    | none => exact SatI.bind_eq (modify_run _ s) (SatI.pure hset ⟨rfl, rfl⟩)
    | some hd =>
      obtain ⟨hx, hnx, -⟩ := ht.found hd rfl
      have hle : s.mit.cur ≤ r1 := ht.le
      have hgt := Layout.next_gt w hd r1
      simp only at hnx hx
      refine SatI.bind_eq (modify_run _ s) ?_
      refine SatI.bind ((readItem_safe w hset.1 hi hx).toM hset.2) fun mi s1 h1 hq => ?_
      obtain ⟨hm, hri⟩ := hq
      have again : SatI (MInv g) (iterItem g rounds) s1
          (fun _ s' => s'.mit.page = s.mit.page ∧ s'.mit.first = s.mit.first) := by
        refine (ih h1 (by rw [hm]; exact hf) (by rw [hm]; exact ht.at2) (by rw [hm]; simp only; omega)).mono fun _ s' _ hq => ?_
        rw [hm] at hq
        exact hq
      rcases hri.hdr with rfl | rfl | rfl
      · exact SatI.pure h1 (by rw [hm]; exact ⟨rfl, rfl⟩)
      · exact again
      · exact again

theorem iterPage_safe (h : MInv g s) {rounds : Nat} (hr : ringLeft g.pageCount s.mit.first s.mit.page < rounds) :
    SatI (MInv g) (iterPage g rounds) s (fun b s' => b = true → s'.mit.first = s.mit.first ∧
      ringLeft g.pageCount s'.mit.first s'.mit.page < ringLeft g.pageCount s.mit.first s.mit.page) := by
  induction rounds generalizing s with
  | zero => omega
  | succ rounds ih =>
    unfold iterPage
    refine SatI.bind_eq (modify_run _ s) ?_
    have hnl : g.nextPage s.mit.page < g.pageCount := w.next_lt
    have hset : MInv g { s with mit := { s.mit with page := g.nextPage s.mit.page } } :=
      ⟨h.1.setMit, h.2.first, hnl, h.2.cur⟩
    refine SatI.bind_eq (get_run _) ?_
    simp only
    by_cases hfst : g.nextPage s.mit.page = s.mit.first
    · rw [if_pos hfst]; exact SatI.pure hset (by simp)
    · rw [if_neg hfst]
      have hd := ringLeft_next h.2.first h.2.page hfst
      refine SatI.bind_eq (attempt_run _ _) ?_
      have again : ∀ s1 : St K, MInv g s1 → s1.mit = { s.mit with page := g.nextPage s.mit.page } →
          SatI (MInv g) (iterPage g rounds) s1 (fun b s' => b = true → s'.mit.first = s.mit.first ∧
            ringLeft g.pageCount s'.mit.first s'.mit.page < ringLeft g.pageCount s.mit.first s.mit.page) := by
        intro s1 h1 hm
        refine (ih h1 (by rw [hm]; simp only; omega)).mono fun b s' _ hq hb => ?_
        have := hq hb
        rw [hm] at this
        exact ⟨this.1, by have := this.2; simp only at this; omega⟩
      rcases ((look_safe w hset.1 hnl).toM hset.2).cases with ⟨st, s1, hr, h1⟩ | ⟨e, s1, hr, h1⟩
      · rw [hr]
        have hm := h1.2.1
        have fin : SatI (MInv g) (do
            M.modify fun s => { s with mit := { s.mit with cur := g.dataStart s.mit.page, fin := g.dataEnd s.mit.page } }
            pure true) s1 (fun b s' => b = true → s'.mit.first = s.mit.first ∧
            ringLeft g.pageCount s'.mit.first s'.mit.page < ringLeft g.pageCount s.mit.first s.mit.page) := by
          refine SatI.bind_eq (modify_run _ _) (SatI.pure ⟨h1.1.1.setMit, h1.1.2.first, h1.1.2.page, s1.mit.page, h1.1.2.page, rfl, At.start _ w⟩ ?_)
          intro _
          simp only [hm]
          exact ⟨trivial, by omega⟩
        cases st with
        | closed => exact fin
        | partialOpen => exact fin
        | «open» => exact again s1 h1.1 hm
      · rw [hr]
        have hfine := h1.2
        have hm : s1.mit = { s.mit with page := g.nextPage s.mit.page } := by
          have := look_safe w hset.1 hnl
          unfold SatS SatI Sat at this
          rw [hr] at this
          exact this.1.2.mit
        cases e with
        | panic => exact hfine.elim
        | _ => exact again s1 h1.1 hm

theorem iterLoop_safe (h : MInv g s) {rounds : Nat} (hr : ringLeft g.pageCount s.mit.first s.mit.page < rounds) :
    SatI (MInv g) (iterLoop g rounds) s (fun _ _ => True) := by
  induction rounds generalizing s with
  | zero => omega
  | succ rounds ih =>
    unfold iterLoop
    obtain ⟨i, hi, hf, ha⟩ := h.2.cur
    refine SatI.bind (iterItem_safe w h hi hf ha (rounds_enough w ha)) fun r s1 h1 hq => ?_
    cases r with
    | some hd => exact SatI.pure h1 trivial
    | none =>
      have hlt : ringLeft g.pageCount s1.mit.first s1.mit.page < g.pageCount + 1 := by
        have := h1.2.first
        have := h1.2.page
        unfold ringLeft
        split <;> omega
      refine SatI.bind (iterPage_safe w h1 hlt) fun b s2 h2 hq2 => ?_
      cases b with
      | false => exact SatI.pure h2 trivial
      | true =>
        have := (hq2 rfl).2
        rw [hq.1, hq.2] at this
        exact ih h2 (by omega)

/-- A run whose only panic is the slicing of an item with a key that is too long. -/
def SatP (I : St K → Prop) (m : M K α) (s : St K) (Q : α → St K → Prop) : Prop :=
  Sat m s (fun a s' => I s' ∧ Q a s') (fun e s' => I s' ∧ (Fine e ∨ e = .panic))

omit w in
theorem SatI.toP {I : St K → Prop} {m : M K α} {Q : α → St K → Prop} (h : SatI I m s Q) : SatP I m s Q :=
  Sat.mono h (fun _ _ h => h) (fun _ _ h => ⟨h.1, Or.inl h.2⟩)

omit w in
theorem SatP.bind {β : Type} {I : St K → Prop} {m : M K α} {Q : α → St K → Prop} {f : α → M K β} {R : β → St K → Prop}
    (h : SatI I m s Q) (hf : ∀ a s', I s' → Q a s' → SatP I (f a) s' R) : SatP I (m >>= f) s R :=
  Sat.bind h.toP fun a s' h' => hf a s' h'.1 h'.2

omit w in
theorem SatP.bind_eq {β : Type} {I : St K → Prop} {m : M K α} {f : α → M K β} {R : β → St K → Prop} {a : α}
    (h : m s = (.ok a, s')) (hf : SatP I (f a) s' R) : SatP I (m >>= f) s R := Sat.bind_eq h hf

theorem mapIterNext_safe (h : MInv g s) (vc : ValCodec V) :
    SatP (MInv g) (Map.iterNext g kc vc) s (fun _ _ => True) := by
  unfold Map.iterNext
  have hlt : ringLeft g.pageCount s.mit.first s.mit.page < g.pageCount + 1 := by
    have := h.2.first
    have := h.2.page
    unfold ringLeft
    split <;> omega
  refine SatP.bind (iterLoop_safe w h hlt) fun r s1 h1 _ => ?_
  cases r with
  | none => exact ⟨h1, trivial⟩
  | some hd =>
    refine SatP.bind_eq (get_run s1) ?_
    refine SatP.bind ((liftSer_safe h1.1 _).toM h1.2) fun kn s2 h2 hk => ?_
    obtain ⟨k, klen⟩ := kn
    simp only
    split
    · exact ⟨h2, Or.inr rfl⟩
    · refine SatP.bind ((liftSer_safe h2.1 _).toM h2.2) fun vn s3 h3 _ => ?_
      exact ⟨h3, trivial⟩

theorem mapSteps_safe (steps : List (List Byte)) (h : MInv g s) (vc : ValCodec V) :
    SatI (MInv g) (mapSteps g kc vc steps) s (fun l _ => ∀ e, Except.error e ∈ l → Fine e ∨ e = .panic) := by
  induction steps generalizing s with
  | nil => exact SatI.pure h (by simp)
  | cons b rest ih =>
    unfold mapSteps
    refine SatI.bind_eq (modify_run _ s) ?_
    have h0 : MInv g { s with buf := b } := ⟨h.1.setBuf b, h.2⟩
    refine SatI.bind_eq (attempt_run _ _) ?_
    have more : ∀ (s : St K) (x : Except Err (Option (K × V))), MInv g s → (∀ e, x = .error e → Fine e ∨ e = .panic) →
        SatI (MInv g) (do
          let l ← mapSteps g kc vc rest
          pure (x :: l)) s (fun l _ => ∀ e, Except.error e ∈ l → Fine e ∨ e = .panic) := by
      intro s x hs hx
      refine SatI.bind (ih hs) fun l s1 h1 hl => SatI.pure h1 fun e he => ?_
      rcases List.mem_cons.1 he with he | he
      · exact hx e he.symm
      · exact hl e he
    rcases (mapIterNext_safe (kc := kc) w h0 vc).cases with ⟨r, s1, hr, h1⟩ | ⟨e, s1, hr, h1⟩
    · rw [hr]; exact more s1 _ h1.1 (by simp)
    · rw [hr]; exact more s1 _ h1.1 (fun e' he => by simp at he; subst he; exact h1.2)

theorem mapRepairs_safe {f : M K α} {Q : α → St K → Prop} (h : SInv true g s)
    (hf : ∀ s, SInv true g s → SatS true g f s Q) : SatI (SInv true g) (withRepair f (Map.tryRepair g kc)) s Q :=
  Sat.mono (withRepair_safe (J := fun _ _ => True) h trivial (fun s hs hj => (hf s hs).toI (J := fun _ _ => True) hj)
    (fun _ hs hj => (mapRepair_safe w hs).toI (J := fun _ _ => True) hj)) (fun _ _ h => ⟨h.1.1, h.2⟩) (fun _ _ h => ⟨h.1.1, h.2⟩)

theorem fetchItem_safe (h : SInv true g s) (vc : ValCodec V) (k : K) :
    SatP (SInv true g) (fetchItem g kc vc k) s (fun _ _ => True) := by
  unfold fetchItem
  refine SatP.bind (Q := fun _ _ => True) (mapRepairs_safe w h fun s hs => (fetchLoc_safe w hs k).mono fun _ _ _ _ => trivial)
    fun r s1 h1 _ => ?_
  cases r with
  | none => exact ⟨h1, trivial⟩
  | some x =>
    obtain ⟨hd, a, klen?⟩ := x
    refine SatP.bind_eq (get_run s1) ?_
    have fin : ∀ (s2 : St K) (buf : List Byte) klen, SInv true g s2 → SatP (SInv true g) (do
        if hd.len.toNat < klen then M.throw .panic
        else do
          let (v, _) ← liftSer (vc.de ((buf.take hd.len.toNat).drop klen))
          pure (some v)) s2 (fun _ _ => True) := by
      intro s2 buf klen h2
      split
      · exact ⟨h2, Or.inr rfl⟩
      · exact SatP.bind (liftSer_safe h2 _).weak fun vn s3 h3 _ => ⟨h3, trivial⟩
    cases klen? with
    | some n => exact SatP.bind_eq (pure_run n s1) (fin s1 _ n h1)
    | none => exact SatP.bind (liftSer_safe h1 _).weak fun n s2 h2 _ => fin s2 _ n h2

theorem fetchAllFirst_safe (h : SInv mp g s) :
    SatS mp g (fetchAllFirst g) s (fun r _ => (∀ p, r = .ok p → p < g.pageCount) ∧ ∀ e, r = .error e → e = .corrupted) := by
  unfold fetchAllFirst
  refine (findFirst_safe w 0 .partialOpen h).bind fun r s1 h1 _ hq => ?_
  cases r with
  | some p => exact SatS.pure h1 ⟨fun p' he => by simp at he; rw [← he]; exact w.next_lt, by simp⟩
  | none =>
    refine (findFirst_safe w 0 .open h1).bind fun r s2 h2 _ hq2 => ?_
    cases r with
    | none => exact SatS.pure h2 ⟨by simp, by simp⟩
    | some f =>
      have hf := (hq2.2 f rfl).1
      refine (look_safe w h2 (w.prev_lt hf)).bind fun st s3 h3 _ _ => ?_
      split
      · exact SatS.pure h3 ⟨fun p' he => by simp at he; rw [← he]; exact hf, by simp⟩
      · exact (unmark_safe h3).bind fun _ s4 h4 _ _ =>
          SatS.pure h4 ⟨fun p' he => by simp at he; rw [← he]; exact w.pageCount_pos, by simp⟩

theorem fetchAll_safe (h : SInv true g s) :
    SatI (SInv true g) (fetchAll g kc) s (fun _ s' => MItOk g s'.mit) := by
  unfold fetchAll
  refine SatI.bind (fetchAllFirst_safe w h).weak fun r s1 h1 hq => ?_
  have fin : ∀ (s2 : St K) (p : Nat), SInv true g s2 → p < g.pageCount → SatI (SInv true g)
      (M.modify fun s => { s with mit := ⟨p, p, g.dataStart p, g.dataEnd p⟩ }) s2 (fun _ s' => MItOk g s'.mit) :=
    fun s2 p h2 hp => Sat.of_ok (modify_run _ s2) ⟨h2.setMit, hp, hp, p, hp, rfl, At.start p w⟩
  have lifted : ∀ (s2 : St K) (r : Except Err Nat), SInv true g s2 →
      ((∀ p, r = .ok p → p < g.pageCount) ∧ ∀ e, r = .error e → e = .corrupted) → SatI (SInv true g) (do
      let p ← M.lift r
      M.modify fun s => { s with mit := ⟨p, p, g.dataStart p, g.dataEnd p⟩ }) s2 (fun _ s' => MItOk g s'.mit) := by
    intro s2 r h2 hr
    cases r with
    | ok p => exact SatI.bind_eq (lift_run _ s2) (fin s2 p h2 (hr.1 p rfl))
    | error e =>
      obtain rfl := hr.2 e rfl
      exact SatI.bind (Q := fun _ _ => False) (Sat.of_err (lift_run _ s2) ⟨h2, trivial⟩) fun _ _ _ hf => hf.elim
  cases r with
  | ok p => exact lifted s1 (.ok p) h1 hq
  | error e =>
    obtain rfl := hq.2 e rfl
    refine SatI.bind (mapRepair_safe w h1).weak fun _ s2 h2 _ => ?_
    exact SatI.bind (fetchAllFirst_safe w h2).weak fun r s3 h3 hq3 => lifted s3 r h3 hq3

/-- The errors inside an answer. -/
def FineMap : MAnswer K V → Prop
  | .items l => ∀ e, Except.error e ∈ l → Fine e ∨ e = .panic
  | _ => True

theorem mcall_safe (h : SInv true g s) (vc : ValCodec V) (c : MCall K V (Cache K))
    (hc : ∀ x, c = .restart x → FreshCache g.pageCount x ∧ x.kp ≠ .tracked []) :
    Sat (mcall g kc vc c) s (fun a s' => SInv true g s' ∧ FineMap a)
      (fun e s' => SInv true g s' ∧ (Fine e ∨ ((∃ k b, c = .fetch k b) ∧ e = .panic))) := by
  have ofI : ∀ {m : M K (MAnswer K V)} {s0 : St K}, SatI (SInv true g) m s0 (fun a _ => FineMap a) →
      Sat m s0 (fun a s' => SInv true g s' ∧ FineMap a)
        (fun e s' => SInv true g s' ∧ (Fine e ∨ ((∃ k b, c = .fetch k b) ∧ e = .panic))) :=
    fun h => Sat.mono h (fun _ _ h => h) (fun _ _ h => ⟨h.1, Or.inl h.2⟩)
  cases c with
  | store k v b =>
    refine Sat.bind_eq (modify_run _ s) (ofI ?_)
    refine SatI.bind (mapRepairs_safe w (h.setBuf b) (Q := fun _ _ => True) fun s hs => ?_) fun _ s1 h1 _ => SatI.pure h1 trivial
    unfold storeInner
    exact (checkDirty_safe hs).bind fun _ s1 h1 _ _ => storeLoop_safe w _ h1 k _
  | fetch k b =>
    refine Sat.bind_eq (modify_run _ s) ?_
    refine Sat.bind (Sat.mono (fetchItem_safe w (h.setBuf b) vc k) (fun _ _ h => h) (fun e s' h => ⟨h.1, ?_⟩)) fun _ s1 h1 => ⟨h1.1, trivial⟩
    exact h.2.imp id fun he => ⟨⟨k, b, rfl⟩, he⟩
  | remove k b =>
    refine Sat.bind_eq (modify_run _ s) (ofI ?_)
    exact SatI.bind (mapRepairs_safe w (h.setBuf b) (Q := fun _ _ => True) fun s hs => removeInner_safe w hs (some k))
      fun _ s1 h1 _ => SatI.pure h1 trivial
  | removeAll b =>
    refine Sat.bind_eq (modify_run _ s) (ofI ?_)
    exact SatI.bind (mapRepairs_safe w (h.setBuf b) (Q := fun _ _ => True) fun s hs => removeInner_safe w hs none)
      fun _ s1 h1 _ => SatI.pure h1 trivial
  | fetchAll b steps =>
    refine Sat.bind_eq (modify_run _ s) (ofI ?_)
    refine SatI.bind (fetchAll_safe w (h.setBuf b)) fun _ s1 h1 hq => ?_
    have hm := mapSteps_safe (kc := kc) w steps ⟨h1, hq⟩ vc
    exact SatI.bind (I := SInv true g) (Sat.mono hm (fun _ _ h => ⟨h.1.1, h.2⟩) (fun _ _ h => ⟨h.1.1, h.2⟩))
      fun l s2 h2 hl => SatI.pure h2 hl
  | restart x =>
    refine Sat.bind_eq (modifyCache_run _ s) ⟨?_, trivial⟩
    exact freshCache_sinv w h.faults (hc x rfl).1 (fun _ => (hc x rfl).2)

end

end SeqStorage
