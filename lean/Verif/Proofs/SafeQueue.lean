import Verif.Proofs.SafeOps
import Verif.Model.Use
/-
Queue calls on arbitrary flash contents: they end, do not panic, and make no refused flash access.
-/

namespace SeqStorage
open M Queue Spec

set_option linter.unusedSectionVars false

variable {K : Type} [DecidableEq K] {g : Geo} {mp : Bool} {s s' : St K} {i : Nat} {α : Type}

section
variable (w : g.WF)
include w

theorem tryRepair_safe (h : SInv mp g s) : SatS mp g (Queue.tryRepair g) s (fun _ _ => True) := by
  unfold Queue.tryRepair
  exact (invalidate_safe h).bind fun _ s1 h1 _ _ => generalRepair_safe w h1

theorem findYoungest_safe (h : SInv mp g s) :
    SatS mp g (findYoungest g) s (fun r s' => r < g.pageCount ∧ RO s s' ∧ (OpenSeen g r s' ∨ IsPart r s'.cache.ps)) := by
  unfold findYoungest
  refine SatS.bind (findFirstIn_safe w .partialOpen _ (pages_lt w) h) fun r s1 h1 _ hq => ?_
  cases r with
  | some p =>
    obtain ⟨hp, sx, hl⟩ := hq.2.1 p rfl
    exact SatS.pure h1 ⟨hp, hq.1.ro, Or.inr (hl.part rfl)⟩
  | none =>
    have hnp : ∀ j, j < g.pageCount → NotPart g j s1 := fun j hj => (hq.2.2.1 rfl rfl).1 j (mem_pages_zero w hj)
    refine SatS.bind (findFirstIn_safe w .closed _ (pages_lt w) h1) fun r s2 h2 _ hq2 => ?_
    cases r with
    | some anchor =>
      refine (findFirst_safe w anchor .open h2).bind fun r s3 h3 _ hq3 => ?_
      cases r with
      | some p =>
        obtain ⟨hp, sx, hl⟩ := hq3.2 p rfl
        exact SatS.pure h3 ⟨hp, (hq.1.ro.trans hq2.1.ro).trans hq3.1.ro, Or.inl (hl.opn rfl)⟩
      | none => exact SatS.throw h3 trivial
    | none =>
      exact SatS.pure h2 ⟨w.pageCount_pos, hq.1.ro.trans hq2.1.ro,
        Or.inl ((hq2.2.2.2 rfl rfl hnp).1 0 (mem_pages_zero w w.pageCount_pos))⟩

theorem findOldest_safe (h : SInv mp g s) :
    SatS mp g (findOldest g) s (fun r _ => r < g.pageCount) := by
  unfold findOldest
  refine (findYoungest_safe w h).bind fun y s1 h1 _ hy => ?_
  refine (findFirst_safe w y .closed h1).bind fun r s2 h2 _ hq => ?_
  refine SatS.pure h2 ?_
  cases r with
  | some p => exact (hq.2 p rfl).1
  | none => exact hy.1

theorem advance_safe (h : SInv mp g s) {cur : Nat} (hc : cur < g.pageCount) (hp : IsPart cur s.cache.ps) (ow : Bool) :
    SatS mp g (advancePage g cur ow) s (fun r _ => ∃ i, i < g.pageCount ∧ r = g.dataStart i) := by
  have hnl : g.nextPage cur < g.pageCount := w.next_lt
  have fin : ∀ s : St K, SInv mp g s → SatS mp g (do
      let _ ← partialClosePage g (g.nextPage cur)
      pure (g.dataStart (g.nextPage cur))) s (fun r _ => ∃ i, i < g.pageCount ∧ r = g.dataStart i) := fun s hs =>
    (partialClose_safe w hs hnl).bind fun _ s1 h1 _ _ => SatS.pure h1 ⟨_, hnl, rfl⟩
  have reuse : ∀ s : St K, SInv mp g s → ∀ single, (single = false → IsPart cur s.cache.ps ∧ cur ≠ g.nextPage cur) →
      SatS mp g (do
        openPage g (g.nextPage cur)
        if single = true then pure () else closePage g cur
        let _ ← partialClosePage g (g.nextPage cur)
        pure (g.dataStart (g.nextPage cur))) s (fun r _ => ∃ i, i < g.pageCount ∧ r = g.dataStart i) := by
    intro s hs single hsi
    refine (openPage_safe w hs hnl).bind fun _ s1 h1 _ ho => ?_
    cases single with
    | true => exact fin s1 h1
    | false =>
      obtain ⟨h3, h4⟩ := ho cur (hsi rfl).2 (hsi rfl).1
      exact (closePage_safe w h1 hc h3 h4).bind fun _ s2 h2 _ _ => fin s2 h2
  unfold advancePage
  refine (look_safe w h hnl).bind fun st s1 h1 _ hl => ?_
  have other : st ≠ .open → (decide (g.nextPage cur = cur) = false → st ≠ .partialOpen) →
      SatS mp g (do
        let empty ← if ow = true then pure true else isPageEmpty g (g.nextPage cur) st
        if empty = false then do
          unmarkDirty
          M.throw .fullStorage
        else do
          openPage g (g.nextPage cur)
          if decide (g.nextPage cur = cur) = true then pure () else closePage g cur
          let _ ← partialClosePage g (g.nextPage cur)
          pure (g.dataStart (g.nextPage cur))) s1 (fun r _ => ∃ i, i < g.pageCount ∧ r = g.dataStart i) := by
    intro hno hnp
    have hsi : decide (g.nextPage cur = cur) = false → IsPart cur s1.cache.ps ∧ cur ≠ g.nextPage cur := fun hd =>
      ⟨hl.keepPart (hnp hd) cur hc hp, fun h => by simp at hd; exact hd h.symm⟩
    by_cases how : ow
    · rw [if_pos how]
      exact SatS.bind_eq (pure_run true s1) (.refl s1) (reuse s1 h1 _ hsi)
    · rw [if_neg how]
      refine (isPageEmpty_safe w h1 hnl st).bind fun e s2 h2 _ he => ?_
      subst he
      cases e with
      | false =>
        exact (unmark_safe h2).bind fun _ s3 h3 _ _ => SatS.throw h3 trivial
      | true => exact reuse s2 h2 _ hsi
  cases hst : st with
  | «open» =>
    exact (closePage_safe w h1 hc (hl.keepPart (by simp [hst]) cur hc hp) (hl.two hst cur hc hp)).bind
      fun _ s2 h2 _ _ => fin s2 h2
  | closed => subst hst; exact other (by simp) (by simp)
  | partialOpen =>
    subst hst
    cases hsg : decide (g.nextPage cur = cur) with
    | false => exact SatS.throw h1 trivial
    | true => rw [hsg] at other; exact other (by simp) (by simp)

theorem writeNew_safe (h : SInv mp g s) {a : Nat} {d : List Byte} (hi : i < g.pageCount) (ha : At g i a)
    (hl : d.length ≤ 65535) (hn : a + g.hl + g.roundUp d.length ≤ g.dataEnd i) :
    SatS mp g (writeNew g a d) s (fun _ _ => True) := by
  have hlen : d.length = (Header.ofData d).len.toNat := by
    simp [Header.ofData]; omega
  exact (writeRaw_safe w h hi ha (by unfold Header.next; rw [← hlen]; exact hn) hlen).mono fun _ _ _ _ => trivial

theorem pushInner_safe (h : SInv mp g s) (d : List Byte) (ow : Bool) :
    SatS mp g (pushInner g d ow) s (fun _ _ => True) := by
  unfold pushInner
  refine (checkDirty_safe h).bind fun _ s1 h1 _ _ => ?_
  cases htb : g.tooBig d.length with
  | true => exact (unmark_safe h1).bind fun _ s2 h2 _ _ => SatS.throw h2 trivial
  | false =>
    simp only [Bool.false_eq_true, if_false]
    have hbig := notTooBig w htb
    refine (findYoungest_safe w h1).bind fun cur s2 h2 _ hy => ?_
    refine (partialClose_safe w h2 hy.1).bind fun _ s3 h3 _ hpc => ?_
    refine (findFreeSpot_safe w h3 hy.1 d.length).bind fun spot s4 h4 _ hsp => ?_
    obtain ⟨rfl, hsp⟩ := hsp
    have fin : ∀ (s : St K) a i, SInv mp g s → i < g.pageCount → At g i a → a + g.hl + g.roundUp d.length ≤ g.dataEnd i →
        SatS mp g (do
          writeNew g a d
          unmarkDirty) s (fun _ _ => True) := fun s a i hs hi ha hn =>
      (writeNew_safe w hs hi ha (hbig i).1 hn).bind fun _ s' h' _ _ => (unmark_safe h').mono fun _ _ _ _ => trivial
    cases spot with
    | some a =>
      obtain ⟨ha, hn⟩ := hsp a rfl
      exact SatS.bind_eq (pure_run a s4) (.refl s4) (fin s4 a cur h4 hy.1 ha hn)
    | none =>
      refine (advance_safe w h4 hy.1 (hpc.2.2 hy.2.2) ow).bind fun a s5 h5 _ ha => ?_
      obtain ⟨i, hi, rfl⟩ := ha
      exact fin s5 _ i h5 hi (At.start i w) (hbig i).2

theorem findMaxFitInner_safe (h : SInv mp g s) : SatS mp g (findMaxFitInner g) s (fun _ _ => True) := by
  unfold findMaxFitInner
  refine (checkDirty_safe h).bind fun _ s1 h1 _ _ => ?_
  refine (findYoungest_safe w h1).bind fun cur s2 h2 _ hy => ?_
  have here : ∀ s : St K, SInv mp g s → SatS mp g (do
      let f ← nextItemAddress g cur
      unmarkDirty
      pure (g.availableDataBytes (g.dataEnd cur - f))) s (fun _ _ => True) := fun s hs =>
    (nextItemAddress_safe w hs hy.1).bind fun _ s' h' _ _ => (unmark_safe h').bind fun _ s'' h'' _ _ => SatS.pure h'' trivial
  have whole : ∀ s : St K, SInv mp g s → SatS mp g (do
      unmarkDirty
      pure (some (g.eraseSize - 2 * g.word))) s (fun _ _ => True) := fun s hs =>
    (unmark_safe hs).bind fun _ s'' h'' _ _ => SatS.pure h'' trivial
  refine (look_safe w h2 w.next_lt).bind fun st s3 h3 _ _ => ?_
  cases st with
  | closed =>
    refine (isPageEmpty_safe w h3 w.next_lt .closed).bind fun e s4 h4 _ _ => ?_
    cases e with
    | true => exact whole s4 h4
    | false => exact here s4 h4
  | «open» => exact whole s3 h3
  | partialOpen => exact SatS.throw h3 trivial

theorem spaceLeftPage_safe (h : SInv mp g s) (hi : i < g.pageCount) :
    SatS mp g (spaceLeftPage g i) s (fun _ _ => True) := by
  unfold spaceLeftPage
  refine (look_safe w h hi).bind fun st s1 h1 _ _ => ?_
  refine (isPageEmpty_safe w h1 hi st).bind fun e s2 h2 _ _ => ?_
  split
  · exact SatS.pure h2 trivial
  · split
    · exact SatS.pure h2 trivial
    · refine (nextItemAddress_safe w h2 hi).bind fun f s3 h3 _ _ => ?_
      split
      · refine (isPageEmpty_safe w h3 hi .closed).bind fun e s4 h4 _ _ => ?_
        split <;> exact SatS.pure h4 trivial
      · exact SatS.pure h3 trivial

theorem spaceLeftIn_safe (l : List Nat) (hl : ∀ i ∈ l, i < g.pageCount) (t : Nat) (h : SInv mp g s) :
    SatS mp g (spaceLeftIn g t l) s (fun _ _ => True) := by
  induction l generalizing s t with
  | nil => exact SatS.pure h trivial
  | cons i rest ih =>
    unfold spaceLeftIn
    exact (spaceLeftPage_safe w h (hl i (by simp))).bind fun n s1 h1 _ _ => ih (fun j hj => hl j (by simp [hj])) _ h1

theorem spaceLeftInner_safe (h : SInv mp g s) : SatS mp g (spaceLeftInner g) s (fun _ _ => True) := by
  unfold spaceLeftInner
  refine (checkDirty_safe h).bind fun _ s1 h1 _ _ => ?_
  refine (spaceLeftIn_safe w _ (pages_lt w) 0 h1).bind fun _ s2 h2 _ _ => ?_
  exact (unmark_safe h2).bind fun _ s3 h3 _ _ => SatS.pure h3 trivial

theorem findStart_safe (h : SInv mp g s) :
    SatS mp g (findStart g) s (fun r _ => ∃ i, i < g.pageCount ∧ At g i r) := by
  unfold findStart
  refine (checkDirty_safe h).bind fun _ s1 h1 _ _ => ?_
  refine (findOldest_safe w h1).bind fun o s2 h2 _ ho => ?_
  refine SatS.bind_eq (get_run s2) (.refl s2) (SatS.pure h2 ⟨o, ho, ?_⟩)
  cases he : s2.cache.pp.afterErased o with
  | none => exact At.start o w
  | some p => exact h2.ppE o p ho he

end

/-! ### The iterator -/

/-- An iterator that stays in the flash range. -/
structure QItOk (g : Geo) (it : QIter) : Prop where
  oldest : it.oldest < g.pageCount
  addr : ∀ a, it.next = .address a → ∃ i, i < g.pageCount ∧ At g i a
  after : ∀ i, it.next = .pageAfter i → i < g.pageCount

/-- The invariant while iterating. -/
abbrev QInv (mp : Bool) (g : Geo) (s : St K) : Prop := SInv mp g s ∧ QItOk g s.qit

/-- An entry that can be popped. -/
structure EntryOk (g : Geo) (s : St K) (h : Header) (a : Nat) : Prop where
  spot : ∃ i, i < g.pageCount ∧ At g i a ∧ h.next g a ≤ g.dataEnd i
  len : h.len.toNat ≤ s.buf.length

/-- The number of pages after page `p`, in the order of the ring that ends before page `o`. -/
def ringLeft (n o p : Nat) : Nat := if p < o then o - 1 - p else o + n - 1 - p

/-- How far the iterator still has to go. -/
def QLeft (g : Geo) (it : QIter) (m : Nat) : Prop :=
  (∃ a i, it.next = .address a ∧ i < g.pageCount ∧ At g i a ∧
    ringLeft g.pageCount it.oldest i * (g.eraseSize + 1) + (g.dataEnd i - a) + 1 ≤ m) ∨
  (∃ p, it.next = .pageAfter p ∧ p < g.pageCount ∧ ringLeft g.pageCount it.oldest p * (g.eraseSize + 1) ≤ m)

theorem nextPage_if {p : Nat} (hp : p < g.pageCount) : g.nextPage p = if p + 1 = g.pageCount then 0 else p + 1 := by
  unfold Geo.nextPage
  split
  · rename_i h; rw [h, Nat.mod_self]
  · exact Nat.mod_eq_of_lt (by omega)

theorem ringLeft_next {o p : Nat} (ho : o < g.pageCount) (hp : p < g.pageCount) (hne : g.nextPage p ≠ o) :
    ringLeft g.pageCount o p = ringLeft g.pageCount o (g.nextPage p) + 1 := by
  rw [nextPage_if hp] at hne ⊢
  unfold ringLeft
  split at hne <;> split <;> split <;> omega

theorem SInv.setQit {it : QIter} (h : SInv mp g s) : SInv mp g { s with qit := it } :=
  ⟨h.faults, h.ps, h.ppE, h.ppW, h.kp, h.kne⟩

/-- A run that does not touch the iterators, in the context of an iteration. -/
theorem SatS.toQ {m : M K α} {Q : α → St K → Prop} (h : SatS mp g m s Q) (hq : QItOk g s.qit) :
    SatI (QInv mp g) m s (fun a s' => s'.qit = s.qit ∧ Q a s') :=
  Sat.mono h (fun _ _ h => ⟨⟨h.1.1, by rw [h.1.2.qit]; exact hq⟩, h.1.2.qit, h.2⟩)
    (fun _ _ h => ⟨⟨h.1.1, by rw [h.1.2.qit]; exact hq⟩, h.2⟩)

theorem setIter_run (f : QIter → QIter) (s : St K) : setIter f s = (.ok (), { s with qit := f s.qit }) := rfl

section
variable (w : g.WF)
include w

theorem QItOk.afterItem {it : QIter} {nxt : Nat} (h : QItOk g it) (hi : i < g.pageCount) (hn : At g i nxt) :
    QItOk g { it with next := afterItem g i nxt } := by
  unfold Queue.afterItem
  split
  · exact ⟨h.oldest, by simp, fun j hj => by simp at hj; rw [← hj]; exact hi⟩
  · exact ⟨h.oldest, fun a ha => by simp at ha; rw [← ha]; exact ⟨i, hi, hn⟩, by simp⟩

theorem QLeft.afterItem {it : QIter} {a nxt m : Nat} (hi : i < g.pageCount) (hn : At g i nxt) (hlt : a < nxt)
    (hm : ringLeft g.pageCount it.oldest i * (g.eraseSize + 1) + (g.dataEnd i - a) + 1 ≤ m + 1) :
    QLeft g { it with next := afterItem g i nxt } m := by
  have := hn.hi
  unfold Queue.afterItem
  split
  · exact Or.inr ⟨i, rfl, hi, by simp only; omega⟩
  · exact Or.inl ⟨nxt, i, rfl, hi, hn, by simp only; omega⟩

theorem nextScan_safe (h : QInv mp g s) (hi : i < g.pageCount) {a : Nat} (ha : At g i a) {m : Nat}
    (hm : ringLeft g.pageCount s.qit.oldest i * (g.eraseSize + 1) + (g.dataEnd i - a) + 1 ≤ m + 1) :
    SatI (QInv mp g) (nextScan g i a) s (fun r s' => (r = none → QLeft g s'.qit m) ∧
      ∀ hd ad, r = some (hd, ad) → EntryOk g s' hd ad) := by
  obtain ⟨hs, hq⟩ := h
  unfold nextScan
  obtain ⟨r, hr, ht⟩ := traverse_page w hi (fun h => decide (h.crc = 0#32)) s ha
  refine SatI.bind_eq hr ?_
  obtain ⟨o, r1, r2⟩ := r
  cases o with
  | none =>
    refine SatI.bind_eq (setIter_run _ s) (SatI.pure ⟨hs.setQit, hq.oldest, by simp, fun j hj => by simp at hj; rw [← hj]; exact hi⟩ ⟨fun _ => ?_, by simp⟩)
    exact Or.inr ⟨i, rfl, hi, by simp only; omega⟩
  | some hd =>
    obtain ⟨hx, hnx, hsk⟩ := ht.found hd rfl
    have hgt := Layout.next_gt w hd r1
    have hle : a ≤ r1 := ht.le
    refine SatI.bind ((readItem_safe w hs hi hx).toQ hq) fun mi s1 hI1 hq1 => ?_
    obtain ⟨hqe, hri⟩ := hq1
    have hm1 : ringLeft g.pageCount s1.qit.oldest i * (g.eraseSize + 1) + (g.dataEnd i - a) + 1 ≤ m + 1 := by rw [hqe]; exact hm
    rcases hri.hdr with rfl | rfl | rfl
    · refine SatI.bind_eq (setIter_run _ s1) ?_
      refine SatI.bind_eq (setIter_run _ _) ?_
      refine SatI.bind_eq (modifyCache_run _ _) (SatI.pure ⟨?_, ?_⟩ ⟨by simp, ?_⟩)
      · exact (hI1.1.setQit).dirty false
      · have := hI1.2.afterItem w hi (hx.next w)
        simp only
        split
        · exact ⟨this.oldest, this.addr, this.after⟩
        · exact this
      · intro hd' ad he
        simp only [Option.some.injEq, Prod.mk.injEq] at he
        obtain ⟨rfl, rfl⟩ := he
        exact ⟨⟨i, hi, hx.at_, hx.next_le⟩, (hri.present rfl).2⟩
    · refine SatI.bind_eq (setIter_run _ s1) (SatI.pure ⟨hI1.1.setQit, hI1.2.afterItem w hi (hx.next w)⟩ ⟨fun _ => ?_, by simp⟩)
      exact QLeft.afterItem w hi (hx.next w) (by omega) hm1
    · have := hri.erased rfl
      simp [this] at hsk

theorem nextLoop_safe (rounds : Nat) (h : QInv mp g s) {m : Nat} (hm : QLeft g s.qit m) (hr : m < rounds) :
    SatI (QInv mp g) (nextLoop g rounds) s (fun r s' => ∀ hd ad, r = some (hd, ad) → EntryOk g s' hd ad) := by
  induction rounds generalizing s m with
  | zero => omega
  | succ rounds ih =>
    unfold nextLoop
    refine SatI.bind_eq (get_run s) ?_
    have scan : ∀ (s1 : St K) (i a m' : Nat), QInv mp g s1 → i < g.pageCount → At g i a →
        ringLeft g.pageCount s1.qit.oldest i * (g.eraseSize + 1) + (g.dataEnd i - a) + 1 ≤ m' + 1 → m' < rounds →
        SatI (QInv mp g) (do
          match ← nextScan g i a with
          | some r => pure (some r)
          | none => nextLoop g rounds) s1 (fun r s' => ∀ hd ad, r = some (hd, ad) → EntryOk g s' hd ad) := by
      intro s1 i a m' hI1 hi ha hm' hlt
      refine SatI.bind (nextScan_safe w hI1 hi ha hm') fun r s2 hI2 hq => ?_
      cases r with
      | some r => exact SatI.pure hI2 (fun hd ad he => hq.2 hd ad he)
      | none => exact ih hI2 (hq.1 rfl) hlt
    rcases hm with ⟨a, i, hn, hi, ha, hm⟩ | ⟨p, hn, hp, hm⟩
    · rw [hn]
      simp only
      rw [ha.index w]
      exact scan s i a (m - 1) h hi ha (by omega) (by omega)
    · rw [hn]
      simp only
      have hnl : g.nextPage p < g.pageCount := w.next_lt
      refine SatI.bind ((look_safe w h.1 hnl).toQ h.2) fun st s1 hI1 hq1 => ?_
      split
      · exact SatI.bind_eq (modifyCache_run _ _) (SatI.pure ⟨hI1.1.dirty false, hI1.2⟩ (by simp))
      · rename_i hstop
        simp only [Bool.or_eq_true, decide_eq_true_eq, not_or] at hstop
        have hd := ringLeft_next h.2.oldest hp hstop.2
        have go : ∀ s2 : St K, QInv mp g s2 → s2.qit.oldest = s.qit.oldest → SatI (QInv mp g) (do
            setIter fun it => { it with next := .address (g.dataStart (g.nextPage p)) }
            match ← nextScan g (g.nextPage p) (g.dataStart (g.nextPage p)) with
            | some r => pure (some r)
            | none => nextLoop g rounds) s2 (fun r s' => ∀ hd ad, r = some (hd, ad) → EntryOk g s' hd ad) := by
          intro s2 hI2 ho
          refine SatI.bind_eq (setIter_run _ s2) ?_
          refine scan _ _ _ (m - 1) ⟨hI2.1.setQit, hI2.2.oldest, fun a ha => ?_, by simp⟩ hnl (At.start _ w) ?_ ?_
          · simp only [NextAddr.address.injEq] at ha
            subst ha
            exact ⟨_, hnl, At.start _ w⟩
          · rw [hd, Nat.add_mul] at hm
            have := w.dataEnd_add (g.nextPage p)
            have := w.pageEnd_eq (g.nextPage p)
            have := w.word_pos
            have hlo := (At.start (g.nextPage p) w).hi
            simp only [ho]
            unfold Geo.dataStart at *
            omega
          · rw [hd, Nat.add_mul] at hm; omega
        by_cases hpv : s.qit.prev = .allPopped
        · rw [if_pos hpv]
          exact SatI.bind ((openPage_safe w hI1.1 hp).toQ hI1.2) fun _ s2 hI2 hq2 => go s2 hI2 (by rw [hq2.1, hq1.1])
        · rw [if_neg hpv]
          exact go s1 hI1 (by rw [hq1.1])

theorem QItOk.left {it : QIter} (h : QItOk g it) : QLeft g it ((g.pageCount + 1) * (g.eraseSize + 1)) := by
  have hr : ∀ p, p < g.pageCount → ringLeft g.pageCount it.oldest p * (g.eraseSize + 1) ≤ g.pageCount * (g.eraseSize + 1) := by
    intro p hp
    refine Nat.mul_le_mul_right _ ?_
    have := h.oldest
    unfold ringLeft
    split <;> omega
  rw [Nat.add_mul]
  cases hn : it.next with
  | address a =>
    obtain ⟨i, hi, ha⟩ := h.addr a hn
    refine Or.inl ⟨a, i, hn, hi, ha, ?_⟩
    have := hr i hi
    have := rounds_enough w ha
    unfold Geo.rounds at this
    omega
  | pageAfter p =>
    have hp := h.after p hn
    refine Or.inr ⟨p, hn, hp, ?_⟩
    have := hr p hp
    omega

theorem nextInner_safe (h : QInv mp g s) :
    SatI (QInv mp g) (nextInner g) s (fun r s' => ∀ hd ad, r = some (hd, ad) → EntryOk g s' hd ad) := by
  unfold nextInner
  refine SatI.bind ((checkDirty_safe h.1).toQ h.2) fun _ s1 h1 _ => ?_
  exact nextLoop_safe w _ h1 (h1.2.left w) (by unfold loopRounds; omega)

theorem iterNext_safe (h : QInv mp g s) :
    SatI (QInv mp g) (iterNext g) s (fun r s' => ∀ hd ad d, r = some (hd, ad, d) → EntryOk g s' hd ad) := by
  unfold iterNext
  refine SatI.bind_eq (setIter_run _ s) ?_
  have h0 : QInv mp g { s with qit := if s.qit.prev = .allButCurrentPopped then { s.qit with prev := .unpopped } else s.qit } := by
    refine ⟨h.1.setQit, ?_⟩
    simp only
    split
    · exact ⟨h.2.oldest, h.2.addr, h.2.after⟩
    · exact h.2
  refine SatI.bind (withRepair_safe (J := fun q _ => QItOk g q) h0.1 h0.2 (fun s hs hj => nextInner_safe w ⟨hs, hj⟩)
    (fun _ hs hj => (tryRepair_safe w hs).toI (J := fun q _ => QItOk g q) hj)) fun r s1 h1 hq => ?_
  cases r with
  | none => exact SatI.pure h1 (by simp)
  | some r =>
    obtain ⟨hd, a⟩ := r
    have he := hq hd a rfl
    refine SatI.bind_eq (get_run s1) ?_
    rw [if_neg (by have := he.len; omega)]
    refine SatI.pure h1 ?_
    intro hd' a' d' e
    simp only [Option.some.injEq, Prod.mk.injEq] at e
    obtain ⟨rfl, rfl, -⟩ := e
    exact he

theorem entryPop_safe (h : QInv mp g s) {hd : Header} {a : Nat} (he : EntryOk g s hd a) :
    SatI (QInv mp g) (entryPop g hd a) s (fun _ _ => True) := by
  obtain ⟨i, hi, ha, hn⟩ := he.spot
  unfold entryPop
  refine SatI.bind_eq (setIter_run _ s) ?_
  have h0 : QInv mp g { s with qit := if s.qit.prev = .allButCurrentPopped then { s.qit with prev := .allPopped } else s.qit } := by
    refine ⟨h.1.setQit, ?_⟩
    simp only
    split
    · exact ⟨h.2.oldest, h.2.addr, h.2.after⟩
    · exact h.2
  refine SatI.bind ((eraseItem_safe w h0.1 hi ha hn).toQ h0.2) fun _ s1 h1 _ => ?_
  exact SatI.mono ((unmark_safe h1.1).toQ h1.2) fun _ _ _ _ => trivial

theorem iterNew_safe (h : SInv mp g s) :
    SatI (SInv mp g) (iterNew g) s (fun _ s' => QItOk g s'.qit) := by
  unfold iterNew
  have hf := withRepair_safe (g := g) (mp := mp) (s := s) (J := fun _ _ => True) (f := findStart g) (r := Queue.tryRepair g) h trivial
    (fun s hs hj => (findStart_safe w hs).toI (J := fun _ _ => True) hj) (fun _ hs hj => (tryRepair_safe w hs).toI (J := fun _ _ => True) hj)
  refine SatI.bind (Q := fun r _ => ∃ i, i < g.pageCount ∧ At g i r)
    (Sat.mono hf (fun _ _ h => ⟨h.1.1, h.2⟩) (fun _ _ h => ⟨h.1.1, h.2⟩)) fun a s1 h1 hq => ?_
  obtain ⟨i, hi, ha⟩ := hq
  refine Sat.of_ok (modify_run _ s1) ⟨h1.setQit, ?_, fun b hb => ?_, by simp⟩
  · rw [ha.index w]; exact hi
  · simp only [NextAddr.address.injEq] at hb
    subst hb
    exact ⟨i, hi, ha⟩

omit w in
theorem SatI.weak {m : M K α} {Q : α → St K → Prop} (h : SatI (QInv mp g) m s Q) : SatI (SInv mp g) m s Q :=
  Sat.mono h (fun _ _ h => ⟨h.1.1, h.2⟩) (fun _ _ h => ⟨h.1.1, h.2⟩)

omit w in
theorem SatS.weak {m : M K α} {Q : α → St K → Prop} (h : SatS mp g m s Q) : SatI (SInv mp g) m s Q :=
  Sat.mono h (fun _ _ h => ⟨h.1.1, h.2⟩) (fun _ _ h => ⟨h.1.1, h.2⟩)

theorem repair_safe {f : M K α} {Q : α → St K → Prop} (h : SInv mp g s)
    (hf : ∀ s, SInv mp g s → SatS mp g f s Q) : SatI (SInv mp g) (withRepair f (Queue.tryRepair g)) s Q :=
  Sat.mono (withRepair_safe (J := fun _ _ => True) h trivial (fun s hs hj => (hf s hs).toI (J := fun _ _ => True) hj)
    (fun _ hs hj => (tryRepair_safe w hs).toI (J := fun _ _ => True) hj)) (fun _ _ h => ⟨h.1.1, h.2⟩) (fun _ _ h => ⟨h.1.1, h.2⟩)

theorem peek_safe (h : SInv mp g s) : SatI (SInv mp g) (Queue.peek g) s (fun _ _ => True) := by
  unfold Queue.peek
  refine SatI.bind (iterNew_safe w h) fun _ s1 h1 hq => ?_
  refine SatI.bind (iterNext_safe w ⟨h1, hq⟩).weak fun r s2 h2 _ => ?_
  cases r with
  | none => exact SatI.pure h2 trivial
  | some r => exact SatI.pure h2 trivial

theorem pop_safe (h : SInv mp g s) : SatI (SInv mp g) (Queue.pop g) s (fun _ _ => True) := by
  unfold Queue.pop
  refine SatI.bind (iterNew_safe w h) fun _ s1 h1 hq => ?_
  refine SatI.weak (SatI.bind (iterNext_safe w ⟨h1, hq⟩) fun r s2 h2 he => ?_)
  cases r with
  | none => exact SatI.pure h2 trivial
  | some r =>
    obtain ⟨hd, a, d⟩ := r
    exact SatI.bind (entryPop_safe w h2 (he hd a d rfl)) fun _ s3 h3 _ => SatI.pure h3 trivial

/-- The answers an iteration may give. -/
def FineList (l : List (Except Err (Option (List Byte)))) : Prop := ∀ e, Except.error e ∈ l → Fine e

theorem iterSteps_safe (steps : List (List Byte × Bool)) (h : QInv mp g s) :
    SatI (QInv mp g) (iterSteps g steps) s (fun l _ => FineList l) := by
  induction steps generalizing s with
  | nil => exact SatI.pure h (by simp [FineList])
  | cons x rest ih =>
    obtain ⟨b, p⟩ := x
    unfold iterSteps
    refine SatI.bind_eq (modify_run _ s) ?_
    have h0 : QInv mp g { s with buf := b } := ⟨h.1.setBuf b, h.2⟩
    have more : ∀ (s : St K) (x : Except Err (Option (List Byte))), QInv mp g s → (∀ e, x = .error e → Fine e) →
        SatI (QInv mp g) (do
          let l ← iterSteps g rest
          pure (x :: l)) s (fun l _ => FineList l) := by
      intro s x hs hx
      refine SatI.bind (ih hs) fun l s1 h1 hl => SatI.pure h1 fun e he => ?_
      rcases List.mem_cons.1 he with he | he
      · exact hx e he.symm
      · exact hl e he
    refine SatI.bind_eq (attempt_run _ _) ?_
    rcases (iterNext_safe w h0).cases with ⟨r, s1, hr, h1⟩ | ⟨e, s1, hr, h1⟩
    · rw [hr]
      cases r with
      | none => exact more s1 _ h1.1 (by simp)
      | some r =>
        obtain ⟨hd, a, d⟩ := r
        simp only
        by_cases hp : p
        · rw [if_pos hp]
          exact SatI.bind (entryPop_safe w h1.1 (h1.2 hd a d rfl)) fun _ s2 h2 _ => more s2 _ h2 (by simp)
        · rw [if_neg hp]
          exact more s1 _ h1.1 (by simp)
    · rw [hr]
      cases e with
      | bufferTooSmall n => exact more s1 _ h1.1 (fun e he => by simp at he; subst he; trivial)
      | _ => exact SatI.throw h1.1 h1.2

/-- The errors inside an answer. -/
def FineAnswer : QAnswer → Prop
  | .items l => FineList l
  | _ => True

theorem push_safe (h : SInv mp g s) (d : List Byte) (ow : Bool) : SatI (SInv mp g) (Queue.push g d ow) s (fun _ _ => True) :=
  repair_safe w h fun _ hs => pushInner_safe w hs d ow

theorem maxFit_safe (h : SInv mp g s) : SatI (SInv mp g) (Queue.findMaxFit g) s (fun _ _ => True) :=
  repair_safe w h fun _ hs => findMaxFitInner_safe w hs

theorem spaceLeft_safe (h : SInv mp g s) : SatI (SInv mp g) (Queue.spaceLeft g) s (fun _ _ => True) :=
  repair_safe w h fun _ hs => spaceLeftInner_safe w hs

theorem freshCache_sinv (hf : s.fl.faults = 0) {c : Cache K} (hc : FreshCache g.pageCount c)
    (hkp : mp = true → c.kp ≠ .tracked []) : SInv mp g { s with cache := c } := by
  refine ⟨hf, ?_, ?_, ?_, ?_, hkp⟩
  · rcases hc.ps with h | h | h <;> simp only [h]
    · trivial
    · exact CalcPS.new_safe w.pageCount_pos
    · simp [PSafe]
  · intro i p _ hp
    rcases hc.pp with h | h <;> simp only [h, PPCache.afterErased] at hp
    · simp at hp
    · rw [List.getElem?_replicate] at hp; split at hp <;> simp at hp
  · intro i p _ hp
    rcases hc.pp with h | h <;> simp only [h, PPCache.afterWritten] at hp
    · simp at hp
    · rw [List.getElem?_replicate] at hp; split at hp <;> simp at hp
  · intro l k a hl hm
    rcases hc.kp with h | ⟨n, h⟩
    · simp [h] at hl
    · simp only [h, KPCache.tracked.injEq] at hl
      subst hl
      simp [List.mem_replicate] at hm

theorem qcall_safe (h : SInv false g s) (c : QCall (Cache K)) (hc : ∀ x, c = .restart x → FreshCache g.pageCount x) :
    SatI (SInv false g) (qcall g c) s (fun a _ => FineAnswer a) := by
  cases c with
  | push d ow => exact SatI.bind (push_safe w h d ow) fun _ s1 h1 _ => SatI.pure h1 trivial
  | pop b =>
    refine SatI.bind_eq (modify_run _ s) ?_
    exact SatI.bind (pop_safe w (h.setBuf b)) fun _ s1 h1 _ => SatI.pure h1 trivial
  | peek b =>
    refine SatI.bind_eq (modify_run _ s) ?_
    exact SatI.bind (peek_safe w (h.setBuf b)) fun _ s1 h1 _ => SatI.pure h1 trivial
  | iterate steps =>
    refine SatI.bind (iterNew_safe w h) fun _ s1 h1 hq => ?_
    exact SatI.bind (iterSteps_safe w steps ⟨h1, hq⟩).weak fun l s2 h2 hl => SatI.pure h2 hl
  | maxFit => exact SatI.bind (maxFit_safe w h) fun _ s1 h1 _ => SatI.pure h1 trivial
  | spaceLeft => exact SatI.bind (spaceLeft_safe w h) fun _ s1 h1 _ => SatI.pure h1 trivial
  | restart x =>
    refine SatI.bind_eq (modifyCache_run _ s) (SatI.pure ?_ trivial)
    exact freshCache_sinv w h.faults (hc x rfl) (by simp)

end

end SeqStorage
