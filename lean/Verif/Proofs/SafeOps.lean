import Verif.Proofs.Safe
import Verif.Proofs.Items
import Verif.Proofs.Push
/-
The page and item functions on any flash contents.
-/

set_option linter.unusedSectionVars false

namespace SeqStorage
open M

variable {K : Type} [DecidableEq K] {α β : Type} {g : Geo}

/-- The iterators are left alone. -/
structure Keep (s s' : St K) : Prop where
  qit : s'.qit = s.qit
  mit : s'.mit = s.mit

theorem Keep.refl (s : St K) : Keep s s := ⟨rfl, rfl⟩
theorem Keep.trans {s s' s'' : St K} (h : Keep s s') (h' : Keep s' s'') : Keep s s'' :=
  ⟨h'.qit.trans h.qit, h'.mit.trans h.mit⟩
theorem RO.keep {s s' : St K} (h : RO s s') : Keep s s' := ⟨h.qit, h.mit⟩

/-- A run that keeps the invariant `I`, ends in `Q` or in a permitted error. -/
def SatI (I : St K → Prop) (m : M K α) (s : St K) (Q : α → St K → Prop) : Prop :=
  Sat m s (fun a s' => I s' ∧ Q a s') (fun e s' => I s' ∧ Fine e)

namespace SatI
variable {I : St K → Prop} {m : M K α} {s s' : St K} {Q Q' : α → St K → Prop}

theorem bind {f : α → M K β} {R : β → St K → Prop} (h : SatI I m s Q)
    (hf : ∀ a s', I s' → Q a s' → SatI I (f a) s' R) : SatI I (m >>= f) s R :=
  Sat.bind h fun a s' h' => hf a s' h'.1 h'.2

theorem bind_eq {f : α → M K β} {R : β → St K → Prop} {a : α} (h : m s = (.ok a, s')) (hf : SatI I (f a) s' R) :
    SatI I (m >>= f) s R := Sat.bind_eq h hf

theorem pure {a : α} (hi : I s) (h : Q a s) : SatI I (pure a : M K α) s Q := ⟨hi, h⟩
theorem throw {e : Err} (hi : I s) (h : Fine e) : SatI I (M.throw e : M K α) s Q := ⟨hi, h⟩

theorem mono (h : SatI I m s Q) (hq : ∀ a s', I s' → Q a s' → Q' a s') : SatI I m s Q' :=
  Sat.mono h (fun a s' h => ⟨h.1, hq a s' h.1 h.2⟩) (fun _ _ h => h)

end SatI

/-- A run that changes no iterator. -/
def SatS (mp : Bool) (g : Geo) (m : M K α) (s : St K) (Q : α → St K → Prop) : Prop :=
  SatI (fun s' => SInv mp g s' ∧ Keep s s') m s Q

namespace SatS
variable {mp : Bool} {m : M K α} {s s' : St K} {Q Q' : α → St K → Prop}

theorem bind {f : α → M K β} {R : β → St K → Prop} (h : SatS mp g m s Q)
    (hf : ∀ a s', SInv mp g s' → Keep s s' → Q a s' → SatS mp g (f a) s' R) : SatS mp g (m >>= f) s R :=
  Sat.bind h fun a s' hi => Sat.mono (hf a s' hi.1.1 hi.1.2 hi.2)
    (fun _ _ h => ⟨⟨h.1.1, hi.1.2.trans h.1.2⟩, h.2⟩) (fun _ _ h => ⟨⟨h.1.1, hi.1.2.trans h.1.2⟩, h.2⟩)

theorem bind_eq {f : α → M K β} {R : β → St K → Prop} {a : α} (h : m s = (.ok a, s')) (hk : Keep s s')
    (hf : SatS mp g (f a) s' R) : SatS mp g (m >>= f) s R :=
  Sat.bind_eq h (Sat.mono hf (fun _ _ h => ⟨⟨h.1.1, hk.trans h.1.2⟩, h.2⟩) (fun _ _ h => ⟨⟨h.1.1, hk.trans h.1.2⟩, h.2⟩))

theorem pure {a : α} (hi : SInv mp g s) (h : Q a s) : SatS mp g (pure a : M K α) s Q := ⟨⟨hi, .refl s⟩, h⟩
theorem throw {e : Err} (hi : SInv mp g s) (h : Fine e) : SatS mp g (M.throw e : M K α) s Q := ⟨⟨hi, .refl s⟩, h⟩

theorem mono (h : SatS mp g m s Q) (hq : ∀ a s', SInv mp g s' → Q a s' → Q' a s') : SatS mp g m s Q' :=
  SatI.mono h fun a s' hi h => hq a s' hi.1 h

theorem of_ok {a : α} (h : m s = (.ok a, s')) (hi : SInv mp g s') (hk : Keep s s') (hq : Q a s') : SatS mp g m s Q :=
  Sat.of_ok h ⟨⟨hi, hk⟩, hq⟩

theorem of_err {e : Err} (h : m s = (.error e, s')) (hi : SInv mp g s') (hk : Keep s s') (hq : Fine e) : SatS mp g m s Q :=
  Sat.of_err h ⟨⟨hi, hk⟩, hq⟩

/-- Under an invariant that only depends on the iterators. -/
theorem toI {J : QIter → MIter → Prop} (h : SatS mp g m s Q) (hj : J s.qit s.mit) :
    SatI (fun s' => SInv mp g s' ∧ J s'.qit s'.mit) m s Q :=
  Sat.mono h (fun _ _ h => ⟨⟨h.1.1, by rw [h.1.2.qit, h.1.2.mit]; exact hj⟩, h.2⟩)
    (fun _ _ h => ⟨⟨h.1.1, by rw [h.1.2.qit, h.1.2.mit]; exact hj⟩, h.2⟩)

end SatS

theorem SInv.flash {mp : Bool} {s : St K} (h : SInv mp g s) {fl : Flash} (hf : fl.faults = s.fl.faults) :
    SInv mp g { s with fl := fl } := ⟨hf.trans h.faults, h.ps, h.ppE, h.ppW, h.kp, h.kne⟩

theorem SInv.dirty {mp : Bool} {s : St K} (h : SInv mp g s) (d : Bool) :
    SInv mp g { s with cache := { s.cache with dirty := d } } := ⟨h.faults, h.ps, h.ppE, h.ppW, h.kp, h.kne⟩

theorem SInv.setBuf {mp : Bool} {s : St K} (h : SInv mp g s) (b : List Byte) : SInv mp g { s with buf := b } :=
  ⟨h.faults, h.ps, h.ppE, h.ppW, h.kp, h.kne⟩

theorem checkDirty_safe {mp : Bool} {s : St K} (h : SInv mp g s) :
    SatS mp g checkDirty s (fun _ s' => s'.fl = s.fl ∧ s'.buf = s.buf) := by
  refine SatS.of_ok (modifyCache_run _ s) ?_ ⟨rfl, rfl⟩ ⟨rfl, rfl⟩
  by_cases hd : s.cache.dirty
  · simp only [hd, if_true]; exact h.invalidate
  · simp only [hd]; exact h

theorem unmark_safe {mp : Bool} {s : St K} (h : SInv mp g s) :
    SatS mp g unmarkDirty s (fun _ s' => s' = { s with cache := { s.cache with dirty := false } }) :=
  SatS.of_ok (modifyCache_run _ s) (h.dirty false) ⟨rfl, rfl⟩ rfl

theorem invalidate_safe {mp : Bool} {s : St K} (h : SInv mp g s) :
    SatS mp g (modifyCache Cache.invalidate) s (fun _ s' => s'.fl = s.fl ∧ s'.buf = s.buf) :=
  SatS.of_ok (modifyCache_run _ s) h.invalidate ⟨rfl, rfl⟩ ⟨rfl, rfl⟩

/-! ### Telling the page state cache -/

section
variable {n i j : Nat} {c : PSCache}

theorem ps_notice_open (h : PSafe n c) (hi : i < n) :
    ∃ c', c.notice i .open = .ok c' ∧ PSafe n c' ∧ ∀ j, j ≠ i → IsPart j c → IsPart j c' ∧ Two c' := by
  cases c with
  | uncached => exact ⟨.uncached, rfl, trivial, fun j _ _ => ⟨fun x hx => by simp at hx, fun x hx => by simp at hx⟩⟩
  | table l =>
    have hl : l.length = n := h
    exact ⟨.table (l.set i (some .open)), by simp [PSCache.notice, hl, hi], by simpa [PSafe] using hl,
      fun j _ _ => ⟨fun x hx => by simp at hx, fun x hx => by simp at hx⟩⟩
  | calculated c =>
    obtain ⟨c', hn, hs, -, ht⟩ := CalcPS.notice_open h hi
    refine ⟨.calculated c', by simp [PSCache.notice, hn, Except.map], hs, fun j hj hp => ?_⟩
    have := ht j hj (hp c rfl)
    exact ⟨fun x hx => by simp at hx; rw [← hx]; exact this.1, fun x hx => by simp at hx; rw [← hx]; exact this.2⟩

theorem ps_notice_partial (h : PSafe n c) (hi : i < n) (hc : ∀ x, c = .calculated x → x.get i ≠ some .closed) :
    ∃ c', c.notice i .partialOpen = .ok c' ∧ PSafe n c' ∧ IsPart i c' ∧ ∀ x, c' = .calculated x → ∃ y, c = .calculated y := by
  cases c with
  | uncached => exact ⟨.uncached, rfl, trivial, fun x hx => by simp at hx, fun x hx => by simp at hx⟩
  | table l =>
    have hl : l.length = n := h
    exact ⟨.table (l.set i (some .partialOpen)), by simp [PSCache.notice, hl, hi], by simpa [PSafe] using hl,
      fun x hx => by simp at hx, fun x hx => by simp at hx⟩
  | calculated c =>
    obtain ⟨c', hn, hs, ht⟩ := CalcPS.notice_partial h hi (hc c rfl)
    exact ⟨.calculated c', by simp [PSCache.notice, hn, Except.map], hs,
      fun x hx => by simp at hx; rw [← hx]; exact ht, fun x _ => ⟨c, rfl⟩⟩

theorem ps_notice_closed (h : PSafe n c) (hi : i < n) (hp : IsPart i c) (h2 : Two c) :
    ∃ c', c.notice i .closed = .ok c' ∧ PSafe n c' := by
  cases c with
  | uncached => exact ⟨.uncached, rfl, trivial⟩
  | table l =>
    have hl : l.length = n := h
    exact ⟨.table (l.set i (some .closed)), by simp [PSCache.notice, hl, hi], by simpa [PSafe] using hl⟩
  | calculated c =>
    obtain ⟨c', hn, hs⟩ := CalcPS.notice_closed_part h (hp c rfl) (h2 c rfl)
    exact ⟨.calculated c', by simp [PSCache.notice, hn, Except.map], hs⟩

end

section
variable {mp : Bool} {s s' : St K} {i j : Nat}
variable (w : g.WF)
include w

theorem look_safe (h : SInv mp g s) (hi : i < g.pageCount) :
    SatS mp g (getPageStateCached g i) s (fun st s' => Look g i s st s') :=
  (getCached_any w hi h.ps).mono (fun _ _ hl => ⟨⟨hl.inv mp h, hl.ro.keep⟩, hl⟩)
    (fun e s' he => by rw [he.1, he.2]; exact ⟨⟨h, .refl s⟩, trivial⟩)

theorem erase_safe (h : SInv mp g s) (hi : i < g.pageCount) :
    SatS mp g (flashErase g (g.pageAddr i) (g.pageEnd i)) s (fun _ s' => s'.cache = s.cache) := by
  have hr := erase_run w s hi
  cases ha : s.fl.all g.eraseSize with
  | true => rw [ha, if_pos rfl] at hr; exact SatS.of_ok hr (h.flash rfl) ⟨rfl, rfl⟩ rfl
  | false => rw [ha, if_neg (by simp)] at hr; exact SatS.of_err hr (h.flash rfl) ⟨rfl, rfl⟩ trivial

theorem write_safe (h : SInv mp g s) {a : Nat} {bs : List Byte} (ha : g.word ∣ a) (hb : g.word ∣ bs.length)
    (hne : bs.length ≠ 0) (h1 : g.start ≤ a) (h2 : a + bs.length ≤ g.stop) :
    SatS mp g (flashWrite g a bs) s (fun _ s' => s'.cache = s.cache ∧
      ∀ x, x < a ∨ a + bs.length ≤ x → s'.fl.mem x = s.fl.mem x) := by
  have hr := write_run w s ha hb hne h1 h2
  cases ha : s.fl.all bs.length with
  | true =>
    rw [ha, if_pos rfl] at hr
    refine SatS.of_ok hr (h.flash rfl) ⟨rfl, rfl⟩ ⟨rfl, fun x hx => (Flash.prog_out hx).1⟩
  | false => rw [ha, if_neg (by simp)] at hr; exact SatS.of_err hr (h.flash rfl) ⟨rfl, rfl⟩ trivial

theorem openPage_safe (h : SInv mp g s) (hi : i < g.pageCount) :
    SatS mp g (openPage g i) s (fun _ s' => ∀ j, j ≠ i → IsPart j s.cache.ps → IsPart j s'.cache.ps ∧ Two s'.cache.ps) := by
  obtain ⟨c', hn, hs, hp⟩ := ps_notice_open h.ps hi
  unfold openPage
  refine SatS.bind_eq (noticePage_run hn) ⟨rfl, rfl⟩ ?_
  refine (erase_safe w (h.notice hs) hi).mono fun _ s' _ hc => ?_
  rw [hc]; exact hp

theorem partialClose_safe (h : SInv mp g s) (hi : i < g.pageCount) :
    SatS mp g (partialClosePage g i) s (fun st s' => (st = .partialOpen → IsPart i s'.cache.ps) ∧
      (IsPart i s.cache.ps → Two s.cache.ps → Two s'.cache.ps) ∧
      (OpenSeen g i s ∨ IsPart i s.cache.ps → IsPart i s'.cache.ps)) := by
  unfold partialClosePage
  refine (look_safe w h hi).bind fun st s1 h1 _ hl => ?_
  by_cases hst : st = .open
  · subst hst
    rw [if_neg (by simp)]
    obtain ⟨c', hn, hs, hp, hk⟩ := ps_notice_partial h1.ps hi (hl.nonClosed rfl)
    refine SatS.bind_eq (noticePage_run hn) ⟨rfl, rfl⟩ ?_
    have h2 := h1.notice (i := i) (st := .partialOpen) (d := s1.cache.dirty || true) hs
    have hpl := w.page_le hi
    have hsl := w.start_le i
    have hpe := w.pageEnd_eq i
    have hfit := w.fits
    have hwp := w.word_pos
    refine SatS.bind (write_safe w h2 (w.pageAddr_word i) (by rw [markerWord_length]; exact Nat.dvd_refl _)
      (by rw [markerWord_length]; omega) hsl (by rw [markerWord_length]; omega)) fun _ s3 h3 _ hc => ?_
    refine SatS.pure h3 ?_
    rw [hc.1]
    refine ⟨fun _ => hp, fun hip _ x hx => ?_, fun _ => hp⟩
    obtain ⟨y, hy⟩ := hk x hx
    exact absurd (hl.isPart hip (hl.kind y hy)) (by simp)
  · rw [if_pos hst]
    refine SatS.pure h1 ⟨hl.part, hl.keepTwo, ?_⟩
    rintro (ho | hp)
    · intro x hx
      obtain ⟨y, hy⟩ := hl.kind x hx
      exfalso
      have h3 := ho y hy
      -- the page is seen as open
      exact absurd (hl.seesOpen ho ⟨y, hy⟩) hst
    · intro x hx
      obtain ⟨y, hy⟩ := hl.kind x hx
      exact hl.part (hl.isPart hp ⟨y, hy⟩) x hx

theorem closePage_safe (h : SInv mp g s) (hi : i < g.pageCount) (hp : IsPart i s.cache.ps) (h2 : Two s.cache.ps) :
    SatS mp g (closePage g i) s (fun _ _ => True) := by
  unfold closePage
  refine (partialClose_safe w h hi).bind fun st s1 h1 _ hl => ?_
  by_cases hst : st = .partialOpen
  · rw [if_neg (by simpa using hst)]
    obtain ⟨c', hn, hs⟩ := ps_notice_closed h1.ps hi (hl.1 hst) (hl.2.1 hp h2)
    refine SatS.bind_eq (noticePage_run hn) ⟨rfl, rfl⟩ ?_
    have h3 := h1.notice (i := i) (st := .closed) (d := s1.cache.dirty || true) hs
    have hpl := w.page_le hi
    have hsl := w.start_le i
    have hpe := w.pageEnd_eq i
    have hfit := w.fits
    have hwp := w.word_pos
    exact (write_safe w h3 (w.dataEnd_word i) (by rw [markerWord_length]; exact Nat.dvd_refl _)
      (by rw [markerWord_length]; omega) (by unfold Geo.dataEnd; omega)
      (by rw [markerWord_length]; unfold Geo.dataEnd; omega)).mono fun _ _ _ _ => trivial
  · rw [if_pos hst]; exact SatS.pure h1 trivial

/-- What a search through the pages does. -/
structure Searched (g : Geo) (s s' : St K) : Prop where
  ro : RO s s'
  dirty : s'.cache.dirty = s.cache.dirty
  kp : s'.cache.kp = s.cache.kp
  kind : ∀ x, s'.cache.ps = .calculated x → ∃ y, s.cache.ps = .calculated y

omit w in
theorem Look.searched {st : PageState} (h : Look g i s st s') : Searched g s s' := ⟨h.ro, h.dirty, h.kp, h.kind⟩
omit w in
theorem Searched.refl (s : St K) : Searched g s s := ⟨.refl s, rfl, rfl, fun x hx => ⟨x, hx⟩⟩
omit w in
theorem Searched.trans {s'' : St K} (h : Searched g s s') (h' : Searched g s' s'') : Searched g s s'' :=
  ⟨h.ro.trans h'.ro, h'.dirty.trans h.dirty, h'.kp.trans h.kp,
    fun x hx => by obtain ⟨y, hy⟩ := h'.kind x hx; exact h.kind y hy⟩

theorem findFirstIn_safe (st : PageState) (l : List Nat) (hl : ∀ i ∈ l, i < g.pageCount) (h : SInv mp g s) :
    SatS mp g (findFirstIn g st l) s (fun r s' => Searched g s s' ∧
      (∀ i, r = some i → i < g.pageCount ∧ ∃ sx, Look g i sx st s') ∧
      (r = none → st = .partialOpen → (∀ i ∈ l, NotPart g i s') ∧ ∀ j, j < g.pageCount → NotPart g j s → NotPart g j s') ∧
      (r = none → st = .closed → (∀ j, j < g.pageCount → NotPart g j s) →
        (∀ i ∈ l, OpenSeen g i s') ∧ ∀ j, j < g.pageCount → OpenSeen g j s → OpenSeen g j s')) := by
  induction l generalizing s with
  | nil => exact SatS.pure h ⟨.refl s, by simp, by simp, by simp⟩
  | cons i rest ih =>
    have hi : i < g.pageCount := hl i (by simp)
    unfold findFirstIn
    refine (look_safe w h hi).bind fun cur s1 h1 _ hlk => ?_
    by_cases hst : st = cur
    · rw [if_pos hst]
      subst hst
      refine SatS.pure h1 ⟨hlk.searched, ?_, by simp, by simp⟩
      intro j hj
      simp only [Option.some.injEq] at hj
      subst hj
      exact ⟨hi, s, hlk⟩
    · rw [if_neg hst]
      refine (ih (fun j hj => hl j (by simp [hj])) h1).mono fun r s2 _ hq => ?_
      refine ⟨hlk.searched.trans hq.1, hq.2.1, ?_, ?_⟩
      · intro hr hs
        subst hs
        have hnp : cur ≠ .partialOpen := Ne.symm hst
        obtain ⟨q1, q2⟩ := hq.2.2.1 hr rfl
        refine ⟨fun j hj => ?_, fun j hj hn => q2 j hj (hlk.keepNot hnp j hj hn)⟩
        rcases List.mem_cons.1 hj with rfl | hj
        · exact q2 j hi (hlk.notPart hnp)
        · exact q1 j hj
      · intro hr hs hnp
        subst hs
        by_cases hcal : ∃ x, s.cache.ps = .calculated x
        · have hcur : cur = .open := by
            cases cur with
            | closed => exact absurd rfl hst
            | partialOpen => exact absurd rfl (hlk.wasNot (hnp i hi) hcal)
            | «open» => rfl
          obtain ⟨q1, q2⟩ := hq.2.2.2 hr rfl (fun j hj => hlk.keepNot (by rw [hcur]; simp) j hj (hnp j hj))
          refine ⟨fun j hj => ?_, fun j hj ho => q2 j hj (hlk.keepOpen hcur j hj ho)⟩
          rcases List.mem_cons.1 hj with rfl | hj
          · exact q2 j hi (hlk.opn hcur)
          · exact q1 j hj
        · have hk : ∀ x, s2.cache.ps ≠ .calculated x := fun x hx => by
            obtain ⟨y, hy⟩ := hq.1.kind x hx
            exact hcal (hlk.kind y hy)
          exact ⟨fun j _ x hx => absurd hx (hk x), fun j _ _ x hx => absurd hx (hk x)⟩

theorem pages_lt {start : Nat} : ∀ i ∈ g.pages start, i < g.pageCount := by
  intro i hi
  unfold Geo.pages at hi
  obtain ⟨j, -, rfl⟩ := List.mem_map.1 hi
  exact Nat.mod_lt _ w.pageCount_pos

/-- The start page of a search is looked at. -/
theorem mem_pages_zero {i : Nat} (hi : i < g.pageCount) : i ∈ g.pages 0 := (mem_pages w.pageCount_pos).2 hi

theorem findFirst_safe (start : Nat) (st : PageState) (h : SInv mp g s) :
    SatS mp g (findFirstPage g start st) s (fun r s' => Searched g s s' ∧
      (∀ i, r = some i → i < g.pageCount ∧ ∃ sx, Look g i sx st s')) :=
  (findFirstIn_safe w st _ (pages_lt w) h).mono fun _ _ _ hq => ⟨hq.1, hq.2.1⟩

theorem findLastIn_safe (st : PageState) (l : List Nat) (hl : ∀ i ∈ l, i < g.pageCount) (last : Option Nat)
    (hlast : ∀ i, last = some i → i < g.pageCount) (h : SInv mp g s) :
    SatS mp g (findLastIn g st last l) s (fun r s' => Searched g s s' ∧ ∀ i, r = some i → i < g.pageCount) := by
  induction l generalizing s last with
  | nil => exact SatS.pure h ⟨.refl s, hlast⟩
  | cons i rest ih =>
    have hi : i < g.pageCount := hl i (by simp)
    have hr : ∀ j ∈ rest, j < g.pageCount := fun j hj => hl j (by simp [hj])
    unfold findLastIn
    refine (look_safe w h hi).bind fun cur s1 h1 _ hlk => ?_
    by_cases hst : st = cur
    · rw [if_pos hst]
      exact (ih hr _ (fun j hj => by simp at hj; rw [← hj]; exact hi) h1).mono fun _ _ _ hq => ⟨hlk.searched.trans hq.1, hq.2⟩
    · rw [if_neg hst]
      by_cases hs : last.isSome
      · rw [if_pos hs]; exact SatS.pure h1 ⟨hlk.searched, hlast⟩
      · rw [if_neg hs]
        exact (ih hr _ hlast h1).mono fun _ _ _ hq => ⟨hlk.searched.trans hq.1, hq.2⟩

theorem generalRepairIn_safe (l : List Nat) (hl : ∀ i ∈ l, i < g.pageCount) (h : SInv mp g s) :
    SatS mp g (generalRepairIn g l) s (fun _ _ => True) := by
  induction l generalizing s with
  | nil => exact SatS.pure h trivial
  | cons i rest ih =>
    have hi : i < g.pageCount := hl i (by simp)
    have hr : ∀ j ∈ rest, j < g.pageCount := fun j hj => hl j (by simp [hj])
    unfold generalRepairIn
    refine SatS.bind_eq (a := stateAt g s.fl.mem i) (s' := s)
      (by rw [attempt_run, getPageState_any w s hi]) (.refl s) ?_
    cases hst : stateAt g s.fl.mem i with
    | ok st => exact ih hr h
    | error e =>
      rw [stateOfMarkers_err hst]
      exact (openPage_safe w h hi).bind fun _ s1 h1 _ _ => ih hr h1

theorem generalRepair_safe (h : SInv mp g s) : SatS mp g (tryGeneralRepair g) s (fun _ _ => True) :=
  generalRepairIn_safe w _ (pages_lt w) h

/-! ### Items -/

omit w in
theorem At.start (i : Nat) (w : g.WF) : At g i (g.dataStart i) :=
  ⟨Nat.le_refl _, by have := w.data_room i; omega, w.dataStart_word i⟩

omit w in
theorem At.index {a : Nat} (w : g.WF) (h : At g i a) : g.pageIndex a = i := by
  have h1 := h.lo
  have h2 := h.hi
  have h3 := w.dataEnd_add i
  have h4 := w.word_pos
  exact w.pageIndex_of (by unfold Geo.dataStart at h1; omega) (by omega)

theorem next_at {a : Nat} {h : Header} (ha : At g i a) (hn : h.next g a ≤ g.dataEnd i) : At g i (h.next g a) :=
  ⟨by have := ha.lo; have := Layout.next_gt w h a; omega, hn, Layout.next_dvd w ha.al⟩

theorem at_stop (hi : i < g.pageCount) : g.dataEnd i ≤ g.stop := by
  have := w.page_le hi; have := w.dataEnd_add i; omega

omit w in
theorem at_start {a : Nat} (w : g.WF) (ha : At g i a) : g.start ≤ a := by
  have := ha.lo; have := w.start_le i; unfold Geo.dataStart at *; omega

theorem header_any (hi : i < g.pageCount) {a : Nat} (ha : At g i a) (s : St K) :
    readHeader g a (g.dataEnd i) s = (hdrAt g s.fl.mem a (g.dataEnd i), s) :=
  readHeader_run w s ha.al (at_start w ha) (fun h => Nat.le_trans h (at_stop w hi))

/-- A spot at which a header that fits the page is read. -/
structure HdrAt (g : Geo) (mem : Nat → Byte) (i a : Nat) (h : Header) : Prop where
  at_ : At g i a
  hdr : hdrAt g mem a (g.dataEnd i) = .ok (some h)

omit w in
theorem HdrAt.next_le {mem : Nat → Byte} {a : Nat} {h : Header} (x : HdrAt g mem i a h) : h.next g a ≤ g.dataEnd i :=
  (hdrAt_some_iff.1 x.hdr).2.2

theorem HdrAt.next {mem : Nat → Byte} {a : Nat} {h : Header} (x : HdrAt g mem i a h) : At g i (h.next g a) :=
  next_at w x.at_ x.next_le

/-- The result of a scan from `a`. -/
structure Traversed (g : Geo) (mem : Nat → Byte) (i : Nat) (skip : Header → Bool) (a : Nat)
    (r : Option Header × Nat × Nat) : Prop where
  at1 : At g i r.2.1
  le : a ≤ r.2.1
  at2 : At g i r.2.2
  found : ∀ h, r.1 = some h → HdrAt g mem i r.2.1 h ∧ r.2.2 = h.next g r.2.1 ∧ skip h = false

theorem traverse_any (hi : i < g.pageCount) (skip : Header → Bool) (s : St K) {rounds a : Nat} (ha : At g i a)
    (hr : g.dataEnd i < a + rounds) :
    ∃ r, traverse g (g.dataEnd i) skip rounds a s = (.ok r, s) ∧ Traversed g s.fl.mem i skip a r := by
  induction rounds generalizing a with
  | zero => have := ha.hi; omega
  | succ rounds ih =>
    have hb := header_any w hi ha s
    unfold traverse
    rw [bind_ok (a := hdrAt g s.fl.mem a (g.dataEnd i)) (s' := s) (by rw [attempt_run, hb])]
    cases hh : hdrAt g s.fl.mem a (g.dataEnd i) with
    | error e =>
      obtain rfl := hdrAt_err hh
      have hlt := Layout.error_lt hh
      have := w.hl_ge
      have hwl : g.word ≤ g.hl := Nat.le_of_dvd (by omega) w.hl_dvd
      have hwp := w.word_pos
      obtain ⟨r, h1, h2⟩ := ih (a := a + g.word)
        ⟨by have := ha.lo; omega, by omega, Nat.dvd_add ha.al (Nat.dvd_refl _)⟩ (by omega)
      exact ⟨r, h1, h2.at1, by have := h2.le; omega, h2.at2, h2.found⟩
    | ok o =>
      cases o with
      | none => exact ⟨(none, a, a), rfl, ha, Nat.le_refl _, ha, by simp⟩
      | some h =>
        have hx : HdrAt g s.fl.mem i a h := ⟨ha, hh⟩
        have hgt := Layout.next_gt w h a
        simp only
        by_cases hsk : skip h
        · rw [if_pos hsk]
          obtain ⟨r, h1, h2⟩ := ih (a := h.next g a) (hx.next w) (by omega)
          exact ⟨r, h1, h2.at1, by have := h2.le; omega, h2.at2, h2.found⟩
        · rw [if_neg hsk]
          refine ⟨_, rfl, ha, Nat.le_refl _, hx.next w, ?_⟩
          intro h' hh'
          simp only [Option.some.injEq] at hh'
          subst hh'
          exact ⟨hx, rfl, by simpa using hsk⟩

theorem rounds_enough {a : Nat} (ha : At g i a) : g.dataEnd i < a + g.rounds := by
  have := ha.lo
  have := w.dataEnd_add i
  have := w.pageEnd_eq i
  unfold Geo.rounds Geo.dataStart at *
  omega

theorem traverse_page (hi : i < g.pageCount) (skip : Header → Bool) (s : St K) {a : Nat} (ha : At g i a) :
    ∃ r, traverse g (g.dataEnd i) skip g.rounds a s = (.ok r, s) ∧ Traversed g s.fl.mem i skip a r :=
  traverse_any w hi skip s ha (rounds_enough w ha)

/-- Reading an item leaves everything but the buffer alone. -/
structure ReadItem (g : Geo) (s : St K) (a : Nat) (h : Header) (r : MaybeItem) (s' : St K) : Prop where
  eq : ∃ b, s' = { s with buf := b }
  hdr : r = .present h ∨ r = .corrupted h ∨ r = .erased h
  erased : r = .erased h → h.crc = 0#32
  present : r = .present h → Present g s.fl.mem a h ∧ h.len.toNat ≤ s'.buf.length

theorem readItem_safe (hs : SInv mp g s) (hi : i < g.pageCount) {a : Nat} {h : Header} (hx : HdrAt g s.fl.mem i a h) :
    SatS mp g (readItem g h a (g.dataEnd i)) s (fun r s' => ReadItem g s a h r s') := by
  have hr := readItem_run w s hx.at_.al (at_start w hx.at_) hx.next_le (Nat.le_trans hx.next_le (at_stop w hi))
  by_cases hz : h.crc = 0#32
  · rw [if_pos hz] at hr
    exact SatS.of_ok hr hs (.refl s) ⟨⟨s.buf, rfl⟩, by simp, fun _ => hz, by simp⟩
  · rw [if_neg hz] at hr
    by_cases hb : s.buf.length < g.roundUp h.len.toNat
    · rw [if_pos hb] at hr
      exact SatS.of_err hr hs (.refl s) trivial
    · rw [if_neg hb] at hr
      refine SatS.of_ok hr (hs.setBuf _) ⟨rfl, rfl⟩ ⟨⟨_, rfl⟩, ?_, ?_, ?_⟩
      · split <;> simp
      · split <;> simp
      · intro hp
        split at hp
        · rename_i hp'
          refine ⟨hp', ?_⟩
          simp only
          rw [bufAfter_length (by omega)]
          have := w.le_roundUp h.len.toNat
          omega
        · simp at hp

theorem isPageEmpty_safe (h : SInv mp g s) (hi : i < g.pageCount) (st : PageState) :
    SatS mp g (isPageEmpty g i st) s (fun _ s' => s' = s) := by
  cases st with
  | partialOpen => exact SatS.pure h rfl
  | «open» => exact SatS.pure h rfl
  | closed =>
    unfold isPageEmpty
    refine SatS.bind_eq (get_run s) (.refl s) ?_
    have ha : At g i ((s.cache.pp.afterErased i).getD (g.dataStart i)) := by
      cases he : s.cache.pp.afterErased i with
      | none => exact At.start i w
      | some p => exact h.ppE i p hi he
    obtain ⟨r, h1, -⟩ := traverse_page w hi (fun h => decide (h.crc = 0#32)) s ha
    exact SatS.bind_eq h1 (.refl s) (SatS.pure h rfl)

theorem findFreeSpot_safe (h : SInv mp g s) (hi : i < g.pageCount) (len : Nat) :
    SatS mp g (findFreeSpot g (g.dataStart i) (g.dataEnd i) len) s (fun r s' => s' = s ∧
      ∀ a, r = some a → At g i a ∧ a + g.hl + g.roundUp len ≤ g.dataEnd i) := by
  have hidx : g.pageIndex (g.dataStart i) = i := (At.start i w).index w
  unfold findFreeSpot
  refine SatS.bind_eq (get_run s) (.refl s) ?_
  simp only [hidx]
  have hfree : ∀ f, At g i f →
      SatS mp g (match g.availableDataBytes (g.dataEnd i - f) with
        | some avail => if len ≤ avail then (pure (some f) : M K (Option Nat)) else pure none
        | none => pure none) s (fun r s' => s' = s ∧
          ∀ a, r = some a → At g i a ∧ a + g.hl + g.roundUp len ≤ g.dataEnd i) := by
    intro f hf
    have hdv : g.word ∣ g.dataEnd i - f := Nat.dvd_sub (w.dataEnd_word i) hf.al
    unfold Geo.availableDataBytes
    rw [w.roundDown_of_dvd hdv]
    by_cases hc : g.hl ≤ g.dataEnd i - f
    · rw [if_pos hc]
      simp only
      by_cases hl : len ≤ g.dataEnd i - f - g.hl
      · rw [if_pos hl]
        refine SatS.pure h ⟨rfl, ?_⟩
        intro a ha
        simp only [Option.some.injEq] at ha
        subst ha
        refine ⟨hf, ?_⟩
        have h1 : g.roundUp len ≤ g.roundUp (g.dataEnd i - f - g.hl) := w.roundUp_mono hl
        rw [w.roundUp_of_dvd (Nat.dvd_sub hdv w.hl_dvd)] at h1
        have := hf.hi
        omega
      · rw [if_neg hl]; exact SatS.pure h ⟨rfl, by simp⟩
    · rw [if_neg hc]; exact SatS.pure h ⟨rfl, by simp⟩
  cases hw : s.cache.pp.afterWritten i with
  | some f =>
    simp only
    exact SatS.bind_eq (pure_run f s) (.refl s) (hfree f (h.ppW i f hi hw))
  | none =>
    simp only
    have ha : At g i (max ((s.cache.pp.afterErased i).getD 0) (g.dataStart i)) := by
      cases he : s.cache.pp.afterErased i with
      | none => simp; exact At.start i w
      | some p =>
        have := h.ppE i p hi he
        simp only [Option.getD_some]
        rw [Nat.max_eq_left this.lo]; exact this
    obtain ⟨r, h1, h2⟩ := traverse_page w hi (fun _ => true) s ha
    exact SatS.bind_eq h1 (.refl s) (SatS.bind_eq (pure_run r.2.1 s) (.refl s) (hfree _ h2.at1))

theorem nextItemAddress_safe (h : SInv mp g s) (hi : i < g.pageCount) :
    SatS mp g (Queue.nextItemAddress g i) s (fun _ s' => s' = s) := by
  unfold Queue.nextItemAddress
  refine SatS.bind_eq (get_run s) (.refl s) ?_
  cases hw : s.cache.pp.afterWritten i with
  | some f => exact SatS.pure h rfl
  | none =>
    simp only
    have ha : At g i ((s.cache.pp.afterErased i).getD (g.dataStart i)) := by
      cases he : s.cache.pp.afterErased i with
      | none => exact At.start i w
      | some p => exact h.ppE i p hi he
    obtain ⟨r, h1, -⟩ := traverse_page w hi (fun _ => true) s ha
    exact SatS.bind_eq h1 (.refl s) (SatS.pure h rfl)

omit w in
theorem noticeWritten_weak {c : PPCache} {next : Nat} (j : Nat) :
    (c.noticeWritten i next).afterErased j = c.afterErased j ∧
    (∀ p, (c.noticeWritten i next).afterWritten j = some p → c.afterWritten j = some p ∨ (j = i ∧ p = next)) := by
  cases c with
  | uncached => simp [PPCache.noticeWritten, PPCache.afterErased, PPCache.afterWritten]
  | tracked e l =>
    have hset : ∀ p, ((l.set i (PPCache.nonZero next))[j]?).join = some p → (l[j]?).join = some p ∨ (j = i ∧ p = next) := by
      intro p hp
      rw [List.getElem?_set] at hp
      by_cases hij : i = j
      · rw [if_pos hij] at hp
        refine Or.inr ⟨hij.symm, ?_⟩
        split at hp
        · simp only [Option.join_some, PPCache.nonZero] at hp
          split at hp <;> simp_all
        · simp at hp
      · rw [if_neg hij] at hp; exact Or.inl hp
    simp only [PPCache.noticeWritten]
    split
    · split
      · exact ⟨rfl, fun p hp => Or.inl hp⟩
      · exact ⟨rfl, hset⟩
    · exact ⟨rfl, hset⟩

theorem SInv.written (h : SInv mp g s) {a next : Nat} {d : Bool} (ha : At g i a) (hn : At g i next) :
    SInv mp g { s with cache := { s.cache with dirty := d, pp := s.cache.pp.noticeWritten (g.pageIndex a) next } } := by
  refine ⟨h.faults, h.ps, fun j p hj hx => ?_, fun j p hj hx => ?_, h.kp, h.kne⟩
  · simp only [(noticeWritten_weak j).1] at hx; exact h.ppE j p hj hx
  · rcases (noticeWritten_weak j).2 p hx with hx | ⟨rfl, rfl⟩
    · exact h.ppW j p hj hx
    · rw [ha.index w]; exact hn

theorem writeRaw_safe (h : SInv mp g s) (hi : i < g.pageCount) {a : Nat} {hd : Header} {d : List Byte} (ha : At g i a)
    (hn : hd.next g a ≤ g.dataEnd i) (hl : d.length = hd.len.toNat) :
    SatS mp g (writeRaw g hd d a) s (fun _ s' => s'.cache.ps = s.cache.ps ∧ s'.cache.kp = s.cache.kp ∧ s'.buf = s.buf ∧
      ∀ x, x < a ∨ hd.next g a ≤ x → s'.fl.mem x = s.fl.mem x) := by
  have hr := writeRaw_run w s hl ha.al (at_start w ha) (Nat.le_trans hn (at_stop w hi))
  have hinv : SInv mp g { s with
      fl := s.fl.prog g a (itemBytes g hd d)
      cache := s.cache.written g a (hd.next g a) } := SInv.flash (h.written w ha (next_at w ha hn)) rfl
  cases hall : s.fl.all (itemBytes g hd d).length with
  | true =>
    rw [hall, if_pos rfl] at hr
    refine SatS.of_ok hr hinv ⟨rfl, rfl⟩ ⟨rfl, rfl, rfl, fun x hx => ?_⟩
    refine (Flash.prog_out ?_).1
    rw [itemBytes_length w, hl]
    unfold Header.next at hx
    omega
  | false => rw [hall, if_neg (by simp)] at hr; exact SatS.of_err hr hinv ⟨rfl, rfl⟩ trivial

theorem eraseItem_safe (h : SInv mp g s) (hi : i < g.pageCount) {a : Nat} {hd : Header} (ha : At g i a)
    (hn : hd.next g a ≤ g.dataEnd i) :
    SatS mp g (eraseItem g hd a) s (fun _ s' => s'.cache.ps = s.cache.ps ∧ s'.cache.kp = s.cache.kp ∧
      ∀ x, x < a ∨ hd.next g a ≤ x → s'.fl.mem x = s.fl.mem x) := by
  have hnx : At g i (Header.next g { hd with crc := 0#32 } a) := next_at w ha hn
  have hgt := Layout.next_gt w hd a
  unfold eraseItem
  refine SatS.bind_eq (modifyCache_run _ s) ⟨rfl, rfl⟩ ?_
  have hne := PPCache.noticeErased_after (c := s.cache.pp) (i := g.pageIndex a)
    (d := g.pageAddr (g.pageIndex a) + g.word) (a := a)
    (next := Header.next g { hd with crc := 0#32 } a) (by have : Header.next g { hd with crc := 0#32 } a = hd.next g a := rfl; omega)
  have hs1 : SInv mp g { s with cache := { s.cache with
      dirty := true
      pp := s.cache.pp.noticeErased (g.pageIndex a) (g.pageAddr (g.pageIndex a) + g.word) a
        (Header.next g { hd with crc := 0#32 } a) } } := by
    refine ⟨h.faults, h.ps, fun j p hj hx => ?_, fun j p hj hx => ?_, h.kp, h.kne⟩
    · by_cases hji : j = g.pageIndex a
      · subst hji
        rcases (hne (g.pageIndex a)).2.2 p hx with hx | ⟨rfl, -⟩
        · exact h.ppE _ p hj hx
        · rw [ha.index w]; exact hnx
      · rw [(hne j).2.1 hji] at hx; exact h.ppE j p hj hx
    · simp only [(hne j).1] at hx; exact h.ppW j p hj hx
  have hhl := w.hl_ge
  have hbound : a + g.hl ≤ hd.next g a := by unfold Header.next; omega
  refine (write_safe w hs1 ha.al (by rw [encode_length w]; exact w.hl_dvd) (by rw [encode_length w]; omega) (at_start w ha)
    (by rw [encode_length w]; have := at_stop w hi; omega)).mono fun _ s' _ hc => ?_
  rw [hc.1]
  refine ⟨rfl, rfl, fun x hx => hc.2 x ?_⟩
  rw [encode_length w]
  omega

omit w in
theorem withRepair_safe {f : M K α} {r : M K Unit} {Q : α → St K → Prop} {J : QIter → MIter → Prop}
    (hi : SInv mp g s) (hj : J s.qit s.mit)
    (hf : ∀ s, SInv mp g s → J s.qit s.mit → SatI (fun s' => SInv mp g s' ∧ J s'.qit s'.mit) f s Q)
    (hr : ∀ s, SInv mp g s → J s.qit s.mit → SatI (fun s' => SInv mp g s' ∧ J s'.qit s'.mit) r s (fun _ _ => True)) :
    SatI (fun s' => SInv mp g s' ∧ J s'.qit s'.mit) (withRepair f r) s Q := by
  refine withRepair_sat (C := fun s' => SInv mp g s' ∧ J s'.qit s'.mit)
    (Sat.mono (hf s hi hj) (fun _ _ h => h) (fun e _ h => ?_)) (fun s' hs' => ?_)
  · by_cases he : e = .corrupted
    · exact Or.inr ⟨he, h.1⟩
    · exact Or.inl ⟨he, h⟩
  · exact SatI.bind (hr s' hs'.1 hs'.2) fun _ s'' h'' _ => hf s'' h''.1 h''.2

end

end SeqStorage
