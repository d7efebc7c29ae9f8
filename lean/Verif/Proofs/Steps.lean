import Verif.Proofs.Page
import Verif.Proofs.Shape
/-
The invariant that ties flash, ring of pages and caches together, and what each changing step of the
storage code does to it, with and without power loss.
-/

set_option linter.unusedSectionVars false

namespace SeqStorage
open M

variable {K : Type} [DecidableEq K] {α β : Type}

/-! ### Partial correctness with errors -/

/-- Running `m` from `s` ends in `Q` or, with an error, in `E`. -/
def Sat (m : M K α) (s : St K) (Q : α → St K → Prop) (E : Err → St K → Prop) : Prop :=
  match m s with
  | (.ok a, s') => Q a s'
  | (.error e, s') => E e s'

namespace Sat
variable {m : M K α} {s s' : St K} {Q Q' : α → St K → Prop} {E E' : Err → St K → Prop}

theorem of_ok {a : α} (h : m s = (.ok a, s')) (hq : Q a s') : Sat m s Q E := by unfold Sat; rw [h]; exact hq
theorem of_err {e : Err} (h : m s = (.error e, s')) (hq : E e s') : Sat m s Q E := by unfold Sat; rw [h]; exact hq

theorem mono (h : Sat m s Q E) (hq : ∀ a s', Q a s' → Q' a s') (he : ∀ e s', E e s' → E' e s') : Sat m s Q' E' := by
  unfold Sat at *
  split at h
  · exact hq _ _ h
  · exact he _ _ h

theorem bind {f : α → M K β} {R : β → St K → Prop} (h : Sat m s Q E) (hf : ∀ a s', Q a s' → Sat (f a) s' R E) :
    Sat (m >>= f) s R E := by
  unfold Sat at h
  split at h
  · rename_i a s' hm
    have := hf a s' h
    unfold Sat at this ⊢
    rw [bind_ok hm]; exact this
  · rename_i e s' hm
    unfold Sat
    rw [bind_err hm]; exact h

theorem bind_eq {f : α → M K β} {R : β → St K → Prop} {a : α} (h : m s = (.ok a, s')) (hf : Sat (f a) s' R E) :
    Sat (m >>= f) s R E := by
  unfold Sat at *; rw [bind_ok h]; exact hf

/-- Every run ends one way or the other. -/
theorem cases (h : Sat m s Q E) : (∃ a s', m s = (.ok a, s') ∧ Q a s') ∨ (∃ e s', m s = (.error e, s') ∧ E e s') := by
  unfold Sat at h
  split at h
  · rename_i a s' hm; exact Or.inl ⟨a, s', hm, h⟩
  · rename_i e s' hm; exact Or.inr ⟨e, s', hm, h⟩

theorem pure {a : α} (h : Q a s) : Sat (pure a : M K α) s Q E := h
theorem throw {e : Err} (h : E e s) : Sat (M.throw e : M K α) s Q E := h

end Sat

/-! ### The invariant -/

/-- Change one entry. -/
def upd {β : Type} (P : Nat → β) (i : Nat) (v : β) : Nat → β := fun j => if j = i then v else P j

@[simp] theorem upd_same {β : Type} {P : Nat → β} {i : Nat} {v : β} : upd P i v i = v := by simp [upd]
theorem upd_ne {β : Type} {P : Nat → β} {i j : Nat} {v : β} (h : j ≠ i) : upd P i v j = P j := by simp [upd, h]

/-- The flash holds the pages `P`, whose states form the ring `σ`. -/
structure FS (md : Mode) (g : Geo) (fl : Flash) (σ : Shape) (P : Nat → PK) : Prop where
  pages : ∀ i, i < g.pageCount → PageIs md g fl i (P i)
  fuel : md.cf = true → fl.fuel = none
  wf : σ.WF g.pageCount
  st : ∀ i, i < g.pageCount → (P i).st = σ.st g.pageCount i
  peak : md.cf = true → ∀ x, fl.peak x ≤ if md.np then 1 else 2
  faults : fl.faults = 0
  stuck : md.dmg = false → fl.stuck = 0

/-- What a page pointer cache may believe. -/
def PPOk (g : Geo) (P : Nat → PK) (n : Nat) (c : PPCache) : Prop :=
  ∀ i, i < n →
    (∀ p, c.afterErased i = some p → ∃ closed pre it post f, P i = .used closed (pre ++ it :: post) f ∧
      (∀ x ∈ pre ++ [it], x.hdr.crc = 0#32) ∧ p = it.hdr.next g it.addr) ∧
    (∀ p, c.afterWritten i = some p → ∃ closed its, P i = .used closed its p)

/-- Flash and caches agree. -/
structure Good (md : Mode) (g : Geo) (s : St K) (σ : Shape) (P : Nat → PK) : Prop where
  fs : FS md g s.fl σ P
  ps : PSOk σ g.pageCount s.cache.ps
  pp : PPOk g P g.pageCount s.cache.pp

/-- The power failed. -/
structure Dead (md : Mode) (g : Geo) (s : St K) (σ : Shape) (P : Nat → PK) : Prop where
  fs : FS md g s.fl σ P
  sized : PSOk.Sized g.pageCount s.cache.ps
  dirty : s.cache.dirty = true
  crash : md.cf = false

/-- Nothing but flash and caches changed. -/
structure Frame (s s' : St K) : Prop where
  buf : s'.buf = s.buf
  qit : s'.qit = s.qit
  mit : s'.mit = s.mit
  kp : s'.cache.kp = s.cache.kp

theorem Frame.refl (s : St K) : Frame s s := ⟨rfl, rfl, rfl, rfl⟩
theorem Frame.trans {s s' s'' : St K} (h : Frame s s') (h' : Frame s' s'') : Frame s s'' :=
  ⟨h'.buf.trans h.buf, h'.qit.trans h.qit, h'.mit.trans h.mit, h'.kp.trans h.kp⟩

/-- Nothing but what the caches know changed. -/
structure Same (s s' : St K) : Prop extends Frame s s' where
  fl : s'.fl = s.fl
  dirty : s'.cache.dirty = s.cache.dirty

theorem Same.refl (s : St K) : Same s s := ⟨.refl s, rfl, rfl⟩
theorem Same.trans {s s' s'' : St K} (h : Same s s') (h' : Same s' s'') : Same s s'' :=
  ⟨h.toFrame.trans h'.toFrame, h'.fl.trans h.fl, h'.dirty.trans h.dirty⟩

section
variable {md : Mode} {g : Geo} {σ σ' : Shape} {P P' : Nat → PK}

/-- Changing one page. -/
theorem FS.update {fl fl' : Flash} (w : g.WF) (h : FS md g fl σ P) {i : Nat} {pk : PK} (hp : PageIs md g fl' i pk)
    (hfa : fl'.faults = fl.faults) (hsk : md.dmg = false → fl'.stuck = fl.stuck)
    (hpe : md.cf = true → (∀ x, fl.peak x ≤ if md.np then 1 else 2) → ∀ x, fl'.peak x ≤ if md.np then 1 else 2)
    (hm : ∀ x, x < g.pageAddr i ∨ g.pageEnd i ≤ x → fl'.mem x = fl.mem x)
    (hw : ∀ x, x < g.pageAddr i ∨ g.pageEnd i ≤ x → fl'.writes x = fl.writes x)
    (hf : fl.fuel = none → fl'.fuel = none) (wf : σ'.WF g.pageCount) (hs : pk.st = σ'.st g.pageCount i)
    (ho : ∀ j, j < g.pageCount → j ≠ i → σ'.st g.pageCount j = σ.st g.pageCount j) : FS md g fl' σ' (upd P i pk) := by
  refine ⟨fun j hj => ?_, fun hc => hf (h.fuel hc), wf, fun j hj => ?_, fun hc => hpe hc (h.peak hc), hfa.trans h.faults,
    fun hdm => (hsk hdm).trans (h.stuck hdm)⟩
  · by_cases he : j = i
    · subst he; rw [upd_same]; exact hp
    · rw [upd_ne he]
      apply (h.pages j hj).congr w
      · intro x h1 h2; exact hm x (w.page_disjoint he h1 h2)
      · intro x h1 h2; exact hw x (w.page_disjoint he h1 h2)
  · by_cases he : j = i
    · subst he; rw [upd_same]; exact hs
    · rw [upd_ne he, h.st j hj, ho j hj he]

theorem Flash.prog_out {fl : Flash} {a : Nat} {bs : List Byte} {x : Nat} (h : x < a ∨ a + bs.length ≤ x) :
    (fl.prog g a bs).mem x = fl.mem x ∧ (fl.prog g a bs).writes x = fl.writes x := by
  have := fl.got_le bs.length
  constructor
  · apply programBytes_outside
    rw [List.length_take]; omega
  · exact countWrites_out (by omega)

theorem Flash.clr_out (w : g.WF) {fl : Flash} {i x : Nat} (h : x < g.pageAddr i ∨ g.pageEnd i ≤ x) :
    (fl.clr g i).mem x = fl.mem x ∧ (fl.clr g i).writes x = fl.writes x := by
  have := fl.got_le g.eraseSize
  have := w.pageEnd_eq i
  constructor
  · simp only [Flash.clr, eraseBytes]; rw [if_neg (by omega)]
  · simp only [Flash.clr, resetWrites]; rw [if_neg (by omega)]

theorem PPOk.update {c c' : PPCache} {n i : Nat} (h : PPOk g P n c)
    (ho : ∀ j, j ≠ i → c'.afterErased j = c.afterErased j ∧ c'.afterWritten j = c.afterWritten j)
    {pk : PK} (hE : ∀ p, c'.afterErased i = some p → ∃ closed pre it post f, pk = .used closed (pre ++ it :: post) f ∧
      (∀ x ∈ pre ++ [it], x.hdr.crc = 0#32) ∧ p = it.hdr.next g it.addr)
    (hW : ∀ p, c'.afterWritten i = some p → ∃ closed its, pk = .used closed its p) : PPOk g (upd P i pk) n c' := by
  intro j hj
  by_cases he : j = i
  · subst he; rw [upd_same]; exact ⟨hE, hW⟩
  · rw [upd_ne he, (ho j he).1, (ho j he).2]; exact h j hj

theorem PPCache.noticePage_open {c : PPCache} {i j : Nat} :
    ((c.noticePage i .open).afterErased j = if j = i then none else c.afterErased j) ∧
    ((c.noticePage i .open).afterWritten j = if j = i then none else c.afterWritten j) := by
  cases c with
  | uncached => simp [PPCache.noticePage, PPCache.afterErased, PPCache.afterWritten]
  | tracked e w =>
    simp only [PPCache.noticePage, PageState.isOpen, PPCache.afterErased, PPCache.afterWritten]
    by_cases hj : j = i
    · subst hj
      simp only [if_true, List.getElem?_set]
      constructor <;> split <;> simp
    · simp only [if_true, List.getElem?_set, if_neg hj]
      rw [if_neg (Ne.symm hj), if_neg (Ne.symm hj)]
      exact ⟨rfl, rfl⟩

theorem PPCache.noticePage_other {c : PPCache} {i : Nat} {st : PageState} (h : st ≠ .open) : c.noticePage i st = c := by
  cases c with
  | uncached => rfl
  | tracked e w => cases st <;> simp [PPCache.noticePage, PageState.isOpen] at h ⊢

theorem PPOk.open {c : PPCache} {n i : Nat} (h : PPOk g P n c) (pk : PK) :
    PPOk g (upd P i pk) n (c.noticePage i .open) := by
  apply h.update
  · intro j hj
    rw [PPCache.noticePage_open.1, PPCache.noticePage_open.2, if_neg hj, if_neg hj]; exact ⟨rfl, rfl⟩
  · intro p hp; rw [PPCache.noticePage_open.1, if_pos rfl] at hp; simp at hp
  · intro p hp; rw [PPCache.noticePage_open.2, if_pos rfl] at hp; simp at hp

/-- Telling the truth about an open page. -/
theorem PPOk.notice {c : PPCache} {n i : Nat} (h : PPOk g P n c) {st : PageState} :
    PPOk g P n (c.noticePage i st) := by
  by_cases hst : st = .open
  · subst hst
    have : P = upd P i (P i) := by
      funext j; unfold upd; split <;> simp_all
    rw [this]; exact h.open _
  · rw [PPCache.noticePage_other hst]; exact h

theorem PPOk.blank {c : PPCache} {n i : Nat} (h : PPOk g P n c) (hi : i < n) (hb : P i = .blank) :
    c.afterErased i = none ∧ c.afterWritten i = none := by
  have := h i hi
  constructor
  · cases he : c.afterErased i with
    | none => rfl
    | some p =>
      obtain ⟨_, _, _, _, _, h', _⟩ := this.1 p he
      rw [hb] at h'; simp at h'
  · cases he : c.afterWritten i with
    | none => rfl
    | some p =>
      obtain ⟨_, _, h'⟩ := this.2 p he
      rw [hb] at h'; simp at h'

theorem PPOk.invalidate {c : PPCache} {n : Nat} : PPOk g P n c.invalidate := by
  intro i hi
  cases c with
  | uncached => simp [PPCache.invalidate, PPCache.afterErased, PPCache.afterWritten]
  | tracked e w =>
    simp only [PPCache.invalidate, PPCache.afterErased, PPCache.afterWritten, List.getElem?_map]
    constructor <;> intro p hp
    · cases he : e[i]? <;> simp [he] at hp
    · cases he : w[i]? <;> simp [he] at hp

/-! ### Page states -/

theorem noticePage_run {s : St K} {i : Nat} {st : PageState} {d : Bool} {ps : PSCache}
    (h : s.cache.ps.notice i st = .ok ps) :
    noticePage i st d s = (.ok (), { s with cache := { s.cache with
      dirty := s.cache.dirty || d, ps := ps, pp := s.cache.pp.noticePage i st } }) := by
  simp only [noticePage, updateCache, Cache.noticePage, h]

/-- A cache that is anchored at a page knows its state and needs no telling. -/
theorem knows_of_get_none {i j : Nat} {c c' : PSCache} {st t : PageState} (hg : c.get i = .ok none) (ha : Anchored i c)
    (hn : c.notice i st = .ok c') : Knows j t c' := by
  cases c with
  | uncached => simp only [PSCache.notice, Except.ok.injEq] at hn; subst hn; trivial
  | table l =>
    simp only [PSCache.notice] at hn
    split at hn
    · simp only [Except.ok.injEq] at hn; subst hn; trivial
    · simp at hn
  | calculated c =>
    obtain ⟨h1, h2⟩ := ha
    simp [PSCache.get, CalcPS.get, h1] at hg

variable (w : g.WF)
include w

theorem getCached {s : St K} (h : Good md g s σ P) {i : Nat} (hi : i < g.pageCount) :
    Sat (getPageStateCached g i) s
      (fun st s' => σ.st g.pageCount i = .ok st ∧ Good md g s' σ P ∧ Same s s' ∧
        (st = .partialOpen → Anchored i s'.cache.ps) ∧
        (∀ a, Anchored a s.cache.ps → Anchored a s'.cache.ps ∧ Knows i st s'.cache.ps) ∧
        (∀ j t, Anchored i s.cache.ps → Knows j t s.cache.ps → Knows j t s'.cache.ps))
      (fun e s' => s' = s ∧ σ.st g.pageCount i = .error e) := by
  unfold getPageStateCached
  refine Sat.bind_eq (get_run s) ?_
  rcases h.ps.get h.fs.wf hi with hg | ⟨st, hg, hs, hk, ha⟩
  · rw [hg]
    refine Sat.bind_eq (lift_run _ _) ?_
    have hrun := getPageState_run w s hi (h.fs.pages i hi)
    rw [h.fs.st i hi] at hrun
    cases hst : σ.st g.pageCount i with
    | error e =>
      rw [hst] at hrun
      exact Sat.of_err (bind_err hrun) ⟨rfl, rfl⟩
    | ok st =>
      rw [hst] at hrun
      refine Sat.bind_eq hrun ?_
      obtain ⟨ps, h1, h2, h3, h4⟩ := h.ps.see h.fs.wf hi hst
      refine Sat.bind_eq (noticePage_run h1) ?_
      refine Sat.pure ⟨rfl, ⟨h.fs, h2, h.pp.notice⟩, ⟨⟨rfl, rfl, rfl, rfl⟩, rfl, by simp⟩, h3, h4, ?_⟩
      intro j t hai _
      exact knows_of_get_none hg hai h1
  · rw [hg]
    refine Sat.bind_eq (lift_run _ _) ?_
    exact Sat.pure ⟨hs, h, .refl s, ha, fun a h => ⟨h, hk⟩, fun j t _ h => h⟩

/-! ### Erasing pages -/

theorem openPage_run {s : St K} {i : Nat} (hi : i < g.pageCount) {ps : PSCache}
    (h : s.cache.ps.notice i .open = .ok ps) :
    openPage g i s = (if s.fl.all g.eraseSize then .ok () else .error .shutoff,
      { s with
        fl := s.fl.clr g i
        cache := { s.cache with dirty := true, ps := ps, pp := s.cache.pp.noticePage i .open } }) := by
  unfold openPage
  rw [bind_ok (noticePage_run h), erase_run w _ hi]
  simp

/-- Power can only fail when it is allowed to. -/
theorem crash_of_not_all {fl : Flash} (h : FS md g fl σ P) {n : Nat} (ha : fl.all n = false) : md.cf = false := by
  cases hc : md.cf with
  | false => rfl
  | true => rw [Flash.all_none (h.fuel hc)] at ha; simp at ha

theorem FS.clr {fl : Flash} (h : FS md g fl σ P) {i : Nat} {pk : PK}
    (hp : PageIs md g (fl.clr g i) i pk) (wf : σ'.WF g.pageCount) (hs : pk.st = σ'.st g.pageCount i)
    (ho : ∀ j, j < g.pageCount → j ≠ i → σ'.st g.pageCount j = σ.st g.pageCount j) :
    FS md g (fl.clr g i) σ' (upd P i pk) :=
  h.update w hp rfl (fun _ => rfl) (fun _ hold => hold) (fun _ hx => (Flash.clr_out w hx).1) (fun _ hx => (Flash.clr_out w hx).2)
    (fun hf => Flash.clr_fuel_none hf) wf hs ho

omit w in
theorem upd_self {β : Type} {P : Nat → β} {i : Nat} : upd P i (P i) = P := by
  funext j; unfold upd; split <;> simp_all

omit w in
theorem tearOldest_st (wf : σ.WF g.pageCount) (hm : 2 ≤ σ.m) (hc : σ.corr = false) :
    (σ.tearOldest g.pageCount).WF g.pageCount ∧
    (σ.tearOldest g.pageCount).st g.pageCount σ.o = .error .corrupted ∧
    ∀ j, j < g.pageCount → j ≠ σ.o → (σ.tearOldest g.pageCount).st g.pageCount j = σ.st g.pageCount j := by
  have hd := CalcOk.dropOldest_wf wf hm
  have hml := wf.m_le
  have hp := CalcOk.dropOldest_pos_o wf hm
  have e1 : (σ.tearOldest g.pageCount).o = (σ.dropOldest g.pageCount).o := rfl
  have e2 : (σ.tearOldest g.pageCount).m = σ.m - 1 := rfl
  have e3 : (σ.tearOldest g.pageCount).part = σ.part := rfl
  have e4 : (σ.tearOldest g.pageCount).corr = true := rfl
  refine ⟨⟨hd.o_lt, hd.m_le, hd.part_pos, ?_, ?_⟩, ?_, ?_⟩
  · rw [e2]; omega
  · rw [e2]; omega
  · rw [Shape.st_err, e1, e2, e4]; exact ⟨rfl, by omega, rfl, hp⟩
  · intro j hj hne
    rw [← CalcOk.dropOldest_st wf hm hc hj hne]
    have hpos := CalcOk.dropOldest_pos wf hm hj hne
    have := ringPos_lt wf.o_lt hj
    unfold Shape.st
    rw [e1, e2, e3]
    have e5 : (σ.dropOldest g.pageCount).m = σ.m - 1 := rfl
    have e6 : (σ.dropOldest g.pageCount).part = σ.part := rfl
    rw [e5, e6]
    split
    · rfl
    · rw [if_neg (by omega), if_neg (by omega)]

/-- Erasing the oldest page. -/
theorem openOldest {s : St K} (h : Good md g s σ P) (hc : σ.corr = false) (hm : 2 ≤ σ.m) :
    Sat (openPage g σ.o) s
      (fun _ s' => Good md g s' (σ.dropOldest g.pageCount) (upd P σ.o .blank) ∧ Frame s s' ∧
        s'.fl.erases = g.pageAddr σ.o :: s.fl.erases ∧
        (∀ a, Anchored a s.cache.ps → Anchored a s'.cache.ps ∧ Knows σ.o .open s'.cache.ps))
      (fun e s' => e = .shutoff ∧ Frame s s' ∧ (Dead md g s' σ P ∨
        Dead md g s' (σ.dropOldest g.pageCount) (upd P σ.o .blank) ∨
        Dead md g s' (σ.tearOldest g.pageCount) (upd P σ.o .corr))) := by
  have hol := h.fs.wf.o_lt
  obtain ⟨ps, h1, h2, h3⟩ := h.ps.dropOldest h.fs.wf hc hm
  have hrun := openPage_run w hol h1
  obtain ⟨its, f, hpk⟩ : ∃ its f, P σ.o = .used true its f := by
    have hst := h.fs.st _ hol
    rw [CalcOk.st_oldest hm] at hst
    cases hpk : P σ.o with
    | blank => rw [hpk] at hst; simp [PK.st] at hst
    | junk => rw [hpk] at hst; simp [PK.st] at hst
    | corr => rw [hpk] at hst; simp [PK.st] at hst
    | used closed its f =>
      cases closed with
      | false => rw [hpk] at hst; simp [PK.st] at hst
      | true => exact ⟨its, f, rfl⟩
  have hpg := h.fs.pages _ hol
  rw [hpk] at hpg
  have her := PageIs.erase w hpg h.fs.fuel
  have hwf := CalcOk.dropOldest_wf h.fs.wf hm
  have hblank : PageIs md g (s.fl.clr g σ.o) σ.o .blank →
      FS md g (s.fl.clr g σ.o) (σ.dropOldest g.pageCount) (upd P σ.o .blank) := fun hb =>
    h.fs.clr w hb hwf (by rw [CalcOk.dropOldest_st_o h.fs.wf hm hc]; rfl)
      (fun j hj hne => CalcOk.dropOldest_st h.fs.wf hm hc hj hne)
  cases hall : s.fl.all g.eraseSize with
  | true =>
    rw [hall, if_pos rfl] at hrun
    refine Sat.of_ok hrun ⟨⟨hblank (her.1 hall), h2, h.pp.open _⟩, ⟨rfl, rfl, rfl, rfl⟩, rfl, h3⟩
  | false =>
    rw [hall] at hrun
    simp only [Bool.false_eq_true, if_false] at hrun
    have hcr := crash_of_not_all w h.fs hall
    have hdead : ∀ {σ' P'}, FS md g (s.fl.clr g σ.o) σ' P' → Dead md g
        { s with
          fl := s.fl.clr g σ.o
          cache := { s.cache with dirty := true, ps := ps, pp := s.cache.pp.noticePage σ.o .open } } σ' P' :=
      fun hf => ⟨hf, h2.sized, rfl, hcr⟩
    refine Sat.of_err hrun ⟨rfl, ⟨rfl, rfl, rfl, rfl⟩, ?_⟩
    rcases her.2 with hb | ⟨_, hb⟩
    · exact Or.inr (Or.inl (hdead (hblank hb)))
    · rcases hb with hb | hb
      · left
        apply hdead
        have := h.fs.clr w (σ' := σ) hb h.fs.wf (by rw [← hpk]; exact h.fs.st _ hol) (fun _ _ _ => rfl)
        rw [← hpk, upd_self] at this
        exact this
      · right; right
        apply hdead
        have ht := tearOldest_st h.fs.wf hm hc
        exact h.fs.clr w hb ht.1 (by rw [ht.2.1]; rfl) ht.2.2

/-- Erasing the only page. -/
theorem openOnly {s : St K} (h : Good md g s σ P) (hn : g.pageCount = 1) (hcf : md.cf = true) (hm : σ.m = 1) :
    Sat (openPage g 0) s
      (fun _ s' => Good md g s' σ.dropOnly (upd P 0 .blank) ∧ Frame s s' ∧
        s'.fl.erases = g.pageAddr 0 :: s.fl.erases ∧
        (∀ a, Anchored a s.cache.ps → Anchored a s'.cache.ps))
      (fun _ _ => False) := by
  have hol : 0 < g.pageCount := by omega
  have hps := h.ps
  have hwf := h.fs.wf
  rw [hn] at hps hwf
  obtain ⟨ps, h1, h2, h3⟩ := hps.dropOnly hwf hm
  have hrun := openPage_run w hol h1
  have her := PageIs.erase w (h.fs.pages _ hol) h.fs.fuel
  have hall : s.fl.all g.eraseSize = true := Flash.all_none (h.fs.fuel hcf)
  rw [hall, if_pos rfl] at hrun
  have hw0 : σ.dropOnly.WF g.pageCount := by rw [hn]; constructor <;> simp [Shape.dropOnly]
  refine Sat.of_ok hrun ⟨⟨?_, by rw [hn]; exact h2, h.pp.open _⟩, ⟨rfl, rfl, rfl, rfl⟩, rfl, h3⟩
  apply h.fs.clr w (her.1 hall) hw0
  · rw [hn]; rfl
  · intro j hj hne; omega

/-! ### Programming markers -/

/-- The write counts stay in bounds. -/
theorem peak_prog {fl : Flash} {i a : Nat} {bs : List Byte} {pk : PK} (hcf : md.cf = true)
    (hold : ∀ x, fl.peak x ≤ if md.np then 1 else 2)
    (ha : g.pageAddr i ≤ a) (hb : a + bs.length ≤ g.pageEnd i) (hp : PageIs md g (fl.prog g a bs) i pk) (x : Nat) :
    (fl.prog g a bs).peak x ≤ if md.np then 1 else 2 := by
  have hg := fl.got_le bs.length
  have hx : (fl.prog g a bs).peak x = peakWrites g.writeSize fl.peak fl.writes a (fl.got bs.length) x := rfl
  rw [hx]
  unfold peakWrites
  split
  · rename_i hr
    refine Nat.max_le.2 ⟨hold x, ?_⟩
    have hw : (fl.prog g a bs).writes x = fl.writes x + 1 := by
      show countWrites g.writeSize fl.writes a (fl.got bs.length) x = _
      unfold countWrites; rw [if_pos hr]
    rw [← hw]
    have hwe : wend md g i = g.pageEnd i := by unfold wend; rw [hcf]; rfl
    cases pk with
    | blank =>
      have := hp.2 x (by omega) (by omega) hr.1
      rw [this]; omega
    | corr => have := hp.1; rw [hcf] at this; simp at this
    | junk => have := hp.1; rw [hcf] at this; simp at this
    | used c its f =>
      have u : Used md g (fl.prog g a bs) i c its f := hp
      refine Nat.le_trans (u.counts x (by omega) (by omega) hr.1) ?_
      unfold wbound
      split
      · rename_i hany
        cases hnp : md.np with
        | false => simp
        | true =>
          rw [List.any_eq_true] at hany
          obtain ⟨it, hit, h⟩ := hany
          simp only [Bool.and_eq_true, decide_eq_true_eq] at h
          exact absurd h.2 (u.np hnp it hit)
      · split <;> omega
  · exact hold x

theorem FS.prog {fl : Flash} (h : FS md g fl σ P) {i a : Nat} {bs : List Byte} {pk : PK}
    (ha : g.pageAddr i ≤ a) (hb : a + bs.length ≤ g.pageEnd i)
    (hp : PageIs md g (fl.prog g a bs) i pk) (wf : σ'.WF g.pageCount) (hs : pk.st = σ'.st g.pageCount i)
    (ho : ∀ j, j < g.pageCount → j ≠ i → σ'.st g.pageCount j = σ.st g.pageCount j)
    (hcl : md.dmg = false → clashes fl.mem a bs = 0) : FS md g (fl.prog g a bs) σ' (upd P i pk) :=
  h.update w hp rfl (fun hdm => by simp only [Flash.prog, clashes_take (hcl hdm), Nat.add_zero]) (fun hcf hold => peak_prog w hcf hold ha hb hp) (fun _ hx => (Flash.prog_out (by omega)).1) (fun _ hx => (Flash.prog_out (by omega)).2)
    (fun hf => Flash.prog_fuel_none hf) wf hs ho

theorem writeMarker_run {s : St K} {i a : Nat} (hi : i < g.pageCount) (ha : g.word ∣ a) (h1 : g.pageAddr i ≤ a)
    (h2 : a + g.word ≤ g.pageEnd i) :
    flashWrite g a (markerWord g) s = (if s.fl.all g.word then .ok () else .error .shutoff,
      { s with fl := s.fl.prog g a (markerWord g) }) := by
  have hl := markerWord_length g
  have := w.word_pos
  have := w.start_le i
  have := w.page_le hi
  have hr := write_run w s (a := a) (bs := markerWord g) ha (by rw [hl]; exact Nat.dvd_refl _) (by omega) (by omega)
    (by omega)
  rw [hl] at hr
  exact hr

/-- `partial_close_page` on the page to write to. -/
theorem partialFront {s : St K} (h : Good md g s σ P)
    (hb : σ.part = false → P (σ.front g.pageCount) = .blank ∨ P (σ.front g.pageCount) = .corr) :
    Sat (partialClosePage g (σ.front g.pageCount)) s
      (fun st s' => st = .partialOpen ∧ Frame s s' ∧ s'.fl.erases = s.fl.erases ∧
        Anchored (σ.front g.pageCount) s'.cache.ps ∧
        (σ.part = true → Good md g s' σ P ∧ Same s s' ∧
          ∀ j t, Anchored (σ.front g.pageCount) s.cache.ps → Knows j t s.cache.ps → Knows j t s'.cache.ps) ∧
        (σ.part = false → P (σ.front g.pageCount) = .blank ∧ Good md g s' σ.openFront (upd P (σ.front g.pageCount)
          (.used false [] (g.dataStart (σ.front g.pageCount))))))
      (fun e s' => Frame s s' ∧ s'.fl.erases = s.fl.erases ∧ σ.part = false ∧
        ((e = .corrupted ∧ σ.corr = true ∧ s' = s ∧ σ.st g.pageCount (σ.front g.pageCount) = .error .corrupted) ∨
        (e = .shutoff ∧ (Dead md g s' σ P ∨
          Dead md g s' σ.openFront (upd P (σ.front g.pageCount)
            (.used false [] (g.dataStart (σ.front g.pageCount)))))))) := by
  have hfl := Shape.front_lt h.fs.wf
  have hsf := h.fs.st _ hfl
  unfold partialClosePage
  have hc := (getCached w h hfl).cases
  rcases hc with ⟨st, s1, he, hst, hg1, hsame, hanc, _, hkn⟩ | ⟨e, s1, he, hs, hst⟩
  · refine Sat.bind_eq he ?_
    cases hp : σ.part with
    | true =>
      have hst' := CalcOk.st_front h.fs.wf (fun h => by rw [hp] at h; simp at h)
      rw [hst, hp, if_pos rfl] at hst'
      simp only [Except.ok.injEq] at hst'
      subst hst'
      rw [if_pos (by simp)]
      exact Sat.pure ⟨rfl, hsame.toFrame, by rw [hsame.fl], hanc rfl, fun _ => ⟨hg1, hsame, hkn⟩, by simp⟩
    | false =>
      have hpk : P (σ.front g.pageCount) = .blank := by
        rcases hb hp with h' | h'
        · exact h'
        · rw [h', hst] at hsf; simp [PK.st] at hsf
      have : st = .open := by
        rw [hpk, hst] at hsf; simpa [PK.st] using hsf.symm
      subst this
      rw [if_neg (by simp)]
      obtain ⟨ps, h1, h2, h3⟩ := hg1.ps.openFront hg1.fs.wf hp
      refine Sat.bind_eq (noticePage_run h1) ?_
      have hpg := hg1.fs.pages _ hfl
      rw [hpk] at hpg
      have hms := PageIs.markStart w hpg
      have hpo := page_order w (σ.front g.pageCount)
      have hwm := writeMarker_run w (K := K) (s := { s1 with cache := { s1.cache with
        dirty := s1.cache.dirty || true, ps := ps,
        pp := s1.cache.pp.noticePage (σ.front g.pageCount) .partialOpen } }) hfl
        (w.pageAddr_word _) (Nat.le_refl _) (by omega)
      have hwf := CalcOk.openFront_wf h.fs.wf hp hst
      have hml := markerWord_length g
      have hF : ∀ {pk σ'}, PageIs md g (s1.fl.prog g (g.pageAddr (σ.front g.pageCount)) (markerWord g)) (σ.front g.pageCount) pk →
          σ'.WF g.pageCount → pk.st = σ'.st g.pageCount (σ.front g.pageCount) →
          (∀ j, j < g.pageCount → j ≠ σ.front g.pageCount → σ'.st g.pageCount j = σ.st g.pageCount j) →
          FS md g (s1.fl.prog g (g.pageAddr (σ.front g.pageCount)) (markerWord g)) σ' (upd P (σ.front g.pageCount) pk) :=
        fun hp wf hs ho => hg1.fs.prog w (Nat.le_refl _) (by omega) hp wf hs ho (fun _ => clashes_zeros)
      have hF1 : PageIs md g (s1.fl.prog g (g.pageAddr (σ.front g.pageCount)) (markerWord g)) (σ.front g.pageCount)
          (.used false [] (g.dataStart (σ.front g.pageCount))) → _ :=
        fun hpi => hF hpi hwf (by rw [CalcOk.openFront_st_front h.fs.wf hp]; rfl)
          (fun j hj hne => CalcOk.openFront_st h.fs.wf hp hj hne)
      have hbl := hg1.pp.blank hfl hpk
      have hpp : PPOk g (upd P (σ.front g.pageCount) (.used false [] (g.dataStart (σ.front g.pageCount)))) g.pageCount
          (s1.cache.pp.noticePage (σ.front g.pageCount) .partialOpen) := by
        rw [PPCache.noticePage_other (by simp)]
        apply hg1.pp.update (fun j _ => ⟨rfl, rfl⟩)
        · intro p hp; rw [hbl.1] at hp; simp at hp
        · intro p hp; rw [hbl.2] at hp; simp at hp
      cases hall : s1.fl.all g.word with
      | true =>
        simp only [hall, if_true] at hwm
        refine Sat.bind_eq hwm ?_
        exact Sat.pure ⟨rfl, ⟨hsame.buf, hsame.qit, hsame.mit, hsame.kp⟩, by rw [← hsame.fl]; rfl, h3, by simp,
          fun _ => ⟨hpk, ⟨hF1 (hms.1 hall), h2, hpp⟩⟩⟩
      | false =>
        simp only [hall, Bool.false_eq_true, if_false] at hwm
        refine Sat.of_err (bind_err hwm) ⟨⟨hsame.buf, hsame.qit, hsame.mit, hsame.kp⟩, by rw [← hsame.fl]; rfl, rfl, Or.inr ⟨rfl, ?_⟩⟩
        have hcr := crash_of_not_all w hg1.fs hall
        rcases hms.2 with hu | hu
        · exact Or.inr ⟨hF1 hu, h2.sized, by simp, hcr⟩
        · left
          have := hF (σ' := σ) hu h.fs.wf (by rw [← hpk]; exact hsf) (fun _ _ _ => rfl)
          rw [← hpk, upd_self] at this
          exact ⟨this, h2.sized, by simp, hcr⟩
  · refine Sat.of_err (bind_err he) ?_
    subst hs
    have hp : σ.part = false := by
      cases hp : σ.part with
      | false => rfl
      | true =>
        rw [CalcOk.st_front h.fs.wf (fun h => by rw [hp] at h; simp at h), hp] at hst
        simp at hst
    have hst' := Shape.st_err.1 hst
    exact ⟨.refl _, rfl, hp, Or.inl ⟨hst'.1, hst'.2.2.1, rfl, by rw [hst, hst'.1]⟩⟩

/-- `close_page` on the page that is written to, knowing that the next page is open. -/
theorem closeFront {s : St K} (h : Good md g s σ P) (hp : σ.part = true) (hm : σ.m < g.pageCount)
    (han : Anchored (σ.front g.pageCount) s.cache.ps)
    (hk : Knows ((σ.front g.pageCount + 1) % g.pageCount) .open s.cache.ps)
    {its : List It} {f : Nat} (hpk : P (σ.front g.pageCount) = .used false its f) :
    Sat (closePage g (σ.front g.pageCount)) s
      (fun _ s' => Frame s s' ∧ s'.fl.erases = s.fl.erases ∧
        Good md g s' σ.closeFront (upd P (σ.front g.pageCount) (.used true its f)))
      (fun e s' => e = .shutoff ∧ Frame s s' ∧ s'.fl.erases = s.fl.erases ∧ (Dead md g s' σ P ∨
        Dead md g s' σ.closeFront (upd P (σ.front g.pageCount) (.used true its f)))) := by
  have hfl := Shape.front_lt h.fs.wf
  have hsf := h.fs.st _ hfl
  unfold closePage
  have hpc := (partialFront w h (by rw [hp]; simp)).cases
  rcases hpc with ⟨st, s1, he, hst, _, _, hanc, hg, _⟩ | ⟨e, s1, he, _, _, hs⟩
  · refine Sat.bind_eq he ?_
    subst hst
    rw [if_neg (by simp)]
    obtain ⟨hg1, hsame, hkn⟩ := hg hp
    obtain ⟨ps, h1, h2⟩ := hg1.ps.closeFront hg1.fs.wf hp hm hanc (hkn _ _ han hk)
    refine Sat.bind_eq (noticePage_run h1) ?_
    have hpg := hg1.fs.pages _ hfl
    rw [hpk] at hpg
    have hms := PageIs.markEnd w hpg hg1.fs.fuel
    have hpo := page_order w (σ.front g.pageCount)
    have hde : g.pageEnd (σ.front g.pageCount) - g.word = g.dataEnd (σ.front g.pageCount) := rfl
    rw [hde]
    have hwm := writeMarker_run w (K := K) (s := { s1 with cache := { s1.cache with
        dirty := s1.cache.dirty || true, ps := ps,
        pp := s1.cache.pp.noticePage (σ.front g.pageCount) .closed } }) hfl
        (w.dataEnd_word _) (a := g.dataEnd (σ.front g.pageCount)) (by omega) (by omega)
    have hwf := CalcOk.closeFront_wf h.fs.wf hp hm
    have hml := markerWord_length g
    have hF1 : PageIs md g (s1.fl.prog g (g.dataEnd (σ.front g.pageCount)) (markerWord g)) (σ.front g.pageCount)
        (.used true its f) → FS md g (s1.fl.prog g (g.dataEnd (σ.front g.pageCount)) (markerWord g)) σ.closeFront
          (upd P (σ.front g.pageCount) (.used true its f)) :=
      fun hpi => hg1.fs.prog w (by omega) (by omega) hpi hwf (by rw [CalcOk.closeFront_st_front h.fs.wf hp]; rfl)
        (fun j hj hne => CalcOk.closeFront_st h.fs.wf hp hj hne) (fun _ => clashes_zeros)
    have hpp : PPOk g (upd P (σ.front g.pageCount) (.used true its f)) g.pageCount
        (s1.cache.pp.noticePage (σ.front g.pageCount) .closed) := by
      rw [PPCache.noticePage_other (by simp)]
      have := hg1.pp _ hfl
      apply hg1.pp.update (fun j _ => ⟨rfl, rfl⟩)
      · intro p hp
        obtain ⟨c, pre, it, post, f', h1, h2, h3⟩ := this.1 p hp
        rw [hpk] at h1
        simp only [PK.used.injEq] at h1
        exact ⟨true, pre, it, post, f', by rw [h1.2.1, h1.2.2], h2, h3⟩
      · intro p hp
        obtain ⟨c, its', h1⟩ := this.2 p hp
        rw [hpk] at h1
        simp only [PK.used.injEq] at h1
        exact ⟨true, its', by rw [h1.2.1, h1.2.2]⟩
    cases hall : s1.fl.all g.word with
    | true =>
      simp only [hall, if_true] at hwm
      exact Sat.of_ok hwm ⟨⟨hsame.buf, hsame.qit, hsame.mit, hsame.kp⟩, by rw [← hsame.fl]; rfl, ⟨hF1 (hms.1 hall), h2, hpp⟩⟩
    | false =>
      simp only [hall, Bool.false_eq_true, if_false] at hwm
      refine Sat.of_err hwm ⟨rfl, ⟨hsame.buf, hsame.qit, hsame.mit, hsame.kp⟩, by rw [← hsame.fl]; rfl, ?_⟩
      have hcr := crash_of_not_all w hg1.fs hall
      rcases hms.2 with hu | hu
      · exact Or.inr ⟨hF1 hu, h2.sized, by simp, hcr⟩
      · left
        have := hg1.fs.prog w (σ' := σ) (by omega) (by omega) hu h.fs.wf (by rw [← hpk]; exact hsf) (fun _ _ _ => rfl)
          (fun _ => clashes_zeros)
        rw [← hpk, upd_self] at this
        exact ⟨this, h2.sized, by simp, hcr⟩
  · rw [hp] at hs
    simp at hs

end
end SeqStorage
