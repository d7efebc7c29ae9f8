import Verif.Proofs.Content
/-
The invariant of the queue, and scans of its pages.
-/

set_option linter.unusedSectionVars false

namespace SeqStorage
open M

variable {K : Type} [DecidableEq K] {α β : Type}
variable {md : Mode} {g : Geo} {σ σ' : Shape} {P P' : Nat → PK}

/-- The buffer and the iterators are untouched. -/
structure Still (s s' : St K) : Prop where
  buf : s'.buf = s.buf
  qit : s'.qit = s.qit
  mit : s'.mit = s.mit

theorem Still.refl (s : St K) : Still s s := ⟨rfl, rfl, rfl⟩
theorem Still.trans {s s' s'' : St K} (h : Still s s') (h' : Still s' s'') : Still s s'' :=
  ⟨h'.buf.trans h.buf, h'.qit.trans h.qit, h'.mit.trans h.mit⟩
theorem Frame.still {s s' : St K} (h : Frame s s') : Still s s' := ⟨h.buf, h.qit, h.mit⟩
theorem Same.still {s s' : St K} (h : Same s s') : Still s s' := h.toFrame.still

/-- The erases so far went round the pages, and the next one to erase is `o`. -/
def Cyclic (g : Geo) (erases : List Nat) (o : Nat) : Prop :=
  o = erases.length % g.pageCount ∧
    erases.reverse = (List.range erases.length).map (fun k => g.pageAddr (k % g.pageCount))

theorem Cyclic.step {er : List Nat} {o : Nat} (h : Cyclic g er o) (ho : o < g.pageCount) :
    Cyclic g (g.pageAddr o :: er) (ringPage g.pageCount o 1 % g.pageCount) := by
  obtain ⟨h1, h2⟩ := h
  constructor
  · rw [List.length_cons, Nat.add_mod, ← h1]
    unfold ringPage
    split
    · rw [Nat.mod_eq_of_lt (a := o + 1) (by omega)]
      by_cases hn : g.pageCount = 1
      · omega
      · rw [Nat.mod_eq_of_lt (a := 1) (by omega), Nat.mod_eq_of_lt (by omega)]
    · have : o + 1 = g.pageCount := by omega
      rw [this]
      by_cases hn : g.pageCount = 1
      · rw [hn] at this ⊢; omega
      · rw [Nat.mod_eq_of_lt (a := 1) (by omega), this, Nat.sub_self, Nat.zero_mod, Nat.mod_self]
  · rw [List.reverse_cons, h2, List.length_cons, List.range_succ, List.map_append]
    simp [h1]

/-- The erases so far went round the pages, and were counted. -/
def Turns (g : Geo) (erases : List Nat) (σ : Shape) : Prop := Cyclic g erases σ.o ∧ erases.length = σ.d

theorem Turns.step {er : List Nat} (h : Turns g er σ) (ho : σ.o < g.pageCount) (hn : 2 ≤ g.pageCount) :
    Turns g (g.pageAddr σ.o :: er) (σ.dropOldest g.pageCount) := by
  have := h.1.step ho
  rw [Nat.mod_eq_of_lt (ringPage_lt ho (by omega))] at this
  exact ⟨this, by simp [Shape.dropOldest, h.2]⟩

theorem Turns.stepOnly {er : List Nat} (h : Turns g er σ) (hn : g.pageCount = 1) (ho : σ.o = 0) :
    Turns g (g.pageAddr 0 :: er) σ.dropOnly := by
  have := h.1.step (by omega)
  rw [ho, hn] at this
  exact ⟨this, by simp [Shape.dropOnly, h.2]⟩

/-- What the queue keeps true of its pages. -/
structure PagesOk (md : Mode) (g : Geo) (P : Nat → PK) : Prop where
  nojunk : ∀ i, i < g.pageCount → P i ≠ .junk
  whole : md.cf = true → md.dmg = false → ∀ i, i < g.pageCount → ∀ it ∈ (P i).its, it.hdr.crc = 0#32 ∨ it.present = true
  free : md.lim = none

theorem PagesOk.upd (h : PagesOk md g P) {i : Nat} {pk : PK} (h1 : pk ≠ .junk)
    (h2 : md.cf = true → md.dmg = false → ∀ it ∈ pk.its, it.hdr.crc = 0#32 ∨ it.present = true) : PagesOk md g (upd P i pk) := by
  constructor
  · intro j hj
    by_cases he : j = i
    · subst he; rw [upd_same]; exact h1
    · rw [upd_ne he]; exact h.nojunk j hj
  · intro hc hdm j hj
    by_cases he : j = i
    · subst he; rw [upd_same]; exact h2 hc hdm
    · rw [upd_ne he]; exact h.whole hc hdm j hj
  · exact h.free

/-- The invariant between calls. -/
structure QI (md : Mode) (g : Geo) (s : St K) (σ : Shape) (P : Nat → PK) : Prop where
  fs : FS md g s.fl σ P
  sized : PSOk.Sized g.pageCount s.cache.ps
  good : s.cache.dirty = false → Good md g s σ P
  ok : PagesOk md g P
  log : md.cf = true → Turns g s.fl.erases σ

/-- The invariant during calls. -/
structure QG (md : Mode) (g : Geo) (s : St K) (σ : Shape) (P : Nat → PK) : Prop where
  good : Good md g s σ P
  ok : PagesOk md g P
  log : md.cf = true → Turns g s.fl.erases σ

theorem QG.qi {s : St K} (h : QG md g s σ P) : QI md g s σ P :=
  ⟨h.good.fs, h.good.ps.sized, fun _ => h.good, h.ok, h.log⟩

theorem Dead.qi {s : St K} (h : Dead md g s σ P) (ok : PagesOk md g P) : QI md g s σ P :=
  ⟨h.fs, h.sized, fun hd => by rw [h.dirty] at hd; simp at hd, ok, fun hc => by rw [h.crash] at hc; simp at hc⟩

theorem Good.same {s s' : St K} (h : Good md g s' σ P) (ok : PagesOk md g P) (hs : Same s s')
    (log : md.cf = true → Turns g s.fl.erases σ) : QG md g s' σ P := ⟨h, ok, by rw [hs.fl]; exact log⟩

theorem checkDirty_sat {s : St K} (h : QI md g s σ P) :
    Sat checkDirty s (fun _ s' => QG md g s' σ P ∧ Still s s' ∧ s'.fl = s.fl ∧ s'.cache.dirty = false ∧
      (s.cache.dirty = false → s' = s)) (fun _ _ => False) := by
  unfold checkDirty
  refine Sat.of_ok (modifyCache_run _ _) ?_
  cases hd : s.cache.dirty with
  | false =>
    rw [if_neg (by simp)]
    exact ⟨⟨h.good hd, h.ok, h.log⟩, .refl s, rfl, hd, fun _ => rfl⟩
  | true =>
    rw [if_pos rfl]
    exact ⟨⟨⟨h.fs, PSOk.invalidate h.sized σ, PPOk.invalidate⟩, h.ok, h.log⟩, ⟨rfl, rfl, rfl⟩, rfl, rfl,
      fun h => by simp at h⟩

theorem unmark_sat {s : St K} (h : QG md g s σ P) :
    Sat unmarkDirty s (fun _ s' => QG md g s' σ P ∧ Frame s s' ∧ s'.fl = s.fl ∧ s'.cache.dirty = false)
      (fun _ _ => False) := by
  unfold unmarkDirty
  exact Sat.of_ok (modifyCache_run _ _) ⟨⟨⟨h.good.fs, h.good.ps, h.good.pp⟩, h.ok, h.log⟩, ⟨rfl, rfl, rfl, rfl⟩, rfl, rfl⟩

/-- The mode in which power never fails. -/
theorem FS.torn_free {fl : Flash} (h : FS md g fl σ P) (hc : md.cf = true) : σ.corr = false := by
  cases hk : σ.corr with
  | false => rfl
  | true =>
    have ht := torn_st (g := g) h.wf hk
    have htl := torn_lt (g := g) h.wf
    have hs := h.st _ htl
    have hp := h.pages _ htl
    rw [ht] at hs
    cases hpk : P (σ.torn g.pageCount) with
    | corr => rw [hpk] at hp; simp [PageIs, hc] at hp
    | blank => rw [hpk] at hs; simp [PK.st] at hs
    | junk => rw [hpk] at hs; simp [PK.st] at hs
    | used c a b => rw [hpk] at hs; cases c <;> simp [PK.st] at hs

theorem QG.torn_free {s : St K} (h : QG md g s σ P) (hc : md.cf = true) : σ.corr = false := h.good.fs.torn_free hc

/-! ### Scans -/

variable (w : g.WF)
include w

theorem rounds_ok (i : Nat) {a : Nat} (ha : g.dataStart i ≤ a) : g.dataEnd i < a + g.rounds ∧ 0 < g.rounds := by
  have := page_order w i
  have := w.word_pos
  unfold Geo.rounds
  omega

/-- Everything about the items of a page that starts at one of the addresses the caches hand out. -/
theorem scan_from {s : St K} (h : Good md g s σ P) {i : Nat} (hi : i < g.pageCount) {closed : Bool} {its : List It}
    {f : Nat} (hpk : P i = .used closed its f) :
    ∃ pre post, its = pre ++ post ∧ (∀ x ∈ pre, x.hdr.crc = 0#32) ∧
      Layout md.cf g s.fl.mem (g.dataEnd i) ((s.cache.pp.afterErased i).getD (g.dataStart i)) post f ∧
      g.word ∣ (s.cache.pp.afterErased i).getD (g.dataStart i) ∧
      g.dataStart i ≤ (s.cache.pp.afterErased i).getD (g.dataStart i) ∧
      (s.cache.pp.afterErased i).getD (g.dataStart i) ≤ g.dataEnd i ∧
      max ((s.cache.pp.afterErased i).getD 0) (g.dataStart i) = (s.cache.pp.afterErased i).getD (g.dataStart i) := by
  have hpg := h.fs.pages i hi
  rw [hpk] at hpg
  have u : Used md g s.fl i closed its f := hpg
  have hpo := page_order w i
  have hbd := u.bounds w
  cases he : s.cache.pp.afterErased i with
  | none =>
    exact ⟨[], its, rfl, by simp, u.layout, w.dataStart_word i, Nat.le_refl _, by simp only [Option.getD_none]; omega, by simp⟩
  | some p =>
    obtain ⟨c, pre, it, post, f', h1, h2, h3⟩ := (h.pp i hi).1 p he
    rw [hpk] at h1
    simp only [PK.used.injEq] at h1
    have hl := u.layout
    rw [h1.2.1] at hl
    have hm := hl.mem_item w (it := it) (by simp)
    have hn := Layout.next_gt w it.hdr it.addr
    have hdv := Layout.next_dvd w (h := it.hdr) (hl.mem_dvd w (w.dataStart_word i) (it := it) (by simp))
    refine ⟨pre ++ [it], post, by rw [h1.2.1]; simp, h2, ?_, ?_, ?_, ?_, ?_⟩
    · rw [Option.getD_some, h3]; exact hl.suffix w
    · rw [Option.getD_some, h3]; exact hdv
    · rw [Option.getD_some, h3]; omega
    · rw [Option.getD_some, h3]; omega
    · rw [Option.getD_some, Option.getD_some, h3]; omega

omit w in
theorem scanResult_all {its : List It} {f : Nat} : scanResult g (fun _ => true) its f = (none, f, f) := by
  unfold scanResult
  have : its.dropWhile (fun it => true) = [] := by
    induction its with
    | nil => rfl
    | cons a l ih => simpa using ih
  rw [this]

/-- Where the free space of a page starts. -/
theorem nextItemAddress_run {s : St K} (h : Good md g s σ P) {i : Nat} (hi : i < g.pageCount) {closed : Bool}
    {its : List It} {f : Nat} (hpk : P i = .used closed its f) : Queue.nextItemAddress g i s = (.ok f, s) := by
  unfold Queue.nextItemAddress
  rw [bind_ok (get_run s)]
  cases hw : s.cache.pp.afterWritten i with
  | some p =>
    obtain ⟨c, its', h1⟩ := (h.pp i hi).2 p hw
    rw [hpk] at h1
    simp only [PK.used.injEq] at h1
    simp only [h1.2.2]; rfl
  | none =>
    obtain ⟨pre, post, h1, h2, h3, h4, h5, h6, h7⟩ := scan_from w h hi hpk
    have hpo := page_order w i
    have hr := rounds_ok w i h5
    have := w.page_le hi
    have ht := traverse_run w s h3 h4 (by omega) (by omega) (fun _ => true) hr.1 hr.2
    simp only
    rw [bind_ok ht, scanResult_all]; rfl

/-- Whether an item of `len` bytes fits between `f` and the end of the page. -/
def Fits (g : Geo) (i f len : Nat) : Prop := f + g.hl + g.roundUp len ≤ g.dataEnd i

instance (g : Geo) (i f len : Nat) : Decidable (Fits g i f len) := by unfold Fits; infer_instance

theorem available_iff {i f len : Nat} (hf : f ≤ g.dataEnd i) (hd : g.word ∣ f) :
    (match g.availableDataBytes (g.dataEnd i - f) with
      | some avail => if len ≤ avail then some f else none
      | none => none) = if Fits g i f len then some f else none := by
  have hde := w.dataEnd_word i
  have hdv : g.word ∣ g.dataEnd i - f := Nat.dvd_sub hde hd
  have hle := w.le_roundUp len
  unfold Geo.availableDataBytes
  rw [w.roundDown_of_dvd hdv]
  by_cases h1 : g.hl ≤ g.dataEnd i - f
  · rw [if_pos h1]
    have hdv2 : g.word ∣ g.dataEnd i - f - g.hl := Nat.dvd_sub hdv w.hl_dvd
    have h2 : len ≤ g.dataEnd i - f - g.hl ↔ Fits g i f len := by
      unfold Fits
      constructor
      · intro h
        have := w.roundUp_mono h
        rw [w.roundUp_of_dvd hdv2] at this
        omega
      · intro h; omega
    simp only [h2]
  · rw [if_neg h1]
    have : ¬ Fits g i f len := by unfold Fits; omega
    simp [this]

/-- `find_next_free_item_spot`. -/
theorem findFreeSpot_run {s : St K} (h : Good md g s σ P) {i : Nat} (hi : i < g.pageCount) {closed : Bool}
    {its : List It} {f : Nat} (hpk : P i = .used closed its f) (len : Nat) :
    findFreeSpot g (g.dataStart i) (g.dataEnd i) len s = (.ok (if Fits g i f len then some f else none), s) := by
  have hpg := h.fs.pages i hi
  rw [hpk] at hpg
  have u : Used md g s.fl i closed its f := hpg
  have hb := u.bounds w
  have hpo := page_order w i
  have hidx : g.pageIndex (g.dataStart i) = i := w.pageIndex_of (by omega) (by omega)
  have hav := available_iff w (len := len) hb.2.1 hb.2.2
  have hkey : ∀ (m : M K Nat), m s = (.ok f, s) →
      (m >>= fun free => match g.availableDataBytes (g.dataEnd i - free) with
        | some avail => if len ≤ avail then pure (some free) else pure none
        | none => pure none) s = (.ok (if Fits g i f len then some f else none), s) := by
    intro m hm
    rw [bind_ok hm, ← hav]
    cases g.availableDataBytes (g.dataEnd i - f) with
    | none => rfl
    | some a => simp only; split <;> rfl
  unfold findFreeSpot
  rw [bind_ok (get_run s)]
  simp only [hidx]
  cases hw : s.cache.pp.afterWritten i with
  | some p =>
    obtain ⟨c, its', h1⟩ := (h.pp i hi).2 p hw
    rw [hpk] at h1
    simp only [PK.used.injEq] at h1
    simp only [← h1.2.2]
    exact hkey _ rfl
  | none =>
    obtain ⟨pre, post, h1, h2, h3, h4, h5, h6, h7⟩ := scan_from w h hi hpk
    have hr := rounds_ok w i h5
    have := w.page_le hi
    have ht := traverse_run w s h3 h4 (by omega) (by omega) (fun _ => true) hr.1 hr.2
    rw [scanResult_all] at ht
    simp only [h7]
    rw [bind_ok ht]
    exact hkey (pure f) rfl

/-- All items of the page are erased. -/
def allErased (pk : PK) : Bool := pk.its.all (fun it => decide (it.hdr.crc = 0#32))

omit w in
theorem allErased_datas {pk : PK} (h : allErased pk = true) : datas pk.its = [] := by
  apply datas_eq_nil
  intro x hx
  unfold allErased at h
  rw [List.all_eq_true] at h
  have := h x hx
  simp only [decide_eq_true_eq] at this
  unfold It.present
  rw [this]
  simp [adapted_ne_zero]

/-- `is_page_empty` for a closed page. -/
theorem isPageEmpty_run {s : St K} (h : Good md g s σ P) {i : Nat} (hi : i < g.pageCount) {closed : Bool}
    {its : List It} {f : Nat} (hpk : P i = .used closed its f) :
    isPageEmpty g i .closed s = (.ok (allErased (P i)), s) := by
  unfold isPageEmpty
  obtain ⟨pre, post, h1, h2, h3, h4, h5, h6, h7⟩ := scan_from w h hi hpk
  have hpo := page_order w i
  have hr := rounds_ok w i h5
  have := w.page_le hi
  have ht := traverse_run w s h3 h4 (by omega) (by omega) (fun h => decide (h.crc = 0#32)) hr.1 hr.2
  simp only
  rw [bind_ok (get_run s), bind_ok ht]
  rw [pure_run]
  have he : (scanResult g (fun h => decide (h.crc = 0#32)) post f).1.isNone = post.all (fun it => decide (it.hdr.crc = 0#32)) := by
    unfold scanResult
    clear h1 h3 ht
    induction post with
    | nil => rfl
    | cons x l ih =>
      by_cases hx : x.hdr.crc = 0#32
      · rw [List.dropWhile_cons_of_pos (by simp [hx])]; simpa [hx] using ih
      · rw [List.dropWhile_cons_of_neg (by simp [hx])]; simp [hx]
  rw [he]
  have h0 : pre.all (fun it => decide (it.hdr.crc = 0#32)) = true := by
    rw [List.all_eq_true]; intro x hx; simp [h2 x hx]
  unfold allErased
  rw [hpk]
  simp only [PK.its, h1, List.all_append, h0, Bool.true_and]

end SeqStorage
