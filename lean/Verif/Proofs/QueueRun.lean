import Verif.Proofs.Fit
import Verif.Model.Use
/-
Every call on a queue does what the list specification says.
-/

set_option linter.unusedSectionVars false

namespace SeqStorage
open M Spec

variable {K : Type} [DecidableEq K] {α β : Type}
variable {md : Mode} {g : Geo} {σ σ' : Shape} {P P' : Nat → PK}

/-- The queue is in order and holds `q`. -/
def Holds (md : Mode) (g : Geo) (s : St K) (q : List (List Byte)) : Prop :=
  ∃ σ P, QI md g s σ P ∧ content g.pageCount σ P = q

theorem FreshCache.sized {n : Nat} {c : Cache K} (h : FreshCache n c) : PSOk.Sized n c.ps := by
  rcases h.ps with h | h | h <;> rw [h]
  · trivial
  · rfl
  · simp [PSOk.Sized]

theorem FreshCache.psOk {n : Nat} {c : Cache K} (h : FreshCache n c) (σ : Shape) : PSOk σ n c.ps := by
  rcases h.ps with h | h | h <;> rw [h]
  · trivial
  · exact .fresh
  · refine ⟨by simp, ?_⟩
    intro i s hs
    rw [List.getElem?_replicate] at hs
    split at hs <;> simp at hs

theorem FreshCache.ppOk {n : Nat} {c : Cache K} (h : FreshCache n c) (P : Nat → PK) (m : Nat) : PPOk g P m c.pp := by
  have hr : ∀ i : Nat, ((List.replicate n (none : Option Nat))[i]?).join = none := by
    intro i
    rw [List.getElem?_replicate]
    split <;> rfl
  rcases h.pp with h | h <;> rw [h]
  · intro i _
    exact ⟨by simp [PPCache.afterErased], by simp [PPCache.afterWritten]⟩
  · intro i _
    exact ⟨by simp [PPCache.afterErased, hr], by simp [PPCache.afterWritten, hr]⟩

/-- Restarting. -/
theorem QI.restart {s : St K} (h : QI md g s σ P) {c : Cache K} (hc : FreshCache g.pageCount c) :
    QI md g { s with cache := c } σ P :=
  ⟨h.fs, hc.sized, fun _ => ⟨h.fs, hc.psOk σ, hc.ppOk P _⟩, h.ok, h.log⟩

theorem QI.buf {s : St K} (h : QI md g s σ P) (b : List Byte) : QI md g { s with buf := b } σ P :=
  ⟨h.fs, h.sized, fun hd => ⟨h.fs, (h.good hd).ps, (h.good hd).pp⟩, h.ok, h.log⟩

theorem QI.buf' {s : St K} (h : QG md g s σ P) (b : List Byte) : QG md g { s with buf := b } σ P :=
  h.cong rfl rfl

theorem setBuf_run (b : List Byte) (s : St K) : setBuf b s = (.ok (), { s with buf := b }) := rfl

theorem PageIs.fuel {fl : Flash} {i : Nat} {pk : PK} (h : PageIs md g fl i pk) (f : Option Nat) :
    PageIs md g { fl with fuel := f } i pk := by
  cases pk with
  | blank => exact h
  | corr => exact h
  | junk => exact h
  | used c its fr =>
    have u : Used md g fl i c its fr := h
    exact (⟨u.layout, u.startC, u.startZ, u.endC, u.endZ, u.endF, u.fresh, u.freshW, u.counts, u.np, u.fit, u.heads, u.gaps, u.pads⟩ :
      Used md g { fl with fuel := f } i c its fr)

/-- Power is back, for a while. -/
theorem QI.power {s : St K} (h : QI md g s σ P) (hcf : md.cf = false) (f : Option Nat) :
    QI md g { s with fl := { s.fl with fuel := f } } σ P := by
  have hfs : FS md g { s.fl with fuel := f } σ P :=
    ⟨fun i hi => (h.fs.pages i hi).fuel f, fun hc => by rw [hcf] at hc; simp at hc, h.fs.wf, h.fs.st, h.fs.peak, h.fs.faults, h.fs.stuck⟩
  exact ⟨hfs, h.sized, fun hd => ⟨hfs, (h.good hd).ps, (h.good hd).pp⟩, h.ok, h.log⟩

section
variable (w : g.WF)
include w

/-- An erased region. -/
theorem FS.erased {fl : Flash} (h : Erased g fl) (hf : md.cf = true → fl.fuel = none) :
    FS md g fl .initial (fun _ => .blank) := by
  have hn : 0 < g.pageCount := by unfold Geo.pageCount; omega
  refine ⟨?_, hf, ?_, ?_, fun _ x => by rw [h.peak x]; omega, h.faults, fun _ => h.stuck⟩
  · intro i hi
    have h1 := w.page_le hi
    refine ⟨?_, ?_⟩
    · intro x hx1 hx2
      refine h.blank x ?_ ?_
      · unfold Geo.pageAddr at hx1; omega
      · have : g.pageEnd i = g.pageAddr i + g.eraseSize := by
          unfold Geo.pageEnd Geo.pageAddr; rw [Nat.mul_add]; omega
        omega
    · intro x _ _ _
      exact h.writes x
  · constructor <;> simp [Shape.initial] <;> omega
  · intro i hi
    have : (Shape.initial).st g.pageCount i = .ok .open := by
      unfold Shape.st Shape.initial
      simp
    rw [this]; rfl

/-- An erased region is an empty queue. -/
theorem QI.erased {s : St K} (h : Erased g s.fl) (hf : md.cf = true → s.fl.fuel = none)
    (hc : FreshCache g.pageCount s.cache) (hl : md.lim = none := by rfl) : QI md g s .initial (fun _ => .blank) := by
  have hfs := FS.erased w h hf
  refine ⟨hfs, hc.sized, fun _ => ⟨hfs, hc.psOk _, hc.ppOk _ _⟩, ⟨?_, ?_, hl⟩, ?_⟩
  · intro i _ h; simp at h
  · intro _ _ i _ it hit
    simp [PK.its] at hit
  · intro _
    rw [h.erases]
    exact ⟨⟨by simp [Shape.initial], by simp⟩, rfl⟩

/-! ### Every call, without power loss -/

omit w in
theorem itemSize_eq (d : List Byte) : itemSize g.word d = foot g d := rfl

omit w in
theorem pad_eq (n : Nat) : pad g.word n = g.roundUp n := rfl

theorem pageSize_add : g.pageSize + 2 * g.word = g.eraseSize := by
  have := w.fits
  unfold Geo.pageSize; omega

theorem fitsPage_iff {d : List Byte} : FitsPage g.word g.eraseSize d ↔ g.tooBig d.length = false := by
  have h1 := pageSize_add w
  rw [← Bool.not_eq_true, tooBig_iff w]
  unfold FitsPage
  rw [itemSize_eq]
  unfold foot
  omega

theorem Drop.spec {room : Prop} {allow : Bool} {q q' : List (List Byte)} (h : Drop g room allow q q') :
    ∃ lost, q = lost ++ q' ∧ (allow = false → lost = []) ∧ (lost.map (itemSize g.word)).sum + 2 * g.word ≤ g.eraseSize := by
  have h1 := pageSize_add w
  rcases h with rfl | ⟨h2, _, p, h3, h4⟩
  · exact ⟨[], rfl, fun _ => rfl, by simp; omega⟩
  · refine ⟨p, h3, fun h => by rw [h2] at h; simp at h, ?_⟩
    have : (p.map (itemSize g.word)) = p.map (foot g) := rfl
    rw [this]; omega

/-! ### The page-level outcome of every call, without power loss -/

omit w in
/-- What an iteration does. -/
def iterStepsA (g : Geo) : List (List Byte × Bool) → (all : Bool) → Shape → (Nat → PK) → Nat → List It →
    List (Except Err (Option (List Byte))) × Shape × (Nat → PK)
  | [], _, σ, P, _, _ => ([], σ, P)
  | (b, p) :: steps, all, σ, P, j, post =>
    match nextA g b.length (if all then .allPopped else .unpopped) (σ.m - (j + 1)) σ P j post with
    | (.ok none, σ', P', j', post') =>
      let r := iterStepsA g steps all σ' P' j' post'
      (.ok none :: r.1, r.2)
    | (.ok (some it), σ', P', j', post') =>
      let r := if p then iterStepsA g steps all σ' (popP g σ' P' j' post'.length) j' post'
        else iterStepsA g steps false σ' P' j' post'
      (.ok (some it.data) :: r.1, r.2)
    | (.error e, σ', P', j', post') =>
      let r := iterStepsA g steps all σ' P' j' post'
      (.error e :: r.1, r.2)

omit w in
/-- What a call does. -/
def qcallA (g : Geo) (σ : Shape) (P : Nat → PK) : QCall (Cache K) → Except Err QAnswer × Shape × (Nat → PK)
  | .push d allow => let r := pushA g σ P d allow; (r.1.map fun _ => .done, r.2)
  | .pop b => let r := popA g σ P b.length; (r.1.map .item, r.2)
  | .peek b => let r := peekA g σ P b.length; (r.1.map .item, r.2)
  | .iterate steps => let r := iterStepsA g steps true σ P 0 (P σ.o).its; (.ok (.items r.1), r.2)
  | .maxFit =>
    (if 2 ≤ g.pageCount then .ok (.fit (fitOf g σ P))
      else if σ.m = 0 then .ok (.fit (some (g.eraseSize - 2 * g.word))) else .error .corrupted, σ, P)
  | .spaceLeft => (.ok (.space ((List.range g.pageCount).map fun i => spaceOf g i (P i)).sum), σ, P)
  | .restart _ => (.ok .done, σ, P)

omit w in
theorem dropWhile_twice {α : Type} (p : α → Bool) (l : List α) : (l.dropWhile p).dropWhile p = l.dropWhile p := by
  induction l with
  | nil => rfl
  | cons a l ih =>
    cases h : p a with
    | true => simp [h, ih]
    | false => simp [h]

omit w in
theorem nextA_dropWhile (blen : Nat) (prev : PrevItems) (k : Nat) (σ : Shape) (P : Nat → PK) (j : Nat) (post : List It) :
    nextA g blen prev k σ P j (post.dropWhile fun x => !x.present) = nextA g blen prev k σ P j post := by
  rw [nextA.eq_def, nextA.eq_def g blen prev k σ P j post]
  dsimp only
  rw [dropWhile_twice]

omit w in
theorem iterStepsA_dropWhile (steps : List (List Byte × Bool)) (all : Bool) (σ : Shape) (P : Nat → PK) (j : Nat) (post : List It) :
    iterStepsA g steps all σ P j (post.dropWhile fun x => !x.present) = iterStepsA g steps all σ P j post := by
  cases steps with
  | nil => rfl
  | cons x steps => obtain ⟨b, p⟩ := x; simp only [iterStepsA, nextA_dropWhile]

omit w in
theorem iterStepsA_skip {steps : List (List Byte × Bool)} {all : Bool} {σ : Shape} {P : Nat → PK} {j : Nat} {pre post : List It}
    (h : datas pre = []) : iterStepsA g steps all σ P j (pre ++ post) = iterStepsA g steps all σ P j post := by
  cases steps with
  | nil => rfl
  | cons x steps => obtain ⟨b, p⟩ := x; simp only [iterStepsA, nextA_skip h]

/-- Iterating, with the items passed and those ahead. -/
theorem iterSteps_cf (hcf : md.cf = true) (hdm : md.dmg = false) (hmd : md.OK g) (steps : List (List Byte × Bool))
    (hnp : md.np = true → ∀ x ∈ steps, x.2 = false) :
    ∀ {s : St K} {σ : Shape} {P : Nat → PK} {j : Nat} {pre post : List It} {pas ahd : List (List Byte)}
      {all : Bool}, all = decide (s.qit.prev = .allPopped) → QI md g s σ P → IterAt g s.qit σ P j pre post →
      passed g.pageCount σ P j pre = pas → ahead g.pageCount σ P j post = ahd →
      Sat (iterSteps g steps) s
        (fun l s' => ∃ σ' P', QI md g s' σ' P' ∧ iterStepsA g steps all σ P j post = (l, σ', P') ∧
          l = (iterate g.word pas ahd steps).1 ∧ content g.pageCount σ' P' = (iterate g.word pas ahd steps).2)
        (fun _ _ => False) := by
  induction steps with
  | nil =>
    intro s σ P j pre post pas ahd all hall h hi hp ha
    refine Sat.pure ⟨σ, P, h, rfl, by simp [iterate], ?_⟩
    have hc : σ.corr = false := hi.corr
    cases hd : s.cache.dirty with
    | false =>
      rw [IterAt.content w ⟨h.good hd, h.ok, h.log⟩ hi, hp, ha]; simp [iterate]
    | true =>
      rcases (checkDirty_sat h).cases with ⟨_, s0, he0, h0, hst0, hfl0, hd0, _⟩ | ⟨_, _, _, h'⟩
      · rw [IterAt.content w h0 hi, hp, ha]; simp [iterate]
      · exact h'.elim
  | cons st steps ih =>
    obtain ⟨b, p⟩ := st
    intro s σ P j pre post pas ahd all hall h hi hp ha
    specialize @ih (fun hn x hx => hnp hn x (by simp [hx]))
    unfold iterSteps
    refine Sat.bind_eq (setBuf_run b s) ?_
    generalize hs1 : ({ s with buf := b } : St K) = s1
    have h1 : QI md g s1 σ P := by rw [← hs1]; exact h.buf b
    have hi1 : IterAt g s1.qit σ P j pre post := by rw [← hs1]; exact hi
    have hb1 : s1.buf = b := by rw [← hs1]
    have hall1 : prevOf s1.qit.prev = if all then .allPopped else .unpopped := by
      rw [hall, ← hs1]; unfold prevOf; simp
    have hall2 : all = decide (s1.qit.prev = .allPopped) := by rw [hall, ← hs1]
    rcases (iterNext_sat w h1 hi1).cases with ⟨r, s2, he, σ2, P2, j2, pre2, post2, h2, hbl, hm, hd2, hr⟩ | ⟨e, s2, he, hbl, hm, hE⟩
    · refine Sat.bind_eq (s' := s2) (a := .ok r) (by rw [attempt_run, he]) ?_
      rw [hp, ha, hall1, hb1] at hr
      cases r with
      | none =>
        obtain ⟨hna, hnil, hi2, hahd, hpas, hah2, _, hpv⟩ := hr
        subst hnil
        have := ih (all := all) (by rw [hpv, hall2]; by_cases h : s1.qit.prev = .allPopped <;> simp [h]) h2.qi hi2 hpas hah2
        subst hahd
        rcases this.cases with ⟨l, s3, he3, σ3, P3, h3, hA, hl, hh⟩ | ⟨_, _, _, h'⟩
        · refine Sat.bind_eq he3 (Sat.pure ?_)
          refine ⟨σ3, P3, h3, ?_, by rw [hl]; rfl, hh⟩
          simp only [iterStepsA, hna, hA]
        · exact h'.elim
      | some x =>
        obtain ⟨hd, a, d⟩ := x
        obtain ⟨it, hi2, hpres, rfl, rfl, hdd, hfit, hpas, hah, hprev, hna⟩ := hr
        cases p with
        | false =>
          simp only [Bool.false_eq_true, if_false]
          have hpas2 : passed g.pageCount σ2 P2 j2 (pre2 ++ [it]) = pas ++ [d] := by
            rw [← hpas]
            unfold passed
            rw [datas_append, List.append_assoc]
            simp [datas, hpres, hdd]
          have := ih (all := false) (by rw [hprev]; split <;> rfl) h2.qi hi2 hpas2 rfl
          rw [← hah]
          rcases this.cases with ⟨l, s3, he3, σ3, P3, h3, hA, hl, hh⟩ | ⟨_, _, _, h'⟩
          · refine Sat.bind_eq he3 (Sat.pure ?_)
            unfold iterate
            rw [if_pos (by rw [pad_eq]; exact hfit)]
            refine ⟨σ3, P3, h3, ?_, by rw [hl]; rfl, hh⟩
            simp only [iterStepsA, hna, Bool.false_eq_true, if_false, hA, hdd]
          · exact h'.elim
        | true =>
          simp only [if_true]
          have hnpf : md.np = false := by
            cases hnn : md.np with
            | false => rfl
            | true => have := hnp hnn (b, true) (by simp); simp at this
          rcases (entryPop_sat w h2 hmd hnpf hi2 hpres).cases with
            ⟨_, s3, he3, P3, it3, h3, hi3, _, _, _, hpas3, hah3, hpv3, hPp⟩ | ⟨_, _, _, _, hc, _⟩
          · refine Sat.bind_eq he3 ?_
            have := ih (all := all) (by
              rw [hpv3, hprev, hall2]; by_cases h : s1.qit.prev = .allPopped <;> simp [h]) h3.qi hi3 (hpas3.trans hpas) hah3
            rw [← hah]
            rcases this.cases with ⟨l, s3, he3, σ4, P4, h4, hA, hl, hh⟩ | ⟨_, _, _, h'⟩
            · refine Sat.bind_eq he3 (Sat.pure ?_)
              unfold iterate
              rw [if_pos (by rw [pad_eq]; exact hfit)]
              refine ⟨σ4, P4, h4, ?_, by rw [hl]; rfl, hh⟩
              rw [hPp] at hA
              simp only [iterStepsA, hna, if_true, hA, hdd]
            · exact h'.elim
          · rw [hcf] at hc; simp at hc
    · refine Sat.bind_eq (s' := s2) (a := .error e) (by rw [attempt_run, he]) ?_
      rw [hp, ha, hall1, hb1] at hE
      rcases hE with ⟨σ2, P2, j2, pre2, post2, n, h2, hi2, hpas, hah, hpv, rfl, hlt, hx⟩ | ⟨_, hc, _⟩
      · obtain ⟨⟨d, rest, hd, hn⟩, hna⟩ := hx hcf hdm
        simp only
        have := ih (all := all) (by rw [hpv, hall2]; by_cases h : s1.qit.prev = .allPopped <;> simp [h]) h2.qi hi2 hpas hah
        rcases this.cases with ⟨l, s3, he3, σ3, P3, h3, hA, hl, hh⟩ | ⟨_, _, _, h'⟩
        · refine Sat.bind_eq he3 (Sat.pure ?_)
          rw [hd] at hl hh ⊢
          unfold iterate
          rw [if_neg (by rw [pad_eq]; omega), hn]
          refine ⟨σ3, P3, h3, ?_, by rw [hl]; rfl, hh⟩
          simp only [iterStepsA, hna, iterStepsA_dropWhile, hA, hn]
        · exact h'.elim
      · rw [hcf] at hc; simp at hc

/-- A call that does not remove anything. -/
def Harmless {ρ : Type} : QCall ρ → Prop
  | .pop _ => False
  | .iterate steps => ∀ x ∈ steps, x.2 = false
  | _ => True

/-- Restarts use a fresh cache. -/
def Documented (g : Geo) : QCall (Cache K) → Prop
  | .restart c => FreshCache g.pageCount c
  | _ => True

theorem spaceOf_le {fl : Flash} {i : Nat} {pk : PK} (h : PageIs md g fl i pk) : spaceOf g i pk ≤ g.pageSize := by
  have hpo := page_order w i
  have hde := w.dataEnd_eq i
  have hb : g.dataEnd i - g.dataStart i ≤ g.pageSize := by
    have := w.dataEnd_add i
    have := pageSize_add w
    unfold Geo.dataStart
    omega
  cases pk with
  | blank => exact hb
  | junk => exact hb
  | corr => simp [spaceOf]
  | used c its f =>
    have u : Used md g fl i c its f := h
    have hu := u.bounds w
    cases c with
    | true => simp only [spaceOf]; split <;> omega
    | false => simp only [spaceOf]; split <;> omega

omit w in
theorem sum_bound (f : Nat → Nat) (b n : Nat) (h : ∀ i, i < n → f i ≤ b) : ((List.range n).map f).sum ≤ n * b := by
  induction n with
  | zero => simp
  | succ n ih =>
    rw [List.range_succ, List.map_append, List.sum_append, Nat.succ_mul]
    have := ih (fun i hi => h i (by omega))
    have := h n (by omega)
    simp; omega

theorem spaceSum_le {fl : Flash} (h : FS md g fl σ P) :
    ((List.range g.pageCount).map fun i => spaceOf g i (P i)).sum + g.pageCount * (2 * g.word) ≤ g.pageCount * g.eraseSize := by
  have h1 := sum_bound (fun i => spaceOf g i (P i)) g.pageSize g.pageCount (fun i hi => spaceOf_le w (h.pages i hi))
  rw [← pageSize_add w, Nat.mul_add]
  omega

/-- A queue without items is not full. -/
theorem PagesOk.full {len : Nat} (h : PagesOk md g P) (wf : σ.WF g.pageCount) (hcf : md.cf = true) (hdm : md.dmg = false) (hnr : ¬ Room g σ P len)
    (hn : 2 ≤ g.pageCount) : content g.pageCount σ P ≠ [] := by
  intro hc
  apply hnr
  by_cases hm : σ.m = 0
  · right; left
    have hp : σ.part = false := by
      cases hp : σ.part with
      | false => rfl
      | true => have := wf.part_pos hp; omega
    unfold Shape.cnt
    rw [hp]
    simp; omega
  · right; right
    refine ⟨hn, ?_⟩
    unfold content at hc
    obtain ⟨m, hm⟩ : ∃ m, σ.m = 1 + m := ⟨σ.m - 1, by omega⟩
    rw [hm, seg_add, seg_one, List.append_eq_nil_iff] at hc
    have h0 : ringPage g.pageCount σ.o 0 = σ.o := by
      unfold ringPage; have := wf.o_lt; rw [if_pos (by omega)]; omega
    rw [h0] at hc
    unfold allErased
    rw [List.all_eq_true]
    intro it hit
    rcases h.whole hcf hdm _ wf.o_lt it hit with hw | hw
    · simpa using hw
    · have : it.data ∈ datas (P σ.o).its := List.mem_map.2 ⟨it, List.mem_filter.2 ⟨hit, hw⟩, rfl⟩
      rw [hc.1] at this
      simp at this

/-- Every call does what the specification says, in a way that depends on the pages only. -/
theorem qcall_det {s : St K} (hcf : md.cf = true) (h : QI md g s σ P) (c : QCall (Cache K))
    (hdoc : Documented g c) (hnp : md.np = true → Harmless c) (hdm : md.dmg = false := by rfl) :
    ∃ σ' P', QI md g (qcall g c s).2 σ' P' ∧ qcallA g σ P c = ((qcall g c s).1, σ', P') ∧
      queueStep g.word g.eraseSize g.pageCount (content g.pageCount σ P) c (qcall g c s).1 (content g.pageCount σ' P') := by
  have hmd : md.OK g := ⟨by rw [hcf]; simp, by rw [hcf]; simp⟩
  have hco := h.fs.torn_free hcf
  cases c with
  | push d allow =>
    simp only [qcall, queueStep, fitsPage_iff w, qcallA]
    rcases (push_sat w h hmd (fun hc => by rw [hcf] at hc; simp at hc) allow (d := d)).cases with
      ⟨_, s1, he, σ', P', q', h1, _, _, h2, h3, h4, h5, hA⟩ | ⟨e, s1, he, _, σ', P', h1, hE⟩
    · rw [bind_ok he]
      obtain ⟨lost, h6, h7, h8⟩ := h4.spec w
      refine ⟨σ', P', h1.qi, ?_, Or.inr (Or.inr ⟨h2, rfl, lost, q', h6, h3, h7, h8⟩)⟩
      rw [hA hco]; rfl
    · rw [bind_err he]
      rcases hE with ⟨rfl, ha, htb, hnr, _, hcon, _, hA⟩ | ⟨rfl, htb, _, hcon, _, hA⟩ | ⟨_, hc, _⟩
      · refine ⟨σ', P', h1, ?_, Or.inr (Or.inl ⟨htb, ha, rfl, hcon, h.ok.full w h.fs.wf hcf hdm hnr⟩)⟩
        rw [hA hco]; rfl
      · refine ⟨σ', P', h1, ?_, Or.inl ⟨by rw [htb]; simp, rfl, hcon⟩⟩
        rw [hA hco]; rfl
      · rw [hcf] at hc; simp at hc
  | pop b =>
    have hnpf : md.np = false := by
      cases hnn : md.np with
      | false => rfl
      | true => exact (hnp hnn).elim
    simp only [qcall, queueStep, qcallA]
    rw [bind_ok (setBuf_run b s)]
    rcases (pop_sat w (h.buf b) hmd hnpf).cases with ⟨r, s1, he, σ', P', h1, _, _, _, hr⟩ | ⟨e, s1, he, _, _, σ', P', h1, hE⟩
    · rw [bind_ok he]
      cases r with
      | none =>
        obtain ⟨hq, hq', _, _, hA⟩ := hr
        refine ⟨σ', P', h1.qi, ?_, ?_⟩
        · rw [hA hco]; rfl
        · rw [hq, hq']; exact ⟨rfl, rfl⟩
      | some d =>
        obtain ⟨hq, hfit, hA⟩ := hr
        refine ⟨σ', P', h1.qi, ?_, ?_⟩
        · rw [hA hco]; rfl
        · rw [hq]
          simp only
          rw [if_pos (by rw [pad_eq]; exact hfit)]
          exact ⟨rfl, trivial⟩
    · rw [bind_err he]
      rcases hE with ⟨n, rfl, hlt, hcon, hx⟩ | ⟨_, hc, _⟩
      · obtain ⟨⟨d, rest, hd, hn⟩, hA⟩ := hx hcf hdm
        refine ⟨σ', P', h1, ?_, ?_⟩
        · rw [hA]; rfl
        · rw [hcon, hd]
          simp only at hlt ⊢
          rw [if_neg (by rw [pad_eq]; omega)]
          exact ⟨by rw [hn]; rfl, trivial⟩
      · rw [hcf] at hc; simp at hc
  | peek b =>
    simp only [qcall, queueStep, qcallA]
    rw [bind_ok (setBuf_run b s)]
    rcases (peek_sat w (h.buf b)).cases with ⟨r, s1, he, σ', P', h1, _, _, _, hcon, hA, hr, hfit⟩ | ⟨e, s1, he, _, _, σ', P', h1, hcon, hE⟩
    · rw [bind_ok he]
      refine ⟨σ', P', h1.qi, ?_, ?_⟩
      · rw [hA hco]; rfl
      · rw [hcon]
        cases hq : content g.pageCount σ P with
        | nil =>
          rw [hq] at hr
          exact ⟨by rw [hr]; rfl, rfl⟩
        | cons d rest =>
          rw [hq] at hr
          simp only
          rw [if_pos (by rw [pad_eq]; exact hfit d hr)]
          exact ⟨by rw [hr]; rfl, trivial⟩
    · rw [bind_err he]
      rcases hE with ⟨n, rfl, hlt, hx⟩ | ⟨_, hc⟩
      · obtain ⟨⟨d, rest, hd, hn⟩, hA⟩ := hx hcf hdm
        refine ⟨σ', P', h1, ?_, ?_⟩
        · rw [hA]; rfl
        · rw [hcon, hd]
          simp only at hlt ⊢
          rw [if_neg (by rw [pad_eq]; omega)]
          exact ⟨by rw [hn]; rfl, trivial⟩
      · rw [hcf] at hc; simp at hc
  | iterate steps =>
    simp only [qcall, queueStep, qcallA]
    rcases (iterNew_sat w h).cases with ⟨_, s1, he1, σ1, P1, pre1, post1, h1, hi1, hb1, hm1, hpas1, hah1, hpv1, hsame⟩ |
      ⟨e, s1, he1, rfl, hc, _⟩
    · rw [bind_ok he1]
      obtain ⟨rfl, rfl⟩ := hsame hco
      rcases (iterSteps_cf w hcf hdm hmd steps hnp (all := true) (by rw [hpv1]; rfl) h1.qi hi1 hpas1 hah1).cases with
        ⟨l, s2, he2, σ2, P2, h2, hA, hl, hh⟩ | ⟨_, _, _, h'⟩
      · rw [bind_ok he2]
        refine ⟨σ2, P2, h2, ?_, by rw [hl]; rfl, hh⟩
        have hdp : datas pre1 = [] := by simpa [passed] using hpas1
        have hits := hi1.its
        rw [ringPage_zero h.fs.wf.o_lt] at hits
        rw [hits, iterStepsA_skip hdp, hA]; rfl
      · exact h'.elim
    · rw [hcf] at hc; simp at hc
  | maxFit =>
    simp only [qcall, queueStep, qcallA]
    rcases (findMaxFit_sat w h).cases with ⟨r, s1, he, _, σ', P', h1, _, hcon, _, hr, hsame⟩ | ⟨e, s1, he, _, σ', P', h1, hcon, hE, hsame⟩
    · rw [bind_ok he]
      obtain ⟨rfl, rfl⟩ := hsame hcf
      refine ⟨_, _, h1.qi, ?_, rfl, Or.inl ⟨r, rfl⟩⟩
      rcases hr with ⟨h2, rfl⟩ | ⟨h2, h3, rfl⟩
      · rw [if_pos h2]; rfl
      · rw [if_neg (by omega), if_pos h3]; rfl
    · rw [bind_err he]
      obtain ⟨rfl, rfl⟩ := hsame hcf
      rcases hE with ⟨_, hc⟩ | ⟨rfl, hn, hm⟩
      · rw [hcf] at hc; simp at hc
      · refine ⟨_, _, h1, ?_, rfl, Or.inr ⟨hn, rfl⟩⟩
        rw [if_neg (by omega), if_neg (by omega)]
  | spaceLeft =>
    simp only [qcall, queueStep, qcallA]
    rcases (spaceLeft_sat w h).cases with ⟨r, s1, he, _, σ', P', h1, _, hcon, _, hr, hsame⟩ | ⟨e, s1, he, _, σ', P', h1, hcon, _, hc⟩
    · rw [bind_ok he]
      obtain ⟨rfl, rfl⟩ := hsame hcf
      exact ⟨_, _, h1.qi, by rw [hr]; rfl, rfl, r, rfl, by rw [hr]; exact spaceSum_le w h1.good.fs⟩
    · rw [hcf] at hc; simp at hc
  | restart c =>
    simp only [qcall, queueStep, qcallA]
    rw [bind_ok (modifyCache_run _ _)]
    exact ⟨σ, P, h.restart hdoc, rfl, rfl, rfl⟩

theorem qcall_cf {s : St K} {q : List (List Byte)} (hcf : md.cf = true) (h : Holds md g s q) (c : QCall (Cache K))
    (hdoc : Documented g c) (hnp : md.np = true → Harmless c) (hdm : md.dmg = false := by rfl) :
    ∃ q', queueStep g.word g.eraseSize g.pageCount q c (qcall g c s).1 q' ∧ Holds md g (qcall g c s).2 q' := by
  obtain ⟨σ, P, h, rfl⟩ := h
  obtain ⟨σ', P', h', _, hs⟩ := qcall_det w hcf h c hdoc hnp hdm
  exact ⟨_, hs, σ', P', h', rfl⟩

/-! ### Every call, with power loss -/

/-- Iterating, with the items passed and those ahead. -/
theorem iterSteps_crash (hmd : md.OK g) (hnp : md.np = false) (steps : List (List Byte × Bool)) :
    ∀ {s : St K} {σ : Shape} {P : Nat → PK} {j : Nat} {pre post : List It} {pas ahd : List (List Byte)},
      QI md g s σ P → IterAt g s.qit σ P j pre post →
      passed g.pageCount σ P j pre = pas → ahead g.pageCount σ P j post = ahd →
      Sat (iterSteps g steps) s
        (fun l s' => ∃ q', Holds md g s' q' ∧ iterateTorn g.word g.eraseSize pas ahd steps l q')
        (fun e s' => e = .shutoff ∧ md.cf = false ∧ ∃ q', Holds md g s' q' ∧ ∃ done rest l, steps = done ++ rest ∧
          iterateTorn g.word g.eraseSize pas ahd done l q') := by
  have hcontent : ∀ {s : St K} {σ : Shape} {P : Nat → PK} {j : Nat} {pre post : List It} {pas ahd : List (List Byte)},
      QI md g s σ P → IterAt g s.qit σ P j pre post →
      passed g.pageCount σ P j pre = pas → ahead g.pageCount σ P j post = ahd → content g.pageCount σ P = pas ++ ahd := by
    intro s σ P j pre post pas ahd h hi hp ha
    rcases (checkDirty_sat h).cases with ⟨_, s0, he0, h0, hst0, hfl0, hd0, _⟩ | ⟨_, _, _, h'⟩
    · rw [IterAt.content w h0 hi, hp, ha]
    · exact h'.elim
  induction steps with
  | nil =>
    intro s σ P j pre post pas ahd h hi hp ha
    exact Sat.pure ⟨pas ++ ahd, ⟨σ, P, h, hcontent h hi hp ha⟩, rfl, rfl⟩
  | cons st steps ih =>
    obtain ⟨b, p⟩ := st
    intro s σ P j pre post pas ahd h hi hp ha
    unfold iterSteps
    refine Sat.bind_eq (setBuf_run b s) ?_
    generalize hs1 : ({ s with buf := b } : St K) = s1
    have h1 : QI md g s1 σ P := by rw [← hs1]; exact h.buf b
    have hi1 : IterAt g s1.qit σ P j pre post := by rw [← hs1]; exact hi
    have hb1 : s1.buf = b := by rw [← hs1]
    rcases (iterNext_sat w h1 hi1).cases with ⟨r, s2, he, σ2, P2, j2, pre2, post2, h2, hbl, hm, hd2, hr⟩ | ⟨e, s2, he, hbl, hm, hE⟩
    · refine Sat.bind_eq (s' := s2) (a := .ok r) (by rw [attempt_run, he]) ?_
      rw [hp, ha] at hr
      cases r with
      | none =>
        obtain ⟨_, _, hi2, hahd, hpas, hah2, _⟩ := hr
        have := ih h2.qi hi2 hpas hah2
        subst hahd
        rcases this.cases with ⟨l, s3, he3, q', hh, hl⟩ | ⟨e, s3, he3, rfl, hcf, q', hh, done, rest, l, hs, hl⟩
        · refine Sat.bind_eq he3 (Sat.pure ?_)
          exact ⟨q', hh, Or.inl ⟨rfl, l, rfl, hl⟩⟩
        · exact Sat.of_err (bind_err he3) ⟨rfl, hcf, q', hh, (b, p) :: done, rest, .ok none :: l, by rw [hs]; rfl,
            Or.inl ⟨rfl, l, rfl, hl⟩⟩
      | some x =>
        obtain ⟨hd, a, d⟩ := x
        obtain ⟨it, hi2, hpres, rfl, rfl, hdd, hfit, hpas, hah, hprev⟩ := hr
        rw [hb1] at hfit
        have hpas2 : passed g.pageCount σ2 P2 j2 (pre2 ++ [it]) = pas ++ [d] := by
          rw [← hpas]
          unfold passed
          rw [datas_append, List.append_assoc]
          simp [datas, hpres, hdd]
        cases p with
        | false =>
          simp only [Bool.false_eq_true, if_false]
          have := ih h2.qi hi2 hpas2 rfl
          rw [← hah]
          rcases this.cases with ⟨l, s3, he3, q', hh, hl⟩ | ⟨e, s3, he3, rfl, hcf, q', hh, done, rest, l, hs, hl⟩
          · refine Sat.bind_eq he3 (Sat.pure ?_)
            exact ⟨q', hh, Or.inr (Or.inl ⟨d, _, l, rfl, hfit, rfl, hl⟩)⟩
          · exact Sat.of_err (bind_err he3) ⟨rfl, hcf, q', hh, (b, false) :: done, rest, .ok (some d) :: l, by rw [hs]; rfl,
              Or.inr (Or.inl ⟨d, _, l, rfl, hfit, rfl, hl⟩)⟩
        | true =>
          simp only [if_true]
          rcases (entryPop_sat w h2 hmd hnp hi2 hpres).cases with
            ⟨_, s3, he3, P3, it3, h3, hi3, _, _, _, hpas3, hah3, _⟩ | ⟨e, s3, he3, rfl, hcf, _, _, P3, h3, hE⟩
          · refine Sat.bind_eq he3 ?_
            have := ih h3.qi hi3 (hpas3.trans hpas) hah3
            rw [← hah]
            rcases this.cases with ⟨l, s3, he3, q', hh, hl⟩ | ⟨e, s3, he3, rfl, hcf, q', hh, done, rest, l, hs, hl⟩
            · refine Sat.bind_eq he3 (Sat.pure ?_)
              exact ⟨q', hh, Or.inr (Or.inl ⟨d, _, l, rfl, hfit, rfl, hl⟩)⟩
            · exact Sat.of_err (bind_err he3) ⟨rfl, hcf, q', hh, (b, true) :: done, rest, .ok (some d) :: l, by rw [hs]; rfl,
                Or.inr (Or.inl ⟨d, _, l, rfl, hfit, rfl, hl⟩)⟩
          · refine Sat.of_err (bind_err he3) ⟨rfl, hcf, content g.pageCount σ2 P3, ⟨σ2, P3, h3, rfl⟩, ?_⟩
            rw [← hah]
            rcases hE with hE | hE
            · refine ⟨[(b, true)], steps, [.ok (some d)], rfl, Or.inr (Or.inl ⟨d, _, [], rfl, hfit, rfl, rfl, ?_⟩)⟩
              rw [hE, hpas]; rfl
            · refine ⟨[], (b, true) :: steps, [], rfl, rfl, ?_⟩
              rw [hE, IterAt.content w h2 hi2, hpas2]
              simp
    · refine Sat.bind_eq (s' := s2) (a := .error e) (by rw [attempt_run, he]) ?_
      rw [hp, ha] at hE
      rcases hE with ⟨σ2, P2, j2, pre2, post2, n, h2, hi2, hpas, hah, _, rfl, hlt, _⟩ | ⟨rfl, hcf, σ2, P2, h2, hcon⟩
      · rw [hb1] at hlt
        simp only
        have := ih h2.qi hi2 hpas hah
        rcases this.cases with ⟨l, s3, he3, q', hh, hl⟩ | ⟨e, s3, he3, rfl, hcf, q', hh, done, rest, l, hs, hl⟩
        · refine Sat.bind_eq he3 (Sat.pure ?_)
          exact ⟨q', hh, Or.inr (Or.inr ⟨n, l, hlt.1, hlt.2, rfl, hl⟩)⟩
        · exact Sat.of_err (bind_err he3) ⟨rfl, hcf, q', hh, (b, p) :: done, rest, .error (.bufferTooSmall n) :: l, by rw [hs]; rfl,
            Or.inr (Or.inr ⟨n, l, hlt.1, hlt.2, rfl, hl⟩)⟩
      · exact Sat.throw ⟨rfl, hcf, pas ++ ahd, ⟨σ2, P2, h2, hcon⟩, [], (b, p) :: steps, [], rfl, rfl, rfl⟩

/-- The data can be recognised when torn. -/
def TearProof (D : List Byte → Prop) {ρ : Type} : QCall ρ → Prop
  | .push d _ => NoTorn D d
  | _ => True

/-- Every call, whatever happened before. -/
theorem qcall_any {s : St K} {q : List (List Byte)} (hnp : md.np = false) (hmd : md.OK g)
    (h : Holds md g s q) (c : QCall (Cache K)) (hdoc : Documented g c) (hnt : md.cf = false → TearProof md.was c) :
    ∃ q', (crashStep g.word g.eraseSize g.pageCount q c (qcall g c s).1 q' ∨
        (c = .maxFit ∧ g.pageCount = 1 ∧ (qcall g c s).1 = .error .corrupted ∧ q' = q)) ∧
      (md.cf = true → (qcall g c s).1 ≠ .error .shutoff) ∧ Holds md g (qcall g c s).2 q' := by
  obtain ⟨σ, P, h, rfl⟩ := h
  cases c with
  | push d allow =>
    simp only [qcall, crashStep, fitsPage_iff w]
    rcases (push_sat w h hmd hnt allow (d := d)).cases with
      ⟨_, s1, he, σ', P', q', h1, _, _, h2, h3, h4, h5, _⟩ | ⟨e, s1, he, _, σ', P', h1, hE⟩
    · rw [bind_ok he]
      obtain ⟨lost, h6, h7, h8⟩ := h4.spec w
      exact ⟨q' ++ [d], Or.inl (Or.inr (Or.inr (Or.inl ⟨h2, rfl, lost, q', h6, rfl, h7, h8⟩))), fun _ => by simp, σ', P', h1.qi, h3⟩
    · rw [bind_err he]
      rcases hE with ⟨rfl, ha, htb, _, _, hcon, _⟩ | ⟨rfl, htb, _, hcon, _⟩ | ⟨rfl, hc, q', hdr, hcon⟩
      · exact ⟨_, Or.inl (Or.inr (Or.inl ⟨htb, ha, rfl, rfl⟩)), fun _ => by simp, σ', P', h1, hcon⟩
      · exact ⟨_, Or.inl (Or.inl ⟨by rw [htb]; simp, rfl, rfl⟩), fun _ => by simp, σ', P', h1, hcon⟩
      · obtain ⟨lost, h6, h7, h8⟩ := hdr.spec w
        exact ⟨_, Or.inl (Or.inr (Or.inr (Or.inr ⟨rfl, lost, q', h6, hcon, h7, h8⟩))), fun h => by rw [hc] at h; simp at h, σ', P', h1, rfl⟩
  | pop b =>
    simp only [qcall, crashStep]
    rw [bind_ok (setBuf_run b s)]
    rcases (pop_sat w (h.buf b) hmd hnp).cases with ⟨r, s1, he, σ', P', h1, _, _, _, hr⟩ | ⟨e, s1, he, _, _, σ', P', h1, hE⟩
    · rw [bind_ok he]
      cases r with
      | none => exact ⟨_, Or.inl (Or.inl ⟨hr.1, rfl, hr.2.1⟩), fun _ => by simp, σ', P', h1.qi, rfl⟩
      | some d => exact ⟨_, Or.inl (Or.inr (Or.inl ⟨d, hr.1, rfl, hr.2.1⟩)), fun _ => by simp, σ', P', h1.qi, rfl⟩
    · rw [bind_err he]
      rcases hE with ⟨n, rfl, hlt, hcon, _⟩ | ⟨rfl, hc, hx⟩
      · exact ⟨_, Or.inl (Or.inr (Or.inr (Or.inl ⟨n, hlt.1, hlt.2, rfl, rfl⟩))), fun _ => by simp, σ', P', h1, hcon⟩
      · exact ⟨_, Or.inl (Or.inr (Or.inr (Or.inr ⟨rfl, hx⟩))), fun h => by rw [hc] at h; simp at h, σ', P', h1, rfl⟩
  | peek b =>
    simp only [qcall, crashStep]
    rw [bind_ok (setBuf_run b s)]
    rcases (peek_sat w (h.buf b)).cases with ⟨r, s1, he, σ', P', h1, _, _, _, hcon, _, hr, hfit⟩ | ⟨e, s1, he, _, _, σ', P', h1, hcon, hE⟩
    · rw [bind_ok he]
      exact ⟨_, Or.inl ⟨rfl, Or.inl ⟨by rw [hr]; rfl, fun d hd => hfit d (by rw [hr, hd])⟩⟩, fun _ => by simp, σ', P', h1.qi, hcon⟩
    · rw [bind_err he]
      rcases hE with ⟨n, rfl, hlt, _⟩ | ⟨rfl, hc⟩
      · exact ⟨_, Or.inl ⟨rfl, Or.inr (Or.inl ⟨n, hlt.1, hlt.2, rfl⟩)⟩, fun _ => by simp, σ', P', h1, hcon⟩
      · exact ⟨_, Or.inl ⟨rfl, Or.inr (Or.inr rfl)⟩, fun h => by rw [hc] at h; simp at h, σ', P', h1, hcon⟩
  | iterate steps =>
    simp only [qcall, crashStep]
    rcases (iterNew_sat w h).cases with ⟨_, s1, he1, σ1, P1, pre1, post1, h1, hi1, hb1, hm1, hpas1, hah1, hpv1⟩ |
      ⟨e, s1, he1, rfl, hc, _, _, σ1, P1, h1, hcon⟩
    · rw [bind_ok he1]
      rcases (iterSteps_crash w hmd hnp steps h1.qi hi1 hpas1 hah1).cases with ⟨l, s2, he2, q', hh, hl⟩ |
        ⟨e, s2, he2, rfl, hc, q', hh, done, rest, l, hs, hl⟩
      · rw [bind_ok he2]
        exact ⟨q', Or.inl (Or.inl ⟨l, rfl, hl⟩), fun _ => by simp, hh⟩
      · rw [bind_err he2]
        exact ⟨q', Or.inl (Or.inr ⟨rfl, done, rest, l, hs, hl⟩), fun h => by rw [hc] at h; simp at h, hh⟩
    · rw [bind_err he1]
      exact ⟨_, Or.inl (Or.inr ⟨rfl, [], steps, [], rfl, rfl, rfl⟩), fun h => by rw [hc] at h; simp at h, σ1, P1, h1, hcon⟩
  | maxFit =>
    simp only [qcall, crashStep]
    rcases (findMaxFit_sat w h).cases with ⟨r, s1, he, _, σ', P', h1, _, hcon, _⟩ | ⟨e, s1, he, _, σ', P', h1, hcon, hE, _⟩
    · rw [bind_ok he]
      exact ⟨_, Or.inl ⟨rfl, Or.inl ⟨r, rfl⟩⟩, fun _ => by simp, σ', P', h1.qi, hcon⟩
    · rw [bind_err he]
      rcases hE with ⟨rfl, hc⟩ | ⟨rfl, hn, _⟩
      · exact ⟨_, Or.inl ⟨rfl, Or.inr rfl⟩, fun h => by rw [hc] at h; simp at h, σ', P', h1, hcon⟩
      · exact ⟨_, Or.inr ⟨trivial, hn, rfl, rfl⟩, fun _ => by simp, σ', P', h1, hcon⟩
  | spaceLeft =>
    simp only [qcall, crashStep]
    rcases (spaceLeft_sat w h).cases with ⟨r, s1, he, _, σ', P', h1, _, hcon, _, hr, _⟩ | ⟨e, s1, he, _, σ', P', h1, hcon, rfl, hc⟩
    · rw [bind_ok he]
      exact ⟨_, Or.inl ⟨rfl, Or.inl ⟨r, rfl, by rw [hr]; exact spaceSum_le w h1.good.fs⟩⟩, fun _ => by simp, σ', P', h1.qi, hcon⟩
    · rw [bind_err he]
      exact ⟨_, Or.inl ⟨rfl, Or.inr rfl⟩, fun h => by rw [hc] at h; simp at h, σ', P', h1, hcon⟩
  | restart c =>
    simp only [qcall, crashStep]
    rw [bind_ok (modifyCache_run _ _)]
    exact ⟨_, Or.inl ⟨rfl, rfl⟩, fun _ => by simp, σ, P, h.restart hdoc, rfl⟩

theorem qcall_crash {s : St K} {q : List (List Byte)} (hcf : md.cf = false) (hnp : md.np = false) (hmd : md.OK g)
    (h : Holds md g s q) (c : QCall (Cache K)) (hdoc : Documented g c) (hnt : TearProof md.was c) :
    ∃ q', crashStep g.word g.eraseSize g.pageCount q c (qcall g c s).1 q' ∧ Holds md g (qcall g c s).2 q' := by
  obtain ⟨q', h1, _, h2⟩ := qcall_any w hnp hmd h c hdoc (fun _ => hnt)
  rcases h1 with h1 | ⟨_, hn, _⟩
  · exact ⟨q', h1, h2⟩
  · have := hmd.pages hcf; omega

/-! ### Runs -/

omit w in
/-- The page-level outcome of a run. -/
def qrunA (g : Geo) : List (QCall (Cache K)) → Shape → (Nat → PK) → List (Except Err QAnswer) × Shape × (Nat → PK)
  | [], σ, P => ([], σ, P)
  | c :: cs, σ, P =>
    let r := qcallA g σ P c
    let rs := qrunA g cs r.2.1 r.2.2
    (r.1 :: rs.1, rs.2)

theorem qrun_det (hcf : md.cf = true) (cs : List (QCall (Cache K))) : ∀ {s : St K} {σ : Shape} {P : Nat → PK}, QI md g s σ P →
    (∀ c ∈ cs, Documented g c) → (md.np = true → ∀ c ∈ cs, Harmless c) → (hdm : md.dmg = false := by rfl) →
    ∃ σ' P', qrunA g cs σ P = ((qrun g cs s).1, σ', P') ∧ QI md g (qrun g cs s).2 σ' P' ∧
      Runs (queueStep g.word g.eraseSize g.pageCount) (content g.pageCount σ P) cs (qrun g cs s).1 (content g.pageCount σ' P') := by
  induction cs with
  | nil => intro s σ P h _ _ _; exact ⟨σ, P, rfl, h, rfl, rfl⟩
  | cons c cs ih =>
    intro s σ P h h1 h2 hdm
    obtain ⟨σ1, P1, hq1, hA1, hs1⟩ := qcall_det w hcf h c (h1 c (by simp)) (fun hn => h2 hn c (by simp)) hdm
    obtain ⟨σ2, P2, hA2, hq2, hr⟩ := ih hq1 (fun c hc => h1 c (by simp [hc])) (fun hn c hc => h2 hn c (by simp [hc])) hdm
    refine ⟨σ2, P2, ?_, hq2, _, _, _, rfl, hs1, hr⟩
    simp only [qrunA, qrun, hA1, hA2]

theorem qrun_cf (hcf : md.cf = true) (cs : List (QCall (Cache K))) : ∀ {s : St K} {q : List (List Byte)}, Holds md g s q →
    (∀ c ∈ cs, Documented g c) → (md.np = true → ∀ c ∈ cs, Harmless c) → (hdm : md.dmg = false := by rfl) →
    ∃ q', Runs (queueStep g.word g.eraseSize g.pageCount) q cs (qrun g cs s).1 q' ∧ Holds md g (qrun g cs s).2 q' := by
  induction cs with
  | nil => intro s q h _ _ _; exact ⟨q, ⟨rfl, rfl⟩, h⟩
  | cons c cs ih =>
    intro s q h h1 h2 hdm
    obtain ⟨q1, hs, hq⟩ := qcall_cf w hcf h c (h1 c (by simp)) (fun hn => h2 hn c (by simp)) hdm
    obtain ⟨q2, hr, hq2⟩ := ih hq (fun c hc => h1 c (by simp [hc])) (fun hn c hc => h2 hn c (by simp [hc])) hdm
    exact ⟨q2, ⟨_, _, q1, rfl, hs, hr⟩, hq2⟩

theorem qrun_crash (hcf : md.cf = false) (hnp : md.np = false) (hmd : md.OK g) (cs : List (QCall (Cache K) × Option Nat)) :
    ∀ {s : St K} {q : List (List Byte)}, Holds md g s q →
    (∀ c ∈ cs, Documented g c.1) → (∀ c ∈ cs, TearProof md.was c.1) →
    ∃ q', Runs (crashStep g.word g.eraseSize g.pageCount) q (cs.map (·.1)) (qrunPower g cs s).1 q' ∧
      Holds md g (qrunPower g cs s).2 q' := by
  induction cs with
  | nil => intro s q h _ _; exact ⟨q, ⟨rfl, rfl⟩, h⟩
  | cons c cs ih =>
    obtain ⟨c, fuel⟩ := c
    rintro s q ⟨σ, P, h, hc⟩ h1 h2
    obtain ⟨q1, hs, hq⟩ := qcall_crash w hcf hnp hmd ⟨σ, P, h.power hcf fuel, hc⟩ c (h1 _ List.mem_cons_self) (h2 _ List.mem_cons_self)
    obtain ⟨q2, hr, hq2⟩ := ih hq (fun c hc => h1 c (by simp [hc])) (fun c hc => h2 c (by simp [hc]))
    exact ⟨q2, ⟨_, _, q1, rfl, hs, hr⟩, hq2⟩

end

end SeqStorage
