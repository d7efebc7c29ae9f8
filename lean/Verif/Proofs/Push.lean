import Verif.Proofs.QueueInv
import Verif.Props.Crc
/-
Pushing to the queue.
-/

set_option linter.unusedSectionVars false

namespace SeqStorage
open M

variable {K : Type} [DecidableEq K] {α β : Type}
variable {md : Mode} {g : Geo} {σ σ' : Shape} {P P' : Nat → PK}

/-- The flash space an item takes. -/
def foot (g : Geo) (d : List Byte) : Nat := g.hl + g.roundUp d.length

/-- The free address of a page. -/
def freeOf (g : Geo) (i : Nat) : PK → Nat
  | .used _ _ f => f
  | _ => g.dataStart i

/-- The pages in use once there is a page to write to. -/
def Shape.cnt (σ : Shape) : Nat := if σ.part then σ.m else σ.m + 1

/-- There is room for an item of `len` bytes without giving up any data. -/
def Room (g : Geo) (σ : Shape) (P : Nat → PK) (len : Nat) : Prop :=
  Fits g (σ.front g.pageCount) (freeOf g (σ.front g.pageCount) (P (σ.front g.pageCount))) len ∨
    σ.cnt < g.pageCount ∨ (2 ≤ g.pageCount ∧ allErased (P σ.o) = true)

/-- What an overwriting push may do to the older items. -/
def Drop (g : Geo) (room : Prop) (allow : Bool) (q q' : List (List Byte)) : Prop :=
  q' = q ∨ (allow = true ∧ ¬ room ∧ ∃ p, q = p ++ q' ∧ (p.map (foot g)).sum ≤ g.pageSize)

/-! The effect of `push` on the pages, when none of them is unreadable. -/

/-- The page that is written to has its start marker. -/
def prepS (σ : Shape) : Shape := if σ.part then σ else σ.openFront
def prepP (g : Geo) (σ : Shape) (P : Nat → PK) : Nat → PK :=
  if σ.part then P
  else upd P (σ.front g.pageCount) (.used false [] (g.dataStart (σ.front g.pageCount)))

/-- A page after its end marker is written. -/
def PK.close : PK → PK
  | .used _ its f => .used true its f
  | pk => pk

/-- Closing the page that is written to and starting the next. -/
def turnS (σ : Shape) : Shape := σ.closeFront.openFront
def turnP (g : Geo) (σ : Shape) (P : Nat → PK) : Nat → PK :=
  prepP g σ.closeFront (upd P (σ.front g.pageCount) (P (σ.front g.pageCount)).close)

/-- Moving on to the next page. -/
def advA (g : Geo) (σ : Shape) (P : Nat → PK) (allow : Bool) : Option (Shape × (Nat → PK)) :=
  if σ.m < g.pageCount then some (turnS σ, turnP g σ P)
  else if g.pageCount = 1 then
    if allow then some (prepS σ.dropOnly, prepP g σ.dropOnly (upd P 0 .blank)) else none
  else if allow = true ∨ allErased (P σ.o) = true then
    some (turnS (σ.dropOldest g.pageCount), turnP g (σ.dropOldest g.pageCount) (upd P σ.o .blank))
  else none

/-- A page with one more item. -/
def PK.add (g : Geo) (d : List Byte) : PK → PK
  | .used c its f => .used c (its ++ [⟨f, Header.ofData d, d⟩]) ((Header.ofData d).next g f)
  | pk => pk

/-- Writing an item. -/
def putP (g : Geo) (σ : Shape) (P : Nat → PK) (d : List Byte) : Nat → PK :=
  upd P (σ.front g.pageCount) ((P (σ.front g.pageCount)).add g d)

/-- All of `push`. -/
def pushA (g : Geo) (σ : Shape) (P : Nat → PK) (d : List Byte) (allow : Bool) : Except Err Unit × Shape × (Nat → PK) :=
  if g.tooBig d.length then (.error .itemTooBig, σ, P)
  else if Fits g (σ.front g.pageCount) (freeOf g (σ.front g.pageCount) (P (σ.front g.pageCount))) d.length then
    (.ok (), prepS σ, putP g (prepS σ) (prepP g σ P) d)
  else match advA g (prepS σ) (prepP g σ P) allow with
    | some (σ', P') => (.ok (), σ', putP g σ' P' d)
    | none => (.error .fullStorage, prepS σ, prepP g σ P)

section
variable (w : g.WF)
include w

theorem Layout.sum_le {cf : Bool} {mem : Nat → Byte} {e a f : Nat} {its : List It} (l : Layout cf g mem e a its f) :
    a + (its.map (fun it => foot g it.data)).sum ≤ f := by
  induction l with
  | done h => simp
  | gap _ h _ ih => omega
  | @item a f its hd h t ih =>
    simp only [List.map_cons, List.sum_cons, foot, dataAt_length]
    unfold Header.next at ih
    simp only [foot] at ih
    omega

omit w in
theorem datas_sum_le (its : List It) : ((datas its).map (foot g)).sum ≤ (its.map (fun it => foot g it.data)).sum := by
  induction its with
  | nil => simp
  | cons x l ih =>
    rw [datas_cons]
    split <;> simp <;> omega

/-- The items of one page take at most the space of a page. -/
theorem page_sum {fl : Flash} {i : Nat} {pk : PK} (h : PageIs md g fl i pk) : ((datas pk.its).map (foot g)).sum ≤ g.pageSize := by
  cases pk with
  | used c its f =>
    have u : Used md g fl i c its f := h
    have h1 := Layout.sum_le w u.layout
    have h2 := u.bounds w
    have h3 := datas_sum_le (g := g) its
    have := w.dataEnd_eq i
    simp only [PK.its]
    omega
  | _ => simp [PK.its]

theorem notTooBig {len : Nat} (h : g.tooBig len = false) (i : Nat) :
    len ≤ 65535 ∧ Fits g i (g.dataStart i) len := by
  have hpo := page_order w i
  unfold Geo.tooBig at h
  simp only [Bool.or_eq_false_iff, decide_eq_false_iff_not, Nat.not_lt] at h
  refine ⟨h.1, ?_⟩
  unfold Fits
  have hds := w.dataEnd_eq i
  have hdv : g.word ∣ g.pageSize - g.hl := by
    have h1 : g.word ∣ g.pageSize := by
      have : g.pageSize = g.dataEnd i - g.dataStart i := by omega
      rw [this]; exact Nat.dvd_sub (w.dataEnd_word i) (w.dataStart_word i)
    exact Nat.dvd_sub h1 w.hl_dvd
  have := w.roundUp_mono h.2
  rw [w.roundUp_of_dvd hdv] at this
  omega

theorem tooBig_iff {len : Nat} : g.tooBig len = true ↔ 65535 < len ∨ g.pageSize < g.hl + g.roundUp len := by
  have hpo := page_order w 0
  have hds := w.dataEnd_eq 0
  constructor
  · intro h
    unfold Geo.tooBig at h
    simp only [Bool.or_eq_true, decide_eq_true_eq] at h
    rcases h with h | h
    · exact Or.inl h
    · have := w.le_roundUp len
      exact Or.inr (by omega)
  · intro h
    cases ht : g.tooBig len with
    | true => rfl
    | false =>
      have := notTooBig w ht 0
      unfold Fits at this
      omega

omit w in
theorem ofData_len {d : List Byte} (h : d.length ≤ 65535) : d.length = (Header.ofData d).len.toNat := by
  simp only [Header.ofData, BitVec.toNat_ofNat]; omega

omit w in
theorem ofData_present (a : Nat) (d : List Byte) : It.present ⟨a, Header.ofData d, d⟩ = true := by
  simp [It.present, Header.ofData]

/-- Write the item and be done. -/
theorem writeNew_sat {s : St K} (h : QG md g s σ P) (hmd : md.OK g) (hp : σ.part = true) {its : List It} {f : Nat}
    (hpk : P (σ.front g.pageCount) = .used false its f) {d : List Byte} (hl : d.length ≤ 65535)
    (hfit : Fits g (σ.front g.pageCount) f d.length) (hnt : md.cf = false → NoTorn md.was d) :
    Sat (do writeNew g f d; unmarkDirty) s
      (fun _ s' => ∃ P', QG md g s' σ P' ∧ s'.cache.dirty = false ∧ Still s s' ∧
        content g.pageCount σ P' = content g.pageCount σ P ++ [d] ∧ P' = putP g σ P d)
      (fun e s' => e = .shutoff ∧ md.cf = false ∧ Still s s' ∧ ∃ P', QI md g s' σ P' ∧
        (content g.pageCount σ P' = content g.pageCount σ P ∨
          content g.pageCount σ P' = content g.pageCount σ P ++ [d])) := by
  have hfl := Shape.front_lt h.good.fs.wf
  have hlen := ofData_len hl
  have hlow := Props.stored_checksum_low_byte d
  have hnx : (Header.ofData d).next g f ≤ g.dataEnd (σ.front g.pageCount) := by
    unfold Header.next; rw [← hlen]; exact hfit
  have hw := h.ok.whole
  have hits : (P (σ.front g.pageCount)).its = its := by rw [hpk]; rfl
  unfold writeNew
  rcases (writeItem w h.good hmd hfl hpk hlen hlow.1 hlow.2 hnx (by rw [h.ok.free]; simp) (fun hc _ => ⟨d, (hnt hc).2, rfl⟩)).cases with
    ⟨a, s1, he, hfr, her, hps, hg⟩ | ⟨e, s1, he, rfl, hfr, her, hE⟩
  · refine Sat.bind_eq he ?_
    have hok : PagesOk md g (upd P (σ.front g.pageCount)
        (.used false (its ++ [⟨f, Header.ofData d, d⟩]) ((Header.ofData d).next g f))) := by
      apply h.ok.upd (by simp)
      intro hc hdm it hit
      simp only [PK.its, List.mem_append, List.mem_singleton] at hit
      rcases hit with hit | rfl
      · exact hw hc hdm _ hfl it (by rw [hits]; exact hit)
      · exact Or.inr (ofData_present _ _)
    rcases (unmark_sat (s := s1) ⟨hg, hok, by rw [her]; exact h.log⟩).cases with ⟨_, s2, he2, h2, h3, h4, h5⟩ | ⟨_, _, _, h'⟩
    · refine Sat.of_ok he2 ⟨_, h2, h5, hfr.still.trans h3.still, ?_, by unfold putP; rw [hpk]; rfl⟩
      apply content_upd_front h.good.fs.wf hp hits
      simp [PK.its, datas_append, datas_cons, ofData_present]
    · exact h'.elim
  · refine Sat.of_err (bind_err he) ?_
    have hcr : md.cf = false := by
      rcases hE with ⟨_, h'⟩ | ⟨_, h'⟩ <;> exact h'.crash
    refine ⟨rfl, hcr, hfr.still, ?_⟩
    rcases hE with ⟨f', hD⟩ | ⟨k, hD⟩
    · refine ⟨_, hD.qi (h.ok.upd (by simp) (fun hc => by rw [hcr] at hc; simp at hc)), Or.inl ?_⟩
      have := content_upd_front h.good.fs.wf hp hits (pk := .used false its f') (new := []) (by simp [PK.its])
      rw [this, List.append_nil]
    · refine ⟨_, hD.qi (h.ok.upd (by simp) (fun hc => by rw [hcr] at hc; simp at hc)), ?_⟩
      have hcu := fun new => content_upd_front h.good.fs.wf hp hits (P := P)
        (pk := .used false (its ++ [⟨f, Header.ofData d, tornData d k⟩]) ((Header.ofData d).next g f)) (new := new)
      cases hpr : It.present ⟨f, Header.ofData d, tornData d k⟩ with
      | false =>
        left
        rw [hcu [] (by simp [PK.its, datas_append, datas_cons, hpr]), List.append_nil]
      | true =>
        right
        apply hcu [d]
        have : tornData d k = d := by
          apply (hnt hcr).1 k
          exact of_decide_eq_true hpr
        simp [PK.its, datas_append, datas_cons, ofData_present, this]

/-- A page that can be opened for writing is blank. -/
theorem front_blank {s : St K} (h : QG md g s σ P) (hp : σ.part = false) :
    P (σ.front g.pageCount) = .blank ∨ P (σ.front g.pageCount) = .corr := by
  have wf := h.good.fs.wf
  have hfl := Shape.front_lt wf
  have hst := h.good.fs.st _ hfl
  have hfp := CalcOk.front_pos wf
  rw [hp] at hfp
  simp only [Bool.false_eq_true, if_false] at hfp
  have hnc : σ.st g.pageCount (σ.front g.pageCount) ≠ .ok .closed := by
    intro h'; rw [Shape.st_closed] at h'; omega
  have hnp : σ.st g.pageCount (σ.front g.pageCount) ≠ .ok .partialOpen := by
    intro h'; rw [Shape.st_part, hp] at h'; simp at h'
  cases hpk : P (σ.front g.pageCount) with
  | blank => exact Or.inl rfl
  | corr => exact Or.inr rfl
  | junk => exact absurd hpk (h.ok.nojunk _ hfl)
  | used c its f =>
    rw [hpk] at hst
    cases c
    · exact absurd hst.symm hnp
    · exact absurd hst.symm hnc

theorem part_used {s : St K} (h : QG md g s σ P) (hp : σ.part = true) :
    ∃ its f, P (σ.front g.pageCount) = .used false its f := by
  have wf := h.good.fs.wf
  have hfl := Shape.front_lt wf
  have hst := h.good.fs.st _ hfl
  rw [CalcOk.st_front wf (fun h => by rw [hp] at h; simp at h), hp, if_pos rfl] at hst
  cases hpk : P (σ.front g.pageCount) with
  | used c its f =>
    cases c
    · exact ⟨its, f, rfl⟩
    · rw [hpk] at hst; simp [PK.st] at hst
  | _ => rw [hpk] at hst; simp [PK.st] at hst

/-- Make sure the page to write to has its start marker. -/
theorem prepare {s : St K} (h : QG md g s σ P) :
    Sat (partialClosePage g (σ.front g.pageCount)) s
      (fun _ s' => ∃ σ' P' its f, QG md g s' σ' P' ∧ Still s s' ∧ σ'.part = true ∧ σ'.m = σ.cnt ∧
        σ'.front g.pageCount = σ.front g.pageCount ∧ σ'.o = σ.o ∧ σ'.corr = σ.corr ∧
        P' (σ.front g.pageCount) = .used false its f ∧ f = freeOf g (σ.front g.pageCount) (P (σ.front g.pageCount)) ∧
        (σ.part = false → its = []) ∧
        Anchored (σ.front g.pageCount) s'.cache.ps ∧ content g.pageCount σ' P' = content g.pageCount σ P ∧
        (∀ j, j ≠ σ.front g.pageCount → P' j = P j) ∧ (s.cache.dirty = false → σ.part = true → s'.cache.dirty = false) ∧
        σ' = prepS σ ∧ P' = prepP g σ P)
      (fun e s' => Still s s' ∧ ((e = .corrupted ∧ σ.corr = true ∧ s' = s ∧ σ.st g.pageCount (σ.front g.pageCount) = .error .corrupted) ∨
        (e = .shutoff ∧ md.cf = false ∧ ∃ σ' P', QI md g s' σ' P' ∧ content g.pageCount σ' P' = content g.pageCount σ P))) := by
  have wf := h.good.fs.wf
  rcases (partialFront w h.good (front_blank w h)).cases with
    ⟨st, s1, he, _, hfr, her, han, hpt, hpf⟩ | ⟨e, s1, he, hfr, her, hp, hE⟩
  · refine Sat.of_ok he ?_
    cases hp : σ.part with
    | true =>
      obtain ⟨hg, hsame, _⟩ := hpt hp
      obtain ⟨its, f, hpk⟩ := part_used w h hp
      refine ⟨σ, P, its, f, hg.same h.ok hsame h.log, hfr.still, hp, ?_, rfl, rfl, rfl, hpk, by rw [hpk]; rfl, by simp,
        han, rfl, fun _ _ => rfl, fun hd _ => by rw [hsame.dirty]; exact hd,
        by unfold prepS; rw [hp, if_pos rfl], by unfold prepP; rw [hp, if_pos rfl]⟩
      unfold Shape.cnt; rw [hp, if_pos rfl]
    | false =>
      obtain ⟨hb, hg⟩ := hpf hp
      refine ⟨σ.openFront, _, [], g.dataStart (σ.front g.pageCount), ⟨hg, h.ok.upd (by simp) (by simp [PK.its]), ?_⟩, hfr.still,
        rfl, ?_, CalcOk.openFront_front hp, rfl, rfl, upd_same, by rw [hb]; rfl, fun _ => rfl, han,
        content_openFront wf hp rfl, fun j hj => upd_ne hj, fun _ h => by simp at h,
        by unfold prepS; rw [hp]; rfl, by unfold prepP; rw [hp]; rfl⟩
      · rw [her]; exact h.log
      · unfold Shape.cnt; rw [hp]; rfl
  · refine Sat.of_err he ⟨hfr.still, ?_⟩
    rcases hE with h' | ⟨rfl, h'⟩
    · exact Or.inl h'
    · right
      rcases h' with hD | hD
      · exact ⟨rfl, hD.crash, _, _, hD.qi h.ok, rfl⟩
      · exact ⟨rfl, hD.crash, _, _, hD.qi (h.ok.upd (by simp) (by simp [PK.its])), content_openFront wf hp rfl⟩

/-- The page after the one that is written to. -/
theorem next_front {n : Nat} (wf : σ.WF n) (hp : σ.part = true) :
    (σ.m < n → ringPos n σ.o ((σ.front n + 1) % n) = σ.m ∧ σ.closeFront.front n = (σ.front n + 1) % n) ∧
    (σ.m = n → (σ.front n + 1) % n = σ.o) := by
  have h1 := wf.part_pos hp
  have ho := wf.o_lt
  have hf : σ.front n = ringPage n σ.o (σ.m - 1) := by unfold Shape.front; rw [hp, if_pos rfl]
  constructor
  · intro hm
    refine ⟨?_, CalcOk.closeFront_front wf hp hm⟩
    rw [hf, ringPage_succ ho (by omega), ringPos_page ho (by omega)]; omega
  · intro hm
    rw [hf, hm, ringPage_last ho]

/-- Close the page that is written to and open the next one, which is blank. -/
theorem turnPage {s : St K} (h : QG md g s σ P) (hp : σ.part = true) (hm : σ.m < g.pageCount) (hc : σ.corr = false ∨ σ.m + 1 < g.pageCount)
    (han : Anchored (σ.front g.pageCount) s.cache.ps)
    (hk : Knows ((σ.front g.pageCount + 1) % g.pageCount) .open s.cache.ps) :
    Sat (do closePage g (σ.front g.pageCount)
            let _ ← partialClosePage g ((σ.front g.pageCount + 1) % g.pageCount)
            pure (g.dataStart ((σ.front g.pageCount + 1) % g.pageCount))) s
      (fun addr s' => ∃ σ' P', QG md g s' σ' P' ∧ Still s s' ∧ σ'.part = true ∧ σ'.corr = σ.corr ∧
        P' (σ'.front g.pageCount) = .used false [] addr ∧ addr = g.dataStart (σ'.front g.pageCount) ∧
        content g.pageCount σ' P' = content g.pageCount σ P ∧ σ' = turnS σ ∧ P' = turnP g σ P)
      (fun e s' => Still s s' ∧ e = .shutoff ∧ md.cf = false ∧ ∃ σ' P', QI md g s' σ' P' ∧
        content g.pageCount σ' P' = content g.pageCount σ P) := by
  have wf := h.good.fs.wf
  have hfl := Shape.front_lt wf
  obtain ⟨its, f, hpk⟩ := part_used w h hp
  obtain ⟨hnp, hnf⟩ := (next_front w wf hp).1 hm
  have hits : ∀ hc : md.cf = true, md.dmg = false → ∀ it ∈ its, it.hdr.crc = 0#32 ∨ it.present = true := fun hc hdm it hit =>
    h.ok.whole hc hdm _ hfl it (by rw [hpk]; exact hit)
  have hcl := content_closeFront wf hp (f' := f) hpk
  rcases (closeFront w h.good hp hm han hk hpk).cases with ⟨_, s1, he, hfr, her, hg⟩ | ⟨e, s1, he, rfl, hfr, her, hE⟩
  · refine Sat.bind_eq he ?_
    have hQ : QG md g s1 σ.closeFront (upd P (σ.front g.pageCount) (.used true its f)) :=
      ⟨hg, h.ok.upd (by simp) (fun hc => hits hc), by rw [her]; exact h.log⟩
    rw [← hnf]
    have hpr := prepare w hQ
    rcases hpr.cases with ⟨_, s2, he2, σ2, P2, its2, f2, hQ2, hst, hp2, _, hf2, _, hcc, hpk2, hfe, hi2, _, hcon, _, _, hs2, hP2⟩ | ⟨e, s2, he2, hst, hE⟩
    · refine Sat.bind_eq he2 ?_
      have hits2 := hi2 rfl
      subst hits2
      have hbl := front_blank w hQ rfl
      have hfe' : f2 = g.dataStart (σ.closeFront.front g.pageCount) := by
        rw [hfe]; rcases hbl with h' | h' <;> rw [h'] <;> rfl
      refine Sat.pure ⟨σ2, P2, hQ2, hfr.still.trans hst, hp2, hcc, ?_, by rw [hf2], by rw [hcon, hcl], by rw [hs2]; rfl,
        by rw [hP2]; unfold turnP; rw [hpk]; rfl⟩
      rw [hf2, hpk2, hfe']
    · refine Sat.of_err (bind_err he2) ?_
      refine ⟨hfr.still.trans hst, ?_⟩
      rcases hE with ⟨_, hcor, hs⟩ | ⟨h1, h2, σ', P', h3, h4⟩
      · exfalso
        have hcor' : σ.corr = true := hcor
        have hm2 : σ.m + 1 < g.pageCount := by
          rcases hc with hc | hc
          · rw [hcor'] at hc; simp at hc
          · exact hc
        have := Shape.st_err.1 hs.2
        rw [hnf] at this
        have h' : ringPos g.pageCount σ.closeFront.o ((σ.front g.pageCount + 1) % g.pageCount) = σ.m := hnp
        omega
      · exact ⟨h1, h2, σ', P', h3, by rw [h4, hcl]⟩
  · refine Sat.of_err (bind_err he) ⟨hfr.still, rfl, ?_⟩
    rcases hE with hD | hD
    · exact ⟨hD.crash, _, _, hD.qi h.ok, rfl⟩
    · exact ⟨hD.crash, _, _, hD.qi (h.ok.upd (by simp) (fun hc => hits hc)), hcl⟩

/-- Move on to the next page. -/
theorem advance_sat {s : St K} (h : QG md g s σ P) (hmd : md.OK g) (hp : σ.part = true)
    (han : Anchored (σ.front g.pageCount) s.cache.ps) (allow : Bool) {room : Prop}
    (hroom : room ↔ (σ.m < g.pageCount ∨ (2 ≤ g.pageCount ∧ allErased (P σ.o) = true))) :
    Sat (Queue.advancePage g (σ.front g.pageCount) allow) s
      (fun addr s' => ∃ σ' P', QG md g s' σ' P' ∧ Still s s' ∧ σ'.part = true ∧ (allow = false → room) ∧
        P' (σ'.front g.pageCount) = .used false [] addr ∧ addr = g.dataStart (σ'.front g.pageCount) ∧
        Drop g room allow (content g.pageCount σ P) (content g.pageCount σ' P') ∧ advA g σ P allow = some (σ', P'))
      (fun e s' => Still s s' ∧ (
        (e = .corrupted ∧ σ.corr = true ∧ QG md g s' σ P) ∨
        (e = .fullStorage ∧ allow = false ∧ ¬ room ∧ QG md g s' σ P ∧ s'.cache.dirty = false ∧ advA g σ P allow = none) ∨
        (e = .shutoff ∧ md.cf = false ∧ ∃ σ' P', QI md g s' σ' P' ∧
          Drop g room allow (content g.pageCount σ P) (content g.pageCount σ' P')))) := by
  have wf := h.good.fs.wf
  have hfl := Shape.front_lt wf
  have hmp := wf.part_pos hp
  have hml := wf.m_le
  have ho := wf.o_lt
  have hnl : g.nextPage (σ.front g.pageCount) < g.pageCount := w.next_lt
  have hnx : g.nextPage (σ.front g.pageCount) = (σ.front g.pageCount + 1) % g.pageCount := rfl
  unfold Queue.advancePage
  rcases (getCached w h.good hnl).cases with ⟨st, s1, he, hst, hg, hsame, _, hank, _⟩ | ⟨e, s1, he, hs, hst⟩
  · have hQ := hg.same h.ok hsame h.log
    obtain ⟨han1, hk1⟩ := hank _ han
    simp only
    refine Sat.bind_eq he ?_
    by_cases hm : σ.m < g.pageCount
    · -- a blank page follows
      obtain ⟨hnp, _⟩ := (next_front w wf hp).1 hm
      have hst' : st = .open := by
        have := Shape.st_open (σ := σ) (n := g.pageCount) (i := g.nextPage (σ.front g.pageCount))
        cases st with
        | «open» => rfl
        | closed => rw [Shape.st_closed, hnx, hnp] at hst; omega
        | partialOpen => rw [Shape.st_part, hnx, hnp] at hst; omega
      subst hst'
      have hcc : σ.corr = false ∨ σ.m + 1 < g.pageCount := by
        rw [Shape.st_open, hnx, hnp] at hst
        cases hc : σ.corr with
        | false => exact Or.inl rfl
        | true => right; have := hst.2; rw [hc] at this; simp at this; omega
      simp only
      refine (turnPage w hQ hp hm hcc han1 hk1).mono ?_ ?_
      · rintro addr s' ⟨σ', P', h1, h2, h3, _, h4, h5, h6, h7, h8⟩
        exact ⟨σ', P', h1, hsame.still.trans h2, h3, fun _ => hroom.2 (Or.inl hm), h4, h5, Or.inl h6,
          by unfold advA; rw [if_pos hm, h7, h8]⟩
      · rintro e s' ⟨h1, h2, h3, σ', P', h4, h5⟩
        exact ⟨hsame.still.trans h1, Or.inr (Or.inr ⟨h2, h3, σ', P', h4, Or.inl h5⟩)⟩
    · have hmn : σ.m = g.pageCount := by omega
      have hno := (next_front w wf hp).2 hmn
      have hcorr := (wf.full hmn).2
      by_cases hn : g.pageCount = 1
      · -- a single page
        have hfo : σ.front g.pageCount = σ.o := by omega
        have ho0 : σ.o = 0 := by omega
        have hst' : st = .partialOpen := by
          rw [hnx, hno, ← hfo, CalcOk.st_front wf (fun h => by rw [hp] at h; simp at h), hp, if_pos rfl] at hst
          simpa using hst.symm
        subst hst'
        have hsing : decide (g.nextPage (σ.front g.pageCount) = σ.front g.pageCount) = true := by
          rw [hnx, hno, hfo]; simp
        have hcf : md.cf = true := by
          cases hcf : md.cf with
          | true => rfl
          | false => have := hmd.pages hcf; omega
        have hnr : ¬ room := by rw [hroom]; omega
        rw [hsing]
        simp only [hnx, hno]
        cases allow with
        | false =>
          simp only [Bool.false_eq_true, if_false, isPageEmpty]
          refine Sat.bind_eq (pure_run _ _) ?_
          rw [if_pos rfl]
          rcases (unmark_sat hQ).cases with ⟨_, s2, he2, hq2, hf2, _, hd2⟩ | ⟨_, _, _, h'⟩
          · exact Sat.bind_eq he2 (Sat.throw ⟨hsame.still.trans hf2.still, Or.inr (Or.inl ⟨rfl, by trivial, hnr, hq2, hd2,
              by unfold advA; rw [if_neg hm, if_pos hn]; rfl⟩)⟩)
          · exact h'.elim
        | true =>
          simp only [if_true]
          refine Sat.bind_eq (pure_run _ _) ?_
          rw [if_neg (by simp)]
          rw [ho0]
          rcases (openOnly w hQ.good hn hcf (by omega)).cases with ⟨_, s2, he2, hg2, hf2, her2, _⟩ | ⟨_, _, _, h'⟩
          · refine Sat.bind_eq he2 ?_
            have hQ2 : QG md g s2 σ.dropOnly (upd P 0 .blank) := by
              refine ⟨hg2, h.ok.upd (by simp) (by simp [PK.its]), fun hc => ?_⟩
              rw [her2]
              exact (hQ.log hc).stepOnly hn ho0
            have hf0 : σ.dropOnly.front g.pageCount = 0 := by rw [hn]; rfl
            have hpr := prepare w hQ2
            rw [hf0] at hpr
            rcases hpr.cases with ⟨_, s3, he3, σ3, P3, its3, f3, hQ3, hst3, hp3, _, hf3, _, _, hpk3, hfe3, hi3, _, hcon, _, _, hs3, hP3⟩ | ⟨e, s3, _, _, hE⟩
            · refine Sat.bind_eq he3 ?_
              have := hi3 rfl
              subst this
              rw [upd_same] at hfe3
              refine Sat.pure ⟨σ3, P3, hQ3, (hsame.still.trans hf2.still).trans hst3, hp3, by simp, ?_, by rw [hf3], Or.inr ⟨rfl, hnr, content g.pageCount σ P, ?_, ?_⟩,
                by unfold advA; rw [if_neg hm, if_pos hn, hs3, hP3]; rfl⟩
              · rw [hf3, hpk3, hfe3]; rfl
              · rw [hcon]; simp [content, Shape.dropOnly]
              · have hm1 : σ.m = 1 := by omega
                unfold content
                rw [hm1, seg_one, ringPage_zero ho]
                exact page_sum w (h.good.fs.pages _ ho)
            · rcases hE with ⟨_, hc, _⟩ | ⟨_, hc, _⟩
              · simp [Shape.dropOnly] at hc
              · rw [hcf] at hc; simp at hc
          · exact h'.elim
      · -- all pages are in use
        have hm2 : 2 ≤ σ.m := by omega
        have hst' : st = .closed := by
          rw [hnx, hno, CalcOk.st_oldest hm2] at hst
          simpa using hst.symm
        subst hst'
        have hfpos := CalcOk.front_pos wf
        rw [hp, if_pos rfl] at hfpos
        have hfo : σ.o ≠ σ.front g.pageCount := by
          intro h'
          rw [← h'] at hfpos
          unfold ringPos at hfpos
          simp at hfpos; omega
        have hsing : decide (g.nextPage (σ.front g.pageCount) = σ.front g.pageCount) = false := by
          rw [hnx, hno]; simp [hfo]
        rw [hsing]
        simp only [hnx, hno]
        obtain ⟨its, f, hpk⟩ : ∃ its f, P σ.o = .used true its f := by
          have hst := h.good.fs.st _ ho
          rw [CalcOk.st_oldest hm2] at hst
          cases hpk : P σ.o with
          | used closed its f =>
            cases closed with
            | false => rw [hpk] at hst; simp [PK.st] at hst
            | true => exact ⟨its, f, rfl⟩
          | _ => rw [hpk] at hst; simp [PK.st] at hst
        have hroom' : room ↔ allErased (P σ.o) = true := by
          rw [hroom]
          constructor
          · rintro (h' | h')
            · omega
            · exact h'.2
          · intro h'; exact Or.inr ⟨by omega, h'⟩
        -- what happens once the oldest page may go
        have hgo : (allow = false → allErased (P σ.o) = true) → Sat (do
            openPage g σ.o
            if false = true then pure () else closePage g (σ.front g.pageCount)
            let _ ← partialClosePage g σ.o
            pure (g.dataStart σ.o)) s1
            (fun addr s' => ∃ σ' P', QG md g s' σ' P' ∧ Still s1 s' ∧ σ'.part = true ∧ (allow = false → room) ∧
              P' (σ'.front g.pageCount) = .used false [] addr ∧ addr = g.dataStart (σ'.front g.pageCount) ∧
              Drop g room allow (content g.pageCount σ P) (content g.pageCount σ' P') ∧ advA g σ P allow = some (σ', P'))
            (fun e s' => Still s1 s' ∧ (e = .shutoff ∧ md.cf = false ∧ ∃ σ' P', QI md g s' σ' P' ∧
              Drop g room allow (content g.pageCount σ P) (content g.pageCount σ' P'))) := by
          intro hal
          have hdrop : ∀ σ' P', content g.pageCount σ P = datas (P σ.o).its ++ content g.pageCount σ' P' →
              Drop g room allow (content g.pageCount σ P) (content g.pageCount σ' P') := by
            intro σ' P' hc
            cases hae : allErased (P σ.o) with
            | true => left; rw [hc, allErased_datas hae]; rfl
            | false =>
              right
              refine ⟨?_, by rw [hroom', hae]; simp, datas (P σ.o).its, hc, page_sum w (h.good.fs.pages _ ho)⟩
              cases allow with
              | true => rfl
              | false => rw [hal rfl] at hae; simp at hae
          have hrm : allow = false → room := fun ha => hroom'.2 (hal ha)
          rcases (openOldest w hQ.good hcorr hm2).cases with ⟨_, s2, he2, hg2, hf2, her2, hak2⟩ | ⟨e, s2, he2, rfl, hf2, hE⟩
          · refine Sat.bind_eq he2 ?_
            obtain ⟨han2, hk2⟩ := hak2 _ han1
            have hQ2 : QG md g s2 (σ.dropOldest g.pageCount) (upd P σ.o .blank) := by
              refine ⟨hg2, h.ok.upd (by simp) (by simp [PK.its]), fun hc => ?_⟩
              rw [her2]
              exact (hQ.log hc).step wf.o_lt (by omega)
            have hfd := CalcOk.dropOldest_front wf hm2
            have hnx2 : ((σ.dropOldest g.pageCount).front g.pageCount + 1) % g.pageCount = σ.o := by rw [hfd, hno]
            have htp := turnPage w hQ2 (hp : (σ.dropOldest g.pageCount).part = true)
              (by show σ.m - 1 < g.pageCount; omega) (Or.inl hcorr) (by rw [hfd]; exact han2) (by rw [hnx2]; exact hk2)
            rw [hfd, hno] at htp
            refine Sat.mono (m := do closePage g (σ.front g.pageCount); let _ ← partialClosePage g σ.o; pure (g.dataStart σ.o)) htp ?_ ?_
            · rintro addr s' ⟨σ', P', h1, h2, h3, _, h4, h5, h6, h7, h8⟩
              refine ⟨σ', P', h1, hf2.still.trans h2, h3, hrm, h4, h5, ?_, ?_⟩
              · apply hdrop
                rw [h6]
                exact content_dropOldest wf hm2 .blank
              · have hcond : allow = true ∨ allErased (P σ.o) = true := by
                  cases allow with
                  | true => exact Or.inl rfl
                  | false => exact Or.inr (hal rfl)
                unfold advA; rw [if_neg hm, if_neg hn, if_pos hcond, h7, h8]
            · rintro e s' ⟨h1, h2, h3, σ', P', h4, h5⟩
              refine ⟨hf2.still.trans h1, h2, h3, σ', P', h4, ?_⟩
              apply hdrop
              rw [h5]
              exact content_dropOldest wf hm2 .blank
          · refine Sat.of_err (bind_err he2) ⟨hf2.still, rfl, ?_⟩
            rcases hE with hD | hD | hD
            · exact ⟨hD.crash, _, _, hD.qi h.ok, Or.inl rfl⟩
            · exact ⟨hD.crash, _, _, hD.qi (h.ok.upd (by simp) (by simp [PK.its])), hdrop _ _ (content_dropOldest wf hm2 .blank)⟩
            · exact ⟨hD.crash, _, _, hD.qi (h.ok.upd (by simp) (by simp [PK.its])), hdrop _ _ (content_tearOldest wf hm2 .corr)⟩
        cases allow with
        | false =>
          simp only [Bool.false_eq_true, if_false]
          refine Sat.bind_eq (isPageEmpty_run w hQ.good ho hpk) ?_
          cases hae : allErased (P σ.o) with
          | false =>
            rw [if_pos rfl]
            rcases (unmark_sat hQ).cases with ⟨_, s2, he2, hq2, hf2, _, hd2⟩ | ⟨_, _, _, h'⟩
            · exact Sat.bind_eq he2 (Sat.throw ⟨hsame.still.trans hf2.still,
                Or.inr (Or.inl ⟨rfl, by trivial, by rw [hroom', hae]; simp, hq2, hd2,
                  by unfold advA; rw [if_neg hm, if_neg hn, if_neg (by rw [hae]; simp)]⟩)⟩)
            · exact h'.elim
          | true =>
            rw [if_neg (by simp)]
            refine (hgo (fun _ => hae)).mono ?_ ?_
            · rintro addr s' ⟨σ', P', h1, h2, h3, h4, h5⟩
              exact ⟨σ', P', h1, hsame.still.trans h2, h3, fun _ => h4 rfl, h5⟩
            · rintro e s' ⟨h1, h2⟩
              exact ⟨hsame.still.trans h1, Or.inr (Or.inr h2)⟩
        | true =>
          simp only [if_true]
          refine Sat.bind_eq (pure_run _ _) ?_
          rw [if_neg (by simp)]
          refine (hgo (by simp)).mono ?_ ?_
          · rintro addr s' ⟨σ', P', h1, h2, h3⟩
            exact ⟨σ', P', h1, hsame.still.trans h2, h3⟩
          · rintro e s' ⟨h1, h2⟩
            exact ⟨hsame.still.trans h1, Or.inr (Or.inr h2)⟩
  · simp only
    refine Sat.of_err (bind_err he) ?_
    have := Shape.st_err.1 hst
    subst hs
    exact ⟨.refl _, Or.inl ⟨this.1, this.2.2.1, h⟩⟩

/-- The repair that runs after `Corrupted`. -/
theorem tryRepair_sat {s : St K} (h : QI md g s σ P) :
    Sat (Queue.tryRepair g) s
      (fun _ s' => Still s s' ∧ ∃ σ' P', QG md g s' σ' P' ∧ σ'.corr = false ∧
        content g.pageCount σ' P' = content g.pageCount σ P ∧ (∀ len, Room g σ' P' len ↔ Room g σ P len) ∧
        (σ.corr = false → σ' = σ ∧ P' = P))
      (fun e s' => e = .shutoff ∧ md.cf = false ∧ Still s s' ∧ ∃ P' σ', QI md g s' σ' P' ∧
        content g.pageCount σ' P' = content g.pageCount σ P) := by
  have wf := h.fs.wf
  have hfl := Shape.front_lt wf
  unfold Queue.tryRepair tryGeneralRepair
  refine Sat.bind_eq (modifyCache_run _ _) ?_
  have hgr := generalRepair (md := md) (σ := σ) (P := P) w
    (s := { s with cache := s.cache.invalidate }) h.fs rfl rfl h.sized
    (g.pages 0) (fun i hi => (mem_pages w.pageCount_pos).1 hi)
  have hpre : Still s { s with cache := s.cache.invalidate } := ⟨rfl, rfl, rfl⟩
  refine hgr.mono ?_ ?_
  · rintro _ s' ⟨hfr, hgood, hsame⟩
    refine ⟨hpre.trans hfr.still, ?_⟩
    cases hc : σ.corr with
    | false =>
      have := hsame (Or.inl hc)
      subst this
      exact ⟨σ, P, ⟨⟨h.fs, PSOk.invalidate h.sized σ, PPOk.invalidate⟩, h.ok, h.log⟩, hc, rfl, fun _ => Iff.rfl, fun _ => ⟨rfl, rfl⟩⟩
    | true =>
      have htl := torn_lt (g := g) wf
      have hg := hgood hc ((mem_pages w.pageCount_pos).2 htl)
      have hcf : md.cf = false := by
        cases hcf : md.cf with
        | false => rfl
        | true => rw [h.fs.torn_free hcf] at hc; simp at hc
      refine ⟨_, _, ⟨hg, h.ok.upd (by simp) (by simp [PK.its]), fun h' => by rw [hcf] at h'; simp at h'⟩, rfl,
        content_fixCorr wf hc .blank, fun len => ?_, fun h' => by simp at h'⟩
      have hcn : σ.fixCorr.cnt = σ.cnt := rfl
      have hfn : σ.fixCorr.front g.pageCount = σ.front g.pageCount := rfl
      have hon : σ.fixCorr.o = σ.o := rfl
      have htc : P (σ.torn g.pageCount) = .corr := by
        have hs := h.fs.st _ htl
        rw [torn_st (g := g) wf hc] at hs
        cases hpk : P (σ.torn g.pageCount) with
        | corr => rfl
        | used c _ _ => rw [hpk] at hs; cases c <;> simp [PK.st] at hs
        | _ => rw [hpk] at hs; simp [PK.st] at hs
      have h1 : ∀ i, freeOf g i (upd P (σ.torn g.pageCount) .blank i) = freeOf g i (P i) := by
        intro i
        by_cases he : i = σ.torn g.pageCount
        · subst he; rw [upd_same, htc]; rfl
        · rw [upd_ne he]
      have h2 : ∀ i, allErased (upd P (σ.torn g.pageCount) .blank i) = allErased (P i) := by
        intro i
        by_cases he : i = σ.torn g.pageCount
        · subst he; rw [upd_same, htc]; rfl
        · rw [upd_ne he]
      unfold Room
      rw [hcn, hfn, hon, h1, h2]
  · rintro e s' ⟨rfl, hfr, hc, hD⟩
    have hcf : md.cf = false := by rcases hD with h' | h' <;> exact h'.crash
    refine ⟨rfl, hcf, hpre.trans hfr.still, ?_⟩
    rcases hD with hD | hD
    · exact ⟨_, _, hD.qi h.ok, rfl⟩
    · exact ⟨_, _, hD.qi (h.ok.upd (by simp) (by simp [PK.its])), content_fixCorr wf hc .blank⟩

omit w in
/-- `run_with_auto_repair!`: the function, and on `Corrupted` the repair and the function again. -/
theorem withRepair_sat {f : M K α} {r : M K Unit} {s : St K} {Q : α → St K → Prop} {E : Err → St K → Prop}
    {C : St K → Prop} (h1 : Sat f s Q (fun e s' => (e ≠ .corrupted ∧ E e s') ∨ (e = .corrupted ∧ C s')))
    (h2 : ∀ s', C s' → Sat (do r; f) s' Q E) : Sat (withRepair f r) s Q E := by
  unfold withRepair
  refine Sat.bind_eq (attempt_run _ _) ?_
  rcases h1.cases with ⟨a, s1, he, hq⟩ | ⟨e, s1, he, hE⟩
  · rw [he]; exact Sat.of_ok (lift_run _ _) hq
  · rw [he]
    rcases hE with ⟨hne, hE⟩ | ⟨rfl, hC⟩
    · cases e with
      | corrupted => exact absurd rfl hne
      | _ => exact Sat.of_err (lift_run _ _) hE
    · exact h2 _ hC

/-- One attempt to push. -/
theorem pushInner_sat {s : St K} (h : QI md g s σ P) (hmd : md.OK g) {d : List Byte} (hnt : md.cf = false → NoTorn md.was d)
    (allow : Bool) :
    Sat (Queue.pushInner g d allow) s
      (fun _ s' => ∃ σ' P' q', QG md g s' σ' P' ∧ s'.cache.dirty = false ∧ Still s s' ∧ g.tooBig d.length = false ∧
        content g.pageCount σ' P' = q' ++ [d] ∧
        Drop g (Room g σ P d.length) allow (content g.pageCount σ P) q' ∧ (allow = false → Room g σ P d.length) ∧
        pushA g σ P d allow = (.ok (), σ', P'))
      (fun e s' => Still s s' ∧ ∃ σ' P', QI md g s' σ' P' ∧ (
        (e = .fullStorage ∧ allow = false ∧ g.tooBig d.length = false ∧ ¬ Room g σ P d.length ∧ s'.cache.dirty = false ∧
          content g.pageCount σ' P' = content g.pageCount σ P ∧ (∀ len, Room g σ' P' len ↔ Room g σ P len) ∧
          pushA g σ P d allow = (.error e, σ', P')) ∨
        (e = .itemTooBig ∧ g.tooBig d.length = true ∧ s'.cache.dirty = false ∧
          content g.pageCount σ' P' = content g.pageCount σ P ∧ (∀ len, Room g σ' P' len ↔ Room g σ P len) ∧
          pushA g σ P d allow = (.error e, σ', P')) ∨
        (e = .corrupted ∧ σ.corr = true ∧
          content g.pageCount σ' P' = content g.pageCount σ P ∧ (∀ len, Room g σ' P' len ↔ Room g σ P len)) ∨
        (e = .shutoff ∧ md.cf = false ∧ ∃ q', Drop g (Room g σ P d.length) allow (content g.pageCount σ P) q' ∧
          (content g.pageCount σ' P' = q' ∨ content g.pageCount σ' P' = q' ++ [d])))) := by
  have wf := h.fs.wf
  have hfl := Shape.front_lt wf
  unfold Queue.pushInner
  rcases (checkDirty_sat h).cases with ⟨_, s0, he0, h0, hst0, hfl0, hd0, _⟩ | ⟨_, _, _, h'⟩
  rotate_left; · exact h'.elim
  refine Sat.bind_eq he0 ?_
  cases htb : g.tooBig d.length with
  | true =>
    rw [if_pos rfl]
    rcases (unmark_sat h0).cases with ⟨_, s2, he2, hq2, hf2, _, hd2⟩ | ⟨_, _, _, h'⟩
    · exact Sat.bind_eq he2 (Sat.throw ⟨hst0.trans hf2.still, σ, P, hq2.qi, Or.inr (Or.inl ⟨rfl, rfl, hd2, rfl, fun _ => Iff.rfl,
        by unfold pushA; rw [htb]; rfl⟩)⟩)
    · exact h'.elim
  | false =>
    rw [if_neg (by simp)]
    rcases (findYoungest_sat w h0.good).cases with ⟨r, s1, he1, rfl, hpc, hg1, hs1, _⟩ | ⟨e, s1, he1, rfl, hc, hg1, hs1⟩
    rotate_left
    · exact Sat.of_err (bind_err he1) ⟨hst0.trans hs1.still, σ, P, (hg1.same h0.ok hs1 h0.log).qi,
        Or.inr (Or.inr (Or.inl ⟨rfl, hc, rfl, fun _ => Iff.rfl⟩))⟩
    refine Sat.bind_eq he1 ?_
    have h1 := hg1.same h0.ok hs1 h0.log
    rcases (prepare w h1).cases with
      ⟨_, s2, he2, σ2, P2, its, f, h2, hst2, hp2, hm2, hf2, ho2, hc2, hpk2, hfe, _, han2, hcon, hoth, _, hs2, hP2⟩ | ⟨e, s2, he2, hst2, hE⟩
    rotate_left
    · refine Sat.of_err (bind_err he2) ⟨(hst0.trans hs1.still).trans hst2, ?_⟩
      rcases hE with ⟨rfl, hc, rfl, _⟩ | ⟨rfl, hcf, σ', P', hq, hcon⟩
      · exact ⟨σ, P, h1.qi, Or.inr (Or.inr (Or.inl ⟨rfl, hc, rfl, fun _ => Iff.rfl⟩))⟩
      · exact ⟨σ', P', hq, Or.inr (Or.inr (Or.inr ⟨rfl, hcf, _, Or.inl rfl, Or.inl hcon⟩))⟩
    refine Sat.bind_eq he2 ?_
    have hst02 : Still s s2 := (hst0.trans hs1.still).trans hst2
    have hpk2' : P2 (σ2.front g.pageCount) = .used false its f := by rw [hf2]; exact hpk2
    have hfl2 : σ2.front g.pageCount < g.pageCount := by rw [hf2]; exact hfl
    have hrun := findFreeSpot_run w h2.good hfl2 hpk2' d.length
    rw [hf2] at hrun
    refine Sat.bind_eq hrun ?_
    have hcnt2 : σ2.cnt = σ2.m := by unfold Shape.cnt; rw [hp2, if_pos rfl]
    -- the room is the same before and after
    have herase : σ.cnt = g.pageCount → 2 ≤ g.pageCount → P2 σ.o = P σ.o := by
      intro hc hn
      apply hoth
      intro he
      have hfp := CalcOk.front_pos wf
      rw [← he] at hfp
      unfold ringPos at hfp
      unfold Shape.cnt at hc
      simp only [Nat.le_refl, if_true, Nat.sub_self] at hfp
      split at hfp <;> rename_i hpp
      · rw [hpp, if_pos rfl] at hc; omega
      · rw [if_neg hpp] at hc; omega
    have hcl : σ.cnt ≤ g.pageCount := by rw [← hm2]; exact h2.good.fs.wf.m_le
    have hroom : ∀ len, Room g σ2 P2 len ↔ Room g σ P len := by
      intro len
      unfold Room
      rw [hf2, hpk2, hcnt2, hm2, ho2, show freeOf g (σ.front g.pageCount) (PK.used false its f) = f from rfl, hfe]
      by_cases hcn : σ.cnt = g.pageCount
      · by_cases hn : 2 ≤ g.pageCount
        · rw [herase hcn hn]
        · simp [hn]
      · have : σ.cnt < g.pageCount := by omega
        simp [this]
    have hnb := notTooBig w htb (σ.front g.pageCount)
    by_cases hfit : Fits g (σ.front g.pageCount) f d.length
    · rw [if_pos hfit]
      simp only
      refine Sat.bind_eq (pure_run _ _) ?_
      refine (writeNew_sat w h2 hmd hp2 hpk2' hnb.1 (by rw [hf2]; exact hfit) hnt).mono ?_ ?_
      · rintro _ s' ⟨P', hq, hd, hst, hc, hPp⟩
        refine ⟨σ2, P', _, hq, hd, hst02.trans hst, trivial, by rw [hc, hcon], Or.inl rfl, fun _ => Or.inl (by rw [← hfe]; exact hfit), ?_⟩
        unfold pushA
        rw [htb, if_neg (by simp), if_pos (by rw [← hfe]; exact hfit), hPp, hs2, hP2]
      · rintro e s' ⟨rfl, hcf, hst, P', hq, hc⟩
        rw [hcon] at hc
        exact ⟨hst02.trans hst, σ2, P', hq, Or.inr (Or.inr (Or.inr ⟨rfl, hcf, _, Or.inl rfl, hc⟩))⟩
    · rw [if_neg hfit]
      simp only
      have hr2 : Room g σ P d.length ↔ (σ2.m < g.pageCount ∨ (2 ≤ g.pageCount ∧ allErased (P2 σ2.o) = true)) := by
        rw [← hroom]
        unfold Room
        rw [hf2, hpk2, hcnt2]
        constructor
        · rintro (h' | h')
          · exact absurd h' hfit
          · exact h'
        · exact Or.inr
      have hadv := advance_sat w h2 hmd hp2 (by rw [hf2]; exact han2) allow hr2
      rw [hf2] at hadv
      rcases hadv.cases with ⟨addr, s3, he3, σ3, P3, h3, hst3, hp3, hal, hpk3, hae, hdr, hadA⟩ | ⟨e, s3, he3, hst3, hE⟩
      · refine Sat.bind_eq he3 ?_
        have hnb3 := notTooBig w htb (σ3.front g.pageCount)
        rw [hcon] at hdr
        refine (writeNew_sat w h3 hmd hp3 hpk3 hnb3.1 (by rw [hae]; exact hnb3.2) hnt).mono ?_ ?_
        · rintro _ s' ⟨P', hq, hd, hst, hc, hPp⟩
          refine ⟨σ3, P', _, hq, hd, (hst02.trans hst3).trans hst, trivial, hc, hdr, hal, ?_⟩
          unfold pushA
          rw [htb, if_neg (by simp), if_neg (by rw [← hfe]; exact hfit), ← hs2, ← hP2, hadA, hPp]
        · rintro e s' ⟨rfl, hcf, hst, P', hq, hc⟩
          exact ⟨(hst02.trans hst3).trans hst, σ3, P', hq, Or.inr (Or.inr (Or.inr ⟨rfl, hcf, _, hdr, hc⟩))⟩
      · refine Sat.of_err (bind_err he3) ⟨hst02.trans hst3, ?_⟩
        rcases hE with ⟨rfl, hc, hq⟩ | ⟨rfl, ha, hnr, hq, hd, hadA⟩ | ⟨rfl, hcf, σ3, P3, hq, hdr⟩
        · exact ⟨σ2, P2, hq.qi, Or.inr (Or.inr (Or.inl ⟨rfl, by rw [← hc2]; exact hc, hcon, hroom⟩))⟩
        · exact ⟨σ2, P2, hq.qi, Or.inl ⟨rfl, ha, trivial, hnr, hd, hcon, hroom, by
            unfold pushA
            rw [htb, if_neg (by simp), if_neg (by rw [← hfe]; exact hfit), ← hs2, ← hP2, hadA]⟩⟩
        · rw [hcon] at hdr
          exact ⟨σ3, P3, hq, Or.inr (Or.inr (Or.inr ⟨rfl, hcf, _, hdr, Or.inl rfl⟩))⟩

/-- What `push` does. -/
def PushOk (md : Mode) (g : Geo) (σ : Shape) (P : Nat → PK) (d : List Byte) (allow : Bool) (s s' : St K) : Prop :=
  ∃ σ' P' q', QG md g s' σ' P' ∧ s'.cache.dirty = false ∧ Still s s' ∧ g.tooBig d.length = false ∧
    content g.pageCount σ' P' = q' ++ [d] ∧
    Drop g (Room g σ P d.length) allow (content g.pageCount σ P) q' ∧ (allow = false → Room g σ P d.length) ∧
    (σ.corr = false → pushA g σ P d allow = (.ok (), σ', P'))

/-- What is left when `push` fails. -/
def PushErr (md : Mode) (g : Geo) (σ : Shape) (P : Nat → PK) (d : List Byte) (allow : Bool) (s : St K) (e : Err) (s' : St K) : Prop :=
  Still s s' ∧ ∃ σ' P', QI md g s' σ' P' ∧ (
    (e = .fullStorage ∧ allow = false ∧ g.tooBig d.length = false ∧ ¬ Room g σ P d.length ∧ s'.cache.dirty = false ∧
      content g.pageCount σ' P' = content g.pageCount σ P ∧ (∀ len, Room g σ' P' len ↔ Room g σ P len) ∧
      (σ.corr = false → pushA g σ P d allow = (.error e, σ', P'))) ∨
    (e = .itemTooBig ∧ g.tooBig d.length = true ∧ s'.cache.dirty = false ∧
      content g.pageCount σ' P' = content g.pageCount σ P ∧ (∀ len, Room g σ' P' len ↔ Room g σ P len) ∧
      (σ.corr = false → pushA g σ P d allow = (.error e, σ', P'))) ∨
    (e = .shutoff ∧ md.cf = false ∧ ∃ q', Drop g (Room g σ P d.length) allow (content g.pageCount σ P) q' ∧
      (content g.pageCount σ' P' = q' ∨ content g.pageCount σ' P' = q' ++ [d])))

theorem push_sat {s : St K} (h : QI md g s σ P) (hmd : md.OK g) {d : List Byte} (hnt : md.cf = false → NoTorn md.was d)
    (allow : Bool) :
    Sat (Queue.push g d allow) s (fun _ s' => PushOk md g σ P d allow s s') (PushErr md g σ P d allow s) := by
  unfold Queue.push
  refine withRepair_sat (C := fun s1 => σ.corr = true ∧ Still s s1 ∧ ∃ σ1 P1, QI md g s1 σ1 P1 ∧
    content g.pageCount σ1 P1 = content g.pageCount σ P ∧ (∀ len, Room g σ1 P1 len ↔ Room g σ P len)) ?_ ?_
  · refine (pushInner_sat w h hmd hnt allow).mono
      (fun _ _ ⟨σ', P', q', a, b, c, d, e, f, g, h⟩ => ⟨σ', P', q', a, b, c, d, e, f, g, fun _ => h⟩) ?_
    rintro e s' ⟨hst, σ', P', hq, hE⟩
    rcases hE with ⟨rfl, h1, h2, h3, h4, h5, h6, h7⟩ | ⟨rfl, h1, h2, h3, h4, h5⟩ | ⟨rfl, hE⟩ | ⟨rfl, hE⟩
    · exact Or.inl ⟨by simp, hst, σ', P', hq, Or.inl ⟨rfl, h1, h2, h3, h4, h5, h6, fun _ => h7⟩⟩
    · exact Or.inl ⟨by simp, hst, σ', P', hq, Or.inr (Or.inl ⟨rfl, h1, h2, h3, h4, fun _ => h5⟩)⟩
    · exact Or.inr ⟨rfl, hE.1, hst, σ', P', hq, hE.2⟩
    · exact Or.inl ⟨by simp, hst, σ', P', hq, Or.inr (Or.inr ⟨rfl, hE⟩)⟩
  · rintro s1 ⟨hcorr, hst1, σ1, P1, h1, hcon1, hroom1⟩
    rcases (tryRepair_sat w h1).cases with ⟨_, s2, he2, hst2, σ2, P2, h2, hc2, hcon2, hroom2, _⟩ | ⟨e, s2, he2, rfl, hcf, hst2, P2, σ2, h2, hcon2⟩
    · refine Sat.bind_eq he2 ?_
      have hst := hst1.trans hst2
      have hcon : content g.pageCount σ2 P2 = content g.pageCount σ P := hcon2.trans hcon1
      have hroom : ∀ len, Room g σ2 P2 len ↔ Room g σ P len := fun len => (hroom2 len).trans (hroom1 len)
      have hreq : Room g σ2 P2 d.length = Room g σ P d.length := propext (hroom _)
      refine (pushInner_sat w h2.qi hmd hnt allow).mono ?_ ?_
      · rintro _ s' ⟨σ', P', q', h1, h2, h3, h4, h5, h6, h7, _⟩
        rw [hcon, hreq] at h6
        rw [hreq] at h7
        exact ⟨σ', P', q', h1, h2, hst.trans h3, h4, h5, h6, h7, fun h => by rw [hcorr] at h; cases h⟩
      · rintro e s' ⟨h1, σ', P', h2, hE⟩
        refine ⟨hst.trans h1, σ', P', h2, ?_⟩
        rw [hcon, hreq] at hE
        rcases hE with ⟨h1, h2, h3, h4, h5, h6, h7, _⟩ | ⟨h1, h2, h3, h4, h5, _⟩ | ⟨_, hE, _⟩ | hE
        · exact Or.inl ⟨h1, h2, h3, h4, h5, h6, fun len => (h7 len).trans (hroom len),
            fun h => by rw [hcorr] at h; cases h⟩
        · exact Or.inr (Or.inl ⟨h1, h2, h3, h4, fun len => (h5 len).trans (hroom len),
            fun h => by rw [hcorr] at h; cases h⟩)
        · rw [hc2] at hE; simp at hE
        · exact Or.inr (Or.inr hE)
    · refine Sat.of_err (bind_err he2) ⟨hst1.trans hst2, σ2, P2, h2, Or.inr (Or.inr ⟨rfl, hcf, _, Or.inl rfl, Or.inl ?_⟩)⟩
      rw [hcon2, hcon1]

end

end SeqStorage
