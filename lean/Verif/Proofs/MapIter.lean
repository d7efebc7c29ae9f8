import Verif.Proofs.MapCalls
/-
Iterating over all items of the map.
-/

set_option linter.unusedSectionVars false

namespace SeqStorage
open M

variable {K V : Type} [DecidableEq K] {kc : KeyCodec K} {vc : ValCodec V}
variable {md : Mode} {g : Geo} {σ : Shape} {P P0 : Nat → PK} {F F' T : K → Prop} {big : Bool}

theorem MG.eqv {s s' : St K} (h : MG kc vc md g big s σ P F) (hf : s'.fl = s.fl) (hc : s'.cache = s.cache)
    (hl : s'.buf.length = s.buf.length) : MG kc vc md g big s' σ P F :=
  ⟨⟨by rw [hf]; exact h.good.fs, by rw [hc]; exact h.good.ps, by rw [hc]; exact h.good.pp⟩, h.mp,
    by rw [hc]; exact h.kpok, by rw [hc]; exact h.kp, by rw [hf, hl]; exact h.log⟩

theorem Layout.atEnd {cf : Bool} {mem : Nat → Byte} {e a f : Nat} {its : List It} (l : Layout cf g mem e a its f) :
    Layout cf g mem e f [] f := by
  induction l with
  | done h => exact .done h
  | gap _ _ _ ih => exact ih
  | item _ _ ih => exact ih

theorem Layout.end_dvd {cf : Bool} {mem : Nat → Byte} {e a f : Nat} {its : List It} (w : g.WF) (l : Layout cf g mem e a its f)
    (ha : g.word ∣ a) : g.word ∣ f := by
  induction l with
  | done _ => exact ha
  | gap _ _ _ ih => exact ih (Nat.dvd_add ha (Nat.dvd_refl _))
  | item _ _ ih => exact ih (Layout.next_dvd w ha)

/-- A page that is open in a map is blank. -/
theorem open_blank {fl : Flash} (h : FS md g fl σ P) (hnj : ∀ i, i < g.pageCount → P i ≠ .junk) {i : Nat} (hi : i < g.pageCount)
    (hst : σ.st g.pageCount i = .ok .open) : P i = .blank := by
  have := h.st i hi
  rw [hst] at this
  cases hpk : P i with
  | blank => rfl
  | used c its f => rw [hpk] at this; cases c <;> simp [PK.st] at this
  | junk => exact absurd hpk (hnj i hi)
  | corr => rw [hpk] at this; simp [PK.st] at this

/-- With another limit for the length of items. -/
def Mode.upTo (md : Mode) (l : Option Nat) : Mode := { md with lim := l }

theorem Short.upTo {its : List It} {l : Option Nat} (h : Short md g its) (hl : l = none ∨ l = md.lim) : Short (md.upTo l) g its := by
  intro n hn
  rcases hl with rfl | rfl
  · exact nomatch hn
  · exact h n hn

/-- The iterator and what is still ahead of it. An iterator that starts on a torn page may come across items of any
length, so that the limit `l` is not always that of the map. -/
def ItAt (md : Mode) (l : Option Nat) (g : Geo) (P : Nat → PK) (s : St K) (ahead : List It) : Prop :=
  ∃ d i its f, s.mit.first < g.pageCount ∧ d < g.pageCount ∧ s.mit.page = ringPage g.pageCount s.mit.first d ∧
    i < g.pageCount ∧ s.mit.fin = g.dataEnd i ∧ g.dataStart i ≤ s.mit.cur ∧ s.mit.cur ≤ g.dataEnd i ∧ g.word ∣ s.mit.cur ∧
    Layout md.cf g s.fl.mem (g.dataEnd i) s.mit.cur its f ∧ Short (md.upTo l) g its ∧
    ahead = its ++ iseg g.pageCount s.mit.first P (d + 1) (g.pageCount - (d + 1))

/-- All items are on pages in use. -/
def OnPages (g : Geo) (P : Nat → PK) (l : List It) : Prop := ∀ it ∈ l, ∃ i, i < g.pageCount ∧ it ∈ (P i).its

theorem OnPages.seg {first d n : Nat} (hf : first < g.pageCount) (hn : d + n ≤ g.pageCount) :
    OnPages g P (iseg g.pageCount first P d n) := by
  intro it hit
  unfold iseg at hit
  obtain ⟨j, hj, hit⟩ := List.mem_flatMap.1 hit
  rw [List.mem_range'_1] at hj
  exact ⟨_, ringPage_lt hf (by omega), hit⟩

variable (w : g.WF)
include w

/-- The next item of the current page. -/
theorem iterItem_sat {i : Nat} (hi : i < g.pageCount) {cf : Bool} {f : Nat} :
    ∀ {rounds : Nat} {its : List It} {s : St K}, s.mit.fin = g.dataEnd i →
      Layout cf g s.fl.mem (g.dataEnd i) s.mit.cur its f → Short md g its → g.dataStart i ≤ s.mit.cur → g.word ∣ s.mit.cur →
      s.mit.cur ≤ g.dataEnd i → g.dataEnd i < s.mit.cur + rounds → 0 < rounds →
    Sat (Map.iterItem g rounds) s
      (fun r s' => s'.fl = s.fl ∧ s'.cache = s.cache ∧ s'.buf.length = s.buf.length ∧ s'.qit = s.qit ∧
        s'.mit = { s.mit with cur := s'.mit.cur } ∧ g.dataStart i ≤ s'.mit.cur ∧ g.word ∣ s'.mit.cur ∧ s'.mit.cur ≤ g.dataEnd i ∧
        ((r = none ∧ (∀ it ∈ its, it.present = false) ∧ Layout cf g s.fl.mem (g.dataEnd i) s'.mit.cur [] f) ∨
         ∃ sk it post, its = sk ++ it :: post ∧ (∀ x ∈ sk, x.present = false) ∧ it.present = true ∧ r = some it.hdr ∧
          Holding s' it ∧ Layout cf g s.fl.mem (g.dataEnd i) s'.mit.cur post f))
      (fun e s' => TooSmall md s e ∧ s'.fl = s.fl ∧ s'.cache = s.cache ∧ s'.buf.length = s.buf.length ∧ s'.qit = s.qit ∧
        s'.mit = { s.mit with cur := s'.mit.cur } ∧ g.dataStart i ≤ s'.mit.cur ∧ g.word ∣ s'.mit.cur ∧ s'.mit.cur ≤ g.dataEnd i ∧
        ∃ sk it post, its = sk ++ it :: post ∧ (∀ x ∈ sk, x.present = false) ∧ Layout cf g s.fl.mem (g.dataEnd i) s'.mit.cur post f) := by
  intro rounds
  induction rounds with
  | zero => intro its s _ _ _ _ _ _ _ h0; omega
  | succ r ih =>
    intro its s hfin l hsh ha hd hle hr h0
    have hro := rounds_ok w i ha
    have ho := page_order w i
    unfold Map.iterItem
    refine Sat.bind_eq (get_run s) ?_
    rw [hfin]
    refine Sat.bind_eq (traverse_run w s l hd (by omega) (page_stop w hi) _ hro.1 hro.2) ?_
    have hfe : f ≤ g.dataEnd i := l.le_end w hle hd
    cases its with
    | nil =>
      simp only [scanResult, List.dropWhile_nil]
      refine Sat.bind_eq (modify_run _ s) ?_
      refine Sat.pure ⟨rfl, rfl, rfl, rfl, rfl, ?_, ?_, hfe, Or.inl ⟨rfl, by simp, l.atEnd⟩⟩
      · have := l.le w; show g.dataStart i ≤ f; omega
      · exact l.end_dvd w hd
    | cons it post =>
      simp only [scanResult, List.dropWhile_cons, Bool.false_eq_true, if_false]
      have hmi := l.mem_item w (it := it) (by simp)
      have hn := Layout.next_gt w it.hdr it.addr
      have hnd := Layout.next_dvd w (h := it.hdr) (l.mem_dvd w hd (it := it) (by simp))
      have hs : Layout cf g s.fl.mem (g.dataEnd i) (it.hdr.next g it.addr) post f := Layout.suffix (pre := []) w l
      have hsl := hs.le w
      refine Sat.bind_eq (modify_run _ s) ?_
      rcases (readIt_sat (s := { s with mit := { s.mit with cur := it.hdr.next g it.addr } }) w hi l hsh ha hd (it := it) (by simp)).cases with
        ⟨x, s1, he, hb, hx⟩ | ⟨e, s1, he, hE, rfl, _⟩
      · refine Sat.bind_eq he ?_
        have hm1 : s1.mit = { s.mit with cur := it.hdr.next g it.addr } := hb.mit
        have hc1 : s1.mit.cur = it.hdr.next g it.addr := by rw [hm1]
        have hf1 : s1.fl = s.fl := hb.fl
        have hk1 : s1.cache = s.cache := hb.cache
        have hl1 : s1.buf.length = s.buf.length := hb.len
        have hq1 : s1.qit = s.qit := hb.qit
        rcases hx with ⟨rfl, hp, hh⟩ | ⟨hx, hp⟩
        · refine Sat.pure ⟨hf1, hk1, hl1, hq1, by rw [hc1]; exact hm1, by omega, by rw [hc1]; exact hnd, by omega,
            Or.inr ⟨[], it, post, rfl, by simp, hp, rfl, hh, by rw [hc1]; exact hs⟩⟩
        · have : Sat (Map.iterItem g r) s1
            (fun r s' => s'.fl = s.fl ∧ s'.cache = s.cache ∧ s'.buf.length = s.buf.length ∧ s'.qit = s.qit ∧
              s'.mit = { s.mit with cur := s'.mit.cur } ∧ g.dataStart i ≤ s'.mit.cur ∧ g.word ∣ s'.mit.cur ∧ s'.mit.cur ≤ g.dataEnd i ∧
              ((r = none ∧ (∀ x ∈ it :: post, x.present = false) ∧ Layout cf g s.fl.mem (g.dataEnd i) s'.mit.cur [] f) ∨
              ∃ sk x post', it :: post = sk ++ x :: post' ∧ (∀ x ∈ sk, x.present = false) ∧ x.present = true ∧ r = some x.hdr ∧
                Holding s' x ∧ Layout cf g s.fl.mem (g.dataEnd i) s'.mit.cur post' f))
            (fun e s' => TooSmall md s e ∧ s'.fl = s.fl ∧ s'.cache = s.cache ∧ s'.buf.length = s.buf.length ∧ s'.qit = s.qit ∧
              s'.mit = { s.mit with cur := s'.mit.cur } ∧ g.dataStart i ≤ s'.mit.cur ∧ g.word ∣ s'.mit.cur ∧ s'.mit.cur ≤ g.dataEnd i ∧
              ∃ sk x post', it :: post = sk ++ x :: post' ∧ (∀ x ∈ sk, x.present = false) ∧ Layout cf g s.fl.mem (g.dataEnd i) s'.mit.cur post' f) := by
            refine (ih (its := post) (s := s1) (by rw [hm1]; exact hfin) (by rw [hf1, hc1]; exact hs) (hsh.sub (by simp)) (by omega)
              (by rw [hc1]; exact hnd) (by omega) (by omega) (by omega)).mono ?_ ?_
            · rintro r s' ⟨q1, q2, q3, q4, q5, q6, q7, q8, q9⟩
              refine ⟨q1.trans hf1, q2.trans hk1, q3.trans hl1, q4.trans hq1, ?_, q6, q7, q8, ?_⟩
              · rw [q5, hm1]
              · rw [hf1] at q9
                rcases q9 with ⟨q9, q10, q11⟩ | ⟨sk, x, post', rfl, q10, q11, q12, q13, q14⟩
                · refine Or.inl ⟨q9, ?_, q11⟩
                  intro y hy
                  rcases List.mem_cons.1 hy with rfl | hy
                  · exact hp
                  · exact q10 y hy
                · refine Or.inr ⟨it :: sk, x, post', rfl, ?_, q11, q12, q13, q14⟩
                  intro y hy
                  rcases List.mem_cons.1 hy with rfl | hy
                  · exact hp
                  · exact q10 y hy
            · rintro e s' ⟨q0, q1, q2, q3, q4, q5, q6, q7, q8, sk, x, post', rfl, q10, q9⟩
              rw [hf1] at q9
              exact ⟨q0.of_len hl1, q1.trans hf1, q2.trans hk1, q3.trans hl1, q4.trans hq1, by rw [q5, hm1], q6, q7, q8,
                it :: sk, x, post', rfl, by
                  intro y hy
                  rcases List.mem_cons.1 hy with rfl | hy
                  · exact hp
                  · exact q10 y hy, q9⟩
          rcases hx with rfl | rfl <;> exact this
      · exact Sat.of_err (bind_err he) ⟨hE.of_len rfl, rfl, rfl, rfl, rfl, rfl, by show g.dataStart i ≤ it.hdr.next g it.addr; omega, hnd,
          by show it.hdr.next g it.addr ≤ _; omega, [], it, post, rfl, by simp, hs⟩

omit w in
theorem next_ring {n o d : Nat} (ho : o < n) (hd : d < n) :
    (ringPage n o d + 1) % n = if d + 1 < n then ringPage n o (d + 1) else o := by
  have hlt := ringPage_lt ho hd
  rcases Nat.lt_or_ge (ringPage n o d + 1) n with h | h
  · rw [Nat.mod_eq_of_lt h]
    unfold ringPage at h ⊢
    repeat' split
    all_goals (repeat' (split at h)) <;> omega
  · rw [show ringPage n o d + 1 = n from by omega, Nat.mod_self]
    unfold ringPage at h hlt ⊢
    repeat' split
    all_goals (repeat' (split at h)) <;> (repeat' (split at hlt)) <;> omega

/-- The next page with items. -/
theorem iterPage_sat :
    ∀ {rounds d : Nat} {s : St K}, MG kc vc md g big s σ P F → s.mit.first < g.pageCount → d < g.pageCount →
      s.mit.page = ringPage g.pageCount s.mit.first d → g.pageCount ≤ d + rounds → 0 < rounds →
    Sat (Map.iterPage g rounds) s
      (fun r s' => MG kc vc md g big s' σ P F ∧ s'.fl = s.fl ∧ s'.buf.length = s.buf.length ∧ s'.mit.first = s.mit.first ∧
        ((r = false ∧ s'.mit.page = s.mit.first ∧ s'.mit.cur = s.mit.cur ∧ s'.mit.fin = s.mit.fin ∧
            iseg g.pageCount s.mit.first P (d + 1) (g.pageCount - (d + 1)) = []) ∨
         (r = true ∧ ∃ d', d < d' ∧ d' < g.pageCount ∧ s'.mit.page = ringPage g.pageCount s.mit.first d' ∧
            s'.mit.cur = g.dataStart s'.mit.page ∧ s'.mit.fin = g.dataEnd s'.mit.page ∧
            iseg g.pageCount s.mit.first P (d + 1) (g.pageCount - (d + 1)) =
              (P s'.mit.page).its ++ iseg g.pageCount s.mit.first P (d' + 1) (g.pageCount - (d' + 1)) ∧
            ∃ f, Layout md.cf g s'.fl.mem (g.dataEnd s'.mit.page) (g.dataStart s'.mit.page) (P s'.mit.page).its f)))
      (fun _ _ => False) := by
  intro rounds
  induction rounds with
  | zero => intro d s _ _ _ _ _ h0; omega
  | succ r ih =>
    intro d s h hfi hd hpg hr h0
    have skip : d + 1 < g.pageCount → ∀ {s2 : St K}, MG kc vc md g big s2 σ P F →
        s2.mit = { s.mit with page := ringPage g.pageCount s.mit.first (d + 1) } → s2.fl = s.fl → s2.buf.length = s.buf.length →
        (P (ringPage g.pageCount s.mit.first (d + 1))).its = [] →
        Sat (Map.iterPage g r) s2
          (fun r s' => MG kc vc md g big s' σ P F ∧ s'.fl = s.fl ∧ s'.buf.length = s.buf.length ∧ s'.mit.first = s.mit.first ∧
            ((r = false ∧ s'.mit.page = s.mit.first ∧ s'.mit.cur = s.mit.cur ∧ s'.mit.fin = s.mit.fin ∧
                iseg g.pageCount s.mit.first P (d + 1) (g.pageCount - (d + 1)) = []) ∨
            (r = true ∧ ∃ d', d < d' ∧ d' < g.pageCount ∧ s'.mit.page = ringPage g.pageCount s.mit.first d' ∧
                s'.mit.cur = g.dataStart s'.mit.page ∧ s'.mit.fin = g.dataEnd s'.mit.page ∧
                iseg g.pageCount s.mit.first P (d + 1) (g.pageCount - (d + 1)) =
                  (P s'.mit.page).its ++ iseg g.pageCount s.mit.first P (d' + 1) (g.pageCount - (d' + 1)) ∧
                ∃ f, Layout md.cf g s'.fl.mem (g.dataEnd s'.mit.page) (g.dataStart s'.mit.page) (P s'.mit.page).its f)))
          (fun _ _ => False) := by
      intro hlast s2 h2 hm2 hf2 hl2 hbl
      have hseg : iseg g.pageCount s.mit.first P (d + 1) (g.pageCount - (d + 1)) =
          iseg g.pageCount s.mit.first P (d + 1 + 1) (g.pageCount - (d + 1 + 1)) := by
        rw [show g.pageCount - (d + 1) = 1 + (g.pageCount - (d + 1 + 1)) from by omega, iseg_add, iseg_one, hbl]; simp
      have hfi2 : s2.mit.first = s.mit.first := by rw [hm2]
      refine (ih (d := d + 1) h2 (by rw [hfi2]; exact hfi) hlast (by rw [hm2]) (by omega) (by omega)).mono ?_ (fun _ _ h => h)
      rintro r s' ⟨q1, q2, q3, q4, q5⟩
      rw [hfi2] at q4 q5
      refine ⟨q1, q2.trans hf2, q3.trans hl2, q4, ?_⟩
      rw [hseg]
      rcases q5 with ⟨q5, q6, q7, q8, q9⟩ | ⟨q5, d', q6, q7, q8⟩
      · exact Or.inl ⟨q5, q6, by rw [q7, hm2], by rw [q8, hm2], q9⟩
      · exact Or.inr ⟨q5, d', by omega, q7, q8⟩
    unfold Map.iterPage
    refine Sat.bind_eq (modify_run _ s) ?_
    refine Sat.bind_eq (get_run _) ?_
    have hnx : g.nextPage s.mit.page = if d + 1 < g.pageCount then ringPage g.pageCount s.mit.first (d + 1) else s.mit.first := by
      rw [hpg]; exact next_ring hfi hd
    have h1 : MG kc vc md g big { s with mit := { s.mit with page := g.nextPage s.mit.page } } σ P F := h.eqv rfl rfl rfl
    by_cases hlast : d + 1 < g.pageCount
    · rw [if_pos hlast] at hnx
      have hlt := ringPage_lt (n := g.pageCount) hfi hlast
      have hne : ringPage g.pageCount s.mit.first (d + 1) ≠ s.mit.first := by
        intro h'
        have e0 : ringPage g.pageCount s.mit.first 0 = s.mit.first := ringPage_zero hfi
        have := ringPage_inj hfi hlast (by omega) (h'.trans e0.symm)
        omega
      rw [if_neg (by simp only [hnx]; exact hne)]
      refine Sat.bind_eq (attempt_run _ _) ?_
      simp only [hnx] at h1 ⊢
      have hsplit : g.pageCount - (d + 1) = 1 + (g.pageCount - (d + 1 + 1)) := by omega
      rcases (getCached w h1.good hlt).cases with ⟨st, s2, he, hst, hg2, hs2, _⟩ | ⟨e, s2, he, hs2, hst⟩
      · rw [he]
        have h2 := h1.same hg2 hs2
        have hm2 : s2.mit = { s.mit with page := ringPage g.pageCount s.mit.first (d + 1) } := hs2.mit
        have hf2 : s2.fl = s.fl := hs2.fl
        have hl2 : s2.buf.length = s.buf.length := by rw [hs2.buf]
        have hused : st ≠ .open → Sat (do
            M.modify fun s => { s with mit := { s.mit with cur := g.dataStart s.mit.page, fin := g.dataEnd s.mit.page } }
            pure true : M K Bool) s2
          (fun r s' => MG kc vc md g big s' σ P F ∧ s'.fl = s.fl ∧ s'.buf.length = s.buf.length ∧ s'.mit.first = s.mit.first ∧
            ((r = false ∧ s'.mit.page = s.mit.first ∧ s'.mit.cur = s.mit.cur ∧ s'.mit.fin = s.mit.fin ∧
                iseg g.pageCount s.mit.first P (d + 1) (g.pageCount - (d + 1)) = []) ∨
            (r = true ∧ ∃ d', d < d' ∧ d' < g.pageCount ∧ s'.mit.page = ringPage g.pageCount s.mit.first d' ∧
                s'.mit.cur = g.dataStart s'.mit.page ∧ s'.mit.fin = g.dataEnd s'.mit.page ∧
                iseg g.pageCount s.mit.first P (d + 1) (g.pageCount - (d + 1)) =
                  (P s'.mit.page).its ++ iseg g.pageCount s.mit.first P (d' + 1) (g.pageCount - (d' + 1)) ∧
                ∃ f, Layout md.cf g s'.fl.mem (g.dataEnd s'.mit.page) (g.dataStart s'.mit.page) (P s'.mit.page).its f)))
          (fun _ _ => False) := by
          intro hno
          refine Sat.bind_eq (modify_run _ s2) ?_
          refine Sat.pure ⟨h2.eqv rfl rfl rfl, hf2, hl2, by simp only [hm2], Or.inr ⟨rfl, d + 1, by omega, hlast, by simp only [hm2],
            rfl, rfl, ?_, ?_⟩⟩
          · simp only [hm2]
            rw [hsplit, iseg_add, iseg_one]
          · simp only [hm2]
            have hp := h2.good.fs.pages _ hlt
            have hs := h2.good.fs.st _ hlt
            rw [hst] at hs
            cases hpk : P (ringPage g.pageCount s.mit.first (d + 1)) with
            | used c its f =>
              rw [hpk] at hp
              have u : Used md g s2.fl _ c its f := hp
              exact ⟨f, u.layout⟩
            | blank => rw [hpk] at hs; simp [PK.st] at hs; exact absurd hs.symm hno
            | junk => exact absurd hpk (h.mp.nojunk _ hlt)
            | corr => rw [hpk] at hs; simp [PK.st] at hs
        cases st with
        | closed => exact hused (by simp)
        | partialOpen => exact hused (by simp)
        | «open» =>
          have hbl := open_blank h2.good.fs h.mp.nojunk hlt hst
          exact skip hlast h2 hm2 hf2 hl2 (by rw [hbl]; rfl)
      · rw [he]
        have hec := (Shape.st_err.1 hst).1
        subst hec
        have hs := h1.good.fs.st _ hlt
        rw [hst] at hs
        refine skip hlast (h1.eqv (by rw [hs2]) (by rw [hs2]) (by rw [hs2])) (by rw [hs2]) (by rw [hs2]) (by rw [hs2]) ?_
        cases hpk : P (ringPage g.pageCount s.mit.first (d + 1)) with
        | used c its f => rw [hpk] at hs; cases c <;> simp [PK.st] at hs
        | blank => rfl
        | junk => rfl
        | corr => rfl
    · rw [if_neg hlast] at hnx
      rw [if_pos (by simp only [hnx])]
      refine Sat.pure ⟨h1, rfl, rfl, rfl, Or.inl ⟨rfl, hnx, rfl, rfl, ?_⟩⟩
      rw [show g.pageCount - (d + 1) = 0 from by omega, iseg_zero]

/-- The next item on any page. -/
theorem iterLoop_sat {lm : Option Nat} (hlm : lm = none ∨ lm = md.lim) :
    ∀ {rounds d i : Nat} {s : St K} {its : List It} {f : Nat}, MG kc vc md g big s σ P F → s.mit.first < g.pageCount →
      d < g.pageCount → s.mit.page = ringPage g.pageCount s.mit.first d → i < g.pageCount → s.mit.fin = g.dataEnd i →
      g.dataStart i ≤ s.mit.cur → s.mit.cur ≤ g.dataEnd i → g.word ∣ s.mit.cur →
      Layout md.cf g s.fl.mem (g.dataEnd i) s.mit.cur its f → Short (md.upTo lm) g its → g.pageCount ≤ d + rounds → 0 < rounds →
    Sat (Map.iterLoop g rounds) s
      (fun r s' => MG kc vc md g big s' σ P F ∧ s'.fl = s.fl ∧ s'.buf.length = s.buf.length ∧ s'.mit.first = s.mit.first ∧
        ((r = none ∧ (∀ it ∈ its ++ iseg g.pageCount s.mit.first P (d + 1) (g.pageCount - (d + 1)), it.present = false) ∧
            ∃ rest, ItAt md lm g P s' rest ∧ OnPages g P rest ∧ rest = iseg g.pageCount s.mit.first P 1 (g.pageCount - 1)) ∨
         ∃ sk it post, its ++ iseg g.pageCount s.mit.first P (d + 1) (g.pageCount - (d + 1)) = sk ++ it :: post ∧
          (∀ x ∈ sk, x.present = false) ∧ it.present = true ∧ r = some it.hdr ∧ Holding s' it ∧ ItAt md lm g P s' post))
      (fun e s' => TooSmall (md.upTo lm) s e ∧ MG kc vc md g big s' σ P F ∧ s'.fl = s.fl ∧ s'.buf.length = s.buf.length ∧ s'.mit.first = s.mit.first ∧
        ∃ sk it post, its ++ iseg g.pageCount s.mit.first P (d + 1) (g.pageCount - (d + 1)) = sk ++ it :: post ∧
          (∀ x ∈ sk, x.present = false) ∧ ItAt md lm g P s' post) := by
  intro rounds
  induction rounds with
  | zero => intro d i s its f _ _ _ _ _ _ _ _ _ _ _ _ h0; omega
  | succ r ih =>
    intro d i s its f h hfi hd hpg hi hfin ha hle hdv l hsh hr h0
    unfold Map.iterLoop
    have hro := rounds_ok w i ha
    rcases (iterItem_sat (md := md.upTo lm) w hi hfin l hsh ha hdv hle hro.1 hro.2).cases with
      ⟨x, s1, he1, q1, q2, q3, q4, q5, q6, q7, q8, q9⟩ | ⟨e, s1, he1, q0, q1, q2, q3, q4, q5, q6, q7, q8, sk, x, post, rfl, qs, q10⟩
    · refine Sat.bind_eq he1 ?_
      have h1 := h.eqv q1 q2 q3
      have m1 : s1.mit.first = s.mit.first := by rw [q5]
      have m2 : s1.mit.page = s.mit.page := by rw [q5]
      have m3 : s1.mit.fin = s.mit.fin := by rw [q5]
      rcases q9 with ⟨rfl, habs, lend⟩ | ⟨sk, it, post, rfl, hsk, hp, rfl, hh, lpost⟩
      · rcases (iterPage_sat w (rounds := g.pageCount + 1) h1 (by rw [m1]; exact hfi) hd (by rw [m2, m1]; exact hpg)
          (by omega) (by omega)).cases with ⟨b, s2, he2, h2, p2, p3, p4, hb⟩ | ⟨_, _, _, hF⟩
        · refine Sat.bind_eq he2 ?_
          rw [m1] at p4 hb
          rcases hb with ⟨rfl, p5, p6, p7, p8⟩ | ⟨rfl, d', p5, p6, p7, p8, p9, p10, f', p11⟩
          · rw [if_neg (by simp)]
            refine Sat.pure ⟨h2, p2.trans q1, p3.trans q3, p4, Or.inl ⟨rfl, ?_, ?_⟩⟩
            · rw [p8, List.append_nil]; exact habs
            · refine ⟨_, ⟨0, i, [], f, ?_, by omega, ?_, hi, ?_, ?_, ?_, ?_, ?_, ?_, rfl⟩, ?_, by rw [p4]; rfl⟩
              · rw [p4]; exact hfi
              · rw [p5, p4, ringPage_zero hfi]
              · rw [p7, m3]; exact hfin
              · rw [p6]; exact q6
              · rw [p6]; exact q8
              · rw [p6]; exact q7
              · rw [p6, p2, q1]; exact lend
              · intro n _ x hx; simp at hx
              · rw [List.nil_append]
                exact OnPages.seg (by rw [p4]; exact hfi) (by omega)
          · rw [if_pos rfl]
            have hlt := ringPage_lt (n := g.pageCount) hfi p6
            rw [← p7] at hlt
            have hpo := page_order w s2.mit.page
            rw [p10]
            refine (ih (d := d') h2 (by rw [p4]; exact hfi) p6 (by rw [p4]; exact p7) hlt p9 (by omega) (by omega)
              (by rw [p8]; exact w.dataStart_word _) (by rw [p8]; exact p11) ((any_short h2.good.fs hlt).upTo hlm) (by omega) (by omega)).mono ?_ ?_
            · rintro r s' ⟨t1, t2, t3, t0, t4⟩
              rw [p4] at t4 t0
              refine ⟨t1, t2.trans (p2.trans q1), t3.trans (p3.trans q3), t0, ?_⟩
              rcases t4 with ⟨t4, t5, t6⟩ | ⟨sk, it, post, t5, t6, t7, t8, t9, t10⟩
              · refine Or.inl ⟨t4, ?_, t6⟩
                intro y hy
                rcases List.mem_append.1 hy with hy | hy
                · exact habs y hy
                · exact t5 y hy
              · refine Or.inr ⟨its ++ sk, it, post, by rw [t5]; simp, ?_, t7, t8, t9, t10⟩
                intro y hy
                rcases List.mem_append.1 hy with hy | hy
                · exact habs y hy
                · exact t6 y hy
            · rintro e s' ⟨t0, t1, t2, t3, t3', sk, it, post, t5, t6, t7⟩
              rw [p4] at t5 t3'
              refine ⟨t0.of_len (p3.trans q3), t1, t2.trans (p2.trans q1), t3.trans (p3.trans q3), t3', its ++ sk, it, post,
                by rw [t5]; simp, ?_, t7⟩
              intro y hy
              rcases List.mem_append.1 hy with hy | hy
              · exact habs y hy
              · exact t6 y hy
        · exact hF.elim
      · refine Sat.pure ⟨h1, q1, q3, m1, Or.inr ⟨sk, it, post ++ iseg g.pageCount s.mit.first P (d + 1) (g.pageCount - (d + 1)),
          by simp, hsk, hp, rfl, hh, d, i, post, f, ?_, hd, ?_, hi, ?_, q6, q8, q7, ?_, hsh.sub (by simp), by rw [m1]⟩⟩
        · rw [m1]; exact hfi
        · rw [m2, m1]; exact hpg
        · rw [m3]; exact hfin
        · rw [q1]; exact lpost
    · have h1 := h.eqv q1 q2 q3
      have m1 : s1.mit.first = s.mit.first := by rw [q5]
      have m2 : s1.mit.page = s.mit.page := by rw [q5]
      have m3 : s1.mit.fin = s.mit.fin := by rw [q5]
      refine Sat.of_err (bind_err he1) ⟨q0, h1, q1, q3, m1, sk, x,
        post ++ iseg g.pageCount s.mit.first P (d + 1) (g.pageCount - (d + 1)), by simp, qs,
        d, i, post, f, ?_, hd, ?_, hi, ?_, q6, q8, q7, ?_, hsh.sub (by simp), by rw [m1]⟩
      · rw [m1]; exact hfi
      · rw [m2, m1]; exact hpg
      · rw [m3]; exact hfin
      · rw [q1]; exact q10

/-- `MapItemIter::next`. Only items that were written by a store are understood. -/
theorem mapNext_sat (L : Lawful kc vc) {lm : Option Nat} (hlm : lm = none ∨ lm = md.lim) {s : St K} (h : MG kc vc md g big s σ P F) {ahead : List It}
    (ha : ItAt md lm g P s ahead) :
    Sat (Map.iterNext g kc vc) s
      (fun r s' => MG kc vc md g big s' σ P F ∧ s'.fl = s.fl ∧ s'.buf.length = s.buf.length ∧ s'.mit.first = s.mit.first ∧
        ((r = none ∧ (∀ it ∈ ahead, it.present = false) ∧ ∃ rest, ItAt md lm g P s' rest ∧ OnPages g P rest ∧
            rest = iseg g.pageCount s.mit.first P 1 (g.pageCount - 1)) ∨
         ∃ sk it post, ahead = sk ++ it :: post ∧ (∀ x ∈ sk, x.present = false) ∧ it.present = true ∧ ItAt md lm g P s' post ∧
          ((∃ k v, Enc kc vc it.data k v) → ∃ k v, keyOf kc it = some k ∧ valOf kc vc it = some v ∧ r = some (k, v))))
      (fun e s' => MG kc vc md g big s' σ P F ∧ s'.fl = s.fl ∧ s'.buf.length = s.buf.length ∧ s'.mit.first = s.mit.first ∧
        ∃ sk it post, ahead = sk ++ it :: post ∧ (∀ x ∈ sk, x.present = false) ∧ ItAt md lm g P s' post ∧
          (TooSmall (md.upTo lm) s e ∨ (it.present = true ∧ ¬ ∃ k v, Enc kc vc it.data k v))) := by
  obtain ⟨d, i, its, f, h1, h2, h3, h4, h5, h6, h7, h8, h9, h10, rfl⟩ := ha
  unfold Map.iterNext
  rcases (iterLoop_sat w hlm (rounds := g.pageCount + 1) h h1 h2 h3 h4 h5 h6 h7 h8 h9 h10 (by omega) (by omega)).cases with
    ⟨r, s1, he1, q1, q2, q3, m1, q4⟩ | ⟨e, s1, he1, q0, q1, q2, q3, m1, sk, it, post, q4, q5, q6⟩
  · refine Sat.bind_eq he1 ?_
    rcases q4 with ⟨rfl, q4, q5⟩ | ⟨sk, it, post, q4, q5, q6, rfl, hh, q7⟩
    · exact Sat.pure ⟨q1, q2, q3, m1, Or.inl ⟨rfl, q4, q5⟩⟩
    · simp only
      refine Sat.bind_eq (get_run s1) ?_
      by_cases henc : ∃ k v, Enc kc vc it.data k v
      · obtain ⟨k, v, henc⟩ := henc
        obtain ⟨n, hn, hde, _, m, hv⟩ := henc.de L
        refine Sat.bind_eq (liftSer_ok (a := (k, n)) (by rw [hh.split]; exact hde _) s1) ?_
        have hdl : it.data.length = it.hdr.len.toNat := by
          rw [← hh.take, List.length_take, Nat.min_eq_left hh.len]
        simp only
        rw [if_neg (by omega)]
        refine Sat.bind_eq (liftSer_ok (by rw [hh.take]; exact hv) s1) ?_
        exact Sat.pure ⟨q1, q2, q3, m1, Or.inr ⟨sk, it, post, q4, q5, q6, q7, fun _ => ⟨k, v, henc.keyOf L, henc.valOf L, rfl⟩⟩⟩
      · have hE : ∀ e : Err, (∃ sk x post, its ++ iseg g.pageCount s.mit.first P (d + 1) (g.pageCount - (d + 1)) = sk ++ x :: post ∧
            (∀ x ∈ sk, x.present = false) ∧ ItAt md lm g P s1 post ∧
            (TooSmall (md.upTo lm) s e ∨ (x.present = true ∧ ¬ ∃ k v, Enc kc vc x.data k v))) :=
          fun e => ⟨sk, it, post, q4, q5, q7, Or.inr ⟨q6, henc⟩⟩
        cases hk : kc.de s1.buf with
        | error e =>
          exact Sat.of_err (e := .serialization e) (bind_err rfl) ⟨q1, q2, q3, m1, hE _⟩
        | ok kn =>
          refine Sat.bind_eq (liftSer_ok rfl s1) ?_
          obtain ⟨k, n⟩ := kn
          simp only
          split
          · exact Sat.throw ⟨q1, q2, q3, m1, hE _⟩
          · cases hv : vc.de ((s1.buf.take it.hdr.len.toNat).drop n) with
            | error e => exact Sat.of_err (e := .serialization e) (bind_err rfl) ⟨q1, q2, q3, m1, hE _⟩
            | ok vm =>
              refine Sat.bind_eq (liftSer_ok rfl s1) ?_
              exact Sat.pure ⟨q1, q2, q3, m1, Or.inr ⟨sk, it, post, q4, q5, q6, q7, fun h => absurd h henc⟩⟩
  · exact Sat.of_err (bind_err he1) ⟨q1, q2, q3, m1, sk, it, post, q4, q5, q6, Or.inl q0⟩

end SeqStorage
