import Verif.Proofs.MapFetch
import Verif.Props.Crc
/-
Moving the items of the oldest page that are still current to the newest page.
-/

set_option linter.unusedSectionVars false

namespace SeqStorage
open M

variable {K V : Type} [DecidableEq K] {kc : KeyCodec K} {vc : ValCodec V}
variable {md : Mode} {g : Geo} {σ : Shape} {P : Nat → PK} {F F' : K → Prop} {big : Bool}

/-- The bytes an item takes in its page. -/
def footI (g : Geo) (it : It) : Nat := g.hl + g.roundUp it.hdr.len.toNat

theorem next_foot (it : It) (a : Nat) : it.hdr.next g a = a + footI g it := by
  unfold footI Header.next; omega

theorem upd_upd {β : Type} {P : Nat → β} {i : Nat} {a b : β} : upd (upd P i a) i b = upd P i b := by
  funext j; unfold upd; split <;> rfl

theorem MP.upd_front_nojunk {i : Nat} {pk : PK} (h : ∀ i, i < g.pageCount → P i ≠ .junk) (hpk : pk ≠ .junk) :
    ∀ j, j < g.pageCount → upd P i pk j ≠ .junk := by
  intro j hj
  unfold upd
  split
  · exact hpk
  · exact h j hj

/-- Changing the items of the page that is written to. -/
theorem MP.setFront (h : MP kc vc md g σ P F) (wf : σ.WF g.pageCount) (hp : σ.part = true) {its : List It} {f : Nat}
    (hnew : ∀ it ∈ its, it.present = true → it ∈ (P (σ.front g.pageCount)).its ∨
      ((∃ k v, Enc kc vc it.data k v) ∧ md.Allows g it.data))
    (hdup : σ.m = g.pageCount → Drift kc vc F' (older g.pageCount σ P ++ its) (older g.pageCount σ P)) :
    MP kc vc md g σ (upd P (σ.front g.pageCount) (.used false its f)) F' := by
  have e1 := icontent_upd_front (P := P) wf hp (.used false its f)
  have e2 := older_upd_front (P := P) wf hp (.used false its f)
  have e3 := icontent_front (P := P) wf hp
  refine ⟨MP.upd_front_nojunk h.nojunk (by simp), h.shape, h.corr, ?_, ?_, ?_⟩
  · rw [e1]
    intro it hi hpr
    rcases List.mem_append.1 hi with hi | hi
    · exact h.enc it (by rw [e3]; simp [hi]) hpr
    · rcases hnew it hi hpr with hh | hh
      · exact h.enc it (by rw [e3]; simp [hh]) hpr
      · exact hh.1
  · rw [e1]
    intro it hi hpr
    rcases List.mem_append.1 hi with hi | hi
    · exact h.nt it (by rw [e3]; simp [hi]) hpr
    · rcases hnew it hi hpr with hh | hh
      · exact h.nt it (by rw [e3]; simp [hh]) hpr
      · exact hh.2
  · rw [e1, e2]; exact hdup

/-- A ring without free pages. -/
theorem older_full (wf : σ.WF g.pageCount) (hm : σ.m = g.pageCount) (hn : 2 ≤ g.pageCount) :
    older g.pageCount σ P = (P σ.o).its ++ iseg g.pageCount σ.o P 1 (g.pageCount - 2) := by
  unfold older
  have : σ.m - 1 = 1 + (g.pageCount - 2) := by omega
  rw [this, iseg_add, iseg_one, ringPage_zero wf.o_lt]

theorem front_ne_oldest (wf : σ.WF g.pageCount) (hm : σ.m = g.pageCount) (hn : 2 ≤ g.pageCount) :
    σ.front g.pageCount ≠ σ.o := by
  rw [front_eq (wf.full hm).1]
  intro he
  have h0 := ringPage_zero (n := g.pageCount) wf.o_lt
  have := ringPage_inj wf.o_lt (by omega) (by omega) (he.trans h0.symm)
  omega

theorem present_low {it : It} (h : it.present = true) :
    it.hdr.crc.setWidth 8 ≠ 0xff#8 ∧ it.hdr.crc.setWidth 8 ≠ 0#8 := by
  have := of_decide_eq_true h
  rw [← this]
  exact Props.stored_checksum_low_byte it.data

/-- A torn copy of an item. -/
theorem torn_item {a : Nat} {hd : Header} {d : List Byte} (hcrc : adaptedCrc32 d = hd.crc) (hnt : NoTorn md.was d) (k : Nat) :
    (⟨a, hd, tornData d k⟩ : It).present = false ∨ (⟨a, hd, tornData d k⟩ : It) = ⟨a, hd, d⟩ := by
  cases hp : (⟨a, hd, tornData d k⟩ : It).present with
  | false => exact Or.inl rfl
  | true =>
    right
    have h1 : adaptedCrc32 (tornData d k) = hd.crc := of_decide_eq_true hp
    rw [hnt.1 k (h1.trans hcrc.symm)]

/-- What an item with given data stands for. -/
theorem hits_data {k : K} {x y : It} (hd : x.data = y.data) (hc : x.hdr.crc = y.hdr.crc) :
    hits kc k x = hits kc k y ∧ valOf kc vc x = valOf kc vc y ∧ x.present = y.present ∧ keyOf kc x = keyOf kc y := by
  have h1 : x.present = y.present := by unfold It.present; rw [hd, hc]
  have h2 : keyOf kc x = keyOf kc y := by unfold keyOf; rw [hd]
  refine ⟨?_, ?_, h1, h2⟩
  · unfold hits; rw [h1, h2]
  · unfold valOf; rw [hd]

/-- Appending an absent item does not matter. -/
theorem look_snoc_absent {k : K} {a : List It} {x : It} (h : x.present = false) : look kc k (a ++ [x]) = look kc k a := by
  rw [look_append_none]
  apply look_absent
  intro y hy
  simp only [List.mem_singleton] at hy
  rw [hy]; exact h

theorem look_snoc_hit {k : K} {a : List It} {x : It} (h : hits kc k x = true) : look kc k (a ++ [x]) = some x := by
  apply look_append_some
  rw [look_single, h]; rfl

theorem look_snoc_miss {k : K} {a : List It} {x : It} (h : hits kc k x = false) : look kc k (a ++ [x]) = look kc k a := by
  apply look_append_none
  rw [look_single, h]; rfl

theorem hits_unique {k k' : K} {x : It} (h : hits kc k x = true) (h' : hits kc k' x = true) : k = k' := by
  have h1 := (hits_iff.1 h).2
  have h2 := (hits_iff.1 h').2
  rw [h1] at h2
  exact Option.some.inj h2

/-- The copies made so far are current and without gaps. -/
structure Live (kc : KeyCodec K) (g : Geo) (old cps : List It) (start f : Nat) : Prop where
  sum : f = start + (cps.map (footI g)).sum
  cur : ∀ c ∈ cps, ∃ k, look kc k (old ++ cps) = some c

/-- The copies that are made of the current items among `todo`, next to the items `old`. -/
def copyA (kc : KeyCodec K) (g : Geo) (old : List It) : List It → List It × Nat → List It × Nat
  | [], c => c
  | x :: todo, c =>
    match keyOf kc x with
    | none => copyA kc g old todo c
    | some k =>
      if x.present = true ∧ (look kc k (old ++ c.1)).map It.addr = some x.addr then
        copyA kc g old todo (c.1 ++ [⟨c.2, x.hdr, x.data⟩], x.hdr.next g c.2)
      else copyA kc g old todo c

theorem copyA_absent {old a b : List It} {c : List It × Nat} (h : ∀ x ∈ a, x.present = false) :
    copyA kc g old (a ++ b) c = copyA kc g old b c := by
  induction a with
  | nil => rfl
  | cons x a ih =>
    rw [List.cons_append, copyA]
    have hx := h x (by simp)
    cases keyOf kc x with
    | none => exact ih (fun y hy => h y (by simp [hy]))
    | some k =>
      simp only
      rw [if_neg (by rw [hx]; simp)]
      exact ih (fun y hy => h y (by simp [hy]))

theorem copyA_step {old b : List It} {c : List It × Nat} {x : It} {k : K} (hk : keyOf kc x = some k) :
    copyA kc g old (x :: b) c = if x.present = true ∧ (look kc k (old ++ c.1)).map It.addr = some x.addr then
        copyA kc g old b (c.1 ++ [⟨c.2, x.hdr, x.data⟩], x.hdr.next g c.2)
      else copyA kc g old b c := by
  rw [copyA, hk]

variable (w : g.WF)
include w

theorem migrateLoop_sat (L : Lawful kc vc) (hn : 2 ≤ g.pageCount) (hmd : md.OK g) (hm : σ.m = g.pageCount)
    {its : List It} {fo : Nat} (hpo : P σ.o = .used true its fo) :
    ∀ {rounds a f : Nat} {s : St K} {pre post cps : List It},
      MG kc vc md g big s σ (upd P (σ.front g.pageCount) (.used false cps f)) (fun _ => False) →
      its = pre ++ post → Layout md.cf g s.fl.mem (g.dataEnd σ.o) a post fo → g.dataStart σ.o ≤ a → g.word ∣ a →
      f + g.dataStart σ.o ≤ a + g.dataStart (σ.front g.pageCount) →
      (∀ k, look kc k (pre ++ (post ++ iseg g.pageCount σ.o P 1 (g.pageCount - 2) ++ cps)) =
        look kc k (post ++ iseg g.pageCount σ.o P 1 (g.pageCount - 2) ++ cps)) →
      Live kc g (older g.pageCount σ P) cps (g.dataStart (σ.front g.pageCount)) f →
      g.dataEnd σ.o < a + rounds → 0 < rounds →
    Sat (Map.migrateLoop g kc (g.dataEnd σ.o) rounds a f) s
      (fun _ s' => s'.buf.length = s.buf.length ∧ ∃ cps' f',
        MG kc vc md g big s' σ (upd P (σ.front g.pageCount) (.used false cps' f')) (fun _ => False) ∧
        (∀ k, look kc k (older g.pageCount σ P ++ cps') = look kc k (iseg g.pageCount σ.o P 1 (g.pageCount - 2) ++ cps')) ∧
        Live kc g (older g.pageCount σ P) cps' (g.dataStart (σ.front g.pageCount)) f' ∧
        (cps', f') = copyA kc g (older g.pageCount σ P) post (cps, f))
      (fun e s' => s'.buf.length = s.buf.length ∧
        ((TooSmall md s e ∧ ∃ cps' f', MG kc vc md g big s' σ (upd P (σ.front g.pageCount) (.used false cps' f')) (fun _ => False)) ∨
         (e = .shutoff ∧ ∃ cps' f', MD kc vc md g s' σ (upd P (σ.front g.pageCount) (.used false cps' f')) (fun _ => False)))) := by
  intro rounds
  induction rounds with
  | zero => intro a f s pre post cps _ _ _ _ _ _ _ _ _ h0; omega
  | succ r ih =>
    intro a f s pre post cps h hits' l ha hd hsp hcov hlive hr h0
    have wf := h.good.fs.wf
    have hpt := (wf.full hm).1
    have hfl := Shape.front_lt wf
    have hne := front_ne_oldest wf hm hn
    have hol := older_full (P := P) wf hm hn
    have hic := icontent_upd_front (P := P) wf hpt (.used false cps f)
    have holu := older_upd_front (P := P) wf hpt (.used false cps f)
    have hro := rounds_ok w σ.o ha
    have hpoi : (P σ.o).its = its := by rw [hpo]; rfl
    have hall : older g.pageCount σ P ++ cps = pre ++ (post ++ iseg g.pageCount σ.o P 1 (g.pageCount - 2) ++ cps) := by
      rw [hol, hpoi, hits']; simp
    rw [show (PK.used false cps f).its = cps from rfl] at hic
    unfold Map.migrateLoop
    have hsh : Short md g post := by
      have hpg := h.good.fs.pages _ wf.o_lt
      rw [upd_ne (by first | exact hne | exact hne.symm), hpo] at hpg
      have u : Used md g s.fl σ.o true its fo := hpg
      exact u.fit.sub (by rw [hits']; simp)
    rcases (itemNext_sat w wf.o_lt l hsh ha hd hro.1 hro.2).cases with ⟨x, s1, he1, hb1, hx⟩ | ⟨e, s1, he1, hE, hb1, _⟩
    · refine Sat.bind_eq he1 ?_
      obtain ⟨x1, x2⟩ := x
      rcases hx with ⟨h1, h2⟩ | ⟨sk, it, post', rfl, hsk, hpr, hx, hh⟩
      · simp only at h1; subst h1
        refine Sat.pure ⟨hb1.len, cps, f, h.bufOnly hb1, ?_, hlive, by
          have := copyA_absent (kc := kc) (g := g) (old := older g.pageCount σ P) (a := post) (b := []) (c := (cps, f)) h2
          rw [List.append_nil] at this
          rw [this]; rfl⟩
        intro k
        rw [hall, hcov, List.append_assoc, look_append, look_absent h2]
        cases look kc k (iseg g.pageCount σ.o P 1 (g.pageCount - 2) ++ cps) <;> rfl
      · simp only [Prod.mk.injEq] at hx
        obtain ⟨rfl, rfl⟩ := hx
        simp only
        refine Sat.bind_eq (get_run s1) ?_
        have hmem : it ∈ icontent g.pageCount σ (upd P (σ.front g.pageCount) (.used false cps f)) := by
          rw [hic, hall]; simp
        obtain ⟨k, v, henc⟩ := h.mp.enc it hmem hpr
        obtain ⟨n, hn1, hde, _, _⟩ := henc.de L
        have hkey := henc.keyOf L
        have hhit : hits kc k it = true := hits_iff.2 ⟨hpr, hkey⟩
        refine Sat.bind_eq (liftSer_ok (by rw [hh.split]; exact hde _) s1) ?_
        have h1 := h.bufOnly hb1
        rcases h1.unmark_sat.cases with ⟨_, s2, he2, h2, hc2, _⟩ | ⟨e, s2, _, hF⟩
        rotate_left
        · exact hF.elim
        refine Sat.bind_eq he2 ?_
        -- facts about what follows the item
        have hs := l.suffix w
        have hmi := l.mem_item w (it := it) (by simp)
        have hlg := Layout.next_gt w it.hdr it.addr
        have hnd := Layout.next_dvd w (h := it.hdr) (l.mem_dvd w hd (it := it) (by simp))
        have hfe := hs.le w
        have hfe2 : fo ≤ g.dataEnd σ.o := l.le_end w (by
          have := hdrAt_some_iff.1 hmi.2.1
          omega) hd
        have hbefore := (l.before w).1
        have hpg1 := page_order w σ.o
        have hpg2 := page_order w (σ.front g.pageCount)
        have hde1 := w.dataEnd_eq σ.o
        have hde2 := w.dataEnd_eq (σ.front g.pageCount)
        rcases (fetchLoc_sat w L hn h2 k).cases with ⟨rr, s3, he3, h3, hc3, hfound⟩ | ⟨e, s3, he3, h3, hc3, hE⟩
        · refine Sat.bind_eq he3 ?_
          cases rr with
          | none =>
            exfalso
            have : look kc k _ = none := hfound
            rw [look_none] at this
            exact this it hmem hpr hkey
          | some rr =>
            obtain ⟨hd', found, kl⟩ := rr
            obtain ⟨y, n', hly, rfl, rfl, hhold, _, _⟩ := hfound
            simp only
            refine Sat.bind_eq (get_run s3) ?_
            rw [if_neg (by have := hhold.len; omega)]
            have hlen3 : s3.buf.length = s.buf.length := by rw [hc3.len, hc2.len, hb1.len]
            have hfl3 : s3.fl = s.fl := by rw [hc3.fl, hc2.fl, hb1.fl]
            have hls : look kc k sk = none := look_absent hsk
            by_cases hfa : y.addr = it.addr
            · -- the item is current: copy it
              have hyx : y = it := item_unique w h3.good.fs (look_some hly).1 hmem hfa
              subst hyx
              rw [if_pos hfa]
              have hf0 : f ≠ 0 := by
                have hpgs := h.good.fs.pages _ hfl
                rw [upd_same] at hpgs
                have u : Used md g s.fl (σ.front g.pageCount) false cps f := hpgs
                have := u.bounds w
                have := w.word_pos
                omega
              obtain ⟨c', hn1', hn2', hn3', hn4'⟩ := noticeKey_run h3.kpok k hf0 true
              refine Sat.bind_eq hn1' ?_
              have hg4 : Good md g { s3 with cache := { s3.cache with dirty := s3.cache.dirty || true, kp := c' } } σ
                  (upd P (σ.front g.pageCount) (.used false cps f)) := ⟨h3.good.fs, h3.good.ps, h3.good.pp⟩
              have hdl : y.data.length = y.hdr.len.toNat := by
                rw [← hhold.take, List.length_take]; have := hhold.len; omega
              have hlow := present_low hpr
              have hnx := next_foot (g := g) y f
              have hnx' := next_foot (g := g) y y.addr
              have hcrc : adaptedCrc32 y.data = y.hdr.crc := of_decide_eq_true hpr
              rw [hhold.take]
              -- the contents after the copy
              have hnewhit : ∀ k', hits kc k' ⟨f, y.hdr, y.data⟩ = hits kc k' y := fun k' => (hits_data (vc := vc) rfl rfl).1
              have hlv : ∀ k', lookV kc vc k' (older g.pageCount σ P ++ (cps ++ [⟨f, y.hdr, y.data⟩])) =
                  lookV kc vc k' (older g.pageCount σ P ++ cps) := by
                intro k'
                rw [← List.append_assoc]
                cases hk' : hits kc k' y with
                | true =>
                  have hkk := hits_unique hk' hhit
                  subst hkk
                  unfold lookV
                  rw [look_snoc_hit (by rw [hnewhit]; exact hk')]
                  rw [hic] at hly
                  rw [hly]
                  exact (hits_data (k := k') (vc := vc) (kc := kc) rfl rfl).2.1
                | false =>
                  apply lookV_congr
                  exact look_snoc_miss (by rw [hnewhit]; exact hk')
              have hold : ∀ k', lookV kc vc k' (older g.pageCount σ P) = lookV kc vc k' (older g.pageCount σ P ++ cps) := by
                intro k'
                have := h.mp.dup hm k'
                rw [hic, holu] at this
                rcases this with h' | h'
                · exact h'
                · exact h'.1.elim
              have hmp : ∀ {cps' : List It} {f' : Nat},
                  (∀ z ∈ cps', z.present = true → z ∈ cps ∨ z.data = y.data) →
                  (∀ k', lookV kc vc k' (older g.pageCount σ P ++ cps') = lookV kc vc k' (older g.pageCount σ P ++ cps)) →
                  MP kc vc md g σ (upd P (σ.front g.pageCount) (.used false cps' f')) (fun _ => False) := by
                intro cps' f' hz1 hz2
                have := h.mp.setFront (F' := fun _ => False) wf hpt (its := cps') (f := f') (by
                  intro z hz hzp
                  rcases hz1 z hz hzp with hz' | hz'
                  · left; rw [upd_same]; exact hz'
                  · right
                    rw [hz']
                    exact ⟨⟨k, v, henc⟩, h.mp.nt y hmem hpr⟩) (by
                  intro _ k'
                  rw [holu, hz2 k', hold k']; exact Or.inl rfl)
                rw [upd_upd] at this
                exact this
              rcases (writeItem w hg4 hmd hfl (upd_same) hdl hlow.1 hlow.2 (by omega) (fun n hn' => by rw [hdl]; exact hsh n hn' y (by simp) (fun h0 => hlow.2 (by rw [h0]; rfl)))
                (fun _ _ => ⟨y.data, (h.mp.nt y hmem hpr).2, (Header.eq_ofData hdl hcrc.symm)⟩)).cases with
                ⟨_, s5, he5, hfr5, her5, _, hg5⟩ | ⟨e, s5, he5, rfl, hfr5, her5, hdead⟩
              · refine Sat.bind_eq he5 ?_
                rw [upd_upd] at hg5
                have h5 : MG kc vc md g big s5 σ (upd P (σ.front g.pageCount)
                    (.used false (cps ++ [⟨f, y.hdr, y.data⟩]) (y.hdr.next g f))) (fun _ => False) := by
                  refine ⟨hg5, hmp ?_ hlv, ?_, ?_, ?_⟩
                  · intro z hz _
                    rcases List.mem_append.1 hz with hz | hz
                    · exact Or.inl hz
                    · simp only [List.mem_singleton] at hz; rw [hz]; exact Or.inr rfl
                  · rw [hfr5.kp]; exact hn2'
                  · rw [hfr5.kp]
                    intro k' b hb
                    have e1 := icontent_upd_front (P := P) wf hpt (.used false (cps ++ [⟨f, y.hdr, y.data⟩]) (y.hdr.next g f))
                    rw [e1, show (PK.used false (cps ++ [⟨f, y.hdr, y.data⟩]) (y.hdr.next g f)).its =
                      cps ++ [⟨f, y.hdr, y.data⟩] from rfl, ← List.append_assoc]
                    by_cases hkk : k' = k
                    · subst hkk
                      exact ⟨_, look_snoc_hit (by rw [hnewhit]; exact hhit), (hn3' b hb).symm⟩
                    · rw [look_snoc_miss (by
                        rw [hnewhit]
                        cases hk' : hits kc k' y with
                        | false => rfl
                        | true => exact absurd (hits_unique hk' hhit) hkk), ← hic]
                      exact h3.kp k' b (hn4' k' hkk b hb)
                  · intro hb
                    have := h3.log hb
                    rw [her5, hfr5.buf]
                    exact this
                have hlay5 : Layout md.cf g s5.fl.mem (g.dataEnd σ.o) (y.hdr.next g y.addr) post' fo := by
                  have hpg5 := hg5.fs.pages σ.o wf.o_lt
                  rw [upd_ne (Ne.symm hne), hpo] at hpg5
                  have u5 : Used md g s5.fl σ.o true its fo := hpg5
                  have hl5 := u5.layout
                  rw [hits'] at hl5
                  rw [show pre ++ (sk ++ y :: post') = (pre ++ sk) ++ y :: post' by simp] at hl5
                  exact hl5.suffix w
                refine Sat.mono (ih h5 (by rw [hits']; simp : its = (pre ++ sk ++ [y]) ++ post') hlay5 (by omega) hnd (by omega)
                  ?_ ?_ (by omega) (by omega)) ?_ ?_
                · intro k'
                  generalize hR : post' ++ iseg g.pageCount σ.o P 1 (g.pageCount - 2) = R
                  have hc' := hcov k'
                  have eR : sk ++ y :: post' ++ iseg g.pageCount σ.o P 1 (g.pageCount - 2) = (sk ++ [y]) ++ R := by
                    rw [← hR]; simp
                  rw [eR] at hc'
                  have e1 : pre ++ sk ++ [y] ++ (R ++ (cps ++ [⟨f, y.hdr, y.data⟩])) =
                      (pre ++ (sk ++ [y] ++ R ++ cps)) ++ [⟨f, y.hdr, y.data⟩] := by simp
                  have e2 : R ++ (cps ++ [⟨f, y.hdr, y.data⟩]) = (R ++ cps) ++ [⟨f, y.hdr, y.data⟩] := by simp
                  rw [e1, e2]
                  cases hk' : hits kc k' y with
                  | true =>
                    have hx' : hits kc k' ⟨f, y.hdr, y.data⟩ = true := by rw [hnewhit]; exact hk'
                    rw [look_snoc_hit hx', look_snoc_hit hx']
                  | false =>
                    have hx' : hits kc k' ⟨f, y.hdr, y.data⟩ = false := by rw [hnewhit]; exact hk'
                    rw [look_snoc_miss hx', look_snoc_miss hx', hc']
                    have hsy : look kc k' (sk ++ [y]) = none := by
                      rw [look_snoc_miss hk']; exact look_absent hsk
                    rw [List.append_assoc, look_append, hsy]
                    cases look kc k' (R ++ cps) <;> rfl
                · refine ⟨?_, ?_⟩
                  · rw [hlive.sum] at hnx ⊢
                    rw [hnx, List.map_append, List.sum_append]
                    simp [footI]
                    omega
                  · intro c hcc
                    rcases List.mem_append.1 hcc with hc | hc
                    · obtain ⟨k', hk'⟩ := hlive.cur c hc
                      refine ⟨k', ?_⟩
                      rw [← List.append_assoc, look_snoc_miss, hk']
                      rw [hnewhit]
                      cases hh' : hits kc k' y with
                      | false => rfl
                      | true =>
                        exfalso
                        have := hits_unique hh' hhit
                        subst this
                        rw [hic, hk'] at hly
                        have hcy : c = y := Option.some.inj hly
                        subst hcy
                        have hpgs := h.good.fs.pages _ hfl
                        rw [upd_same] at hpgs
                        have u : Used md g s.fl (σ.front g.pageCount) false cps f := hpgs
                        have hcm := u.layout.mem_item w hc
                        have hub := u.bounds w
                        have := w.page_disjoint (x := c.addr) hne (by omega) (by omega)
                        omega
                    · simp only [List.mem_singleton] at hc
                      subst hc
                      refine ⟨k, ?_⟩
                      rw [← List.append_assoc]
                      exact look_snoc_hit (by rw [hnewhit]; exact hhit)
                · rintro u s' ⟨hq1, hq2⟩
                  refine ⟨by rw [hq1, hfr5.buf]; exact hlen3, ?_⟩
                  rw [copyA_absent hsk, copyA_step hkey, if_pos ⟨hpr, by rw [← hic, hly]; rfl⟩]
                  exact hq2
                · rintro e s' ⟨hq1, hq2⟩
                  have hl' : s5.buf.length = s.buf.length := by rw [hfr5.buf]; exact hlen3
                  refine ⟨by rw [hq1]; exact hl', ?_⟩
                  rcases hq2 with ⟨hq2, hq3⟩ | hq2
                  · exact Or.inl ⟨hq2.of_len hl', hq3⟩
                  · exact Or.inr hq2
              · refine Sat.of_err (bind_err he5) ⟨by rw [hfr5.buf]; exact hlen3, Or.inr ⟨rfl, ?_⟩⟩
                rcases hdead with ⟨f', hdead⟩ | ⟨kk, hdead⟩
                · rw [upd_upd] at hdead
                  exact ⟨cps, f', hdead.fs, hmp (fun z hz _ => Or.inl hz) (fun _ => rfl), hdead.crash⟩
                · rw [upd_upd] at hdead
                  refine ⟨_, _, hdead.fs, ?_, hdead.crash⟩
                  rcases torn_item (a := f) hcrc ((h.mp.nt y hmem hpr).1 hdead.crash) kk with ht | ht
                  · apply hmp
                    · intro z hz hzp
                      rcases List.mem_append.1 hz with hz | hz
                      · exact Or.inl hz
                      · simp only [List.mem_singleton] at hz
                        rw [hz, ht] at hzp; simp at hzp
                    · intro k'
                      apply lookV_congr
                      rw [← List.append_assoc]
                      exact look_snoc_absent ht
                  · rw [ht]
                    apply hmp
                    · intro z hz _
                      rcases List.mem_append.1 hz with hz | hz
                      · exact Or.inl hz
                      · simp only [List.mem_singleton] at hz; rw [hz]; exact Or.inr rfl
                    · exact hlv
            · -- there is a newer item
              rw [if_neg hfa]
              refine Sat.mono (ih h3 (by rw [hits']; simp : its = (pre ++ sk ++ [it]) ++ post') (by rw [hfl3]; exact hs)
                (by omega) hnd (by omega) ?_ hlive (by omega) (by omega)) ?_ ?_
              · intro k'
                generalize hR : post' ++ iseg g.pageCount σ.o P 1 (g.pageCount - 2) = R
                have hc' := hcov k'
                have eR : sk ++ it :: post' ++ iseg g.pageCount σ.o P 1 (g.pageCount - 2) = (sk ++ [it]) ++ R := by
                  rw [← hR]; simp
                rw [eR] at hc'
                rw [show pre ++ sk ++ [it] ++ (R ++ cps) = pre ++ (sk ++ [it] ++ R ++ cps) by simp, hc']
                by_cases hkk : k' = k
                · subst hkk
                  cases hRc : look kc k' (R ++ cps) with
                  | some z => rw [List.append_assoc]; exact look_append_some hRc
                  | none =>
                    exfalso
                    rw [hic, hall, eR, hc', List.append_assoc, look_append_none hRc, look_snoc_hit hhit] at hly
                    exact hfa (by rw [Option.some.inj hly])
                · have hmiss : hits kc k' it = false := by
                    cases hk' : hits kc k' it with
                    | false => rfl
                    | true => exact absurd (hits_unique hk' hhit) hkk
                  have hsy : look kc k' (sk ++ [it]) = none := by
                    rw [look_snoc_miss hmiss]; exact look_absent hsk
                  rw [List.append_assoc, look_append, hsy]
                  cases look kc k' (R ++ cps) <;> rfl
              · rintro u s' ⟨hq1, hq2⟩
                refine ⟨by rw [hq1]; exact hlen3, ?_⟩
                rw [copyA_absent hsk, copyA_step hkey, if_neg (fun hx => hfa (by
                  have := hx.2
                  rw [← hic, hly] at this
                  simpa using this))]
                exact hq2
              · rintro e s' ⟨hq1, hq2⟩
                refine ⟨by rw [hq1]; exact hlen3, ?_⟩
                rcases hq2 with ⟨hq2, hq3⟩ | hq2
                · exact Or.inl ⟨hq2.of_len hlen3, hq3⟩
                · exact Or.inr hq2
        · have hcorr := (wf.full hm).2
          refine Sat.of_err (bind_err he3) ⟨by rw [hc3.len, hc2.len, hb1.len], ?_⟩
          rcases hE with ⟨hE, _⟩ | ⟨_, hE⟩
          · exact Or.inl ⟨hE.of_len (by rw [hc2.len, hb1.len]), cps, f, h3⟩
          · rw [hcorr] at hE; simp at hE
    · exact Sat.of_err (bind_err he1) ⟨hb1.len, Or.inl ⟨hE, cps, f, h.bufOnly hb1⟩⟩

/-- Whatever happens, nothing that is stored changes. -/
structure Kept (kc : KeyCodec K) (vc : ValCodec V) (g : Geo) (its : List It) (σ' : Shape) (P' : Nat → PK) : Prop where
  same : ∀ k, lookV kc vc k (icontent g.pageCount σ' P') = lookV kc vc k its

/-- The page that is written to holds nothing but items that are current. -/
def Tidy (kc : KeyCodec K) (g : Geo) (σ : Shape) (P : Nat → PK) : Prop :=
  ∃ cps f, P (σ.front g.pageCount) = .used false cps f ∧
    f = g.dataStart (σ.front g.pageCount) + (cps.map (footI g)).sum ∧
    ∀ c ∈ cps, ∃ k, look kc k (icontent g.pageCount σ P) = some c

omit w in
theorem MP.dropOldest_mp (h : MP kc vc md g σ P F) (wf : σ.WF g.pageCount) (hm : σ.m = g.pageCount) (hn : 2 ≤ g.pageCount)
    {pk : PK} (hpk : pk ≠ .junk) (c : Bool) :
    MP kc vc md g { σ.dropOldest g.pageCount with corr := c } (upd P σ.o pk) F' := by
  have hpt := (wf.full hm).1
  have e := icontent_dropOldest (P := P) wf (by omega) pk
  have e' : icontent g.pageCount { σ.dropOldest g.pageCount with corr := c } (upd P σ.o pk) =
    icontent g.pageCount (σ.dropOldest g.pageCount) (upd P σ.o pk) := rfl
  refine ⟨MP.upd_front_nojunk h.nojunk hpk, ?_, ?_, ?_, ?_, ?_⟩
  · simp only [Shape.dropOldest]; omega
  · simp only [Shape.dropOldest]; intro _; exact ⟨hpt, by omega⟩
  · rw [e']
    intro it hi
    exact h.enc it (by rw [e]; simp [hi])
  · rw [e']
    intro it hi
    exact h.nt it (by rw [e]; simp [hi])
  · simp only [Shape.dropOldest]; omega

omit w in
theorem ringPage_mod {n o : Nat} (ho : o < n) (hn : 2 ≤ n) : ringPage n o 1 % n = ringPage n o 1 :=
  Nat.mod_eq_of_lt (ringPage_lt ho (by omega))

theorem migrate_sat (L : Lawful kc vc) (hn : 2 ≤ g.pageCount) (hmd : md.OK g) (hm : σ.m = g.pageCount) {s : St K}
    (h : MG kc vc md g big s σ P F) (hf : P (σ.front g.pageCount) = .used false [] (g.dataStart (σ.front g.pageCount))) :
    Sat (Map.migrate g kc σ.o (σ.front g.pageCount)) s
      (fun _ s' => s'.buf.length = s.buf.length ∧ ∃ cps f,
        MG kc vc md g big s' (σ.dropOldest g.pageCount)
          (upd (upd P (σ.front g.pageCount) (.used false cps f)) σ.o .blank) (fun _ => False) ∧
        Kept kc vc g (older g.pageCount σ P) (σ.dropOldest g.pageCount)
          (upd (upd P (σ.front g.pageCount) (.used false cps f)) σ.o .blank) ∧
        Tidy kc g (σ.dropOldest g.pageCount) (upd (upd P (σ.front g.pageCount) (.used false cps f)) σ.o .blank) ∧
        (cps, f) = copyA kc g (older g.pageCount σ P) (P σ.o).its ([], g.dataStart (σ.front g.pageCount)))
      (fun e s' => s'.buf.length = s.buf.length ∧
        ((TooSmall md s e ∧ ∃ P', MG kc vc md g big s' σ P' (fun _ => False) ∧ Kept kc vc g (older g.pageCount σ P) σ P') ∨
         (e = .shutoff ∧ ∃ σ' P', MD kc vc md g s' σ' P' (fun _ => False) ∧ Kept kc vc g (older g.pageCount σ P) σ' P'))) := by
  have wf := h.good.fs.wf
  have hpt := (wf.full hm).1
  have hcr := (wf.full hm).2
  have hno := front_ne_oldest wf hm hn
  have hP : upd P (σ.front g.pageCount) (.used false [] (g.dataStart (σ.front g.pageCount))) = P := by
    rw [← hf, upd_self]
  have hol := older_full (P := P) wf hm hn
  have hof : icontent g.pageCount σ P = older g.pageCount σ P := by
    rw [icontent_front wf hpt, hf]; simp [PK.its]
  have h0 : MG kc vc md g big s σ (upd P (σ.front g.pageCount) (.used false [] (g.dataStart (σ.front g.pageCount)))) (fun _ => False) := by
    rw [hP]
    exact ⟨h.good, ⟨h.mp.nojunk, h.mp.shape, h.mp.corr, h.mp.enc, h.mp.nt, fun _ => by rw [hof]; exact Drift.refl⟩,
      h.kpok, h.kp, h.log⟩
  obtain ⟨its, fo, hpo⟩ : ∃ its fo, P σ.o = .used true its fo := by
    obtain ⟨its, fo, hh⟩ := used_of_lt h.good.fs (by omega : 0 < σ.m)
    rw [ringPage_zero wf.o_lt] at hh
    rw [hh]
    refine ⟨its, fo, ?_⟩
    rw [decide_eq_false (fun hx => hno hx.1.symm)]
    rfl
  have hpg := h.good.fs.pages _ wf.o_lt
  rw [hpo] at hpg
  have u : Used md g s.fl σ.o true its fo := hpg
  have hro := rounds_ok w σ.o (Nat.le_refl (g.dataStart σ.o))
  -- in the full ring the values are those of the older pages
  have hkept : ∀ {cps : List It} {f : Nat} {s' : St K},
      MP kc vc md g σ (upd P (σ.front g.pageCount) (.used false cps f)) (fun _ => False) →
      ∀ k, lookV kc vc k (older g.pageCount σ P ++ cps) = lookV kc vc k (older g.pageCount σ P) := by
    intro cps f s' hm' k
    have e1 := icontent_upd_front (P := P) wf hpt (.used false cps f)
    have e2 := older_upd_front (P := P) wf hpt (.used false cps f)
    have := hm'.dup hm k
    rw [e1, e2] at this
    rcases this with this | this
    · exact this.symm
    · exact this.1.elim
  have hkeptF : ∀ {cps : List It} {f : Nat},
      MP kc vc md g σ (upd P (σ.front g.pageCount) (.used false cps f)) (fun _ => False) →
      Kept kc vc g (older g.pageCount σ P) σ (upd P (σ.front g.pageCount) (.used false cps f)) := by
    intro cps f hm'
    refine ⟨fun k => ?_⟩
    rw [icontent_upd_front wf hpt]
    exact hkept (s' := s) hm' k
  unfold Map.migrate
  rcases (migrateLoop_sat (pre := []) w L hn hmd hm hpo h0 rfl u.layout (Nat.le_refl _) (w.dataStart_word σ.o) (by omega)
      (fun k => rfl) ⟨by simp, by simp⟩ hro.1 hro.2).cases with ⟨_, s1, he1, hl1, cps, f, h1, hlk, hlive, hcopy⟩ | ⟨e, s1, he1, hl1, hE⟩
  · refine Sat.bind_eq he1 ?_
    have hic1 : icontent g.pageCount σ (upd P (σ.front g.pageCount) (.used false cps f)) = older g.pageCount σ P ++ cps :=
      icontent_upd_front wf hpt _
    have hlook : ∀ pk k, look kc k (icontent g.pageCount (σ.dropOldest g.pageCount)
        (upd (upd P (σ.front g.pageCount) (.used false cps f)) σ.o pk)) = look kc k (older g.pageCount σ P ++ cps) := by
      intro pk k
      have e := icontent_dropOldest (P := upd P (σ.front g.pageCount) (.used false cps f)) wf (by omega) pk
      rw [hic1, upd_ne (Ne.symm hno), hol, List.append_assoc] at e
      have := List.append_cancel_left e
      rw [← this]
      exact (hlk k).symm
    rcases (openOldest w h1.good hcr (by omega)).cases with ⟨_, s2, he2, hg2, hfr2, her2, _⟩ | ⟨e, s2, he2, rfl, hfr2, hdead⟩
    · refine Sat.of_ok he2 ⟨by rw [hfr2.buf]; exact hl1, cps, f, ⟨hg2, ?_, ?_, ?_, ?_⟩, ⟨fun k => ?_⟩, ?_, by rw [hpo]; exact hcopy⟩
      · have := h1.mp.dropOldest_mp (F' := fun _ => False) wf hm hn (pk := .blank) (by simp) σ.corr
        exact this
      · rw [hfr2.kp]; exact h1.kpok
      · rw [hfr2.kp]
        intro k a ha
        rw [hlook, ← hic1]
        exact h1.kp k a ha
      · intro hb
        obtain ⟨hb1, hb2, hb3⟩ := h1.log hb
        refine ⟨hb1, ?_, by rw [hfr2.buf]; exact hb3⟩
        rw [her2]
        exact hb2.step wf.o_lt hn
      · unfold lookV
        rw [hlook]
        exact hkept (s' := s) h1.mp k
      · have hfr := CalcOk.dropOldest_front wf (n := g.pageCount) (by omega : 2 ≤ σ.m)
        refine ⟨cps, f, by rw [hfr, upd_ne hno, upd_same], by rw [hfr]; exact hlive.sum, fun c hc => ?_⟩
        obtain ⟨k, hk⟩ := hlive.cur c hc
        exact ⟨k, by rw [hlook]; exact hk⟩
    · refine Sat.of_err he2 ⟨by rw [hfr2.buf]; exact hl1, Or.inr ⟨rfl, ?_⟩⟩
      rcases hdead with hd | hd | hd
      · exact ⟨σ, _, ⟨hd.fs, h1.mp, hd.crash⟩, hkeptF h1.mp⟩
      · refine ⟨_, _, ⟨hd.fs, ?_, hd.crash⟩, ⟨fun k => ?_⟩⟩
        · exact h1.mp.dropOldest_mp (F' := fun _ => False) wf hm hn (pk := .blank) (by simp) σ.corr
        · unfold lookV
          rw [hlook]
          exact hkept (s' := s) h1.mp k
      · refine ⟨_, _, ⟨hd.fs, ?_, hd.crash⟩, ⟨fun k => ?_⟩⟩
        · exact h1.mp.dropOldest_mp (F' := fun _ => False) wf hm hn (pk := .corr) (by simp) true
        · have : icontent g.pageCount (σ.tearOldest g.pageCount)
              (upd (upd P (σ.front g.pageCount) (.used false cps f)) σ.o .corr) =
              icontent g.pageCount (σ.dropOldest g.pageCount)
              (upd (upd P (σ.front g.pageCount) (.used false cps f)) σ.o .corr) := rfl
          unfold lookV
          rw [this, hlook]
          exact hkept (s' := s) h1.mp k
  · refine Sat.of_err (bind_err he1) ⟨hl1, ?_⟩
    rcases hE with ⟨hE, cps', f', h'⟩ | ⟨hE, cps', f', h'⟩
    · exact Or.inl ⟨hE, _, h', hkeptF h'.mp⟩
    · exact Or.inr ⟨hE, σ, _, h', hkeptF h'.mp⟩

end SeqStorage
