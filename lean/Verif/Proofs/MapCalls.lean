import Verif.Proofs.MapRemove
/-
The public calls of the map, with automatic repair.
-/

set_option linter.unusedSectionVars false

namespace SeqStorage
open M

variable {K V : Type} [DecidableEq K] {kc : KeyCodec K} {vc : ValCodec V}
variable {md : Mode} {g : Geo} {σ : Shape} {P P0 : Nat → PK} {F F' T : K → Prop} {big : Bool}

theorem MG.settled_small {s : St K} {e : Err} {n : Nat} (h : MG kc vc md g big s σ P F) (ht : TooSmall md s e) (σ' : Shape) :
    Settled big n σ' := by
  have := h.not_small ht
  intro hb; rw [this] at hb; simp at hb

theorem Settled.of_small {σ' : Shape} {n : Nat} (h : big = false) : Settled big n σ' := by
  intro hb; rw [h] at hb; simp at hb

/-- How a call that reads ends. -/
def ReadEnd (kc : KeyCodec K) (vc : ValCodec V) (md : Mode) (g : Geo) (big : Bool) (s : St K) (σ : Shape) (P : Nat → PK) (F G : K → Prop)
    (e : Err) (s' : St K) : Prop :=
  s'.buf.length = s.buf.length ∧
    ((TooSmall md s e ∧ ∃ σ' P', MG kc vc md g big s' σ' P' G ∧ Settled big g.pageCount σ' ∧
        Drift kc vc G (icontent g.pageCount σ P) (icontent g.pageCount σ' P')) ∨
     (e = .shutoff ∧ md.cf = false ∧ (Spoiled g s'.fl ∨ ∃ σ' P', MD kc vc md g s' σ' P' G ∧
        Drift kc vc G (icontent g.pageCount σ P) (icontent g.pageCount σ' P'))))

variable (w : g.WF)
include w

/-- `fetch_item`. -/
theorem fetchItem_sat (L : Lawful kc vc) (hn : 2 ≤ g.pageCount) (hmd : md.OK g) {s : St K} (h : MG kc vc md g big s σ P F)
    (hse : Settled big g.pageCount σ) (k : K) :
    Sat (Map.fetchItem g kc vc k) s
      (fun r s' => s'.buf.length = s.buf.length ∧ ∃ σ' P', MG kc vc md g big s' σ' P' F ∧ Settled big g.pageCount σ' ∧
        (big = true → σ' = σ ∧ P' = P) ∧ Drift kc vc F (icontent g.pageCount σ P) (icontent g.pageCount σ' P') ∧
        r = lookV kc vc k (icontent g.pageCount σ' P'))
      (ReadEnd kc vc md g big s σ P F F) := by
  have find : Sat (withRepair (Map.fetchLoc g kc k) (Map.tryRepair g kc)) s
      (fun r s' => s'.buf.length = s.buf.length ∧ ∃ σ' P', MG kc vc md g big s' σ' P' F ∧ Settled big g.pageCount σ' ∧
        (big = true → σ' = σ ∧ P' = P) ∧ Drift kc vc F (icontent g.pageCount σ P) (icontent g.pageCount σ' P') ∧
        FoundAt kc k (icontent g.pageCount σ' P') s' r)
      (ReadEnd kc vc md g big s σ P F F) := by
    refine withRepair_sat (C := fun s' => s'.buf.length = s.buf.length ∧ big = false ∧ MG kc vc md g big s' σ P F) ?_ ?_
    · refine (fetchLoc_sat w L hn h k).mono ?_ ?_
      · rintro r s' ⟨q1, q2, q3⟩
        exact ⟨q2.len, σ, P, q1, hse, fun _ => ⟨rfl, rfl⟩, Drift.refl, q3⟩
      · rintro e s' ⟨q1, q2, q3⟩
        rcases q3 with q3 | ⟨rfl, q3⟩
        · refine Or.inl ⟨?_, q2.len, Or.inl ⟨q3.1, σ, P, q1, hse, Drift.refl⟩⟩
          rintro rfl; obtain ⟨n, hc⟩ := q3.1.err; simp at hc
        · refine Or.inr ⟨rfl, q2.len, ?_, q1⟩
          cases hb : big with
          | false => rfl
          | true => have := h.not_corr hb; rw [q3] at this; simp at this
    · rintro s1 ⟨hl1, rfl, h1⟩
      rcases (mapRepair_sat w L hn hmd h1).cases with ⟨_, s2, he2, hl2, σ2, P2, h2, hm2, hc2, hd2, _⟩ | ⟨e, s2, he2, hl2, hE⟩
      · refine Sat.bind_eq he2 ?_
        have hl : s2.buf.length = s.buf.length := hl2.trans hl1
        refine (fetchLoc_sat w L hn h2 k).mono ?_ ?_
        · rintro r s' ⟨q1, q2, q3⟩
          exact ⟨q2.len.trans hl, σ2, P2, q1.mono (by simp), .of_small rfl, by simp, hd2, q3⟩
        · rintro e s' ⟨q1, q2, q3⟩
          rcases q3 with q3 | ⟨rfl, q3⟩
          · exact ⟨q2.len.trans hl, Or.inl ⟨q3.1.of_len hl, σ2, P2, q1.mono (by simp), .of_small rfl, hd2⟩⟩
          · rw [hc2] at q3; simp at q3
      · refine Sat.of_err (bind_err he2) ⟨hl2.trans hl1, ?_⟩
        rcases hE with ⟨hE, σ', P', q1, q2⟩ | ⟨rfl, hcf, hE⟩
        · exact Or.inl ⟨hE.of_len hl1, σ', P', q1.mono (by simp), .of_small rfl, q2⟩
        · exact Or.inr ⟨rfl, hcf, hE⟩
  unfold Map.fetchItem
  rcases find.cases with ⟨r, s1, he1, hl1, σ1, P1, h1, hs1, hA, hd1, hr⟩ | ⟨e, s1, he1, hE⟩
  · refine Sat.bind_eq he1 ?_
    cases r with
    | none =>
      refine Sat.pure ⟨hl1, σ1, P1, h1, hs1, hA, hd1, ?_⟩
      have hr' : look kc k (icontent g.pageCount σ1 P1) = none := hr
      unfold lookV; rw [hr']; rfl
    | some r =>
      obtain ⟨hd, a, kl⟩ := r
      obtain ⟨it, n, hlk, rfl, rfl, hh, hde, hkl⟩ := hr
      obtain ⟨hmem, hpres, hkey⟩ := look_some hlk
      obtain ⟨k', v, henc⟩ := h1.mp.enc it hmem hpres
      have hk' := henc.keyOf L
      rw [hkey] at hk'
      simp only [Option.some.injEq] at hk'
      subst hk'
      obtain ⟨n', hn', hde', hgl', m, hv⟩ := henc.de L
      have hnn : n' = n := by
        have e1 := hde []
        have e2 := hde' []
        rw [e1] at e2
        simp only [Except.ok.injEq, Prod.mk.injEq, true_and] at e2
        exact e2.symm
      subst hnn
      simp only
      refine Sat.bind_eq (get_run s1) ?_
      have hdl : it.data.length = it.hdr.len.toNat := by
        rw [← hh.take, List.length_take, Nat.min_eq_left hh.len]
      have hlv : lookV kc vc k (icontent g.pageCount σ1 P1) = some v := by
        unfold lookV; rw [hlk]; exact henc.valOf L
      have main : Sat (if it.hdr.len.toNat < n' then M.throw .panic
          else do
            let (v, _) ← (Map.liftSer (vc.de ((s1.buf.take it.hdr.len.toNat).drop n')) : M K (V × Nat))
            pure (some v) : M K (Option V)) s1
          (fun r s' => s'.buf.length = s.buf.length ∧ ∃ σ' P', MG kc vc md g big s' σ' P' F ∧ Settled big g.pageCount σ' ∧
            (big = true → σ' = σ ∧ P' = P) ∧ Drift kc vc F (icontent g.pageCount σ P) (icontent g.pageCount σ' P') ∧
            r = lookV kc vc k (icontent g.pageCount σ' P'))
          (ReadEnd kc vc md g big s σ P F F) := by
        rw [if_neg (by omega)]
        refine Sat.bind_eq (liftSer_ok (by rw [hh.take]; exact hv) s1) ?_
        exact Sat.pure ⟨hl1, σ1, P1, h1, hs1, hA, hd1, hlv.symm⟩
      rcases hkl with rfl | rfl
      · refine Sat.bind_eq (liftSer_ok (a := n') (by rw [hh.take]; have := hgl' []; rwa [List.append_nil] at this) s1) ?_
        exact main
      · exact main
  · exact Sat.of_err (bind_err he1) hE

/-- `remove_item` and `remove_all_items`. -/
theorem removeCall_sat (L : Lawful kc vc) (hn : 2 ≤ g.pageCount) (hmd : md.OK g) (hnp : md.np = false) {s : St K}
    (h : MG kc vc md g big s σ P F) (hse : Settled big g.pageCount σ) (k? : Option K) :
    Sat (withRepair (Map.removeInner g kc k?) (Map.tryRepair g kc)) s
      (fun _ s' => s'.buf.length = s.buf.length ∧ ∃ its σ' P', MG kc vc md g big s' σ' P' F ∧ Settled big g.pageCount σ' ∧
        (big = true → σ' = σ ∧ P' = wipeSeg kc k? g.pageCount σ.o σ.m 0 P) ∧ Drift kc vc F (icontent g.pageCount σ P) its ∧
        ∀ k, (Tgt k? k → lookV kc vc k (icontent g.pageCount σ' P') = none) ∧
          (¬ Tgt k? k → lookV kc vc k (icontent g.pageCount σ' P') = lookV kc vc k its))
      (ReadEnd kc vc md g big s σ P F (fun k => F k ∨ Tgt k? k)) := by
  refine withRepair_sat (C := fun s' => s'.buf.length = s.buf.length ∧ big = false ∧ MG kc vc md g big s' σ P F) ?_ ?_
  · refine (removeInner_sat w L hn hmd hnp h k?).mono ?_ ?_
    · rintro r s' ⟨q1, P', q2, qA, q3⟩
      exact ⟨q1, _, σ, P', q2, hse, fun _ => ⟨rfl, qA⟩, Drift.refl, q3⟩
    · rintro e s' ⟨q1, q2⟩
      rcases q2 with ⟨rfl, q2, q3⟩ | ⟨q2, P', q3, q4⟩ | ⟨rfl, P', q3, q4⟩
      · refine Or.inr ⟨rfl, q1, ?_, q3⟩
        cases hb : big with
        | false => rfl
        | true => have := h.not_corr hb; rw [q2] at this; simp at this
      · refine Or.inl ⟨?_, q1, Or.inl ⟨q2, σ, P', q3, hse, q4.mono (fun _ h => Or.inr h)⟩⟩
        rintro rfl; obtain ⟨n, hc⟩ := q2.err; simp at hc
      · exact Or.inl ⟨by simp, q1, Or.inr ⟨rfl, q3.crash, Or.inr ⟨σ, P', q3, q4.mono (fun _ h => Or.inr h)⟩⟩⟩
  · rintro s1 ⟨hl1, rfl, h1⟩
    rcases (mapRepair_sat w L hn hmd h1).cases with ⟨_, s2, he2, hl2, σ2, P2, h2, hm2, hc2, hd2, _⟩ | ⟨e, s2, he2, hl2, hE⟩
    · refine Sat.bind_eq he2 ?_
      have hl : s2.buf.length = s.buf.length := hl2.trans hl1
      refine (removeInner_sat w L hn hmd hnp h2 k?).mono ?_ ?_
      · rintro r s' ⟨q1, P', q2, -, q3⟩
        exact ⟨q1.trans hl, _, σ2, P', q2.mono (by simp), .of_small rfl, by simp, hd2, q3⟩
      · rintro e s' ⟨q1, q2⟩
        refine ⟨q1.trans hl, ?_⟩
        rcases q2 with ⟨rfl, q2, q3⟩ | ⟨q2, P', q3, q4⟩ | ⟨rfl, P', q3, q4⟩
        · rw [hc2] at q2; simp at q2
        · exact Or.inl ⟨q2.of_len hl, σ2, P', q3.mono (fun k h => h.elim False.elim Or.inr), .of_small rfl,
            (hd2.mono (fun _ h => Or.inl h)).trans (q4.mono (fun _ h => Or.inr h))⟩
        · exact Or.inr ⟨rfl, q3.crash, Or.inr ⟨σ2, P', q3.mono (fun k h => h.elim False.elim Or.inr),
            (hd2.mono (fun _ h => Or.inl h)).trans (q4.mono (fun _ h => Or.inr h))⟩⟩
    · refine Sat.of_err (bind_err he2) ⟨hl2.trans hl1, ?_⟩
      rcases hE with ⟨hE, σ', P', q1, q2⟩ | ⟨rfl, hcf, hE⟩
      · exact Or.inl ⟨hE.of_len hl1, σ', P', q1.mono (by simp), .of_small rfl, q2.mono (fun _ h => Or.inl h)⟩
      · refine Or.inr ⟨rfl, hcf, ?_⟩
        rcases hE with hE | ⟨σ', P', q1, q2⟩
        · exact Or.inl hE
        · exact Or.inr ⟨σ', P', q1.mono (fun _ h => Or.inl h), q2.mono (fun _ h => Or.inl h)⟩

end SeqStorage
