import Verif.Proofs.MapPaged
/-
Counting the erases of a map.
-/

set_option linter.unusedSectionVars false

namespace SeqStorage
open M Spec

variable {K V : Type} [DecidableEq K] {kc : KeyCodec K} {vc : ValCodec V} {c : Coding K V}
variable {g : Geo} {σ : Shape} {P : Nat → PK} {lim : Nat}
variable (w : g.WF)
include w

/-- A call erases one page for each page it begins and does not keep. -/
theorem mcall_count (hc : Codes kc vc c) (hn : 2 ≤ g.pageCount) {s : St K} (h : MI kc vc g lim s σ P) (call : MCall K V (Cache K))
    (hd : MUsable g lim c call) :
    ∃ turns, callTurns g.word g.eraseSize g.pageCount c (mpages kc vc g σ P) call turns ∧
      (mcallA kc vc g σ P call).2.1.d + (mcallA kc vc g σ P call).2.1.m = σ.d + σ.m + turns := by
  have L := hc.lawful
  have hmd : (⟨true, false, some lim, fun _ => True, false⟩ : Mode).OK g := ⟨by simp, by simp⟩
  obtain ⟨b0, h, hse⟩ := h
  cases call with
  | store k v b =>
    have hb : lim ≤ b.length := hd.large
    have h1 := h.setBuf (b := b) (fun _ => wide_of rfl hb)
    have hwf := h1.good.fs.wf
    unfold callTurns mcallA
    simp only
    by_cases hw : Writable g.word g.eraseSize c k v b
    · obtain ⟨d, he⟩ : ∃ d, encode kc vc k v b.length = .ok d := by
        cases he : encode kc vc k v b.length with
        | ok d => exact ⟨d, rfl⟩
        | error e =>
          rcases hc.encode_err he with h2 | h2
          · exact absurd h2 hw.1
          · have := hw.2.1; omega
      obtain ⟨rfl, _, _⟩ := hc.encode_ok he
      have htb := (fitsPage_iff w).1 hw.2.2
      have hst : Storable ⟨true, false, some lim, fun _ => True, false⟩ g (c.data k v) :=
        ⟨⟨by simp, trivial⟩, fun n hn' => by rw [← Option.some.inj hn']; exact hd.within hw.2.2⟩
      have := loopA_paged w L hn hmd he htb hst (size := fun k v => (c.data k v).length)
        (fun d k v he => by rw [hc.enc he]) g.pageCount h1 hse rfl
      rw [he, this.2.2]
      exact ⟨_, ⟨fun _ => rfl, fun hx => absurd hw hx⟩, rfl⟩
    · obtain ⟨m, hm⟩ : ∃ m, g.pageCount = m + 2 := ⟨g.pageCount - 2, by omega⟩
      have key : ∀ {σ : Shape} {P : Nat → PK} (left : Nat), σ.part = true →
          (loopA kc g (encode kc vc k v b.length) (left + 1) σ P).2 = (σ, P) := by
        intro σ P left hp
        rw [loopA.eq_def]
        simp only
        rw [if_pos hp]
        cases he : encode kc vc k v b.length with
        | error e => rfl
        | ok d =>
          obtain ⟨rfl, hk, hl⟩ := hc.encode_ok he
          have htb : g.tooBig (c.data k v).length = true := by
            cases htb : g.tooBig (c.data k v).length with
            | true => rfl
            | false => exact absurd ⟨hk, hl, (fitsPage_iff w).2 htb⟩ hw
          simp only [htb, if_true]
      refine ⟨_, ⟨fun hx => absurd hx hw, fun _ => rfl⟩, ?_⟩
      cases hp : σ.part with
      | true =>
        have hm1 := hwf.part_pos hp
        have : mpages kc vc g σ P ≠ [] := by
          intro hx
          have := congrArg List.length hx
          rw [mpages_length] at this
          simp at this; omega
        rw [if_neg (by simpa using this), hm, key (m + 1) hp]
        rfl
      | false =>
        have hm0 := (hse rfl).2 hp
        have hnil : mpages kc vc g σ P = [] := by rw [← List.length_eq_zero_iff, mpages_length]; exact hm0
        rw [hnil]
        simp only [List.isEmpty_nil, if_true]
        have : loopA kc g (encode kc vc k v b.length) g.pageCount σ P =
            loopA kc g (encode kc vc k v b.length) (m + 1) (openA g σ P).1 (openA g σ P).2 := by
          rw [hm, loopA.eq_def]; simp only; rw [if_neg (by rw [hp]; simp)]
        rw [this, key m rfl]
        simp only [openA, Shape.openFront]; omega
  | fetch k b => exact ⟨0, rfl, rfl⟩
  | remove k b => exact ⟨0, rfl, rfl⟩
  | removeAll b => exact ⟨0, rfl, rfl⟩
  | fetchAll b steps => exact ⟨0, rfl, rfl⟩
  | restart r => exact ⟨0, rfl, rfl⟩

theorem mrun_count (hc : Codes kc vc c) (hn : 2 ≤ g.pageCount) (cs : List (MCall K V (Cache K))) :
    ∀ {s : St K} {σ : Shape} {P : Nat → PK}, MI kc vc g lim s σ P → (∀ call ∈ cs, MUsable g lim c call) →
    ∃ σ' P', MI kc vc g lim (mrun g kc vc cs s).2 σ' P' ∧
      Runs (mapEraseStep g.word g.eraseSize g.pageCount c)
        (mpages kc vc g σ P, σ.d) cs (mrun g kc vc cs s).1 (mpages kc vc g σ' P', σ'.d) := by
  induction cs with
  | nil => intro s σ P h _; exact ⟨σ, P, h, rfl, rfl⟩
  | cons call cs ih =>
    intro s σ P h hd
    have hd1 := hd call (by simp)
    obtain ⟨h1, h2⟩ := mcall_det w hc hn h call hd1
    obtain ⟨σ', P', h3, h4⟩ := ih h2 (fun x hx => hd x (by simp [hx]))
    obtain ⟨t, ht1, ht2⟩ := mcall_count w hc hn h call hd1
    refine ⟨σ', P', h3, _, _, (_, _), rfl, ⟨?_, t, ht1, ?_⟩, h4⟩
    · rw [h1]
      exact mcall_paged w hc hn h call hd1
    · simp only [mpages_length]
      exact ht2

theorem MI.erases {s : St K} (h : MI kc vc g lim s σ P) : s.fl.erases.length = σ.d := by
  obtain ⟨b, h, _⟩ := h
  exact (h.log rfl).2.1.2

end SeqStorage
