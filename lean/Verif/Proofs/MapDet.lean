import Verif.Proofs.MapUse
/-
With power and large buffers, the items on the pages alone decide what a call on a map answers and what it leaves
behind. The caches and the contents of the buffer do not matter.
-/

set_option linter.unusedSectionVars false

namespace SeqStorage
open M Spec

variable {K V : Type} [DecidableEq K] {kc : KeyCodec K} {vc : ValCodec V} {c : Coding K V}
variable {md : Mode} {g : Geo} {σ : Shape} {P : Nat → PK} {lim : Nat}

/-- What a call answers, and the pages it leaves. -/
def mcallA (kc : KeyCodec K) (vc : ValCodec V) (g : Geo) (σ : Shape) (P : Nat → PK) :
    MCall K V (Cache K) → Except Err (MAnswer K V) × Shape × (Nat → PK)
  | .store k v b =>
    ((loopA kc g (encode kc vc k v b.length) g.pageCount σ P).1.map fun _ => .done,
      (loopA kc g (encode kc vc k v b.length) g.pageCount σ P).2)
  | .fetch k _ => (.ok (.value (lookV kc vc k (icontent g.pageCount σ P))), σ, P)
  | .remove k _ => (.ok .done, σ, wipeSeg kc (some k) g.pageCount σ.o σ.m 0 P)
  | .removeAll _ => (.ok .done, σ, wipeSeg kc none g.pageCount σ.o σ.m 0 P)
  | .fetchAll _ steps => (.ok (.items (listing (shown kc vc (icontent g.pageCount σ P)) steps.length
      (shown kc vc (icontent g.pageCount σ P)))), σ, P)
  | .restart _ => (.ok .done, σ, P)

/-- A sequence of calls. -/
def mrunA (kc : KeyCodec K) (vc : ValCodec V) (g : Geo) :
    List (MCall K V (Cache K)) → Shape → (Nat → PK) → List (Except Err (MAnswer K V)) × Shape × (Nat → PK)
  | [], σ, P => ([], σ, P)
  | call :: cs, σ, P =>
    ((mcallA kc vc g σ P call).1 :: (mrunA kc vc g cs (mcallA kc vc g σ P call).2.1 (mcallA kc vc g σ P call).2.2).1,
      (mrunA kc vc g cs (mcallA kc vc g σ P call).2.1 (mcallA kc vc g σ P call).2.2).2)

/-- The map has these pages, whatever is in the buffer. -/
def MI (kc : KeyCodec K) (vc : ValCodec V) (g : Geo) (lim : Nat) (s : St K) (σ : Shape) (P : Nat → PK) : Prop :=
  ∃ b, MG kc vc ⟨true, false, some lim, fun _ => True, false⟩ g true { s with buf := b } σ P (fun _ => False) ∧ Settled true g.pageCount σ

theorem MI.restart {s : St K} (h : MI kc vc g lim s σ P) {r : Cache K} (hr : MapCache g.pageCount r) :
    MI kc vc g lim { s with cache := r } σ P := by
  obtain ⟨b, h, hse⟩ := h
  exact ⟨b, h.restart hr, hse⟩

variable (w : g.WF)
include w

theorem MStart.mi {s : St K} (h : MStart g s) (hn : 2 ≤ g.pageCount) : MI kc vc g lim s .initial (fun _ => .blank) := by
  exact ⟨_, MG.erased w (s := { s with buf := List.replicate lim 0#8 }) h.flash (fun _ => h.power) (fun _ => ⟨rfl, lim, rfl, by simp⟩) h.cache, by
    intro _; exact ⟨by show 0 < _; omega, fun _ => rfl⟩⟩

theorem mcall_det (hc : Codes kc vc c) (hn : 2 ≤ g.pageCount) {s : St K} (h : MI kc vc g lim s σ P) (call : MCall K V (Cache K))
    (hd : MUsable g lim c call) :
    (mcall g kc vc call s).1 = (mcallA kc vc g σ P call).1 ∧
      MI kc vc g lim (mcall g kc vc call s).2 (mcallA kc vc g σ P call).2.1 (mcallA kc vc g σ P call).2.2 := by
  have hb := hd.large
  have hmd : (⟨true, false, some lim, fun _ => True, false⟩ : Mode).OK g := ⟨by simp, by simp⟩
  by_cases hr : ∃ r, call = .restart r
  · obtain ⟨r, rfl⟩ := hr
    exact ⟨rfl, h.restart hd.doc⟩
  obtain ⟨b0, h, hse⟩ := h
  rw [← mcall_buf call (fun r hr' => hr ⟨r, hr'⟩) b0 s]
  cases call with
  | restart r => exact absurd ⟨r, rfl⟩ hr
  | store k v b =>
    have h1 := h.setBuf (b := b) (fun _ => wide_of rfl hb)
    simp only [mcall, mcallA]
    rw [bind_ok (setBuf_run b _)]
    rcases (storeItem_sat w hc.lawful hn hmd h1 hse k v (fun d he hfit => ⟨⟨by simp, trivial⟩, fun n hn' => by
      obtain ⟨rfl, _⟩ := hc.encode_ok he
      rw [← Option.some.inj hn']; exact hd.within ((fitsPage_iff w).2 hfit)⟩) (size := fun k v => (c.data k v).length)
      (fun d k v he => by rw [hc.enc he])).cases with
      ⟨_, s2, he, hl, its, σ', P', h2, hse2, hd, hp, _, hA⟩ | ⟨e, s2, he, hl, hE⟩
    · rw [bind_ok he, hA rfl]
      exact ⟨rfl, s2.buf, h2, hse2⟩
    · rw [bind_err he]
      rcases hE with ⟨_, σ', P', h2, hse2, _, hA⟩ | ⟨_, hcf, _⟩
      · rw [hA rfl]
        exact ⟨rfl, s2.buf, h2, hse2⟩
      · simp at hcf
  | fetch k b =>
    have h1 := h.setBuf (b := b) (fun _ => wide_of rfl hb)
    simp only [mcall, mcallA]
    rw [bind_ok (setBuf_run b _)]
    rcases (fetchItem_sat w hc.lawful hn hmd h1 hse k).cases with ⟨r, s2, he, hl, σ', P', h2, hse2, hA, hd, rfl⟩ | ⟨e, s2, he, hl, hE⟩
    · obtain ⟨rfl, rfl⟩ := hA rfl
      rw [bind_ok he]
      exact ⟨rfl, s2.buf, h2, hse2⟩
    · rcases hE with ⟨hr, _⟩ | ⟨_, hcf, _⟩
      · have := h1.not_small hr; simp at this
      · simp at hcf
  | remove k b =>
    have h1 := h.setBuf (b := b) (fun _ => wide_of rfl hb)
    simp only [mcall, mcallA]
    rw [bind_ok (setBuf_run b _)]
    rcases (removeCall_sat w hc.lawful hn hmd rfl h1 hse (some k)).cases with
      ⟨_, s2, he, hl, its, σ', P', h2, hse2, hA, hd, hk⟩ | ⟨e, s2, he, hl, hE⟩
    · obtain ⟨rfl, rfl⟩ := hA rfl
      have he' : Map.removeItem g kc k { s with buf := b } = (.ok (), s2) := he
      rw [bind_ok he']
      exact ⟨rfl, s2.buf, h2, hse2⟩
    · rcases hE with ⟨hr, _⟩ | ⟨_, hcf, _⟩
      · have := h1.not_small hr; simp at this
      · simp at hcf
  | removeAll b =>
    have h1 := h.setBuf (b := b) (fun _ => wide_of rfl hb)
    simp only [mcall, mcallA]
    rw [bind_ok (setBuf_run b _)]
    rcases (removeCall_sat w hc.lawful hn hmd rfl h1 hse none).cases with
      ⟨_, s2, he, hl, its, σ', P', h2, hse2, hA, hd, hk⟩ | ⟨e, s2, he, hl, hE⟩
    · obtain ⟨rfl, rfl⟩ := hA rfl
      have he' : Map.removeAll g kc { s with buf := b } = (.ok (), s2) := he
      rw [bind_ok he']
      exact ⟨rfl, s2.buf, h2, hse2⟩
    · rcases hE with ⟨hr, _⟩ | ⟨_, hcf, _⟩
      · have := h1.not_small hr; simp at this
      · simp at hcf
  | fetchAll b steps =>
    have h1 := h.setBuf (b := b) (fun _ => wide_of rfl hb.1)
    simp only [mcall, mcallA]
    rw [bind_ok (setBuf_run b _)]
    rcases (fetchAll_sat w h1 hn).cases with ⟨_, s2, he, h2, hfl, _, hst, lm, ahead, hlm, hat, hcor⟩ | ⟨e, s2, he, rfl, hcor, h2, _⟩
    · rw [bind_ok he]
      obtain ⟨hle, rfl⟩ := hcor (h1.not_corr rfl)
      rcases (mapSteps_sat w hc.lawful rfl hlm steps (fun _ b' hm => wide_of rfl (hb.2 b' hm)) h2 hat).cases with
        ⟨l, s3, he3, h3, _, hsh⟩ | ⟨_, _, _, hF⟩
      · rw [bind_ok he3]
        obtain rfl := (hsh hle h.mp.enc).2 rfl hn (hse rfl).1 hst
        exact ⟨rfl, s3.buf, h3, hse⟩
      · exact hF.elim
    · have := h1.not_corr rfl; rw [hcor] at this; simp at this

theorem mrun_det (hc : Codes kc vc c) (hn : 2 ≤ g.pageCount) (cs : List (MCall K V (Cache K))) :
    ∀ {s : St K} {σ : Shape} {P : Nat → PK}, MI kc vc g lim s σ P →
    (∀ call ∈ cs, MUsable g lim c call) →
    (mrun g kc vc cs s).1 = (mrunA kc vc g cs σ P).1 ∧
      MI kc vc g lim (mrun g kc vc cs s).2 (mrunA kc vc g cs σ P).2.1 (mrunA kc vc g cs σ P).2.2 := by
  induction cs with
  | nil => intro s σ P h _; exact ⟨rfl, h⟩
  | cons call cs ih =>
    intro s σ P h hd
    obtain ⟨h1, h2⟩ := mcall_det w hc hn h call (hd call (by simp))
    obtain ⟨h3, h4⟩ := ih h2 (fun x hx => hd x (by simp [hx]))
    refine ⟨?_, h4⟩
    simp only [mrun, mrunA]
    rw [h1, h3]

theorem MReached.mi (hc : Codes kc vc c) (hn : 2 ≤ g.pageCount) {s : St K} (h : MReached kc vc c g lim s) :
    ∃ σ P, MI kc vc g lim s σ P := by
  obtain ⟨s0, cs, h0, hd, rfl⟩ := h
  exact ⟨_, _, (mrun_det w hc hn cs (h0.mi w hn) hd).2⟩

end SeqStorage
