import Verif.Proofs.MapRun
import Verif.Proofs.MapDirty
/-
Sequences of calls on a map, and what can be observed of it.
-/

set_option linter.unusedSectionVars false

namespace SeqStorage
open M Spec

variable {K V : Type} [DecidableEq K] {kc : KeyCodec K} {vc : ValCodec V} {c : Coding K V}
variable {md : Mode} {g : Geo} {big : Bool} {lim : Nat}

/-- The map holds `st`, whatever is in the buffer. -/
def MHave (kc : KeyCodec K) (vc : ValCodec V) (md : Mode) (g : Geo) (big : Bool) (s : St K) (st : (K → Option V) × (K → Prop)) : Prop :=
  ∃ b, MHolds kc vc md g big { s with buf := b } st

theorem MHolds.have {s : St K} {st : (K → Option V) × (K → Prop)} (h : MHolds kc vc md g big s st) : MHave kc vc md g big s st :=
  ⟨s.buf, h⟩

/-- Every call but a restart brings its buffer along. -/
theorem mcall_buf (call : MCall K V (Cache K)) (h : ∀ r, call ≠ .restart r) (b : List Byte) (s : St K) :
    mcall g kc vc call { s with buf := b } = mcall g kc vc call s := by
  cases call with
  | restart r => exact absurd rfl (h r)
  | _ => rfl

/-- A map on an erased region with a new cache and a reliable power supply. -/
structure MStart (g : Geo) (s : St K) : Prop where
  flash : Erased g s.fl
  power : s.fl.fuel = none
  cache : MapCache g.pageCount s.cache

/-- The arguments of a call are proper: the documentation asks for a buffer that holds the longest item, rounded up to
a whole number of words. Here that length is `lim`. -/
structure MUsable (g : Geo) (lim : Nat) (c : Coding K V) (call : MCall K V (Cache K)) : Prop where
  doc : MDocumented g call
  within : Within g.word g.eraseSize lim c call
  large : LargeBuffers lim call

/-- The states a map can get into without power loss, with buffers of `lim` bytes. -/
def MReached (kc : KeyCodec K) (vc : ValCodec V) (c : Coding K V) (g : Geo) (lim : Nat) (s : St K) : Prop :=
  ∃ s0 cs, MStart g s0 ∧ (∀ call ∈ cs, MUsable g lim c call) ∧ s = (mrun g kc vc cs s0).2

/-- Every key has the value `m` says. -/
def Fetches (kc : KeyCodec K) (vc : ValCodec V) (g : Geo) (lim : Nat) (s : St K) (m : K → Option V) : Prop :=
  ∀ k b, lim ≤ b.length → (mcall g kc vc (.fetch k b) s).1 = .ok (.value (m k))

theorem Fetches.unique {s : St K} {m m' : K → Option V} (h : Fetches kc vc g lim s m) (h' : Fetches kc vc g lim s m') : m = m' := by
  funext k
  have h1 := h k (List.replicate lim 0#8) (by simp)
  rw [h' k (List.replicate lim 0#8) (by simp)] at h1
  simpa using h1.symm

theorem not_small {b : List Byte} (h : lim ≤ b.length) : ¬ Small lim b := by
  unfold Small; omega

/-- The longest data that fits a page. -/
def widest (g : Geo) : Nat := g.eraseSize - pad g.word 8 - 2 * g.word

theorem within_widest (call : MCall K V (Cache K)) : Within g.word g.eraseSize (widest g) c call := by
  cases call with
  | store k v b =>
    intro h
    have := h.2
    unfold itemSize at this
    unfold widest
    omega
  | _ => trivial

theorem fades_none {m m' : K → Option V} (h : Fades (fun _ => False) m m') : m' = m := by
  funext k
  rcases h k with h | ⟨h, _⟩
  · exact h
  · exact h.elim

/-- With large buffers and power, only the plain specification is left. -/
theorem plain_of_power {W page : Nat} {m : K → Option V} {call : MCall K V (Cache K)} {r : Except Err (MAnswer K V)}
    {st' : (K → Option V) × (K → Prop)} (hl : LargeBuffers lim call)
    (h : mapPowerStep false W page lim c (m, fun _ => False) call r st') :
    mapStep W page lim c m call r st'.1 ∧ ∀ k, ¬ st'.2 k := by
  cases call with
  | store k v b =>
    obtain ⟨m', hf, h⟩ := h
    obtain rfl := fades_none hf
    rcases h with ⟨h1, h2, rfl⟩ | ⟨h1, rfl⟩ | ⟨h1, _⟩
    · exact ⟨Or.inl ⟨h1, h2, rfl⟩, fun _ h => h⟩
    · rcases h1 with h1 | ⟨h1, _⟩
      · exact ⟨Or.inr ⟨h1, rfl⟩, fun _ h => h⟩
      · exact absurd h1 (not_small hl)
    · simp at h1
  | fetch k b =>
    obtain ⟨m', hf, rfl, h⟩ := h
    obtain rfl := fades_none hf
    rcases h with h | ⟨h, _⟩ | ⟨h, _⟩
    · exact ⟨⟨h, rfl⟩, fun _ h => h⟩
    · exact absurd h (not_small hl)
    · simp at h
  | remove k b =>
    rcases h with ⟨m', hf, h, rfl⟩ | ⟨m', hf, rfl, ⟨h, _⟩ | ⟨h, _⟩⟩
    · obtain rfl := fades_none hf
      exact ⟨⟨h, rfl⟩, fun _ h => h⟩
    · exact absurd h (not_small hl)
    · simp at h
  | removeAll b =>
    rcases h with ⟨h, rfl⟩ | ⟨m', hf, rfl, ⟨h, _⟩ | ⟨h, _⟩⟩
    · exact ⟨⟨h, rfl⟩, fun _ h => h⟩
    · exact absurd h (not_small hl)
    · simp at h
  | fetchAll b steps =>
    obtain ⟨rfl, h⟩ := h
    exact ⟨⟨rfl, h rfl⟩, fun _ h => h⟩
  | restart r => obtain ⟨h1, rfl⟩ := h; exact ⟨⟨h1, rfl⟩, fun _ h => h⟩

section
variable (w : g.WF)
include w

theorem MStart.holds {s : St K} (h : MStart g s) (hcf : md.cf = true) (hlim : md.lim = some lim) (hn : 2 ≤ g.pageCount) :
    MHave kc vc md g big s (fun _ => none, fun _ => False) :=
  ⟨List.replicate lim 0#8, MHolds.erased w h.flash (fun _ => h.power) (fun _ => ⟨hcf, lim, hlim, by simp⟩) h.cache hn⟩

/-- A call on a map that never loses power. -/
theorem mcall_cf (hc : Codes kc vc c) (hn : 2 ≤ g.pageCount) (hcf : md.cf = true) (hlim : md.lim = some lim) {s : St K}
    {st : (K → Option V) × (K → Prop)} (h : MHave kc vc md g big s st) (call : MCall K V (Cache K)) (hd : MDocumented g call)
    (hw : Within g.word g.eraseSize lim c call) (hb : big = true → LargeBuffers lim call) (hnp : md.np = true → MHarmless call)
    (hs : Stores md.was c call := by exact Stores.all _) :
    ∃ st', mapPowerStep false g.word g.eraseSize lim c st call (mcall g kc vc call s).1 st' ∧
      MHave kc vc md g big (mcall g kc vc call s).2 st' := by
  obtain ⟨b, h⟩ := h
  have hmd : md.OK g := ⟨by rw [hcf]; simp, by rw [hcf]; simp⟩
  have hp : (!md.cf) = false := by rw [hcf]; rfl
  by_cases hr : ∃ r, call = .restart r
  · obtain ⟨r, rfl⟩ := hr
    obtain ⟨σ, P, h, h2, h3⟩ := h
    exact ⟨st, ⟨rfl, rfl⟩, b, σ, P, h.restart hd, h2, h3⟩
  · rw [← mcall_buf call (fun r hr' => hr ⟨r, hr'⟩) b s]
    rcases (mcall_sat w hlim hc hn hmd h call hd hw hb hnp (by rw [hcf]; simp) hs).cases with ⟨a, s1, he, st', h1, h2⟩ | ⟨e, s1, he, hE⟩
    · rw [he]
      rw [hp] at h1
      exact ⟨st', h1, h2.have⟩
    · rw [he]
      rcases hE with ⟨_, hx, _⟩ | ⟨_, st', h1, h2⟩
      · rw [hcf] at hx; simp at hx
      · rw [hp] at h1
        exact ⟨st', h1, h2.have⟩

theorem mrun_cf (hc : Codes kc vc c) (hn : 2 ≤ g.pageCount) (hcf : md.cf = true) (hlim : md.lim = some lim) (cs : List (MCall K V (Cache K))) :
    ∀ {s : St K} {st : (K → Option V) × (K → Prop)}, MHave kc vc md g big s st → (∀ call ∈ cs, MDocumented g call) →
    (∀ call ∈ cs, Within g.word g.eraseSize lim c call) → (big = true → ∀ call ∈ cs, LargeBuffers lim call) → (md.np = true → ∀ call ∈ cs, MHarmless call) →
    (∀ call ∈ cs, Stores md.was c call) →
    ∃ st', Runs (mapPowerStep false g.word g.eraseSize lim c) st cs (mrun g kc vc cs s).1 st' ∧
      MHave kc vc md g big (mrun g kc vc cs s).2 st' := by
  induction cs with
  | nil => intro s st h _ _ _ _ _; exact ⟨st, ⟨rfl, rfl⟩, h⟩
  | cons call cs ih =>
    intro s st h hd hw hb hnp hs
    obtain ⟨st1, h1, h2⟩ := mcall_cf w hc hn hcf hlim h call (hd call (by simp)) (hw call (by simp)) (fun h' => hb h' call (by simp)) (fun h' => hnp h' call (by simp)) (hs call (by simp))
    obtain ⟨st', h3, h4⟩ := ih h2 (fun x hx => hd x (by simp [hx])) (fun x hx => hw x (by simp [hx])) (fun h' x hx => hb h' x (by simp [hx])) (fun h' x hx => hnp h' x (by simp [hx]))
      (fun x hx => hs x (by simp [hx]))
    exact ⟨st', ⟨_, _, st1, rfl, h1, h3⟩, h4⟩

omit w in
theorem no_fading {st : (K → Option V) × (K → Prop)} (h : ∀ k, ¬ st.2 k) : st = (st.1, fun _ => False) := by
  obtain ⟨m, F⟩ := st
  have : F = fun _ => False := by funext k; exact propext ⟨fun hk => h k hk, False.elim⟩
  rw [this]

theorem mcall_plain (hc : Codes kc vc c) (hn : 2 ≤ g.pageCount) (hcf : md.cf = true) (hlim : md.lim = some lim) {s : St K}
    {m : K → Option V} (h : MHave kc vc md g big s (m, fun _ => False)) (call : MCall K V (Cache K)) (hd : MDocumented g call)
    (hw : Within g.word g.eraseSize lim c call) (hb : LargeBuffers lim call) (hnp : md.np = true → MHarmless call)
    (hs : Stores md.was c call := by exact Stores.all _) :
    ∃ m', mapStep g.word g.eraseSize lim c m call (mcall g kc vc call s).1 m' ∧
      MHave kc vc md g big (mcall g kc vc call s).2 (m', fun _ => False) := by
  obtain ⟨st', h1, h2⟩ := mcall_cf w hc hn hcf hlim h call hd hw (fun _ => hb) hnp hs
  obtain ⟨h3, h4⟩ := plain_of_power hb h1
  rw [no_fading h4] at h2
  exact ⟨st'.1, h3, h2⟩

theorem mrun_plain (hc : Codes kc vc c) (hn : 2 ≤ g.pageCount) (hcf : md.cf = true) (hlim : md.lim = some lim) (cs : List (MCall K V (Cache K))) :
    ∀ {s : St K} {m : K → Option V}, MHave kc vc md g big s (m, fun _ => False) →
    (∀ call ∈ cs, MUsable g lim c call) → (md.np = true → ∀ call ∈ cs, MHarmless call) →
    (∀ call ∈ cs, Stores md.was c call) →
    ∃ m', Runs (mapStep g.word g.eraseSize lim c) m cs (mrun g kc vc cs s).1 m' ∧
      MHave kc vc md g big (mrun g kc vc cs s).2 (m', fun _ => False) := by
  induction cs with
  | nil => intro s st h _ _ _; exact ⟨_, ⟨rfl, rfl⟩, h⟩
  | cons call cs ih =>
    intro s st h hd hnp hs
    obtain ⟨st1, h1, h2⟩ := mcall_plain w hc hn hcf hlim h call (hd call (by simp)).doc (hd call (by simp)).within (hd call (by simp)).large (fun h' => hnp h' call (by simp)) (hs call (by simp))
    obtain ⟨st', h3, h4⟩ := ih h2 (fun x hx => hd x (by simp [hx])) (fun h' x hx => hnp h' x (by simp [hx]))
      (fun x hx => hs x (by simp [hx]))
    exact ⟨st', ⟨_, _, st1, rfl, h1, h3⟩, h4⟩

theorem MHave.fetches (hc : Codes kc vc c) (hn : 2 ≤ g.pageCount) (hcf : md.cf = true) (hlim : md.lim = some lim) {s : St K}
    {m : K → Option V} (h : MHave kc vc md g big s (m, fun _ => False)) : Fetches kc vc g lim s m := by
  intro k b hb
  obtain ⟨m', h1, _⟩ := mcall_plain w hc hn hcf hlim h (.fetch k b) trivial trivial hb (fun _ => trivial) trivial
  exact h1.1

theorem MReached.holds (hc : Codes kc vc c) (hn : 2 ≤ g.pageCount) {s : St K} (h : MReached kc vc c g lim s) :
    ∃ m, MHave kc vc ⟨true, false, some lim, fun _ => True, false⟩ g true s (m, fun _ => False) := by
  obtain ⟨s0, cs, h0, hd, rfl⟩ := h
  obtain ⟨m, _, h⟩ := mrun_plain w hc hn (md := ⟨true, false, some lim, fun _ => True, false⟩) rfl rfl cs (h0.holds w rfl rfl hn (big := true)) hd (by simp) (fun x _ => Stores.all x)
  exact ⟨m, h⟩

end

end SeqStorage
