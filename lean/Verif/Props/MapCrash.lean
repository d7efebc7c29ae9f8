import Verif.Props.Map
/-
Power loss during calls on a map: properties C10, C11, C12.
-/

set_option linter.unusedSectionVars false

namespace SeqStorage.Props
open SeqStorage Spec M Codec

variable {K V : Type} [DecidableEq K] {kc : KeyCodec K} {vc : ValCodec V} {c : Coding K V} {g : Geo} {s : St K} {lim : Nat} {D : List Byte → Prop}

/-- The mode of a map with power losses, all of whose items have data in `D`. -/
abbrev mtorn (lim : Nat) (D : List Byte → Prop) : Mode := ⟨false, false, some lim, D, false⟩

theorem mtorn_ok (hD : NoMix g.word D) (hn : 2 ≤ g.pageCount) : (mtorn lim D).OK g := ⟨fun _ _ => hD, fun _ => hn⟩

theorem tear_stores {call : MCall K V (Cache K)} (h : MTearProof D c call) : Stores D c call := by
  cases call with
  | store k v b => exact fun hk => (h hk).2
  | _ => trivial

/-- A page that reads as erased at both ends but is not erased. -/
def HalfErased (g : Geo) (fl : Flash) : Prop :=
  ∃ i, i < g.pageCount ∧ AllFF fl.mem (g.pageAddr i) g.readSize ∧ AllFF fl.mem (g.pageEnd i - g.readSize) g.readSize ∧
    ¬ AllFF fl.mem (g.pageAddr i) g.eraseSize

/-- A call, the number of bytes until power is lost and the cache of the program started afterwards. -/
abbrev CrashCall (K V : Type) [DecidableEq K] := MCall K V (Cache K) × Option Nat × Cache K

/-- The call has proper arguments, where items have at most `lim` bytes, the data of a store is in `D` and told from its torn versions by the checksum, and the
program started after a power loss has a proper cache. -/
structure Proper (c : Coding K V) (D : List Byte → Prop) (g : Geo) (lim : Nat) (x : CrashCall K V) : Prop where
  doc : MDocumented g x.1
  within : Within g.word g.eraseSize lim c x.1
  tear : MTearProof D c x.1
  cache : MapCache g.pageCount x.2.2

/-- The same when the data of the store is in another set. -/
theorem Proper.data {x : CrashCall K V} (h : Proper c D g lim x) {D' : List Byte → Prop} (hD : ∀ k v b, x.1 = .store k v b → c.key k ≠ none → D' (c.data k v)) :
    Proper c D' g lim x := by
  refine ⟨h.doc, h.within, ?_, h.cache⟩
  have h1 := h.tear
  revert h1 hD
  cases x.1 with
  | store k v b => exact fun hD h1 hk => ⟨(h1 hk).1, hD k v b rfl hk⟩
  | _ => exact fun _ _ => trivial

/-- A history of calls during which no power loss left a half-erased page. -/
structure History (kc : KeyCodec K) (vc : ValCodec V) (c : Coding K V) (D : List Byte → Prop) (g : Geo) (lim : Nat) (s : St K) (cs : List (CrashCall K V)) : Prop where
  flash : Erased g s.fl
  cache : MapCache g.pageCount s.cache
  proper : ∀ x ∈ cs, Proper c D g lim x
  erased : ∀ n, ¬ HalfErased g (mrunCrash g kc vc (cs.take n) s).2.fl

/-- No remove failed. -/
def RemovesDone : List (CrashCall K V) → List (Except Err (MAnswer K V)) → Prop
  | (.remove _ _, _) :: cs, r :: rs => r = .ok .done ∧ RemovesDone cs rs
  | (.removeAll _, _) :: cs, r :: rs => r = .ok .done ∧ RemovesDone cs rs
  | _ :: cs, _ :: rs => RemovesDone cs rs
  | _, _ => True

/-- The states a map can get into with power losses, none of which left a half-erased page or interrupted a remove. -/
def MCrashReached (kc : KeyCodec K) (vc : ValCodec V) (c : Coding K V) (D : List Byte → Prop) (g : Geo) (lim : Nat) (s : St K) : Prop :=
  ∃ s0 cs, History kc vc c D g lim s0 cs ∧ RemovesDone cs (mrunCrash g kc vc cs s0).1 ∧ s = (mrunCrash g kc vc cs s0).2

/-- Every key has the value `m` says, but the keys with property `F` may have none. -/
def FetchesOr (kc : KeyCodec K) (vc : ValCodec V) (g : Geo) (lim : Nat) (s : St K) (m : K → Option V) (F : K → Prop) : Prop :=
  ∀ k b, lim ≤ b.length → (mcall g kc vc (.fetch k b) s).1 = .ok (.value (m k)) ∨
    (F k ∧ (mcall g kc vc (.fetch k b) s).1 = .ok (.value none))

theorem FetchesOr.exact {m : K → Option V} (h : FetchesOr kc vc g lim s m (fun _ => False)) : Fetches kc vc g lim s m := by
  intro k b hb
  rcases h k b hb with h | ⟨h, _⟩
  · exact h
  · exact h.elim

theorem have_power {st : (K → Option V) × (K → Prop)} (h : MHave kc vc (mtorn lim D) g false s st) (f : Option Nat) :
    MHave kc vc (mtorn lim D) g false (powerFor f s) st := by
  obtain ⟨b, h⟩ := h
  exact ⟨b, h.power rfl f⟩

theorem have_restart {st : (K → Option V) × (K → Prop)} (h : MHave kc vc (mtorn lim D) g false s st) {cache : Cache K} (hc : MapCache g.pageCount cache) :
    MHave kc vc (mtorn lim D) g false { s with cache := cache } st := by
  obtain ⟨b, σ, P, h, h2, h3⟩ := h
  exact ⟨b, σ, P, h.restart hc, h2, h3⟩

theorem have_reboot {st : (K → Option V) × (K → Prop)} (h : MHave kc vc (mtorn lim D) g false s st) {cache : Cache K} (hc : MapCache g.pageCount cache) :
    MHave kc vc (mtorn lim D) g false (reboot cache s) st := have_restart (have_power h none) hc

/-- What a call leaves. -/
def MLeaves (D : List Byte → Prop) (kc : KeyCodec K) (vc : ValCodec V) (g : Geo) (lim : Nat) (r : Except Err (MAnswer K V)) (s : St K)
    (st : (K → Option V) × (K → Prop)) : Prop :=
  (r ≠ .error .shutoff → MHave kc vc (mtorn lim D) g false s st) ∧
  ∀ cache, MapCache g.pageCount cache → MHave kc vc (mtorn lim D) g false { s with cache := cache } st

/-- A call during which power may be lost. -/
theorem mcall_crash (w : g.WF) (hc : Codes kc vc c) (hD : NoMix g.word D) (hn : 2 ≤ g.pageCount)
    {st : (K → Option V) × (K → Prop)} (h : MHave kc vc (mtorn lim D) g false s st) (call : MCall K V (Cache K)) (hd : MDocumented g call)
    (hw : Within g.word g.eraseSize lim c call) (ht : MTearProof D c call) (hs : (mcall g kc vc call s).1 = .error .shutoff → ¬ HalfErased g (mcall g kc vc call s).2.fl) :
    ∃ st', mapPowerStep true g.word g.eraseSize lim c st call (mcall g kc vc call s).1 st' ∧
      MLeaves D kc vc g lim (mcall g kc vc call s).1 (mcall g kc vc call s).2 st' := by
  obtain ⟨b, h⟩ := h
  by_cases hr : ∃ r, call = .restart r
  · obtain ⟨r, rfl⟩ := hr
    obtain ⟨σ, P, h, h2, h3⟩ := h
    exact ⟨st, ⟨rfl, rfl⟩, fun _ => ⟨b, σ, P, h.restart hd, h2, h3⟩, fun c hc => ⟨b, σ, P, h.restart hc, h2, h3⟩⟩
  · rw [← mcall_buf call (fun r hr' => hr ⟨r, hr'⟩) b s] at hs ⊢
    rcases (mcall_sat w rfl hc hn (mtorn_ok hD hn) h call hd hw (by simp) (by simp) (fun _ => ht) (tear_stores ht)).cases with
      ⟨a, s1, he, st', h1, h2⟩ | ⟨e, s1, he, hE⟩
    · rw [he]
      exact ⟨st', h1, fun _ => h2.have, fun c hc => have_restart h2.have hc⟩
    · rw [he] at hs ⊢
      rcases hE with ⟨rfl, _, hE⟩ | ⟨hne, st', h1, h2⟩
      · rcases hE with hE | ⟨st', h1, h2⟩
        · exact absurd hE (hs rfl)
        · exact ⟨st', h1, fun h => absurd rfl h, fun c hc => (h2.reboot hc).have⟩
      · exact ⟨st', h1, fun _ => h2.have, fun c hc => have_restart h2.have hc⟩

theorem mrun_crash (w : g.WF) (hc : Codes kc vc c) (hD : NoMix g.word D) (hn : 2 ≤ g.pageCount) (cs : List (CrashCall K V)) :
    ∀ {s : St K} {st : (K → Option V) × (K → Prop)}, MHave kc vc (mtorn lim D) g false s st → (∀ x ∈ cs, Proper c D g lim x) →
    (∀ n, ¬ HalfErased g (mrunCrash g kc vc (cs.take n) s).2.fl) →
    ∃ st', Runs (mapPowerStep true g.word g.eraseSize lim c) st (cs.map (·.1)) (mrunCrash g kc vc cs s).1 st' ∧
      MHave kc vc (mtorn lim D) g false (mrunCrash g kc vc cs s).2 st' := by
  induction cs with
  | nil => intro s st h _ _; exact ⟨st, ⟨rfl, rfl⟩, h⟩
  | cons x cs ih =>
    intro s st h hp hs
    obtain ⟨call, fuel, cache⟩ := x
    have hx := hp _ (List.mem_cons_self ..)
    have hfl : (startedAgain cache (mcall g kc vc call (powerFor fuel s))).fl = (mcall g kc vc call (powerFor fuel s)).2.fl := by
      unfold startedAgain; split <;> simp_all
    obtain ⟨st1, h1, h2⟩ := mcall_crash w hc hD hn (have_power h fuel) call hx.doc hx.within hx.tear (fun _ => by
      rw [← hfl]; exact hs 1)
    have h3 : MHave kc vc (mtorn lim D) g false (startedAgain cache (mcall g kc vc call (powerFor fuel s))) st1 := by
      generalize mcall g kc vc call (powerFor fuel s) = out at h2
      obtain ⟨r, s'⟩ := out
      by_cases hr : r = .error .shutoff
      · subst hr; exact h2.2 _ hx.cache
      · have : startedAgain cache (r, s') = s' := by
          unfold startedAgain; split
          · simp_all
          · simp_all
        rw [this]; exact h2.1 hr
    obtain ⟨st', h4, h5⟩ := ih h3 (fun y hy => hp y (by simp [hy])) (fun n => hs (n + 1))
    exact ⟨st', ⟨_, _, st1, rfl, h1, h4⟩, h5⟩

theorem have_fetches (w : g.WF) (hc : Codes kc vc c) (hD : NoMix g.word D) (hn : 2 ≤ g.pageCount)
    {st : (K → Option V) × (K → Prop)} (h : MHave kc vc (mtorn lim D) g false s st) (hp : s.fl.fuel = none) :
    FetchesOr kc vc g lim s st.1 st.2 := by
  intro k b hb
  have hpw := mcall_powered g kc vc (.fetch k b) s hp
  obtain ⟨st', ⟨m, hf, rfl, h1⟩, _⟩ := mcall_crash w hc hD hn h (.fetch k b) trivial trivial trivial (fun h => absurd h hpw.1)
  rcases h1 with h1 | ⟨h1, _⟩ | ⟨_, h1⟩
  · rw [h1]
    rcases hf k with hf | ⟨hF, hf⟩
    · left; rw [hf]
    · right; exact ⟨hF, by rw [hf]⟩
  · exact absurd h1 (not_small hb)
  · exact absurd h1 hpw.1

theorem History.holds (w : g.WF) (hc : Codes kc vc c) (hD : NoMix g.word D) (hn : 2 ≤ g.pageCount) {cs : List (CrashCall K V)}
    (h : History kc vc c D g lim s cs) :
    ∃ st, Runs (mapPowerStep true g.word g.eraseSize lim c) (fun _ => none, fun _ => False) (cs.map (·.1)) (mrunCrash g kc vc cs s).1 st ∧
      MHave kc vc (mtorn lim D) g false (mrunCrash g kc vc cs s).2 st :=
  mrun_crash w hc hD hn cs (MHolds.erased w h.flash (by simp) (by simp) h.cache hn).have h.proper h.erased

/-- Items of any length that fits a page. -/
theorem History.widen {cs : List (CrashCall K V)} (h : History kc vc c D g lim s cs) : History kc vc c D g (widest g) s cs :=
  ⟨h.flash, h.cache, fun x hx => ⟨(h.proper x hx).doc, within_widest _, (h.proper x hx).tear, (h.proper x hx).cache⟩, h.erased⟩

/-- Without failed removes no key is fading. -/
theorem no_fading_run {W page : Nat} : ∀ (cs : List (CrashCall K V)) {rs : List (Except Err (MAnswer K V))}
    {st st' : (K → Option V) × (K → Prop)}, Runs (mapPowerStep true W page lim c) st (cs.map (·.1)) rs st' → RemovesDone cs rs →
    (∀ k, ¬ st.2 k) → ∀ k, ¬ st'.2 k := by
  intro cs
  induction cs with
  | nil => rintro rs st st' ⟨_, rfl⟩ _ h; exact h
  | cons x cs ih =>
    rintro rs st st' ⟨r, rs', st1, rfl, h1, h2⟩ hr h
    obtain ⟨call, fuel, cache⟩ := x
    have key : (∀ k, ¬ st1.2 k) ∧ RemovesDone cs rs' := by
      cases call with
      | store k v b =>
        obtain ⟨m, _, h1⟩ := h1
        refine ⟨?_, hr⟩
        rcases h1 with ⟨_, _, rfl⟩ | ⟨_, rfl⟩ | ⟨_, _, rfl | rfl⟩
        · exact fun _ h => h
        · exact h
        · exact h
        · exact fun _ h => h
      | fetch k b => obtain ⟨m, _, rfl, _⟩ := h1; exact ⟨h, hr⟩
      | remove k b =>
        obtain ⟨rfl, hr⟩ := hr
        rcases h1 with ⟨m, _, _, rfl⟩ | ⟨m, _, _, ⟨_, n, h1⟩ | ⟨_, h1⟩⟩
        · exact ⟨h, hr⟩
        · simp at h1
        · simp at h1
      | removeAll b =>
        obtain ⟨rfl, hr⟩ := hr
        rcases h1 with ⟨_, rfl⟩ | ⟨m, _, _, ⟨_, n, h1⟩ | ⟨_, h1⟩⟩
        · exact ⟨h, hr⟩
        · simp at h1
        · simp at h1
      | fetchAll b steps => obtain ⟨rfl, _⟩ := h1; exact ⟨h, hr⟩
      | restart r => obtain ⟨_, rfl⟩ := h1; exact ⟨h, hr⟩
    exact ih h2 key.2 key.1

theorem MCrashReached.holds (w : g.WF) (hc : Codes kc vc c) (hD : NoMix g.word D) (hn : 2 ≤ g.pageCount) (h : MCrashReached kc vc c D g lim s) :
    ∃ m, MHave kc vc (mtorn lim D) g false s (m, fun _ => False) := by
  obtain ⟨s0, cs, h, hr, rfl⟩ := h
  obtain ⟨st, h1, h2⟩ := h.holds w hc hD hn
  rw [no_fading (no_fading_run cs h1 hr (fun _ h => h))] at h2
  exact ⟨_, h2⟩

/-- C10, C11 and C12, for any history of interrupted calls, also interrupted repairs. The answers and the values
found afterwards are those of a map from keys to values on which every interrupted store was done completely or
not at all. A key whose remove failed may lose its value later, until the next store is completed; it never gets
another one.
Missing: data whose torn version has the same checksum or, for words of less than eight bytes, whose header can complete
the remains of another (`NoMix`), and histories in which power was lost while erasing a page that was not closed, so that it now looks erased and is not. For these it is
false, see below. -/
theorem map_survives_power_loss_partial (w : g.WF) (hc : Codes kc vc c) (hD : NoMix g.word D) (hn : 2 ≤ g.pageCount)
    {cs : List (CrashCall K V)} (h : History kc vc c D g lim s cs) :
    ∃ m F, Runs (mapPowerStep true g.word g.eraseSize lim c) (fun _ => none, fun _ => False) (cs.map (·.1)) (mrunCrash g kc vc cs s).1 (m, F) ∧
      FetchesOr kc vc g lim (powerUp (mrunCrash g kc vc cs s).2) m F ∧
      (∀ cache, MapCache g.pageCount cache → FetchesOr kc vc g lim (reboot cache (mrunCrash g kc vc cs s).2) m F) ∧
      (RemovesDone cs (mrunCrash g kc vc cs s).1 → ∀ k, ¬ F k) := by
  obtain ⟨⟨m, F⟩, h1, h2⟩ := h.holds w hc hD hn
  exact ⟨m, F, h1, have_fetches w hc hD hn (have_power h2 none) rfl,
    fun cache hk => have_fetches w hc hD hn (have_reboot h2 hk) rfl,
    fun hr => no_fading_run cs h1 hr (fun _ h => h)⟩

/-- C10, for one store in any state. After a power loss the key has its old value or the new one, and all other
keys have theirs. -/
theorem interrupted_store_partial (w : g.WF) (hc : Codes kc vc c) (hD : NoMix g.word D) (hn : 2 ≤ g.pageCount)
    (h : MCrashReached kc vc c D g lim s) (k : K) (v : V) (b : List Byte)
    (hfit : FitsPage g.word g.eraseSize (c.data k v) → pad g.word (c.data k v).length ≤ lim) (hd : NoTorn D (c.data k v)) (fuel : Option Nat)
    (cache : Cache K) (hk : MapCache g.pageCount cache)
    (he : (mcall g kc vc (.store k v b) (powerFor fuel s)).1 = .error .shutoff)
    (hs : ¬ HalfErased g (mcall g kc vc (.store k v b) (powerFor fuel s)).2.fl) :
    ∃ m, Fetches kc vc g lim (powerUp s) m ∧
      (Fetches kc vc g lim (reboot cache (mcall g kc vc (.store k v b) (powerFor fuel s)).2) m ∨
       Fetches kc vc g lim (reboot cache (mcall g kc vc (.store k v b) (powerFor fuel s)).2) (put m k (some v))) := by
  obtain ⟨m, h⟩ := h.holds w hc hD hn
  obtain ⟨st', ⟨m', hf, h1⟩, h2⟩ := mcall_crash w hc hD hn (have_power h fuel) (.store k v b) trivial hfit (fun _ => hd) (fun _ => hs)
  refine ⟨m, (have_fetches w hc hD hn (have_power h none) rfl).exact, ?_⟩
  have h3 := have_fetches w hc hD hn (have_power (h2.2 cache hk) none) rfl
  obtain rfl := fades_none hf
  rw [he] at h1
  rcases h1 with ⟨_, h1, _⟩ | ⟨h1 | ⟨_, n, h1⟩, _⟩ | ⟨_, _, rfl | rfl⟩
  · simp at h1
  · rcases h1 with ⟨_, e, h1⟩ | ⟨_, _, _, h1⟩ | ⟨_, h1⟩ <;> simp at h1
  · simp at h1
  · exact Or.inl h3.exact
  · exact Or.inr h3.exact

/-- C11, for one remove in any state. After a power loss the key has its old value or none, and all other keys have
theirs. -/
theorem interrupted_remove_partial (w : g.WF) (hc : Codes kc vc c) (hD : NoMix g.word D) (hn : 2 ≤ g.pageCount)
    (h : MCrashReached kc vc c D g lim s) (k : K) (b : List Byte) (fuel : Option Nat) (cache : Cache K) (hk : MapCache g.pageCount cache)
    (he : (mcall g kc vc (.remove k b) (powerFor fuel s)).1 = .error .shutoff)
    (hs : ¬ HalfErased g (mcall g kc vc (.remove k b) (powerFor fuel s)).2.fl) :
    ∃ m, Fetches kc vc g lim (powerUp s) m ∧
      ∀ k' b', lim ≤ b'.length →
        ((mcall g kc vc (.fetch k' b') (reboot cache (mcall g kc vc (.remove k b) (powerFor fuel s)).2)).1 = .ok (.value (m k')) ∨
         (k' = k ∧ (mcall g kc vc (.fetch k' b') (reboot cache (mcall g kc vc (.remove k b) (powerFor fuel s)).2)).1 = .ok (.value none))) := by
  obtain ⟨m, h⟩ := h.holds w hc hD hn
  obtain ⟨st', h1, h2⟩ := mcall_crash w hc hD hn (have_power h fuel) (.remove k b) trivial trivial trivial (fun _ => hs)
  refine ⟨m, (have_fetches w hc hD hn (have_power h none) rfl).exact, ?_⟩
  have h3 := have_fetches w hc hD hn (have_power (h2.2 cache hk) none) rfl
  rw [he] at h1
  rcases h1 with ⟨_, _, h1, _⟩ | ⟨m', hf, rfl, _⟩
  · simp at h1
  · intro k' b' hb
    rcases h3 k' b' hb with h4 | ⟨hF, h4⟩
    · rcases hf k' with hf | ⟨hF, hf⟩
      · exact Or.inl (h4.trans (congrArg (fun v => Except.ok (MAnswer.value v)) hf))
      · exact Or.inr ⟨by simpa using hF, h4.trans (congrArg (fun v => Except.ok (MAnswer.value v)) hf)⟩
    · exact Or.inr ⟨by simpa using hF, h4⟩

/-- The answers a caller of store, fetch and remove is told to expect. -/
def MUsual : MCall K V (Cache K) → Except Err (MAnswer K V) → Prop
  | .fetchAll _ _, _ => True
  | .store _ _ _, r => r = .ok .done ∨ r = .error .fullStorage ∨ r = .error .itemTooBig ∨ (∃ e, r = .error (.serialization e)) ∨
      ∃ n, r = .error (.bufferTooSmall n)
  | .fetch _ _, r => (∃ v, r = .ok (.value v)) ∨ ∃ n, r = .error (.bufferTooSmall n)
  | _, r => r = .ok .done ∨ ∃ n, r = .error (.bufferTooSmall n)

theorem powerStep_usual {W page : Nat} {st st' : (K → Option V) × (K → Prop)} {call : MCall K V (Cache K)} {r : Except Err (MAnswer K V)}
    (h : mapPowerStep true W page lim c st call r st') (hr : r ≠ .error .shutoff) : MUsual call r := by
  cases call with
  | store k v b =>
    obtain ⟨m, _, h⟩ := h
    rcases h with ⟨_, rfl, _⟩ | ⟨h | ⟨_, n, rfl⟩, _⟩ | ⟨_, rfl, _⟩
    · exact Or.inl rfl
    · rcases h with ⟨_, e, rfl⟩ | ⟨_, _, _, rfl⟩ | ⟨_, rfl⟩
      · exact Or.inr (Or.inr (Or.inr (Or.inl ⟨e, rfl⟩)))
      · exact Or.inr (Or.inr (Or.inl rfl))
      · exact Or.inr (Or.inl rfl)
    · exact Or.inr (Or.inr (Or.inr (Or.inr ⟨n, rfl⟩)))
    · exact absurd rfl hr
  | fetch k b =>
    obtain ⟨m, _, _, rfl | ⟨_, n, rfl⟩ | ⟨_, rfl⟩⟩ := h
    · exact Or.inl ⟨_, rfl⟩
    · exact Or.inr ⟨n, rfl⟩
    · exact absurd rfl hr
  | remove k b =>
    rcases h with ⟨_, _, rfl, _⟩ | ⟨_, _, _, ⟨_, n, rfl⟩ | ⟨_, rfl⟩⟩
    · exact Or.inl rfl
    · exact Or.inr ⟨n, rfl⟩
    · exact absurd rfl hr
  | removeAll b =>
    rcases h with ⟨rfl, _⟩ | ⟨_, _, _, ⟨_, n, rfl⟩ | ⟨_, rfl⟩⟩
    · exact Or.inl rfl
    · exact Or.inr ⟨n, rfl⟩
    · exact absurd rfl hr
  | fetchAll b steps => exact trivial
  | restart r => exact Or.inl h.1

/-- C12. After any history of interrupted calls, also interrupted removes, a call on a powered map answers as usual;
in particular it never says `Corrupted`. -/
theorem map_recovers_partial (w : g.WF) (hc : Codes kc vc c) (hD : NoMix g.word D) (hn : 2 ≤ g.pageCount)
    {cs : List (CrashCall K V)} (h : History kc vc c D g lim s cs) (calls : List (MCall K V (Cache K)))
    (hd : ∀ call ∈ calls, MDocumented g call) (ht : ∀ call ∈ calls, MTearProof D c call) :
    ∀ x ∈ calls.zip (mrun g kc vc calls (powerUp (mrunCrash g kc vc cs s).2)).1, MUsual x.1 x.2 := by
  obtain ⟨st, _, h⟩ := h.widen.holds w hc hD hn
  have key : ∀ (calls : List (MCall K V (Cache K))), (∀ call ∈ calls, MDocumented g call) → (∀ call ∈ calls, MTearProof D c call) →
      ∀ (s : St K) st, MHave kc vc (mtorn (widest g) D) g false s st → s.fl.fuel = none → ∀ x ∈ calls.zip (mrun g kc vc calls s).1, MUsual x.1 x.2 := by
    intro calls
    induction calls with
    | nil => intro _ _ s st _ _ x hx; simp at hx
    | cons call calls ih =>
      intro hd ht s st h hp x hx
      have hpw := mcall_powered g kc vc call s hp
      obtain ⟨st', h1, h2⟩ := mcall_crash w hc hD hn h call (hd call (by simp)) (within_widest call) (ht call (by simp)) (fun h => absurd h hpw.1)
      simp only [mrun, List.zip_cons_cons, List.mem_cons] at hx
      rcases hx with rfl | hx
      · exact powerStep_usual h1 hpw.1
      · exact ih (fun x hx => hd x (by simp [hx])) (fun x hx => ht x (by simp [hx])) _ st' (h2.1 hpw.1) hpw.2 x hx
  exact key calls hd ht _ st (have_power h none) rfl

/-- C12 and C36. After any history of interrupted calls the map can be used: a store succeeds if all current items and
the new one fit into a page together. -/
theorem map_usable_after_crash_partial (w : g.WF) (hc : Codes kc vc c) (hD : NoMix g.word D) (hn : 2 ≤ g.pageCount)
    (h : MCrashReached kc vc c D g lim s) (m : K → Option V) (hm : Fetches kc vc g lim (powerUp s) m) (k : K) (v : V) (b : List Byte)
    (hd : NoTorn D (c.data k v)) (hb : lim ≤ b.length) (hfit : pad g.word (c.data k v).length ≤ lim) (hw : Writable g.word g.eraseSize c k v b)
    (hf : FitsOne g.word g.eraseSize c m k v) :
    (mcall g kc vc (.store k v b) (powerUp s)).1 = .ok .done ∧
      Fetches kc vc g lim (mcall g kc vc (.store k v b) (powerUp s)).2 (put m k (some v)) := by
  obtain ⟨m0, h⟩ := h.holds w hc hD hn
  have hpw := mcall_powered g kc vc (.store k v b) (powerUp s) rfl
  obtain ⟨st', ⟨m', hfd, h1⟩, h2⟩ := mcall_crash w hc hD hn (have_power h none) (.store k v b) trivial (fun _ => hfit) (fun _ => hd) (fun h => absurd h hpw.1)
  obtain rfl := fades_none hfd
  have hm0 := (have_fetches w hc hD hn (have_power h none) rfl).exact
  obtain rfl := hm.unique hm0
  rcases h1 with ⟨_, h1, rfl⟩ | ⟨h1 | ⟨h1, _⟩, _⟩ | ⟨_, h1, _⟩
  · exact ⟨h1, (have_fetches w hc hD hn (h2.1 hpw.1) hpw.2).exact⟩
  · rcases h1 with ⟨h1 | h1, _⟩ | ⟨_, _, h1, _⟩ | ⟨h1, _⟩
    · exact absurd h1 hw.1
    · have := hw.2.1; omega
    · exact absurd hw.2.2 h1
    · exact absurd hf h1
  · exact absurd h1 (not_small hb)
  · exact absurd h1 hpw.1

/-! ### Iterating after a power loss -/

/-- A page whose erase was cut short: it reads as erased at its start and not at its end. -/
def CutErase (g : Geo) (fl : Flash) : Prop :=
  ∃ i, i < g.pageCount ∧ AllFF fl.mem (g.pageAddr i) g.readSize ∧ ¬ AllFF fl.mem (g.pageEnd i - g.readSize) g.readSize

theorem cut_of_corr {σ : Shape} {P : Nat → PK} {fl : Flash} {F : K → Prop} (h : FS (mtorn lim D) g fl σ P) (hm : MP kc vc (mtorn lim D) g σ P F)
    (hc : σ.corr = true) : CutErase g fl := by
  have ho := h.wf.o_lt
  obtain ⟨_, hm⟩ := hm.corr hc
  have hi := ringPage_lt ho (j := g.pageCount - 1) (by omega)
  have hp := ringPos_page ho (j := g.pageCount - 1) (by omega)
  have hst := h.st _ hi
  rw [(Shape.st_err (e := .corrupted)).2 ⟨rfl, by rw [hp]; omega, hc, by rw [hp]; omega⟩] at hst
  have hpg := h.pages _ hi
  cases hk : P (ringPage g.pageCount σ.o (g.pageCount - 1)) with
  | blank => rw [hk] at hst; simp [PK.st] at hst
  | used cl its f => rw [hk] at hst; cases cl <;> simp [PK.st] at hst
  | junk => rw [hk] at hst; simp [PK.st] at hst
  | corr =>
    rw [hk] at hpg
    obtain ⟨_, h1, _, x, h2, h3, h4⟩ := hpg
    refine ⟨_, hi, h1, fun hall => ?_⟩
    have := hall x h2 h3
    rw [h4] at this
    simp at this

/-- C39 where it holds. After any history of interrupted calls, iterating shows exactly the current map, if no page was
left with its erase cut short. The missing case is false, see `fetch_all_reports_corruption` and
`fetch_all_after_repair_succeeds`. -/
theorem fetch_all_after_crash_partial (w : g.WF) (hc : Codes kc vc c) (hD : NoMix g.word D) (hn : 2 ≤ g.pageCount)
    (h : MCrashReached kc vc c D g lim s) (hcut : ¬ CutErase g s.fl) :
    ∃ m todo, Fetches kc vc g lim (powerUp s) m ∧ (∀ k, lastOf k todo = m k) ∧
      ∀ b steps, ∃ l, (mcall g kc vc (.fetchAll b steps) (powerUp s)).1 = .ok (.items l) ∧ shows lim todo steps l := by
  obtain ⟨m, h⟩ := h.holds w hc hD hn
  have hp := have_power h none
  have hf := (have_fetches w hc hD hn hp rfl).exact
  obtain ⟨b0, σ, P, h, hse, hm⟩ := hp
  have hco : σ.corr = false := by
    cases hx : σ.corr with
    | false => rfl
    | true => exact absurd (cut_of_corr h.good.fs h.mp hx) hcut
  refine ⟨m, shown kc vc (icontent g.pageCount σ P), hf, ?_, fun b steps => ?_⟩
  · intro k
    rw [lastOf_shown hc.lawful k _ h.mp.enc]
    exact hm k
  · rcases (fetchAll_call w rfl hc hn h hse hm b steps (by simp)).cases with ⟨a, s1, he, q1, _⟩ | ⟨e, s1, he, _, q1, _⟩
    · obtain ⟨_, l, rfl, q2⟩ := q1 hco
      refine ⟨l, ?_, q2⟩
      have : mcall g kc vc (.fetchAll b steps) (powerUp s) = (.ok (.items l), s1) := he
      rw [this]
    · rw [hco] at q1; simp at q1

/-- C45 where it holds. After any history of interrupted calls, all that iterating shows was given to a store call of that
history, if no page was left with its erase cut short. Missing is the case of such a page, where it is false, see
`iteration_shows_forged_key`. -/
theorem iteration_shows_stored_after_crash_partial (w : g.WF) (hc : Codes kc vc c) (hD : NoMix g.word D) (hn : 2 ≤ g.pageCount)
    {cs : List (CrashCall K V)} (h : History kc vc c D g lim s cs) (hcut : ¬ CutErase g (mrunCrash g kc vc cs s).2.fl) :
    ∃ todo : List (K × V), (∀ p ∈ todo, ∃ b, MCall.store p.1 p.2 b ∈ cs.map (·.1)) ∧
      ∀ b steps, ∃ l, (mcall g kc vc (.fetchAll b steps) (powerUp (mrunCrash g kc vc cs s).2)).1 = .ok (.items l) ∧ shows lim todo steps l := by
  obtain ⟨st, _, h2⟩ := mrun_crash (D := fun d => D d ∧ StoredIn c (cs.map (·.1)) d) w hc (hD.mono fun _ h => h.1) hn cs
    (MHolds.erased w h.flash (by simp) (by simp) h.cache hn).have (fun x hx => (h.proper x hx).data fun k v b e hk =>
      ⟨by have := (h.proper x hx).tear; rw [e] at this; exact (this hk).2, k, v, hk, rfl, b, by rw [← e]; exact List.mem_map_of_mem hx⟩) h.erased
  generalize (mrunCrash g kc vc cs s).2 = s at h2 hcut ⊢
  obtain ⟨b0, σ, P, h, hse, hm⟩ := have_power h2 none
  have hco : σ.corr = false := by
    cases hx : σ.corr with
    | false => rfl
    | true => exact absurd (cut_of_corr h.good.fs h.mp hx) hcut
  refine ⟨shown kc vc (icontent g.pageCount σ P), shown_stored hc fun it hi hp => (h.mp.nt it hi hp).2.2, fun b steps => ?_⟩
  rcases (fetchAll_call w rfl hc hn h hse hm b steps (by simp)).cases with ⟨a, s1, he, q1, _⟩ | ⟨e, s1, he, _, q1, _⟩
  · obtain ⟨_, l, rfl, q2⟩ := q1 hco
    refine ⟨l, ?_, q2⟩
    have : mcall g kc vc (.fetchAll b steps) (powerUp s) = (.ok (.items l), s1) := he
    rw [this]
  · rw [hco] at q1; simp at q1

/-! ### Concrete cases -/

theorem erased_of_le {cs : List (CrashCall K V)} (h : ∀ n, n < cs.length + 1 → ¬ HalfErased g (mrunCrash g kc vc (cs.take n) s).2.fl) (n : Nat) :
    ¬ HalfErased g (mrunCrash g kc vc (cs.take n) s).2.fl := by
  rcases Nat.lt_or_ge n (cs.length + 1) with hn | hn
  · exact h n hn
  · have := h cs.length (by omega)
    rw [List.take_of_length_le (Nat.le_refl _)] at this
    rw [List.take_of_length_le (by omega)]; exact this

/-- `HalfErased` as a computation. -/
def halfErased (g : Geo) (fl : Flash) : Bool :=
  (List.range g.pageCount).any fun i =>
    ((List.range g.readSize).all fun j => fl.mem (g.pageAddr i + j) == 0xff#8) &&
    ((List.range g.readSize).all fun j => fl.mem (g.pageEnd i - g.readSize + j) == 0xff#8) &&
    !((List.range g.eraseSize).all fun j => fl.mem (g.pageAddr i + j) == 0xff#8)

theorem allFF_iff (mem : Nat → Byte) (a n : Nat) : AllFF mem a n ↔ ((List.range n).all fun j => mem (a + j) == 0xff#8) = true := by
  simp only [List.all_eq_true, List.mem_range, beq_iff_eq]
  constructor
  · intro h j hj; exact h _ (by omega) (by omega)
  · intro h x h1 h2
    have := h (x - a) (by omega)
    rwa [show a + (x - a) = x by omega] at this

theorem halfErased_iff (fl : Flash) : HalfErased g fl ↔ halfErased g fl = true := by
  unfold HalfErased halfErased
  simp only [List.any_eq_true, List.mem_range, Bool.and_eq_true, ← allFF_iff, Bool.not_eq_true', ← Bool.not_eq_true, and_assoc]

/-- Two pages of 64 bytes with words of eight bytes: three items in a page. The calls have a buffer of a page, and no
cache after a restart. -/
def buf64 : List Byte := List.replicate 64 0#8
def onePage (l : List (MCall K2 V4 (Cache K2) × Option Nat)) : List (CrashCall K2 V4) := l.map fun x => (x.1, x.2, noCache)

theorem geo8_plain : NoMix geo8.word plainData := noMix_wide (by decide) _

/-- The data of an item of the example cannot be confused with a torn version. -/
def tearFree (k : K2) (v : V4) : Bool :=
  ((List.range ((numCoding 2 4).data k v).length).all fun i =>
    decide (adaptedCrc32 (tornData ((numCoding 2 4).data k v) i) = adaptedCrc32 ((numCoding 2 4).data k v) →
      tornData ((numCoding 2 4).data k v) i = (numCoding 2 4).data k v)) &&
  (List.range 5).all fun i => !decide (Fake (tornData (le32 (adaptedCrc32 ((numCoding 2 4).data k v))) i)) &&
    !decide (Fake (le32 (clearedCrc (adaptedCrc32 ((numCoding 2 4).data k v)) i)))

theorem tearFree_noTorn {k : K2} {v : V4} (h : tearFree k v = true) : NoTorn plainData ((numCoding 2 4).data k v) := by
  unfold tearFree at h
  simp only [Bool.and_eq_true, List.all_eq_true, List.mem_range, decide_eq_true_eq, Bool.not_eq_true', decide_eq_false_iff_not] at h
  exact ⟨tornSeen_of h.1, plain_of h.2⟩

def tearFreeCall : MCall K2 V4 (Cache K2) → Bool
  | .store k v _ => tearFree k v
  | .restart _ => false
  | _ => true

theorem proper_of {g : Geo} (hp : pad g.word 6 ≤ 8) {l : List (MCall K2 V4 (Cache K2) × Option Nat)}
    (h : l.all (fun x => tearFreeCall x.1) = true) : ∀ x ∈ onePage l, Proper (numCoding 2 4) plainData g 8 x := by
  intro x hx
  obtain ⟨y, hy, rfl⟩ := List.mem_map.1 hx
  have := List.all_eq_true.1 h y hy
  obtain ⟨call, fuel⟩ := y
  refine ⟨?_, ?_, ?_, noCache_map _⟩
  · cases call with
    | restart r => simp [tearFreeCall] at this
    | _ => trivial
  · cases call with
    | store k v b =>
      intro _
      have e : ((numCoding 2 4).data k v).length = 6 := by simp [numCoding, Coding.data, leBytes_length]
      show pad g.word ((numCoding 2 4).data k v).length ≤ 8
      rw [e]; exact hp
    | _ => trivial
  · cases call with
    | store k v b => exact fun _ => tearFree_noTorn this
    | _ => trivial

theorem history_of {g : Geo} (hp : pad g.word 6 ≤ 8) {l : List (MCall K2 V4 (Cache K2) × Option Nat)} (h : l.all (fun x => tearFreeCall x.1) = true)
    (he : (List.range ((onePage l).length + 1)).all (fun n =>
      !halfErased g (mrunCrash g (numKey 2) (numVal 4) ((onePage l).take n) blankMap).2.fl) = true) :
    History (numKey 2) (numVal 4) (numCoding 2 4) plainData g 8 blankMap (onePage l) := by
  refine ⟨(blank_start g).flash, noCache_map _, proper_of hp h, erased_of_le fun n hn => ?_⟩
  have := List.all_eq_true.1 he n (List.mem_range.2 hn)
  rw [halfErased_iff]
  simpa using this

/-- Stores and removes that are interrupted while writing an item, copying items, erasing a page and repairing. -/
def mcrashCalls : List (MCall K2 V4 (Cache K2) × Option Nat) :=
  [(.store 1 10 buf64, none), (.store 1 11 buf64, some 9), (.store 2 20 buf64, none), (.store 1 12 buf64, some 44),
    (.store 1 12 buf64, some 72), (.fetch 2 buf64, none), (.store 1 12 buf64, some 90), (.remove 3 buf64, some 2)]

theorem mcrash_history : History (numKey 2) (numVal 4) (numCoding 2 4) plainData geo8 8 blankMap (onePage mcrashCalls) :=
  history_of (by decide) (by decide +kernel) (by decide +kernel)

example : ∃ m F, Runs (mapPowerStep true 8 64 8 (numCoding 2 4)) (fun _ => none, fun _ => False) ((onePage mcrashCalls).map (·.1))
        (mrunCrash geo8 (numKey 2) (numVal 4) (onePage mcrashCalls) blankMap).1 (m, F) ∧
      FetchesOr (numKey 2) (numVal 4) geo8 8 (powerUp (mrunCrash geo8 (numKey 2) (numVal 4) (onePage mcrashCalls) blankMap).2) m F ∧
      (∀ cache, MapCache geo8.pageCount cache →
        FetchesOr (numKey 2) (numVal 4) geo8 8 (reboot cache (mrunCrash geo8 (numKey 2) (numVal 4) (onePage mcrashCalls) blankMap).2) m F) ∧
      (RemovesDone (onePage mcrashCalls) (mrunCrash geo8 (numKey 2) (numVal 4) (onePage mcrashCalls) blankMap).1 → ∀ k, ¬ F k) :=
  map_survives_power_loss_partial geo8_wf (num_codes 2 4) geo8_plain (by decide) mcrash_history

/-- The same with words of four bytes. -/
example : ∃ m F, Runs (mapPowerStep true 4 64 8 (numCoding 2 4)) (fun _ => none, fun _ => False) ((onePage mcrashCalls).map (·.1))
        (mrunCrash geo42 (numKey 2) (numVal 4) (onePage mcrashCalls) blankMap).1 (m, F) ∧
      FetchesOr (numKey 2) (numVal 4) geo42 8 (powerUp (mrunCrash geo42 (numKey 2) (numVal 4) (onePage mcrashCalls) blankMap).2) m F ∧
      (∀ cache, MapCache geo42.pageCount cache →
        FetchesOr (numKey 2) (numVal 4) geo42 8 (reboot cache (mrunCrash geo42 (numKey 2) (numVal 4) (onePage mcrashCalls) blankMap).2) m F) ∧
      (RemovesDone (onePage mcrashCalls) (mrunCrash geo42 (numKey 2) (numVal 4) (onePage mcrashCalls) blankMap).1 → ∀ k, ¬ F k) :=
  map_survives_power_loss_partial geo42_wf (num_codes 2 4) plainData_ok (by decide) (history_of (by decide) (by decide +kernel) (by decide +kernel))

example : (mrunCrash geo42 (numKey 2) (numVal 4) (onePage mcrashCalls) blankMap).1 =
    [.ok .done, .error .shutoff, .ok .done, .error .shutoff, .error .shutoff, .ok (.value (some 20)), .error .shutoff, .error .shutoff] := by
  decide +kernel

/-- The same with words of one byte, where headers are cut off after any number of bytes. -/
def mcrashCalls1 : List (MCall K2 V4 (Cache K2) × Option Nat) :=
  [(.store 1 11 buf64, none), (.store 1 14 buf64, some 5), (.store 2 21 buf64, some 8), (.store 2 21 buf64, none), (.store 1 15 buf64, some 3),
    (.store 1 15 buf64, none), (.store 2 22 buf64, some 2), (.store 2 22 buf64, some 30), (.fetch 2 buf64, none), (.store 1 16 buf64, none),
    (.remove 2 buf64, none), (.fetch 1 buf64, none), (.fetch 2 buf64, none)]

/-- All the data stored by them. -/
def mtame : List (List Byte) := mcrashCalls1.filterMap fun x => match x.1 with
  | .store k v _ => some ((numCoding 2 4).data k v)
  | _ => none

theorem mtame_ok (W : Nat) : NoMix W (· ∈ mtame) := noMix_of (by decide +kernel) W

theorem mcrash1_history : History (numKey 2) (numVal 4) (numCoding 2 4) (· ∈ mtame) geo11 8 blankMap (onePage mcrashCalls1) := by
  have h : History (numKey 2) (numVal 4) (numCoding 2 4) plainData geo11 8 blankMap (onePage mcrashCalls1) :=
    history_of (by decide) (by decide +kernel) (by decide +kernel)
  refine ⟨h.flash, h.cache, fun x hx => (h.proper x hx).data fun k v b e _ => ?_, h.erased⟩
  obtain ⟨y, hy, rfl⟩ := List.mem_map.1 hx
  refine List.mem_filterMap.2 ⟨y, hy, ?_⟩
  simp only at e
  rw [e]

example : ∃ m F, Runs (mapPowerStep true 1 64 8 (numCoding 2 4)) (fun _ => none, fun _ => False) ((onePage mcrashCalls1).map (·.1))
        (mrunCrash geo11 (numKey 2) (numVal 4) (onePage mcrashCalls1) blankMap).1 (m, F) ∧
      FetchesOr (numKey 2) (numVal 4) geo11 8 (powerUp (mrunCrash geo11 (numKey 2) (numVal 4) (onePage mcrashCalls1) blankMap).2) m F ∧
      (∀ cache, MapCache geo11.pageCount cache →
        FetchesOr (numKey 2) (numVal 4) geo11 8 (reboot cache (mrunCrash geo11 (numKey 2) (numVal 4) (onePage mcrashCalls1) blankMap).2) m F) ∧
      (RemovesDone (onePage mcrashCalls1) (mrunCrash geo11 (numKey 2) (numVal 4) (onePage mcrashCalls1) blankMap).1 → ∀ k, ¬ F k) :=
  map_survives_power_loss_partial geo11_wf (num_codes 2 4) (mtame_ok 1) (by decide) mcrash1_history

example : (mrunCrash geo11 (numKey 2) (numVal 4) (onePage mcrashCalls1) blankMap).1 =
    [.ok .done, .error .shutoff, .error .shutoff, .ok .done, .error .shutoff, .ok .done, .error .shutoff, .ok .done, .ok (.value (some 22)), .ok .done,
      .ok .done, .ok (.value (some 16)), .ok (.value none)] := by
  decide +kernel

theorem mcrash_answers : (mrunCrash geo8 (numKey 2) (numVal 4) (onePage mcrashCalls) blankMap).1 =
    [.ok .done, .error .shutoff, .ok .done, .error .shutoff, .error .shutoff, .ok (.value (some 20)), .error .shutoff, .ok .done] := by decide +kernel

/-- The state in the middle of all this. -/
def mcrashed : St K2 := (mrunCrash geo8 (numKey 2) (numVal 4) (onePage mcrashCalls) blankMap).2

theorem mcrashed_reached : MCrashReached (numKey 2) (numVal 4) (numCoding 2 4) plainData geo8 8 mcrashed :=
  ⟨blankMap, onePage mcrashCalls, mcrash_history, by
    rw [mcrash_answers]
    simp [onePage, mcrashCalls, RemovesDone], rfl⟩

/-- The repair of the interrupted store is interrupted itself. -/
example : ∃ m, Fetches (numKey 2) (numVal 4) geo8 8 (powerUp mcrashed) m ∧
      (Fetches (numKey 2) (numVal 4) geo8 8 (reboot noCache (mcall geo8 (numKey 2) (numVal 4) (.store 3 31 buf64) (powerFor (some 100) mcrashed)).2) m ∨
       Fetches (numKey 2) (numVal 4) geo8 8 (reboot noCache (mcall geo8 (numKey 2) (numVal 4) (.store 3 31 buf64) (powerFor (some 100) mcrashed)).2)
         (put m 3 (some 31))) :=
  interrupted_store_partial geo8_wf (num_codes 2 4) geo8_plain (by decide) mcrashed_reached 3 31 buf64 (fun _ => by decide) (tearFree_noTorn (by decide +kernel))
    (some 100) noCache (noCache_map _) (by decide +kernel) (by rw [halfErased_iff]; decide +kernel)

example : ∃ m, Fetches (numKey 2) (numVal 4) geo8 8 (powerUp mcrashed) m ∧
      ∀ k' b', 8 ≤ b'.length →
        ((mcall geo8 (numKey 2) (numVal 4) (.fetch k' b')
            (reboot noCache (mcall geo8 (numKey 2) (numVal 4) (.remove 2 buf64) (powerFor (some 3) mcrashed)).2)).1 = .ok (.value (m k')) ∨
         (k' = 2 ∧ (mcall geo8 (numKey 2) (numVal 4) (.fetch k' b')
            (reboot noCache (mcall geo8 (numKey 2) (numVal 4) (.remove 2 buf64) (powerFor (some 3) mcrashed)).2)).1 = .ok (.value none))) :=
  interrupted_remove_partial geo8_wf (num_codes 2 4) geo8_plain (by decide) mcrashed_reached 2 buf64
    (some 3) noCache (noCache_map _) (by decide +kernel) (by rw [halfErased_iff]; decide +kernel)

def mafter : List (MCall K2 V4 (Cache K2)) := [.fetch 1 buf64, .remove 2 buf64, .store 3 31 buf64, .store 3 32 buf64, .fetch 2 []]

theorem mafter_ok : (∀ call ∈ mafter, MDocumented geo8 call) ∧ ∀ call ∈ mafter, MTearProof plainData (numCoding 2 4) call := by
  constructor <;>
  · intro call h
    simp only [mafter, List.mem_cons, List.not_mem_nil, or_false] at h
    rcases h with rfl | rfl | rfl | rfl | rfl <;> first | trivial | exact fun _ => tearFree_noTorn (by decide +kernel)

example : ∀ x ∈ mafter.zip (mrun geo8 (numKey 2) (numVal 4) mafter
    (powerUp (mrunCrash geo8 (numKey 2) (numVal 4) (onePage mcrashCalls) blankMap).2)).1, MUsual x.1 x.2 :=
  map_recovers_partial geo8_wf (num_codes 2 4) geo8_plain (by decide) mcrash_history mafter mafter_ok.1 mafter_ok.2

example : (mrun geo8 (numKey 2) (numVal 4) mafter (powerUp mcrashed)).1 =
    [.ok (.value (some 10)), .ok .done, .ok .done, .ok .done, .error (.bufferTooSmall 8)] := by decide +kernel

/-- A map in its first store when power was lost. -/
def firstStore : List (MCall K2 V4 (Cache K2) × Option Nat) := [(.store 1 10 buf64, some 20)]

theorem first_history : History (numKey 2) (numVal 4) (numCoding 2 4) plainData geo8 8 blankMap (onePage firstStore) :=
  history_of (by decide) (by decide +kernel) (by decide +kernel)

def mfirst : St K2 := (mrunCrash geo8 (numKey 2) (numVal 4) (onePage firstStore) blankMap).2

theorem first_reached : MCrashReached (numKey 2) (numVal 4) (numCoding 2 4) plainData geo8 8 mfirst :=
  ⟨blankMap, onePage firstStore, first_history, by
    rw [show (mrunCrash geo8 (numKey 2) (numVal 4) (onePage firstStore) blankMap).1 = [.error .shutoff] by decide +kernel]
    simp [onePage, firstStore, RemovesDone], rfl⟩

/-- Whatever the map holds now, the store can be repeated. -/
example : ∃ m, Fetches (numKey 2) (numVal 4) geo8 8 (powerUp mfirst) m ∧
    (mcall geo8 (numKey 2) (numVal 4) (.store 1 10 buf64) (powerUp mfirst)).1 = .ok .done ∧
    Fetches (numKey 2) (numVal 4) geo8 8 (mcall geo8 (numKey 2) (numVal 4) (.store 1 10 buf64) (powerUp mfirst)).2 (put m 1 (some 10)) := by
  obtain ⟨m, F, ⟨r, rs, st, h0, h1, h2⟩, h3, _⟩ :=
    map_survives_power_loss_partial geo8_wf (num_codes 2 4) geo8_plain (by decide) first_history
  obtain ⟨_, h2⟩ := h2
  subst h2
  obtain ⟨m', hf, h1⟩ := h1
  obtain rfl := fades_none hf
  have key : (∀ k, ¬ F k) ∧ (m = (fun _ => none) ∨ m = put (fun _ => none) 1 (some 10)) := by
    rcases h1 with ⟨_, _, h1⟩ | ⟨_, h1⟩ | ⟨_, _, h1 | h1⟩ <;> simp only [Prod.mk.injEq] at h1 <;> obtain ⟨rfl, rfl⟩ := h1
    · exact ⟨fun _ h => h, Or.inr rfl⟩
    · exact ⟨fun _ h => h, Or.inl rfl⟩
    · exact ⟨fun _ h => h, Or.inl rfl⟩
    · exact ⟨fun _ h => h, Or.inr rfl⟩
  have hF : F = fun _ => False := by funext k; exact propext ⟨fun hk => key.1 k hk, False.elim⟩
  subst hF
  have h4 := FetchesOr.exact h3
  refine ⟨m, h4, ?_⟩
  refine map_usable_after_crash_partial geo8_wf (num_codes 2 4) geo8_plain (by decide) first_reached m h4 1 10 buf64
    (tearFree_noTorn (by decide +kernel)) (by decide) (by decide) ⟨by simp [numCoding], by decide, by unfold FitsPage; decide⟩ ?_
  rcases key.2 with rfl | rfl
  · exact ⟨[], fun _ h => absurd rfl h, by decide⟩
  · refine ⟨[1], ?_, by decide⟩
    intro k hk
    unfold put at hk
    split at hk
    · simp [*]
    · exact absurd rfl hk

theorem mcrashed_marked : ∀ i, i < geo8.pageCount →
    ¬ ((List.range geo8.readSize).all fun j => mcrashed.fl.mem (geo8.pageAddr i + j) == 0xff#8) = true := by decide +kernel

theorem not_cut {fl : Flash} (h : ∀ i, i < g.pageCount → ¬ ((List.range g.readSize).all fun j => fl.mem (g.pageAddr i + j) == 0xff#8) = true) :
    ¬ CutErase g fl := by
  rintro ⟨i, hi, h1, _⟩
  exact h i hi ((allFF_iff _ _ _).1 h1)

theorem mcrashed_whole : ¬ CutErase geo8 mcrashed.fl := not_cut mcrashed_marked

example : ∃ m todo, Fetches (numKey 2) (numVal 4) geo8 8 (powerUp mcrashed) m ∧ (∀ k, lastOf k todo = m k) ∧
      ∀ b steps, ∃ l, (mcall geo8 (numKey 2) (numVal 4) (.fetchAll b steps) (powerUp mcrashed)).1 = .ok (.items l) ∧ shows 8 todo steps l :=
  fetch_all_after_crash_partial geo8_wf (num_codes 2 4) geo8_plain (by decide) mcrashed_reached mcrashed_whole

example : ∃ todo : List (K2 × V4), (∀ p ∈ todo, ∃ b, MCall.store p.1 p.2 b ∈ (onePage mcrashCalls).map (·.1)) ∧
      ∀ b steps, ∃ l, (mcall geo8 (numKey 2) (numVal 4) (.fetchAll b steps)
        (powerUp (mrunCrash geo8 (numKey 2) (numVal 4) (onePage mcrashCalls) blankMap).2)).1 = .ok (.items l) ∧ shows 8 todo steps l :=
  iteration_shows_stored_after_crash_partial geo8_wf (num_codes 2 4) geo8_plain (by decide) mcrash_history mcrashed_whole

/-! ### Where it is false -/

/-- Items of two keys in one page, and a store that is cut off when both have been copied to the other page. -/
def halfMoved : List (MCall K2 V4 (Cache K2) × Option Nat) :=
  [(.store 1 10 buf64, none), (.store 1 11 buf64, none), (.store 2 20 buf64, none), (.store 1 12 buf64, some 48)]

theorem halfMoved_history : History (numKey 2) (numVal 4) (numCoding 2 4) plainData geo8 8 blankMap (onePage halfMoved) :=
  history_of (by decide) (by decide +kernel) (by decide +kernel)

/-- What is done next to revive a removed key. -/
def revive : List (MCall K2 V4 (Cache K2) × Option Nat) :=
  halfMoved ++ [(.store 1 12 buf64, some 12), (.remove 2 buf64, none), (.fetch 2 buf64, none), (.store 1 12 buf64, some 8), (.fetch 2 buf64, none)]

/-- C10, C11 and C13 are false when an erase of a page that is not closed is cut short. The page then looks unused, and
removing does not look into it. When another store is cut off just after taking that page into use, the old copies in
it are back: an interrupted store of one key has changed the value of another one, and a removed key has a value again. -/
theorem torn_erase_revives_removed_key :
    (onePage revive).all (fun x => tearFreeCall x.1) = true ∧
    (mrunCrash geo8 (numKey 2) (numVal 4) (onePage revive) blankMap).1 =
      [.ok .done, .ok .done, .ok .done, .error .shutoff, .error .shutoff, .ok .done, .ok (.value none), .error .shutoff,
        .ok (.value (some 20))] := by decide +kernel

/-- A remove that is cut off while the items are being moved. -/
def fading : List (MCall K2 V4 (Cache K2) × Option Nat) :=
  halfMoved ++ [(.remove 2 buf64, some 8), (.fetch 2 buf64, none), (.store 1 12 buf64, none), (.fetch 2 buf64, none)]

/-- C09 and C10 are false after an interrupted remove. The old copy is removed, the new one is not. So the key still has
its value. Then a store of another key completes and repeats the moving, and the value is gone. -/
theorem interrupted_remove_fades_later :
    (onePage fading).all (fun x => tearFreeCall x.1) = true ∧
    (mrunCrash geo8 (numKey 2) (numVal 4) (onePage fading) blankMap).1 =
      [.ok .done, .ok .done, .ok .done, .error .shutoff, .error .shutoff, .ok (.value (some 20)), .ok .done, .ok (.value none)] := by
  decide +kernel

theorem fading_history : History (numKey 2) (numVal 4) (numCoding 2 4) plainData geo8 8 blankMap (onePage fading) :=
  history_of (by decide) (by decide +kernel) (by decide +kernel)

/-- A store that is cut off while it erases the page it has emptied. -/
def cutErase : List (MCall K2 V4 (Cache K2) × Option Nat) :=
  [(.store 1 10 buf64, none), (.store 2 20 buf64, none), (.store 2 21 buf64, none), (.store 2 22 buf64, some 60)]

theorem cutErase_history : History (numKey 2) (numVal 4) (numCoding 2 4) plainData geo8 8 blankMap (onePage cutErase) :=
  history_of (by decide) (by decide +kernel) (by decide +kernel)

/-- C39 is false. The error leaves `fetch_all_items` before the repair can see it. -/
theorem fetch_all_reports_corruption :
    (mcall geo8 (numKey 2) (numVal 4) (.fetchAll buf64 [buf64])
      (powerUp (mrunCrash geo8 (numKey 2) (numVal 4) (onePage cutErase) blankMap).2)).1 = .error .corrupted := by
  decide +kernel

/-- In the same state, fetching repairs the page, and then iterating works. -/
theorem fetch_all_after_repair_succeeds :
    (mrun geo8 (numKey 2) (numVal 4) [.fetch 1 buf64, .fetchAll buf64 [buf64, buf64, buf64]]
      (powerUp (mrunCrash geo8 (numKey 2) (numVal 4) (onePage cutErase) blankMap).2)).1 =
      [.ok (.value (some 10)), .ok (.items [.ok (some (1, 10)), .ok (some (2, 21)), .ok none])] := by
  decide +kernel

/-- C10 is false for words of four bytes, as C04 is, when a checksum can be mistaken for a length: a store is cut off within the header, and the next item
is never found though its store succeeded. -/
theorem torn_header_hides_value :
    NoTorn plainData ((numCoding 2 2).data 1 2) ∧ TornSeen ((numCoding 2 2).data 59092 9586) ∧
    ¬ Plain (adaptedCrc32 ((numCoding 2 2).data 59092 9586)) ∧
    (mrunCrash geo42 (numKey 2) (numVal 2) [(.store 1 2 buf64, some 6, noCache), (.store 59092 9586 buf64, none, noCache),
      (.fetch 59092 buf64, none, noCache)] blankMap).1 = [.error .shutoff, .ok .done, .ok (.value none)] :=
  ⟨⟨tornSeen_of (by decide +kernel), plain_of (by decide +kernel)⟩, tornSeen_of (by decide +kernel),
    fun h => absurd (h 4).1 (by decide +kernel), by decide +kernel⟩

/-- C10 is false in general: torn data can have the checksum of the whole. Here a store of one key is cut off after
the first byte of the data, and another key has a value now. -/
theorem torn_data_fetched :
    (numCoding 2 6).data 321 265192535556866 = colliding ∧
    (mrunCrash geo8 (numKey 2) (numVal 6) [(.store 321 265192535556866 buf64, some 17, noCache), (.fetch 321 buf64, none, noCache),
      (.fetch 65345 buf64, none, noCache)] blankMap).1 =
      [.error .shutoff, .ok (.value none), .ok (.value (some 281474976710655))] := by decide +kernel

end SeqStorage.Props
