import Verif.Props.MapCrash
import Verif.Props.Safe
/-
C33 for a map on contents it wrote itself, and what iterating over a half-erased page can show.
-/

set_option linter.unusedSectionVars false

namespace SeqStorage.Props
open SeqStorage Spec M Codec

variable {K V : Type} [DecidableEq K] {kc : KeyCodec K} {vc : ValCodec V} {c : Coding K V} {g : Geo} {s : St K} {lim : Nat}

/-- Some answer is a crash, a panic included. -/
def MCrashed (r : Except Err (MAnswer K V)) : Prop :=
  ∃ e, Crash e ∧ (r = .error e ∨ ∃ l, r = .ok (.items l) ∧ Except.error e ∈ l)

/-- The call does not iterate. -/
def NoIteration : MCall K V (Cache K) → Prop
  | .fetchAll .. => False
  | _ => True

theorem powerStep_fine {power : Bool} {W page : Nat} {st st' : (K → Option V) × (K → Prop)} {call : MCall K V (Cache K)}
    {r : Except Err (MAnswer K V)} (h : mapPowerStep power W page lim c st call r st') (hi : power = true → NoIteration call) :
    ¬ MCrashed r := by
  have key : (∃ e, r = .error e ∧ ¬ Crash e) ∨ (∃ a, r = .ok a ∧ ∀ l, a = .items l → ∀ e, Except.error e ∈ l → ¬ Crash e) → ¬ MCrashed r := by
    rintro (⟨e, rfl, hx⟩ | ⟨a, rfl, hx⟩) ⟨e', h', hr | ⟨l, hr, hm⟩⟩
    · simp only [Except.error.injEq] at hr; subst hr; exact hx h'
    · simp at hr
    · simp at hr
    · simp only [Except.ok.injEq] at hr
      exact hx l hr e' hm h'
  apply key
  cases call with
  | store k v b =>
    obtain ⟨m, _, h⟩ := h
    rcases h with ⟨_, rfl, _⟩ | ⟨h | ⟨_, n, rfl⟩, _⟩ | ⟨_, rfl, _⟩
    · exact Or.inr ⟨_, rfl, by simp⟩
    · left
      rcases h with ⟨_, e, rfl⟩ | ⟨_, _, _, rfl⟩ | ⟨_, rfl⟩ <;> exact ⟨_, rfl, by simp [Crash]⟩
    · exact Or.inl ⟨_, rfl, by simp [Crash]⟩
    · exact Or.inl ⟨_, rfl, by simp [Crash]⟩
  | fetch k b =>
    obtain ⟨m, _, _, rfl | ⟨_, n, rfl⟩ | ⟨_, rfl⟩⟩ := h
    · exact Or.inr ⟨_, rfl, by simp⟩
    · exact Or.inl ⟨_, rfl, by simp [Crash]⟩
    · exact Or.inl ⟨_, rfl, by simp [Crash]⟩
  | remove k b =>
    rcases h with ⟨_, _, rfl, _⟩ | ⟨_, _, _, ⟨_, n, rfl⟩ | ⟨_, rfl⟩⟩
    · exact Or.inr ⟨_, rfl, by simp⟩
    · exact Or.inl ⟨_, rfl, by simp [Crash]⟩
    · exact Or.inl ⟨_, rfl, by simp [Crash]⟩
  | removeAll b =>
    rcases h with ⟨rfl, _⟩ | ⟨_, _, _, ⟨_, n, rfl⟩ | ⟨_, rfl⟩⟩
    · exact Or.inr ⟨_, rfl, by simp⟩
    · exact Or.inl ⟨_, rfl, by simp [Crash]⟩
    · exact Or.inl ⟨_, rfl, by simp [Crash]⟩
  | fetchAll b steps =>
    cases power with
    | true => exact (hi rfl).elim
    | false =>
      obtain ⟨_, h⟩ := h
      obtain ⟨todo, l, _, rfl, hs⟩ := h rfl
      refine Or.inr ⟨_, rfl, ?_⟩
      rintro l' hl e he
      simp only [MAnswer.items.injEq] at hl
      subst hl
      obtain ⟨n, rfl⟩ := shows_errs hs e he
      simp [Crash]
  | restart r =>
    obtain ⟨rfl, _⟩ := h
    exact Or.inr ⟨_, rfl, by simp⟩

theorem runs_fine {power : Bool} {W page : Nat} : ∀ {cs : List (MCall K V (Cache K))} {rs : List (Except Err (MAnswer K V))}
    {st st' : (K → Option V) × (K → Prop)}, Runs (mapPowerStep power W page lim c) st cs rs st' →
    ∀ (i : Nat) (call : MCall K V (Cache K)) (r : Except Err (MAnswer K V)), cs[i]? = some call → rs[i]? = some r → (power = true → NoIteration call) → ¬ MCrashed r := by
  intro cs
  induction cs with
  | nil => intro rs st st' _ i call r h; simp at h
  | cons call cs ih =>
    rintro rs st st' ⟨r, rs', st1, rfl, h1, h2⟩ i call' r' hi hr hn
    cases i with
    | zero =>
      simp only [List.getElem?_cons_zero, Option.some.injEq] at hi hr
      subst hi hr
      exact powerStep_fine h1 hn
    | succ i =>
      simp only [List.getElem?_cons_succ] at hi hr
      exact ih h2 i call' r' hi hr hn

/-- C33, map. On contents that the map wrote itself no call panics, diverges or meets a logic bug, whatever the buffers
and caches, and also not while iterating or after the end of an iteration. -/
theorem map_never_crashes_on_own_contents (w : g.WF) (hc : Codes kc vc c) (hn : 2 ≤ g.pageCount) (h : MStart g s)
    (cs : List (MCall K V (Cache K))) (hd : ∀ call ∈ cs, MDocumented g call) :
    ∀ r ∈ (mrun g kc vc cs s).1, ¬ MCrashed r := by
  intro r hr
  obtain ⟨st', h1, _⟩ := mrun_cf w hc hn (md := ⟨true, false, some (widest g), fun _ => True, false⟩) rfl rfl cs (h.holds w rfl rfl hn (big := false)) hd
    (fun x _ => within_widest x) (by simp) (by simp) (fun x _ => Stores.all x)
  obtain ⟨i, hi⟩ := List.mem_iff_getElem?.1 hr
  have hlen : ∀ (cs : List (MCall K V (Cache K))) (s : St K), (mrun g kc vc cs s).1.length = cs.length := by
    intro cs
    induction cs with
    | nil => intro s; rfl
    | cons call cs ih => intro s; simp only [mrun, List.length_cons, ih]
  obtain ⟨call, hcall⟩ : ∃ call, cs[i]? = some call := by
    have hlt := (List.getElem?_eq_some_iff.1 hi).1
    rw [hlen] at hlt
    exact ⟨_, List.getElem?_eq_getElem hlt⟩
  exact runs_fine h1 i call r hcall hi (by simp)

example : ∀ r ∈ (mrun geo3 (numKey 2) (numVal 4) (mcalls ++ [.fetchAll [] [[], buf48, [], buf48, buf48, [], buf48], .fetch 1 []]) blankMap).1,
    ¬ MCrashed r :=
  map_never_crashes_on_own_contents geo3_wf (num_codes 2 4) (by decide) (blank_start _) _ (by
    intro call h
    rcases List.mem_append.1 h with h | h
    · exact (mcalls_ok call h).doc
    · simp only [List.mem_cons, List.not_mem_nil, or_false] at h
      rcases h with rfl | rfl <;> trivial)

/-- C33, map, with power losses anywhere. No call but an iteration crashes, and an iteration does not when no page was left
with its erase cut short. Missing: data whose torn version has the same checksum or whose header can complete the remains of
another (`NoMix`), and half-erased pages that look erased; and it is false of an iteration over a page whose erase was cut short, see
`iteration_panics_after_power_loss`. -/
theorem map_never_crashes_after_power_loss_partial (w : g.WF) (hc : Codes kc vc c) {D : List Byte → Prop} (hD : NoMix g.word D) (hn : 2 ≤ g.pageCount)
    {cs : List (CrashCall K V)} (h : History kc vc c D g lim s cs) :
    (∀ (i : Nat) (x : CrashCall K V) (r : Except Err (MAnswer K V)), cs[i]? = some x → (mrunCrash g kc vc cs s).1[i]? = some r → NoIteration x.1 → ¬ MCrashed r) ∧
    (¬ CutErase g (mrunCrash g kc vc cs s).2.fl → ∀ b steps,
      ¬ MCrashed (mcall g kc vc (.fetchAll b steps) (powerUp (mrunCrash g kc vc cs s).2)).1) := by
  obtain ⟨st, h1, h2⟩ := h.holds w hc hD hn
  constructor
  · intro i x r hi hr hx
    refine runs_fine h1 i x.1 r ?_ hr (fun _ => hx)
    rw [List.getElem?_map, hi]; rfl
  · intro hcut b steps
    generalize mrunCrash g kc vc cs s = out at *
    obtain ⟨b0, σ, P, h, hse, hm⟩ := have_power h2 none
    have hco : σ.corr = false := by
      cases hx : σ.corr with
      | false => rfl
      | true => exact absurd (cut_of_corr h.good.fs h.mp hx) hcut
    rcases (fetchAll_call w rfl hc hn h hse hm b steps (by simp)).cases with ⟨a, s1, he, q1, _⟩ | ⟨e, s1, he, _, q1, _⟩
    · obtain ⟨_, l, rfl, q2⟩ := q1 hco
      have : mcall g kc vc (.fetchAll b steps) (powerUp out.2) = (.ok (.items l), s1) := he
      rw [this]
      rintro ⟨e, h', hr | ⟨l', hr, hm'⟩⟩
      · simp at hr
      · simp only [Except.ok.injEq, MAnswer.items.injEq] at hr
        subst hr
        obtain ⟨n, rfl⟩ := shows_errs q2 e hm'
        simp [Crash] at h'
    · rw [hco] at q1; simp at q1

example : (∀ (i : Nat) (x : CrashCall K2 V4) (r : Except Err (MAnswer K2 V4)), (onePage mcrashCalls)[i]? = some x →
      (mrunCrash geo8 (numKey 2) (numVal 4) (onePage mcrashCalls) blankMap).1[i]? = some r → NoIteration x.1 → ¬ MCrashed r) ∧
    (¬ CutErase geo8 (mrunCrash geo8 (numKey 2) (numVal 4) (onePage mcrashCalls) blankMap).2.fl → ∀ b steps,
      ¬ MCrashed (mcall geo8 (numKey 2) (numVal 4) (.fetchAll b steps)
        (powerUp (mrunCrash geo8 (numKey 2) (numVal 4) (onePage mcrashCalls) blankMap).2)).1) :=
  map_never_crashes_after_power_loss_partial geo8_wf (num_codes 2 4) geo8_plain (by decide) mcrash_history

/-! ### A page whose erase was cut short -/

/-- Three pages of 96 bytes with words of eight bytes. -/
def geo9 : Geo := ⟨1, 8, 96, 0, 288⟩
theorem geo9_wf : geo9.WF := by constructor <;> decide

abbrev V16 := BitVec (8 * 16)
def buf96 : List Byte := List.replicate 96 0#8

/-- A value with the bytes of an item of one byte in it. -/
def evilNum : V16 := ofLeBytes 16 (List.replicate 6 0#8 ++ (Header.ofData [5#8]).encode geo9 ++ [5#8, 0#8])

/-- The value is the first item on the second page. -/
def evilSt : St K2 :=
  (mrun geo9 (numKey 2) (numVal 16) [.store 1 1 buf96, .store 1 2 buf96, .store 2 evilNum buf96, .store 1 3 buf96, .store 1 4 buf96,
    .store 1 5 buf96] blankMap).2

/-- C33 and C39 are false of the code for a value that contains the bytes of an item. Power is lost while the page with
that value is erased, in the length field of its header. `fetch_all_items` does not look at the state of the page it
starts on, so the next iteration reads that page, finds no item at its start, looks further word by word, and comes upon
the bytes in the value. The item they form is too short for a key: it panics. Fetching would have repaired the page. -/
theorem iteration_panics_after_power_loss :
    (mcall geo9 (numKey 2) (numVal 16) (.store 1 6 buf96) (powerFor (some 61) evilSt)).1 = .error .shutoff ∧
    (mcall geo9 (numKey 2) (numVal 16) (.fetchAll buf96 [buf96])
      (reboot noCache (mcall geo9 (numKey 2) (numVal 16) (.store 1 6 buf96) (powerFor (some 61) evilSt)).2)).1 =
        .ok (.items [.error .panic]) ∧
    (mrun geo9 (numKey 2) (numVal 16) [.fetch 1 buf96, .fetch 2 buf96, .store 1 6 buf96, .fetchAll buf96 [buf96]]
      (reboot noCache (mcall geo9 (numKey 2) (numVal 16) (.store 1 6 buf96) (powerFor (some 61) evilSt)).2)).1 =
        [.ok (.value (some 5)), .ok (.value (some evilNum)), .ok .done, .ok (.items [.ok (some (1, 4))])] := by decide +kernel

/-- A value of bytes, with the bytes of an item for another key in it. -/
def evilBytes : List Byte := List.replicate 6 0#8 ++ (Header.ofData [7#8, 0#8, 1#8]).encode geo9 ++ [7#8, 0#8, 1#8]

/-- Values of bytes. -/
abbrev VB := { l : List Byte // ∀ c ∈ (none : Option Nat), l.length ≤ c }
def vb (l : List Byte) : VB := ⟨l, by simp⟩

def evilSt2 : St K2 :=
  (mrun geo9 (numKey 2) (bytesVal none) [.store 1 (vb [1]) buf96, .store 1 (vb (List.replicate 40 2)) buf96, .store 2 (vb evilBytes) buf96,
    .store 1 (vb (List.replicate 20 3)) buf96, .store 1 (vb (List.replicate 20 4)) buf96, .store 1 (vb (List.replicate 20 5)) buf96] blankMap).2

/-- In the same way an iteration shows a key that was never stored, with a value of the attacker's choice. -/
theorem iteration_shows_forged_key :
    (mcall geo9 (numKey 2) (bytesVal none) (.store 1 (vb (List.replicate 20 6)) buf96) (powerFor (some 61) evilSt2)).1 = .error .shutoff ∧
    (mcall geo9 (numKey 2) (bytesVal none) (.fetchAll buf96 [buf96])
      (reboot noCache (mcall geo9 (numKey 2) (bytesVal none) (.store 1 (vb (List.replicate 20 6)) buf96) (powerFor (some 61) evilSt2)).2)).1 =
        .ok (.items [.ok (some (7, vb [1]))]) ∧
    (mcall geo9 (numKey 2) (bytesVal none) (.fetch 7 buf96)
      (reboot noCache (mcall geo9 (numKey 2) (bytesVal none) (.store 1 (vb (List.replicate 20 6)) buf96) (powerFor (some 61) evilSt2)).2)).1 =
        .ok (.value none) := by decide +kernel

end SeqStorage.Props
