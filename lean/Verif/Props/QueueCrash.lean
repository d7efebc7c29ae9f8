import Verif.Proofs.QueueUse
import Verif.Proofs.Mix
/-
The queue with power loss (C04, C05), wear of the flash (C16, C17) and failed calls (C38).
-/

namespace SeqStorage.Props
open M Spec

variable {K : Type} [DecidableEq K] {g : Geo} {D : List Byte → Prop} {s : St K}

/-- The power is back and stays. -/
def powerUp (s : St K) : St K := { s with fl := { s.fl with fuel := none } }

/-- The power goes off after `fuel` bytes. -/
def powerFor (fuel : Option Nat) (s : St K) : St K := { s with fl := { s.fl with fuel := fuel } }

/-- After a power loss the program starts again, with a new cache. -/
def reboot (c : Cache K) (s : St K) : St K := { powerUp s with cache := c }

/-- The states a queue can get into when power may be lost at any byte of every call. Every call may be
given its own number of bytes; it may also be the first one after a power loss, so repairs are
interrupted as well. Only data in `D` is pushed. -/
def CrashReached (g : Geo) (D : List Byte → Prop) (s : St K) : Prop :=
  ∃ s0 cs, Erased g s0.fl ∧ FreshCache g.pageCount s0.cache ∧ (∀ c ∈ cs, Documented g c.1) ∧ (∀ c ∈ cs, TearProof D c.1) ∧
    s = (qrunPower g cs s0).2

/-- The mode of the invariant in which power may be lost. -/
abbrev torn (D : List Byte → Prop) : Mode := ⟨false, false, none, D, false⟩

theorem torn_ok (hD : NoMix g.word D) (hn : 2 ≤ g.pageCount) : (torn D).OK g := ⟨fun _ _ => hD, fun _ => hn⟩

theorem erased_holds (w : g.WF) (hE : Erased g s.fl) (hc : FreshCache g.pageCount s.cache) : Holds (torn D) g s [] :=
  ⟨_, _, QI.erased w hE (by simp) hc, rfl⟩

theorem CrashReached.holds (w : g.WF) (hD : NoMix g.word D) (hn : 2 ≤ g.pageCount) (h : CrashReached g D s) :
    ∃ q, Holds (torn D) g s q := by
  obtain ⟨s0, cs, hE, hc, hd, ht, rfl⟩ := h
  obtain ⟨q, _, h⟩ := qrun_crash w (md := torn D) rfl rfl (torn_ok hD hn) cs (erased_holds w hE hc) hd ht
  exact ⟨q, h⟩

theorem holds_power {q : List (List Byte)} (h : Holds (torn D) g s q) (f : Option Nat) : Holds (torn D) g (powerFor f s) q := by
  obtain ⟨σ, P, h, hq⟩ := h
  exact ⟨σ, P, h.power rfl f, hq⟩

theorem holds_reboot {q : List (List Byte)} (h : Holds (torn D) g s q) {c : Cache K} (hc : FreshCache g.pageCount c) :
    Holds (torn D) g (reboot c s) q := by
  obtain ⟨σ, P, h, hq⟩ := holds_power h none
  exact ⟨σ, P, h.restart hc, hq⟩

theorem holds_contents (w : g.WF) (hD : NoMix g.word D) (hn : 2 ≤ g.pageCount) {q : List (List Byte)} (h : Holds (torn D) g s q)
    (hp : s.fl.fuel = none) : Contents g s q :=
  Holds.contents_crash w (md := torn D) rfl rfl (torn_ok hD hn) hp h

/-- C04, for any history of interrupted calls. The answers and the items found afterwards, with or without
a restart, are those of a list of byte strings on which every interrupted call was done completely or not at
all (an overwriting push may also stop after giving up the oldest page). Missing: a single page, data
whose torn version has the same checksum and, for words of less than eight bytes, data whose header can complete the
remains of another to something that looks like a header (`NoMix`). For these it is false, see
`torn_single_page_loses_item`, `torn_data_returned`, `torn_header_hides_item` and `torn_header_completed`. `NoMix` always holds for words
of eight bytes or more (`noMix_wide`), for words of four it holds when no checksum looks like a length (`noMix_four`), and for
a finite set of data and any word size it can be computed (`noMix_of`). -/
theorem queue_survives_power_loss_partial (w : g.WF) (hD : NoMix g.word D) (hn : 2 ≤ g.pageCount) (hE : Erased g s.fl)
    (hc : FreshCache g.pageCount s.cache) (cs : List (QCall (Cache K) × Option Nat))
    (hd : ∀ c ∈ cs, Documented g c.1) (ht : ∀ c ∈ cs, TearProof D c.1) :
    ∃ q, Runs (crashStep g.word g.eraseSize g.pageCount) [] (cs.map (·.1)) (qrunPower g cs s).1 q ∧
      Contents g (powerUp (qrunPower g cs s).2) q ∧
      ∀ c, FreshCache g.pageCount c → Contents g (reboot c (qrunPower g cs s).2) q := by
  obtain ⟨q, h1, h2⟩ := qrun_crash w (md := torn D) rfl rfl (torn_ok hD hn) cs (erased_holds w hE hc) hd ht
  exact ⟨q, h1, holds_contents w hD hn (holds_power h2 none) rfl,
    fun c hc => holds_contents w hD hn (holds_reboot h2 hc) rfl⟩

/-- C04, for one push in any state. After a power loss the queue holds what it held before the call or what it
holds after a successful one. -/
theorem interrupted_push_partial (w : g.WF) (hD : NoMix g.word D) (hn : 2 ≤ g.pageCount) (h : CrashReached g D s)
    (d : List Byte) (hd : NoTorn D d) (fuel : Option Nat) (c : Cache K) (hc : FreshCache g.pageCount c)
    (he : (qcall g (.push d false) (powerFor fuel s)).1 = .error .shutoff) :
    ∃ q, Contents g (powerUp s) q ∧
      (Contents g (reboot c (qcall g (.push d false) (powerFor fuel s)).2) q ∨
       Contents g (reboot c (qcall g (.push d false) (powerFor fuel s)).2) (q ++ [d])) := by
  obtain ⟨q, h⟩ := h.holds w hD hn
  obtain ⟨q', h1, h2⟩ := qcall_crash w (md := torn D) rfl rfl (torn_ok hD hn) (holds_power h fuel) (.push d false) trivial hd
  refine ⟨q, holds_contents w hD hn (holds_power h none) rfl, ?_⟩
  have h3 := holds_contents w hD hn (holds_reboot h2 hc) rfl
  simp only [crashStep, he] at h1
  rcases h1 with ⟨_, h1, _⟩ | ⟨_, _, h1, _⟩ | ⟨_, h1, _⟩ | ⟨_, lost, kept, rfl, h1, hl, _⟩
  · simp at h1
  · simp at h1
  · simp at h1
  · obtain rfl := hl trivial
    rcases h1 with rfl | rfl
    · exact Or.inl h3
    · exact Or.inr h3

/-- C04, for one pop in any state: it happened or it did not. -/
theorem interrupted_pop_partial (w : g.WF) (hD : NoMix g.word D) (hn : 2 ≤ g.pageCount) (h : CrashReached g D s)
    (b : List Byte) (fuel : Option Nat) (c : Cache K) (hc : FreshCache g.pageCount c)
    (he : (qcall g (.pop b) (powerFor fuel s)).1 = .error .shutoff) :
    ∃ q, Contents g (powerUp s) q ∧
      (Contents g (reboot c (qcall g (.pop b) (powerFor fuel s)).2) q ∨
       Contents g (reboot c (qcall g (.pop b) (powerFor fuel s)).2) q.tail) := by
  obtain ⟨q, h⟩ := h.holds w hD hn
  obtain ⟨q', h1, h2⟩ := qcall_crash w (md := torn D) rfl rfl (torn_ok hD hn) (holds_power h fuel) (.pop b) trivial trivial
  refine ⟨q, holds_contents w hD hn (holds_power h none) rfl, ?_⟩
  have h3 := holds_contents w hD hn (holds_reboot h2 hc) rfl
  simp only [crashStep, he] at h1
  rcases h1 with ⟨_, h1, _⟩ | ⟨_, _, h1, _⟩ | ⟨_, _, _, h1, _⟩ | ⟨_, rfl | ⟨d, rfl⟩⟩
  · simp at h1
  · simp at h1
  · simp at h1
  · exact Or.inl h3
  · exact Or.inr h3

/-- The answers a caller is told to expect. -/
def Usual : Except Err QAnswer → Prop
  | .ok (.items l) => ∀ x ∈ l, ∀ e, x = .error e → ∃ n, e = .bufferTooSmall n
  | .ok _ => True
  | .error .fullStorage => True
  | .error .itemTooBig => True
  | .error (.bufferTooSmall _) => True
  | .error _ => False

theorem iterateTorn_usual {W page : Nat} : ∀ {steps : List (List Byte × Bool)} {seen todo left : List (List Byte)}
    {l : List (Except Err (Option (List Byte)))}, iterateTorn W page seen todo steps l left →
    ∀ x ∈ l, ∀ e, x = .error e → ∃ n, e = .bufferTooSmall n := by
  intro steps
  induction steps with
  | nil => intro seen todo left l h; simp only [iterateTorn] at h; rw [h.1]; simp
  | cons st steps ih =>
    obtain ⟨b, p⟩ := st
    intro seen todo left l h x hx e he
    simp only [iterateTorn] at h
    rcases h with ⟨_, l', rfl, h⟩ | ⟨d, rest, l', _, _, rfl, h⟩ | ⟨n, l', _, _, rfl, h⟩
    · rcases List.mem_cons.1 hx with rfl | hx
      · simp at he
      · exact ih h x hx e he
    · rcases List.mem_cons.1 hx with rfl | hx
      · simp at he
      · exact ih h x hx e he
    · rcases List.mem_cons.1 hx with rfl | hx
      · exact ⟨n, by simpa using he.symm⟩
      · exact ih h x hx e he

omit [DecidableEq K] in
theorem crashStep_usual {W page pages : Nat} {q q' : List (List Byte)} {c : QCall (Cache K)} {r : Except Err QAnswer}
    (h : crashStep W page pages q c r q') (hr : r ≠ .error .shutoff) : Usual r := by
  cases c with
  | push d o =>
    simp only [crashStep] at h
    rcases h with ⟨_, rfl, _⟩ | ⟨_, _, rfl, _⟩ | ⟨_, rfl, _⟩ | ⟨rfl, _⟩
    · trivial
    · trivial
    · trivial
    · exact absurd rfl hr
  | pop b =>
    simp only [crashStep] at h
    rcases h with ⟨_, rfl, _⟩ | ⟨_, _, rfl, _⟩ | ⟨_, _, _, rfl, _⟩ | ⟨rfl, _⟩
    · trivial
    · trivial
    · trivial
    · exact absurd rfl hr
  | peek b =>
    simp only [crashStep] at h
    rcases h with ⟨_, ⟨rfl, _⟩ | ⟨_, _, _, rfl⟩ | rfl⟩
    · trivial
    · trivial
    · exact absurd rfl hr
  | iterate steps =>
    simp only [crashStep] at h
    rcases h with ⟨l, rfl, h⟩ | ⟨rfl, _⟩
    · exact iterateTorn_usual h
    · exact absurd rfl hr
  | maxFit =>
    simp only [crashStep] at h
    rcases h with ⟨_, ⟨_, rfl⟩ | rfl⟩
    · trivial
    · exact absurd rfl hr
  | spaceLeft =>
    simp only [crashStep] at h
    rcases h with ⟨_, ⟨_, rfl, _⟩ | rfl⟩
    · trivial
    · exact absurd rfl hr
  | restart c =>
    simp only [crashStep] at h
    rw [h.1]; trivial

/-- C05. After any history of interrupted calls, with the power back, with or without a restart, no later call
reports corruption or any other unexpected error. Missing: as in `queue_survives_power_loss_partial`. -/
theorem queue_recovers_partial (w : g.WF) (hD : NoMix g.word D) (hn : 2 ≤ g.pageCount) (h : CrashReached g D s)
    (cs : List (QCall (Cache K))) (hd : ∀ c ∈ cs, Documented g c) (ht : ∀ c ∈ cs, TearProof D c) :
    ∀ r ∈ (qrun g cs (powerUp s)).1, Usual r := by
  obtain ⟨q, h⟩ := h.holds w hD hn
  have key : ∀ (cs : List (QCall (Cache K))), (∀ c ∈ cs, Documented g c) → (∀ c ∈ cs, TearProof D c) →
      ∀ (s : St K) (q : List (List Byte)), Holds (torn D) g s q → s.fl.fuel = none → ∀ r ∈ (qrun g cs s).1, Usual r := by
    intro cs
    induction cs with
    | nil => intro _ _ s q _ _ r hr; simp [qrun] at hr
    | cons c cs ih =>
      intro hd ht s q h hp r hr
      obtain ⟨q', h1, h2⟩ := qcall_crash w (md := torn D) rfl rfl (torn_ok hD hn) h c (hd c (by simp)) (ht c (by simp))
      obtain ⟨h3, h4⟩ := qcall_powered g c s hp
      simp only [qrun, List.mem_cons] at hr
      rcases hr with rfl | hr
      · exact crashStep_usual h1 h3
      · exact ih (fun c hc => hd c (by simp [hc])) (fun c hc => ht c (by simp [hc])) _ q' h2 h4 r hr
  exact key cs hd ht _ q (holds_power h none) rfl

/-- C05. After any history of interrupted calls the queue can be used: a push that may overwrite succeeds for any
data that fits a page. -/
theorem queue_usable_after_crash_partial (w : g.WF) (hD : NoMix g.word D) (hn : 2 ≤ g.pageCount) (h : CrashReached g D s)
    (d : List Byte) (hd : NoTorn D d) (hf : FitsPage g.word g.eraseSize d) :
    (qcall g (.push d true) (powerUp s)).1 = .ok .done := by
  obtain ⟨q, h⟩ := h.holds w hD hn
  obtain ⟨q', h1, _⟩ := qcall_crash w (md := torn D) rfl rfl (torn_ok hD hn) (holds_power h none) (.push d true) trivial hd
  obtain ⟨h3, _⟩ := qcall_powered g (.push d true) (powerFor none s) rfl
  simp only [crashStep] at h1
  rcases h1 with ⟨h1, _⟩ | ⟨_, h1, _⟩ | ⟨_, h1, _⟩ | ⟨h1, _⟩
  · exact absurd hf h1
  · simp at h1
  · exact h1
  · exact absurd h1 h3

/-! ### Concrete cases -/

/-- Two pages of 64 bytes with words of eight bytes. -/
def geo8 : Geo := ⟨1, 8, 64, 0, 128⟩

theorem geo8_wf : geo8.WF := by constructor <;> decide

/-- Only finitely many tears need to be looked at. -/
theorem tornSeen_of {d : List Byte} (h : ∀ k, k < d.length → adaptedCrc32 (tornData d k) = adaptedCrc32 d → tornData d k = d) :
    TornSeen d := by
  intro k
  rcases Nat.lt_or_ge k d.length with hk | hk
  · exact h k hk
  · intro _; exact tornData_full d hk

def item1 : List Byte := [1#8, 2#8, 3#8, 4#8, 5#8, 6#8, 7#8, 8#8, 9#8, 10#8]
def item2 : List Byte := [11#8, 12#8]
def item3 : List Byte := [21#8, 22#8, 23#8, 24#8, 25#8, 26#8, 27#8, 28#8, 29#8, 30#8, 31#8]

theorem item1_seen : TornSeen item1 := tornSeen_of (by decide +kernel)
theorem item2_seen : TornSeen item2 := tornSeen_of (by decide +kernel)
theorem item3_seen : TornSeen item3 := tornSeen_of (by decide +kernel)

/-- With words of eight bytes or more there is no condition on the data. -/
abbrev anyData : List Byte → Prop := fun _ => True

theorem item1_tear : NoTorn anyData item1 := ⟨item1_seen, trivial⟩
theorem item2_tear : NoTorn anyData item2 := ⟨item2_seen, trivial⟩
theorem item3_tear : NoTorn anyData item3 := ⟨item3_seen, trivial⟩

/-- With words of four bytes no checksum may look like a length. -/
abbrev plainData : List Byte → Prop := fun d => Plain (adaptedCrc32 d)

theorem plainData_ok : NoMix 4 plainData := noMix_four fun _ h => h

theorem item1_plain : plainData item1 := plain_of (by decide +kernel)
theorem item2_plain : plainData item2 := plain_of (by decide +kernel)
theorem item3_plain : plainData item3 := plain_of (by decide +kernel)

/-- Pushes and pops with power losses in the middle of an item, of a marker and of an erase. -/
def crashCalls : List (QCall (Cache Unit) × Option Nat) :=
  [(.push item1 false, none), (.push item2 false, some 13), (.push item2 false, none), (.push item3 false, some 3),
    (.push item3 false, none), (.pop buf32, some 5), (.push item1 true, some 21), (.restart noCache, none), (.push item1 true, none)]

theorem crashCalls_ok (g : Geo) (h1 : D item1) (h2 : D item2) (h3 : D item3) :
    (∀ c ∈ crashCalls, Documented g c.1) ∧ (∀ c ∈ crashCalls, TearProof D c.1) := by
  constructor <;>
  · intro c hc
    simp only [crashCalls, List.mem_cons, List.not_mem_nil, or_false] at hc
    rcases hc with rfl | rfl | rfl | rfl | rfl | rfl | rfl | rfl | rfl <;>
      first | trivial | exact ⟨item1_seen, h1⟩ | exact ⟨item2_seen, h2⟩ | exact ⟨item3_seen, h3⟩ | exact noCache_fresh _

example : ∃ q, Runs (crashStep 8 64 2) [] (crashCalls.map (·.1)) (qrunPower geo8 crashCalls freshSt).1 q ∧
    Contents geo8 (powerUp (qrunPower geo8 crashCalls freshSt).2) q ∧
    ∀ c, FreshCache 2 c → Contents geo8 (reboot c (qrunPower geo8 crashCalls freshSt).2) q :=
  queue_survives_power_loss_partial geo8_wf (noMix_wide (by decide) anyData) (by decide) (fresh_start geo8).flash (noCache_fresh _) _
    (crashCalls_ok (D := anyData) geo8 trivial trivial trivial).1 (crashCalls_ok (D := anyData) geo8 trivial trivial trivial).2

example : (qrunPower geo8 crashCalls freshSt).1 = [.ok .done, .error .shutoff, .ok .done, .error .shutoff, .ok .done,
    .error .shutoff, .error .shutoff, .ok .done, .ok .done] := by decide +kernel

/-- Two pages of 64 bytes with words of four bytes. -/
def geo42 : Geo := ⟨1, 4, 64, 0, 128⟩

theorem geo42_wf : geo42.WF := by constructor <;> decide

example : ∃ q, Runs (crashStep 4 64 2) [] (crashCalls.map (·.1)) (qrunPower geo42 crashCalls freshSt).1 q ∧
    Contents geo42 (powerUp (qrunPower geo42 crashCalls freshSt).2) q ∧
    ∀ c, FreshCache 2 c → Contents geo42 (reboot c (qrunPower geo42 crashCalls freshSt).2) q :=
  queue_survives_power_loss_partial geo42_wf plainData_ok (by decide) (fresh_start geo42).flash (noCache_fresh _) _
    (crashCalls_ok geo42 item1_plain item2_plain item3_plain).1 (crashCalls_ok geo42 item1_plain item2_plain item3_plain).2

/-- Headers that are cut off in their first word and in their second word hide nothing. -/
example : (qrunPower geo42 [(.push item2 false, some 6), (.restart noCache, none), (.push item1 false, none),
      (.push item2 false, some 7), (.restart noCache, none), (.push item2 false, none), (.pop buf32, none), (.pop buf32, none)] freshSt).1 =
    [.error .shutoff, .ok .done, .ok .done, .error .shutoff, .ok .done, .ok .done, .ok (.item (some item1)), .ok (.item (some item2))] := by
  decide +kernel

/-- Two pages of 64 bytes with words of one byte. -/
def geo11 : Geo := ⟨1, 1, 64, 0, 128⟩

theorem geo11_wf : geo11.WF := by constructor <;> decide

def item4 : List Byte := [13#8, 14#8]

/-- Data whose headers cannot be confused with the remains of each other. -/
def tameData : List (List Byte) := [item1, item3, item4]

theorem tameData_ok (W : Nat) : NoMix W (· ∈ tameData) := noMix_of (by decide +kernel) W

/-- Headers that are cut off everywhere, several in a row. -/
def crashCalls1 : List (QCall (Cache Unit) × Option Nat) :=
  [(.push item1 false, none), (.push item4 false, some 5), (.push item4 false, some 2), (.push item3 false, some 7), (.push item4 false, none),
    (.restart noCache, none), (.push item3 false, some 1), (.push item3 true, none), (.pop buf32, some 2), (.pop buf32, none), (.push item1 true, some 14),
    (.restart noCache, none), (.push item1 true, none), (.pop buf32, none)]

theorem crashCalls1_ok (g : Geo) :
    (∀ c ∈ crashCalls1, Documented g c.1) ∧ (∀ c ∈ crashCalls1, TearProof (· ∈ tameData) c.1) := by
  have h4 : TornSeen item4 := tornSeen_of (by decide +kernel)
  constructor <;>
  · intro c hc
    simp only [crashCalls1, List.mem_cons, List.not_mem_nil, or_false] at hc
    rcases hc with rfl | rfl | rfl | rfl | rfl | rfl | rfl | rfl | rfl | rfl | rfl | rfl | rfl | rfl <;>
      first | trivial | exact ⟨item1_seen, by decide⟩ | exact ⟨h4, by decide⟩ | exact ⟨item3_seen, by decide⟩ | exact noCache_fresh _

example : ∃ q, Runs (crashStep 1 64 2) [] (crashCalls1.map (·.1)) (qrunPower geo11 crashCalls1 freshSt).1 q ∧
    Contents geo11 (powerUp (qrunPower geo11 crashCalls1 freshSt).2) q ∧
    ∀ c, FreshCache 2 c → Contents geo11 (reboot c (qrunPower geo11 crashCalls1 freshSt).2) q :=
  queue_survives_power_loss_partial geo11_wf (tameData_ok 1) (by decide) (fresh_start geo11).flash (noCache_fresh _) _
    (crashCalls1_ok geo11).1 (crashCalls1_ok geo11).2

example : (qrunPower geo11 crashCalls1 freshSt).1 = [.ok .done, .error .shutoff, .error .shutoff, .error .shutoff, .ok .done,
    .ok .done, .error .shutoff, .ok .done, .error .shutoff, .ok (.item (some item4)), .error .shutoff, .ok .done, .ok .done, .ok (.item (some item3))] := by
  decide +kernel

/-- The state in the middle of all this. -/
def crashed : St Unit := (qrunPower geo8 crashCalls freshSt).2

theorem crashed_reached : CrashReached geo8 anyData crashed :=
  ⟨freshSt, crashCalls, (fresh_start geo8).flash, noCache_fresh _, (crashCalls_ok (D := anyData) geo8 trivial trivial trivial).1,
    (crashCalls_ok (D := anyData) geo8 trivial trivial trivial).2, rfl⟩

theorem geo8_mix : NoMix geo8.word anyData := noMix_wide (by decide) _

example : ∃ q, Contents geo8 (powerUp crashed) q ∧
      (Contents geo8 (reboot noCache (qcall geo8 (.push item2 false) (powerFor (some 9) crashed)).2) q ∨
       Contents geo8 (reboot noCache (qcall geo8 (.push item2 false) (powerFor (some 9) crashed)).2) (q ++ [item2])) :=
  interrupted_push_partial geo8_wf geo8_mix (by decide) crashed_reached item2 item2_tear (some 9) _ (noCache_fresh _)
    (by decide +kernel)

example : ∃ q, Contents geo8 (powerUp crashed) q ∧
      (Contents geo8 (reboot noCache (qcall geo8 (.pop buf32) (powerFor (some 1) crashed)).2) q ∨
       Contents geo8 (reboot noCache (qcall geo8 (.pop buf32) (powerFor (some 1) crashed)).2) q.tail) :=
  interrupted_pop_partial geo8_wf geo8_mix (by decide) crashed_reached buf32 (some 1) _ (noCache_fresh _)
    (by decide +kernel)

example : ∀ r ∈ (qrun geo8 [.pop buf32, .iterate [(buf32, true), (buf32, false)], .push item1 false] (powerUp crashed)).1,
    Usual r :=
  queue_recovers_partial geo8_wf geo8_mix (by decide) crashed_reached _
    (by intro c hc
        simp only [List.mem_cons, List.not_mem_nil, or_false] at hc
        rcases hc with rfl | rfl | rfl <;> trivial)
    (by intro c hc
        simp only [List.mem_cons, List.not_mem_nil, or_false] at hc
        rcases hc with rfl | rfl | rfl <;> first | trivial | exact item1_tear)

example : (qcall geo8 (.push item3 true) (powerUp crashed)).1 = .ok .done :=
  queue_usable_after_crash_partial geo8_wf geo8_mix (by decide) crashed_reached item3 item3_tear (by unfold FitsPage; decide)

/-! ### Where it is false -/

/-- A single page with words of eight bytes. -/
def geo81 : Geo := ⟨1, 8, 64, 0, 64⟩

theorem geo81_wf : geo81.WF := by constructor <;> decide

/-- An item whose checksum looks like a length of eight with its checksum. -/
def unlucky : List Byte := [212#8, 230#8, 114#8, 37#8]

/-- C04 is false for words of four bytes when a checksum can be mistaken for a length. Six bytes of a header are written
before power is lost. The next item is put right behind them, and its checksum is later taken for the second word of a
header. So an item that was pushed successfully is never seen. -/
theorem torn_header_hides_item :
    NoTorn plainData [1#8] ∧ TornSeen unlucky ∧ ¬ Plain (adaptedCrc32 unlucky) ∧
    (qrunPower geo42 [(.push [1#8] false, some 6), (.restart noCache, none), (.push unlucky false, none), (.pop buf32, none),
        (.push [2#8] false, none), (.pop buf32, none)] freshSt).1 =
      [.error .shutoff, .ok .done, .ok .done, .ok (.item none), .ok .done, .ok (.item (some [2#8]))] :=
  ⟨⟨tornSeen_of (by decide +kernel), plain_of (by decide +kernel)⟩, tornSeen_of (by decide +kernel),
    fun h => absurd (h 4).1 (by decide +kernel), by decide +kernel⟩

/-- C04 is false for words of one byte when a header can complete the remains of another. All but the last byte of a header
are written before power is lost, so it is passed over. The next item is put right behind, and the first byte of its checksum
is the missing one. So an item that was pushed successfully is never seen. -/
theorem torn_header_completed :
    ¬ NoMix 1 (· ∈ [[1#8], [20#8, 3#8]]) ∧ TornSeen [1#8] ∧ TornSeen [20#8, 3#8] ∧
    (qrunPower geo11 [(.push [1#8] false, some 8), (.restart noCache, none), (.push [20#8, 3#8] false, none), (.pop buf32, none),
        (.push [2#8] false, none), (.pop buf32, none)] freshSt).1 =
      [.error .shutoff, .ok .done, .ok .done, .ok (.item none), .ok .done, .ok (.item (some [2#8]))] := by
  refine ⟨fun h => ?_, tornSeen_of (by decide +kernel), tornSeen_of (by decide +kernel), by decide +kernel⟩
  have h1 : Scraps 1 (· ∈ [[1#8], [20#8, 3#8]]) ([] ++ (headBytes (Header.ofData [1#8])).take 7) := by
    refine .add (d := [1#8]) (k := 7) .nil (by simp) (by decide) (Nat.one_dvd _) (by decide +kernel) fun i => ?_
    rcases Nat.lt_or_ge i 8 with hi | hi
    · have : ∀ i < 8, ((headBytes (Header.ofData [1#8])).take 7).getD i 0xff#8 = (tornData (headBytes (Header.ofData [1#8])) 7).getD i 0xff#8 := by
        decide +kernel
      exact this i hi
    · rw [List.getD_eq_getElem?_getD, List.getD_eq_getElem?_getD, List.getElem?_eq_none, List.getElem?_eq_none]
      · rw [tornData_length, headBytes_length]; omega
      · rw [List.length_take, headBytes_length]; omega
  exact (h _ 0 [20#8, 3#8] 8 h1 (by simp) (by decide +kernel) (by decide +kernel) (by simp)).1 (by decide) (by decide +kernel)

/-- C04 is false of a single page. It is erased without having been closed, so after a power loss it looks
unused though old items are still in it, and the next item is written on top of them. -/
theorem torn_single_page_loses_item :
    (qrunPower geo81 [(.push [1#8] false, none), (.push [2#8] false, none), (.push [3#8] false, none), (.push [4#8] true, some 24),
        (.restart noCache, none), (.push item1 false, none), (.pop buf32, none)] freshSt).1 =
      [.ok .done, .ok .done, .ok .done, .error .shutoff, .ok .done, .ok .done, .ok (.item (some [3#8]))] := by
  decide +kernel

/-- An item whose torn version has the same checksum. -/
def colliding : List Byte := [65#8, 1#8, 2#8, 3#8, 225#8, 242#8, 48#8, 241#8]

/-- C04 and C25 are false in general: the checksum cannot tell all torn items from whole ones. Here only the
first byte of the data is written before power is lost, and what is there is returned as an item. -/
theorem torn_data_returned :
    (qrunPower geo8 [(.push colliding false, some 17), (.restart noCache, none), (.pop buf32, none)] freshSt).1 =
      [.error .shutoff, .ok .done,
        .ok (.item (some [65#8, 255#8, 255#8, 255#8, 255#8, 255#8, 255#8, 255#8]))] := by
  decide +kernel

/-! ### Wear -/

/-- C16, queue part. As long as nothing is popped, no word is programmed twice between two erases. `peak` counts, for
every word, the most that it was ever programmed between two erases. -/
theorem queue_programs_words_once (w : g.WF) (h : Start g s) (cs : List (QCall (Cache K))) (hd : ∀ c ∈ cs, Documented g c)
    (hh : ∀ c ∈ cs, Harmless c) (a : Nat) : (qrun g cs s).2.fl.peak a ≤ 1 := by
  obtain ⟨σ, P, _, h1, _⟩ := qrun_det w (md := ⟨true, true, none, fun _ => True, false⟩) rfl cs (h.qi w) hd (fun _ => hh)
  exact h1.fs.peak rfl a

/-- C16, queue part. Popping programs a word at most once more. -/
theorem queue_programs_words_twice (w : g.WF) (h : Start g s) (cs : List (QCall (Cache K))) (hd : ∀ c ∈ cs, Documented g c)
    (a : Nat) : (qrun g cs s).2.fl.peak a ≤ 2 := by
  obtain ⟨σ, P, _, h1, _⟩ := qrun_det w (md := ⟨true, false, none, fun _ => True, false⟩) rfl cs (h.qi w) hd (by simp)
  exact h1.fs.peak rfl a

/-- Pushes that fill the pages several times over. -/
def pushes (n : Nat) : List (QCall (Cache Unit)) := (List.range n).map fun i => .push (List.replicate (i % 9) (BitVec.ofNat 8 i)) true

theorem pushes_ok (n : Nat) : (∀ c ∈ pushes n, Documented geo2 c) ∧ ∀ c ∈ pushes n, Harmless c := by
  constructor <;>
  · intro c hc
    obtain ⟨i, _, rfl⟩ := List.mem_map.1 hc
    trivial

example (a : Nat) : (qrun geo2 (pushes 9) freshSt).2.fl.peak a ≤ 1 :=
  queue_programs_words_once geo2_wf (fresh_start _) _ (pushes_ok 9).1 (pushes_ok 9).2 a

example : (qrun geo2 (pushes 9) freshSt).2.fl.erases = [0, 32, 0, 32, 0] ∧ (qrun geo2 (pushes 9) freshSt).2.fl.peak 4 = 1 ∧
    (qrun geo2 (pushes 9 ++ [.pop buf32]) freshSt).2.fl.peak 36 = 2 := by decide +kernel

/-- How often each page occurs when going round. -/
theorem range_count (n : Nat) (hn : 0 < n) (i : Nat) (hi : i < n) (m : Nat) :
    ((List.range m).map (fun k => k % n)).count i = m / n + (if i < m % n then 1 else 0) := by
  induction m with
  | zero => simp
  | succ m ih =>
    rw [List.range_succ, List.map_append, List.count_append, ih]
    simp only [List.map_cons, List.map_nil, List.count_cons, List.count_nil]
    have h1 := Nat.div_add_mod m n
    have h2 := Nat.mod_lt m hn
    by_cases hm : m % n + 1 = n
    · have h3 : m + 1 = n * (m / n + 1) := by rw [Nat.mul_add]; omega
      have h4 : (m + 1) % n = 0 := by rw [h3]; exact Nat.mul_mod_right _ _
      have h5 : (m + 1) / n = m / n + 1 := by rw [h3]; exact Nat.mul_div_cancel_left _ hn
      rw [h4, h5]
      simp only [beq_iff_eq]
      split <;> split <;> split <;> omega
    · have h3 : m + 1 = m % n + 1 + n * (m / n) := by omega
      have h4 : (m + 1) % n = m % n + 1 := by
        rw [h3, Nat.add_mul_mod_self_left, Nat.mod_eq_of_lt (by omega)]
      have h5 : (m + 1) / n = m / n := by
        rw [h3, Nat.add_mul_div_left _ _ hn, Nat.div_eq_of_lt (by omega), Nat.zero_add]
      rw [h4, h5]
      simp only [beq_iff_eq]
      split <;> split <;> split <;> omega

theorem count_map (f : Nat → Nat) (hf : ∀ a b, f a = f b → a = b) (i : Nat) (l : List Nat) :
    (l.map f).count (f i) = l.count i := by
  induction l with
  | nil => rfl
  | cons a l ih =>
    rw [List.map_cons, List.count_cons, List.count_cons, ih]
    by_cases h : a = i
    · subst h; simp
    · have : f a ≠ f i := fun hc => h (hf _ _ hc)
      simp [h, this]

/-- C17, queue part. The pages are erased one after the other, round and round. -/
theorem queue_erases_in_turn (w : g.WF) (h : Reached g s) :
    s.fl.erases.reverse = (List.range s.fl.erases.length).map (fun k => g.start + g.eraseSize * (k % g.pageCount)) := by
  obtain ⟨σ, P, h⟩ := h.qi w
  exact (h.log rfl).1.2

/-- Erasing in turn wears evenly. -/
theorem even_of_turns {er : List Nat} (w : g.WF)
    (hr : er.reverse = (List.range er.length).map (fun k => g.start + g.eraseSize * (k % g.pageCount)))
    (i j : Nat) (hi : i < g.pageCount) (hj : j < g.pageCount) :
    er.count (g.start + g.eraseSize * i) ≤ er.count (g.start + g.eraseSize * j) + 1 := by
  have hc : ∀ i, i < g.pageCount → er.count (g.start + g.eraseSize * i) =
      er.length / g.pageCount + (if i < er.length % g.pageCount then 1 else 0) := by
    intro i hi
    rw [← range_count g.pageCount (by omega) i hi, ← List.count_reverse, hr]
    have : (fun k => g.start + g.eraseSize * (k % g.pageCount)) = (fun k => g.start + g.eraseSize * k) ∘ (fun k => k % g.pageCount) := rfl
    rw [this, ← List.map_map]
    refine count_map (fun k => g.start + g.eraseSize * k) (fun a b hab => ?_) i _
    have he := w.erase_pos
    exact Nat.eq_of_mul_eq_mul_left he (by omega)
  rw [hc i hi, hc j hj]
  split <;> split <;> omega

/-- C17, queue part. The erase counts of any two pages differ by at most one. -/
theorem queue_wears_evenly (w : g.WF) (h : Reached g s) (i j : Nat) (hi : i < g.pageCount) (hj : j < g.pageCount) :
    s.fl.erases.count (g.start + g.eraseSize * i) ≤ s.fl.erases.count (g.start + g.eraseSize * j) + 1 :=
  even_of_turns w (queue_erases_in_turn w h) i j hi hj

example : (qrun geo2 (pushes 9) freshSt).2.fl.erases.count 0 ≤ (qrun geo2 (pushes 9) freshSt).2.fl.erases.count 32 + 1 :=
  queue_wears_evenly geo2_wf (fresh_reached _ (pushes_ok 9).1) 0 1 (by decide) (by decide)

/-! ### Failed calls -/

/-- A cache with nothing in it. -/
structure KnowsNothing (c : Cache K) : Prop where
  clean : c.dirty = false
  states : ∀ i st, c.ps.get i ≠ .ok (some st)
  erased : ∀ i, c.pp.afterErased i = none
  written : ∀ i, c.pp.afterWritten i = none
  keys : ∀ k, c.kp.location k = none

theorem knowsNothing_invalidate (c : Cache K) : KnowsNothing c.invalidate := by
  constructor
  · rfl
  · intro i st h
    cases hp : c.ps with
    | uncached => simp [Cache.invalidate, hp, PSCache.invalidate, PSCache.get] at h
    | calculated p => simp [Cache.invalidate, hp, PSCache.invalidate, PSCache.get, CalcPS.get, CalcPS.new] at h
    | table l => simp [Cache.invalidate, hp, PSCache.invalidate, PSCache.get] at h; split at h <;> simp at h
  · intro i
    cases hp : c.pp with
    | uncached => simp [Cache.invalidate, hp, PPCache.invalidate, PPCache.afterErased]
    | tracked e w' =>
      simp only [Cache.invalidate, hp, PPCache.invalidate, PPCache.afterErased, List.getElem?_map]
      cases e[i]? <;> rfl
  · intro i
    cases hp : c.pp with
    | uncached => simp [Cache.invalidate, hp, PPCache.invalidate, PPCache.afterWritten]
    | tracked e w' =>
      simp only [Cache.invalidate, hp, PPCache.invalidate, PPCache.afterWritten, List.getElem?_map]
      cases w'[i]? <;> rfl
  · intro k
    cases hp : c.kp with
    | uncached => simp [Cache.invalidate, hp, KPCache.invalidate, KPCache.location]
    | tracked l =>
      simp only [Cache.invalidate, hp, KPCache.invalidate, KPCache.location]
      have : (l.map fun _ => (none : Option (K × Nat))).find? (KPCache.isKey k) = none := by
        rw [List.find?_eq_none]
        intro x hx
        obtain ⟨_, _, rfl⟩ := List.mem_map.1 hx
        simp [KPCache.isKey]
      rw [this]; rfl

/-- C38, queue part. Whatever the flash contents and the caches: after a call that failed with a flash error, the
calls that follow, with the same caches, answer as with empty ones. -/
theorem queue_failed_call_forgotten (g : Geo) (c : QCall (Cache K)) (s : St K)
    (h : (qcall g c s).1 = .error .shutoff) :
    ∃ c', KnowsNothing c' ∧ ∀ cs, (qrun g cs (qcall g c s).2).1 = (qrun g cs { (qcall g c s).2 with cache := c' }).1 := by
  refine ⟨_, knowsNothing_invalidate (qcall g c s).2.cache, fun cs => ?_⟩
  cases cs with
  | nil => rfl
  | cons c2 cs =>
    simp only [qrun]
    rw [(Cleans.qcall g c2).out _ (qcall_dirty g c s h)]

example : (qcall geo2 (.push [1#8] true) (powerFor (some 20) (cachedSt 2))).1 = .ok .done ∧
    (qcall geo2 (.push [1#8] true) (powerFor (some 9) (cachedSt 2))).1 = .error .shutoff ∧
    (qrun geo2 [.pop buf32, .push [2#8] false, .pop buf32] (qcall geo2 (.push [1#8] true) (powerFor (some 9) (cachedSt 2))).2).1 =
      [.ok (.item none), .ok .done, .ok (.item (some [2#8]))] := by decide +kernel

end SeqStorage.Props
