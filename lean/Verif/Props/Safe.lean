import Verif.Proofs.SafeMap
import Verif.Proofs.QueueUse
import Verif.Proofs.MapUse
import Verif.Model.Codec
/-
Calls on arbitrary flash contents: C15, C33.
-/

namespace SeqStorage.Props
open M Spec Codec

variable {K : Type} [DecidableEq K] {V : Type} {g : Geo} {s : St K}

/-- The error values that stand for a crash of the program: a panic, an endless loop, a detected
contradiction, or an access the flash refuses. -/
def Crash (e : Err) : Prop :=
  e = .panic ∨ e = .diverge ∨ e = .logicBug ∨ e = .outOfBounds ∨ e = .notAligned

theorem Fine.not_crash {e : Err} (h : Fine e) : ¬ Crash e := by
  rintro (rfl | rfl | rfl | rfl | rfl) <;> exact h

/-- Some answer is a crash. -/
def QCrashed (r : Except Err QAnswer) : Prop :=
  ∃ e, Crash e ∧ (r = .error e ∨ ∃ l, r = .ok (.items l) ∧ Except.error e ∈ l)

theorem qrun_safe (w : g.WF) (cs : List (QCall (Cache K) × Option Nat)) (h : SInv false g s)
    (hd : ∀ c ∈ cs, Documented g c.1) :
    SInv false g (qrunPower g cs s).2 ∧ ∀ r ∈ (qrunPower g cs s).1, ¬ QCrashed r := by
  induction cs generalizing s with
  | nil => exact ⟨h, by simp [qrunPower]⟩
  | cons c cs ih =>
    obtain ⟨c, fuel⟩ := c
    have h0 : SInv false g { s with fl := { s.fl with fuel := fuel } } := SInv.flash h (fl := { s.fl with fuel := fuel }) rfl
    have hc := qcall_safe w h0 c (fun x hx => by have := hd (c, fuel) (by simp); rw [hx] at this; exact this)
    have hn : SInv false g (qcall g c { s with fl := { s.fl with fuel := fuel } }).2 ∧
        ¬ QCrashed (qcall g c { s with fl := { s.fl with fuel := fuel } }).1 := by
      rcases hc.cases with ⟨a, s1, hr, h1⟩ | ⟨e, s1, hr, h1⟩
      · rw [hr]
        refine ⟨h1.1, ?_⟩
        rintro ⟨e, he, hre | ⟨l, hl, hm⟩⟩
        · simp at hre
        · simp only [Except.ok.injEq] at hl
          subst hl
          exact (Fine.not_crash (h1.2 e hm)) he
      · rw [hr]
        refine ⟨h1.1, ?_⟩
        rintro ⟨e', he, hre | ⟨l, hl, hm⟩⟩
        · simp only [Except.error.injEq] at hre
          subst hre
          exact Fine.not_crash h1.2 he
        · simp at hl
    obtain ⟨h2, h3⟩ := ih hn.1 (fun c hc => hd c (by simp [hc]))
    refine ⟨h2, ?_⟩
    intro r hr
    simp only [qrunPower, List.mem_cons] at hr
    rcases hr with rfl | hr
    · exact hn.2
    · exact h3 r hr

/-- C15, queue. Whatever is in the flash, whatever is called and wherever power is lost, no access is
out of range, misaligned or empty. -/
theorem queue_accesses_legal (w : g.WF) (hf : s.fl.faults = 0) (hc : FreshCache g.pageCount s.cache)
    (cs : List (QCall (Cache K) × Option Nat)) (hd : ∀ c ∈ cs, Documented g c.1) :
    (qrunPower g cs s).2.fl.faults = 0 :=
  (qrun_safe w cs (freshCache_sinv w (s := s) hf hc (by simp)) hd).1.faults

/-- C33, queue. Whatever is in the flash, whatever is called and wherever power is lost, every call
ends, without panic or logic bug. -/
theorem queue_never_crashes (w : g.WF) (hf : s.fl.faults = 0) (hc : FreshCache g.pageCount s.cache)
    (cs : List (QCall (Cache K) × Option Nat)) (hd : ∀ c ∈ cs, Documented g c.1) :
    ∀ r ∈ (qrunPower g cs s).1, ¬ QCrashed r :=
  (qrun_safe w cs (freshCache_sinv w (s := s) hf hc (by simp)) hd).2

/-- A flash full of bytes that were never written by the crate. -/
def junkSt : St Unit :=
  { cachedSt 2 with fl := { freshSt.fl with mem := fun a => BitVec.ofNat 8 (a * 7 + 13) } }

theorem junk_fresh : FreshCache geo2.pageCount junkSt.cache := (cached_start geo2).cache

def junkCalls : List (QCall (Cache Unit) × Option Nat) :=
  [(.spaceLeft, none), (.push [1#8, 2#8] false, some 9), (.pop buf32, none), (.push [1#8] true, none),
    (.iterate [(buf32, true), (buf32, true)], some 2), (.maxFit, none)]

example : (qrunPower geo2 junkCalls junkSt).2.fl.faults = 0 :=
  queue_accesses_legal geo2_wf rfl junk_fresh junkCalls (by
    intro c hc
    simp only [junkCalls, List.mem_cons, List.not_mem_nil, or_false] at hc
    rcases hc with rfl | rfl | rfl | rfl | rfl | rfl <;> trivial)

example : (qrunPower geo2 junkCalls junkSt).1.map (fun r => r.toBool) = [true, false, true, true, false, true] := by
  decide +kernel

/-! ### The map -/

/-- Some answer is a crash other than a panic. -/
def MStuck (r : Except Err (MAnswer K V)) : Prop :=
  ∃ e, Crash e ∧ e ≠ .panic ∧ (r = .error e ∨ ∃ l, r = .ok (.items l) ∧ Except.error e ∈ l)

/-- The call reads items for the caller. -/
def Returns : MCall K V (Cache K) → Prop
  | .fetch _ _ => True
  | .fetchAll _ _ => True
  | _ => False

theorem mcall_result (w : g.WF) (kc : KeyCodec K) (vc : ValCodec V) (h : SInv true g s) (c : MCall K V (Cache K))
    (hd : MDocumented g c) :
    SInv true g (mcall g kc vc c s).2 ∧ ¬ MStuck (mcall g kc vc c s).1 ∧
      (¬ Returns c → (mcall g kc vc c s).1 ≠ .error .panic) := by
  have hc := mcall_safe (kc := kc) w h vc c (fun x hx => by rw [hx] at hd; exact ⟨hd.fresh, hd.room⟩)
  rcases hc.cases with ⟨a, s1, hr, h1⟩ | ⟨e, s1, hr, h1⟩
  · rw [hr]
    refine ⟨h1.1, ?_, by simp⟩
    rintro ⟨e, he, hne, hre | ⟨l, hl, hm⟩⟩
    · simp at hre
    · simp only [Except.ok.injEq] at hl
      subst hl
      rcases h1.2 e hm with hf | hf
      · exact Fine.not_crash hf he
      · exact hne hf
  · rw [hr]
    refine ⟨h1.1, ?_, ?_⟩
    · rintro ⟨e', he, hne, hre | ⟨l, hl, hm⟩⟩
      · simp only [Except.error.injEq] at hre
        subst hre
        rcases h1.2 with hf | hf
        · exact Fine.not_crash hf he
        · exact hne hf.2
      · simp at hl
    · intro hnf he
      simp only [Except.error.injEq] at he
      subst he
      rcases h1.2 with hf | ⟨⟨k, b, rfl⟩, -⟩
      · exact hf
      · exact hnf trivial

theorem mrun_safe (w : g.WF) (kc : KeyCodec K) (vc : ValCodec V) (cs : List (MCall K V (Cache K) × Option Nat))
    (h : SInv true g s) (hd : ∀ c ∈ cs, MDocumented g c.1) :
    SInv true g (mrunPower g kc vc cs s).2 ∧
      ∀ (i : Nat) (c : MCall K V (Cache K) × Option Nat) (r : Except Err (MAnswer K V)), cs[i]? = some c → (mrunPower g kc vc cs s).1[i]? = some r →
        ¬ MStuck r ∧ (¬ Returns c.1 → r ≠ .error .panic) := by
  induction cs generalizing s with
  | nil => exact ⟨h, by simp⟩
  | cons c cs ih =>
    obtain ⟨c, fuel⟩ := c
    have h0 : SInv true g { s with fl := { s.fl with fuel := fuel } } := SInv.flash h (fl := { s.fl with fuel := fuel }) rfl
    have hn := mcall_result w kc vc h0 c (hd (c, fuel) (by simp))
    obtain ⟨h2, h3⟩ := ih hn.1 (fun c hc => hd c (by simp [hc]))
    refine ⟨h2, ?_⟩
    intro i c' r hi hr
    cases i with
    | zero =>
      simp only [mrunPower, List.getElem?_cons_zero, Option.some.injEq] at hi hr
      subst hi hr
      exact hn.2
    | succ i =>
      simp only [mrunPower, List.getElem?_cons_succ] at hi hr
      exact h3 i c' r hi hr

/-- C15, map. Whatever is in the flash, whatever is called, whatever the key and value types do and
wherever power is lost, no access is out of range, misaligned or empty. -/
theorem map_accesses_legal (w : g.WF) (kc : KeyCodec K) (vc : ValCodec V) (hf : s.fl.faults = 0)
    (hc : FreshCache g.pageCount s.cache) (hk : s.cache.kp ≠ .tracked [])
    (cs : List (MCall K V (Cache K) × Option Nat)) (hd : ∀ c ∈ cs, MDocumented g c.1) :
    (mrunPower g kc vc cs s).2.fl.faults = 0 :=
  (mrun_safe w kc vc cs (freshCache_sinv w (s := s) hf hc (fun _ => hk)) hd).1.faults

/-- C33, map. Every call ends, without logic bug; only calls that return values can panic, see
`fetch_can_panic`. Missing: that they do not panic on contents written by the map itself with the
same key type. -/
theorem map_never_crashes_partial (w : g.WF) (kc : KeyCodec K) (vc : ValCodec V) (hf : s.fl.faults = 0)
    (hc : FreshCache g.pageCount s.cache) (hk : s.cache.kp ≠ .tracked [])
    (cs : List (MCall K V (Cache K) × Option Nat)) (hd : ∀ c ∈ cs, MDocumented g c.1) (i : Nat)
    (c : MCall K V (Cache K) × Option Nat) (r : Except Err (MAnswer K V)) (hi : cs[i]? = some c)
    (hr : (mrunPower g kc vc cs s).1[i]? = some r) :
    ¬ MStuck r ∧ (¬ Returns c.1 → r ≠ .error .panic) :=
  (mrun_safe w kc vc cs (freshCache_sinv w (s := s) hf hc (fun _ => hk)) hd).2 i c r hi hr

omit [DecidableEq K] in
/-- C15. `erase_all` is a legal access too. -/
theorem erase_all_legal (w : g.WF) : (eraseAll g s).2.fl.faults = s.fl.faults := by
  have h1 := w.range
  have h2 := Nat.mod_eq_zero_of_dvd w.start_dvd
  have h3 := Nat.mod_eq_zero_of_dvd w.stop_dvd
  simp only [eraseAll, flashErase, Flash.erase]
  rw [if_neg (by omega), if_neg (by omega), if_neg (by omega)]

/-- Two byte keys and one byte values. -/
abbrev Key2 := BitVec (8 * 2)
abbrev Val1 := BitVec (8 * 1)

/-- Junk again, for a map with two byte keys. -/
def junkMap : St Key2 :=
  ⟨junkSt.fl, ⟨false, .table (List.replicate 2 none), .tracked (List.replicate 2 none) (List.replicate 2 none),
    .tracked (List.replicate 2 none)⟩, buf32, ⟨.address 0, .allPopped, 0⟩, ⟨0, 0, 0, 0⟩⟩

def junkMapCalls : List (MCall Key2 Val1 (Cache Key2) × Option Nat) :=
  [(.fetch 5#16 buf32, none), (.store 5#16 7#8 buf32, some 50), (.store 5#16 7#8 buf32, none), (.store 6#16 8#8 buf32, none),
    (.fetchAll buf32 [buf32, buf32, buf32], none), (.remove 5#16 buf32, none), (.fetch 5#16 buf32, none)]

theorem junkMap_fresh : FreshCache geo2.pageCount junkMap.cache :=
  ⟨rfl, Or.inr (Or.inr rfl), Or.inr rfl, Or.inr ⟨2, rfl⟩⟩

theorem junkMap_documented : ∀ c ∈ junkMapCalls, MDocumented geo2 c.1 := by
  intro c hc
  simp only [junkMapCalls, List.mem_cons, List.not_mem_nil, or_false] at hc
  rcases hc with rfl | rfl | rfl | rfl | rfl | rfl | rfl <;> trivial

example : (mrunPower geo2 (numKey 2) (numVal 1) junkMapCalls junkMap).2.fl.faults = 0 := by
  apply map_accesses_legal geo2_wf
  · rfl
  · exact junkMap_fresh
  · simp [junkMap]
  · exact junkMap_documented

/-- A region that was used as a queue: it holds the single byte `5`. -/
def queueThenMap : St Key2 :=
  ⟨(qrun geo2 [.push [5#8] false] freshSt).2.fl, noCache, buf32, ⟨.address 0, .allPopped, 0⟩, ⟨0, 0, 0, 0⟩⟩

/-- C33. Contents that the map did not write, or wrote with a shorter key type, make `fetch_item` and
the iterator panic: the key is decoded from the whole buffer and may be longer than the item. -/
theorem fetch_can_panic :
    (mcall geo2 (numKey 2) (numVal 1) (.fetch 5#16 buf32) queueThenMap).1 = .error .panic ∧
    (mcall geo2 (numKey 2) (numVal 1) (.fetchAll buf32 [buf32]) queueThenMap).1 = .ok (.items [.error .panic]) := by
  decide +kernel

end SeqStorage.Props
