import Verif.Props.Map
import Verif.Props.Queue
import Verif.Props.Safe
import Verif.Proofs.Share
/-
`erase_all` (C35), and what a storage can see and touch of the flash chip (C43, C44).
-/

namespace SeqStorage.Props
open M Spec Codec Proofs

variable {K V : Type} [DecidableEq K] {kc : KeyCodec K} {vc : ValCodec V} {c : Coding K V} {g : Geo} {lim : Nat} {s : St K}

/-! ### C35 -/

omit [DecidableEq K] in
/-- C35. `erase_all` succeeds and leaves a blank range, whatever there was before. -/
theorem erase_all_blanks (w : g.WF) (hp : s.fl.fuel = none) :
    (eraseAll g s).1 = .ok () ∧ (eraseAll g s).2.fl.fuel = none ∧ (eraseAll g s).2.cache = s.cache ∧
    (∀ a, g.start ≤ a → a < g.stop → (eraseAll g s).2.fl.mem a = 0xff#8) ∧
    (∀ a, a < g.start ∨ g.stop ≤ a → (eraseAll g s).2.fl.mem a = s.fl.mem a) := by
  have h1 := w.range
  have h2 := Nat.mod_eq_zero_of_dvd w.start_dvd
  have h3 := Nat.mod_eq_zero_of_dvd w.stop_dvd
  simp only [eraseAll, flashErase, Flash.erase, hp, spend]
  rw [if_neg (by omega), if_neg (by omega), if_neg (by omega)]
  refine ⟨rfl, rfl, trivial, ?_, ?_⟩
  · intro a ha1 ha2
    simp only [eraseBytes]
    rw [if_pos (by omega)]
  · intro a ha
    simp only [eraseBytes]
    rw [if_neg (by omega)]

/-- The same state with a flash that nobody has looked at yet. -/
def unobserved (s : St K) (c : Cache K) : St K := { s with fl := ⟨s.fl.mem, s.fl.fuel, [], fun _ => 0, fun _ => 0, 0, 0⟩, cache := c }

omit [DecidableEq K] in
theorem erased_flash (w : g.WF) (hp : s.fl.fuel = none) (c : Cache K) :
    Erased g (unobserved (eraseAll g s).2 c).fl ∧ (unobserved (eraseAll g s).2 c).fl.fuel = none := by
  obtain ⟨_, h2, _, h4, _⟩ := erase_all_blanks w hp
  exact ⟨⟨h4, rfl, fun _ => rfl, fun _ => rfl, rfl, rfl⟩, h2⟩

theorem contents_alike {s s' : St K} (h : Alike g s s') {q : List (List Byte)} (hq : Contents g s q) : Contents g s' q := by
  intro b hb k
  rw [(qrun_like _ h).res]
  exact hq b hb k

theorem fetches_alike {s s' : St K} (h : Alike g s s') {m : K → Option V} (hm : Fetches kc vc g lim s m) : Fetches kc vc g lim s' m := by
  intro k b hb
  rw [(mcall_like kc vc _ h).res]
  exact hm k b hb

/-- The caches hold nothing from before. -/
def Forgotten (g : Geo) (c : Cache K) : Prop := FreshCache g.pageCount c ∨ Uncached c

omit [DecidableEq K] in
theorem forgotten_alike {t : St K} {c : Cache K} (ht : t.cache = c) (hc : Forgotten g c) :
    ∃ c', FreshCache g.pageCount c' ∧ (c' = c ∨ Uncached c ∧ c' = noCache) ∧ Alike g (unobserved t c') t := by
  rcases hc with h | h
  · exact ⟨c, h, Or.inl rfl, ⟨fun _ _ _ => rfl, rfl, rfl, rfl, rfl, by rw [ht]; rfl, by rw [ht]; rfl, by rw [ht]; rfl, Or.inl (by rw [ht]; rfl)⟩⟩
  · exact ⟨noCache, noCache_fresh _, Or.inr ⟨h, rfl⟩, ⟨fun _ _ _ => rfl, rfl, rfl, rfl, rfl, by rw [ht]; exact h.ps, by rw [ht]; exact h.pp,
      by rw [ht]; exact h.kp, Or.inr ⟨rfl, rfl, rfl⟩⟩⟩

/-- C35, queue. After `erase_all` the queue works like a fresh one, when it has no caches or new ones, whatever the
flash held before. Missing: a queue that keeps its caches, for which this is false, see `erased_queue_loses_items`. -/
theorem erased_queue_is_fresh_partial (w : g.WF) (hp : s.fl.fuel = none) (hc : Forgotten g s.cache) (cs : List (QCall (Cache K)))
    (hd : ∀ c ∈ cs, Documented g c) :
    (eraseAll g s).1 = .ok () ∧
    ∃ q, Runs (queueStep g.word g.eraseSize g.pageCount) [] cs (qrun g cs (eraseAll g s).2).1 q ∧
      Contents g (qrun g cs (eraseAll g s).2).2 q := by
  obtain ⟨h1, _, h3, _⟩ := erase_all_blanks w hp
  obtain ⟨c', h4, _, h5⟩ := forgotten_alike (t := (eraseAll g s).2) h3 hc
  obtain ⟨h6, h7⟩ := erased_flash w hp c'
  obtain ⟨q, h8, h9⟩ := queue_is_fifo w (s := unobserved (eraseAll g s).2 c') ⟨h6, h7, h4⟩ cs hd
  have h10 := qrun_like cs h5
  refine ⟨h1, q, ?_, contents_alike h10.alike h9⟩
  rw [h10.res]
  exact h8

/-- C35, map. The same for a map. Missing: a map that keeps its caches, for which this is false, see
`erased_map_loses_values`. -/
theorem erased_map_is_fresh_partial (w : g.WF) (hcd : Codes kc vc c) (hn : 2 ≤ g.pageCount) (hp : s.fl.fuel = none)
    (hc : Forgotten g s.cache) (hk : s.cache.kp ≠ .tracked []) (cs : List (MCall K V (Cache K)))
    (hd : ∀ call ∈ cs, MUsable g lim c call) :
    (eraseAll g s).1 = .ok () ∧
    ∃ m, Runs (mapStep g.word g.eraseSize lim c) (fun _ => none) cs (mrun g kc vc cs (eraseAll g s).2).1 m ∧
      Fetches kc vc g lim (mrun g kc vc cs (eraseAll g s).2).2 m := by
  obtain ⟨h1, _, h3, _⟩ := erase_all_blanks w hp
  obtain ⟨c', h4, h4', h5⟩ := forgotten_alike (t := (eraseAll g s).2) h3 hc
  obtain ⟨h6, h7⟩ := erased_flash w hp c'
  have hk' : c'.kp ≠ .tracked [] := by
    rcases h4' with rfl | ⟨_, rfl⟩
    · exact hk
    · simp [noCache]
  obtain ⟨m, h8, h9⟩ := map_is_finite_map w hcd hn (s := unobserved (eraseAll g s).2 c') ⟨h6, h7, ⟨h4, hk'⟩⟩ cs hd
  have h10 := mrun_like kc vc cs h5
  refine ⟨h1, m, ?_, fetches_alike h10.alike h9⟩
  rw [h10.res]
  exact h8

/-- A used queue without caches. -/
def pushPop : List (QCall (Cache Unit)) := [.push [7#8] false, .pop buf32]

/-- Without a restart a queue gets no caches. -/
theorem qrun_bare (cs : List (QCall (Cache K))) : ∀ {s : St K}, (∀ c ∈ cs, ∀ x, c ≠ .restart x) → s.fl.fuel = none → Uncached s.cache →
    (qrun g cs s).2.fl.fuel = none ∧ Uncached (qrun g cs s).2.cache := by
  induction cs with
  | nil => intro s _ h h'; exact ⟨h, h'⟩
  | cons c cs ih =>
    intro s hc h h'
    have h1 := Resp.qcall (g := g) c (hc c (by simp)) s s (Alike.refl _ _)
    exact ih (fun c' hc' => hc c' (by simp [hc'])) (h1.power h) (h1.bare h')

theorem mrun_power (cs : List (MCall K V (Cache K))) (h : s.fl.fuel = none) : (mrun g kc vc cs s).2.fl.fuel = none :=
  (mrun_like kc vc cs (Alike.refl g s)).power h

theorem st2_bare : st2.fl.fuel = none ∧ Uncached st2.cache := by
  unfold st2
  refine qrun_bare calls2 ?_ rfl ⟨rfl, rfl, rfl⟩
  intro c hc x hx
  subst hx
  simp [calls2] at hc

example : ∃ q, Runs (queueStep 4 32 2) [] pushPop (qrun geo2 pushPop (eraseAll geo2 st2).2).1 q ∧
    Contents geo2 (qrun geo2 pushPop (eraseAll geo2 st2).2).2 q :=
  (erased_queue_is_fresh_partial geo2_wf st2_bare.1 (Or.inr st2_bare.2) pushPop (by
    intro c hc
    simp only [pushPop, List.mem_cons, List.not_mem_nil, or_false] at hc
    rcases hc with rfl | rfl <;> trivial)).2

example : (qrun geo2 (.peek buf32 :: pushPop) (eraseAll geo2 st2).2).1 =
    [.ok (.item none), .ok .done, .ok (.item (some [7#8]))] := by decide +kernel

/-- A map that starts again with new caches after the erase. -/
def mfresh : St K2 := { mst with cache := fullCache 3 2 }

def mnew : List (MCall K2 V4 (Cache K2)) := [.fetch 1 buf48, .store 1 11 buf48, .restart (fullCache 3 2), .fetch 1 buf48]

theorem restarted_power {s t : St K} {cs : List (MCall K V (Cache K))} {x : Cache K} (hs : s.fl.fuel = none)
    (ht : t = { (mrun g kc vc cs s).2 with cache := x }) : t.fl.fuel = none ∧ t.cache = x := by
  rw [ht]
  exact ⟨mrun_power cs hs, rfl⟩

theorem mfresh_power : mfresh.fl.fuel = none ∧ mfresh.cache = fullCache 3 2 :=
  restarted_power (g := geo3) (kc := numKey 2) (vc := numVal 4) (cs := mcalls) (s := blankMap) (x := fullCache 3 2) rfl
    (by unfold mfresh mst; rfl)

example : ∃ m, Runs (mapStep 4 48 8 (numCoding 2 4)) (fun _ => none) mnew (mrun geo3 (numKey 2) (numVal 4) mnew (eraseAll geo3 mfresh).2).1 m ∧
    Fetches (numKey 2) (numVal 4) geo3 8 (mrun geo3 (numKey 2) (numVal 4) mnew (eraseAll geo3 mfresh).2).2 m :=
  (erased_map_is_fresh_partial geo3_wf (num_codes 2 4) (by decide) mfresh_power.1 (Or.inl (fullCache_map 3 2 (by decide)).fresh)
    (fullCache_map 3 2 (by decide)).room mnew (by
      intro call h
      simp only [mnew, List.mem_cons, List.not_mem_nil, or_false] at h
      rcases h with rfl | rfl | rfl | rfl <;>
        first | exact ⟨trivial, fun _ => by decide, by unfold LargeBuffers; decide⟩ | exact ⟨trivial, trivial, by unfold LargeBuffers; decide⟩ | exact ⟨fullCache_map _ _ (by decide), trivial, trivial⟩)).2

/-- C35 fails with caches: `erase_all` leaves them alone, so that the next item goes behind the page's unwritten start
and is never seen again. -/
theorem erased_queue_loses_items :
    ∃ s : St Unit, Reached geo2 s ∧ (eraseAll geo2 s).1 = .ok () ∧
      (qrun geo2 [.push [7#8] false, .pop buf32] (eraseAll geo2 s).2).1 = [.ok .done, .ok (.item none)] := by
  refine ⟨(qrun geo2 [.push [1#8, 2#8, 3#8] false] (cachedSt 2)).2, ⟨_, _, cached_start geo2, ?_, rfl⟩, ?_, ?_⟩
  · intro c hc
    simp only [List.mem_singleton] at hc
    subst hc
    trivial
  · decide +kernel
  · decide +kernel

def staleCalls : List (MCall K2 V4 (Cache K2)) := [.restart (fullCache 3 2), .store 1 10 buf48]

/-- C35 fails with caches: a value stored after `erase_all` is gone after a restart. -/
theorem erased_map_loses_values :
    ∃ s : St K2, MReached (numKey 2) (numVal 4) (numCoding 2 4) geo3 8 s ∧ (eraseAll geo3 s).1 = .ok () ∧
      (mrun geo3 (numKey 2) (numVal 4) [.store 1 11 buf48, .fetch 1 buf48, .restart (fullCache 3 2), .fetch 1 buf48] (eraseAll geo3 s).2).1 =
        [.ok .done, .ok (.value (some 11)), .ok .done, .ok (.value none)] := by
  refine ⟨(mrun geo3 (numKey 2) (numVal 4) staleCalls blankMap).2, ⟨_, staleCalls, blank_start _, ?_, rfl⟩, ?_, ?_⟩
  · intro call h
    simp only [staleCalls, List.mem_cons, List.not_mem_nil, or_false] at h
    rcases h with rfl | rfl
    · exact ⟨fullCache_map _ _ (by decide), trivial, trivial⟩
    · exact ⟨trivial, fun _ => by decide, by unfold LargeBuffers; decide⟩
  · decide +kernel
  · decide +kernel

/-! ### C43 -/

omit [DecidableEq K] in
theorem near_of_mem {fl : Flash} (h : ∀ a, g.start ≤ a → a < g.stop → fl.mem a = s.fl.mem a) : Near g s { s with fl := fl } :=
  ⟨⟨h, rfl, rfl, rfl, rfl, rfl, rfl, rfl, Or.inl rfl⟩⟩

/-- C43, queue. No call, whatever the contents of the flash and wherever power is lost, changes a byte outside the
range or attempts to, and on another chip with the same bytes in the range all calls do the same. -/
theorem queue_stays_in_range (w : g.WF) (hf : s.fl.faults = 0) (hc : FreshCache g.pageCount s.cache)
    (cs : List (QCall (Cache K) × Option Nat)) (hd : ∀ c ∈ cs, Documented g c.1) :
    (qrunPower g cs s).2.fl.faults = 0 ∧
    (∀ a, a < g.start ∨ g.stop ≤ a → (qrunPower g cs s).2.fl.mem a = s.fl.mem a) ∧
    ∀ fl : Flash, (∀ a, g.start ≤ a → a < g.stop → fl.mem a = s.fl.mem a) →
      (qrunPower g cs { s with fl := fl }).1 = (qrunPower g cs s).1 ∧
      ∀ a, g.start ≤ a → a < g.stop → (qrunPower g cs { s with fl := fl }).2.fl.mem a = (qrunPower g cs s).2.fl.mem a := by
  refine ⟨queue_accesses_legal w hf hc cs hd, (qrunPower_like cs (Near.refl g s)).2.2, fun fl h => ?_⟩
  obtain ⟨h1, h2, _⟩ := qrunPower_like cs (near_of_mem h)
  exact ⟨h1, h2.near.mem⟩

/-- C43, map. -/
theorem map_stays_in_range (w : g.WF) (kc : KeyCodec K) (vc : ValCodec V) (hf : s.fl.faults = 0)
    (hc : FreshCache g.pageCount s.cache) (hk : s.cache.kp ≠ .tracked [])
    (cs : List (MCall K V (Cache K) × Option Nat)) (hd : ∀ c ∈ cs, MDocumented g c.1) :
    (mrunPower g kc vc cs s).2.fl.faults = 0 ∧
    (∀ a, a < g.start ∨ g.stop ≤ a → (mrunPower g kc vc cs s).2.fl.mem a = s.fl.mem a) ∧
    ∀ fl : Flash, (∀ a, g.start ≤ a → a < g.stop → fl.mem a = s.fl.mem a) →
      (mrunPower g kc vc cs { s with fl := fl }).1 = (mrunPower g kc vc cs s).1 ∧
      ∀ a, g.start ≤ a → a < g.stop →
        (mrunPower g kc vc cs { s with fl := fl }).2.fl.mem a = (mrunPower g kc vc cs s).2.fl.mem a := by
  refine ⟨map_accesses_legal w kc vc hf hc hk cs hd, (mrunPower_like kc vc cs (Near.refl g s)).2.2, fun fl h => ?_⟩
  obtain ⟨h1, h2, _⟩ := mrunPower_like kc vc cs (near_of_mem h)
  exact ⟨h1, h2.near.mem⟩

/-- Another chip with the same junk in the range and something else around it. -/
def junkChip : Flash := { junkSt.fl with mem := fun a => if a < 64 then BitVec.ofNat 8 (a * 7 + 13) else 0#8 }

example : (qrunPower geo2 junkCalls { junkSt with fl := junkChip }).1 = (qrunPower geo2 junkCalls junkSt).1 ∧
    ∀ a, 64 ≤ a → (qrunPower geo2 junkCalls junkSt).2.fl.mem a = junkSt.fl.mem a := by
  have h := queue_stays_in_range geo2_wf (s := junkSt) rfl junk_fresh junkCalls (by
    intro c hc
    simp only [junkCalls, List.mem_cons, List.not_mem_nil, or_false] at hc
    rcases hc with rfl | rfl | rfl | rfl | rfl | rfl <;> trivial)
  refine ⟨(h.2.2 junkChip ?_).1, fun a ha => h.2.1 a (Or.inr ha)⟩
  intro a _ ha
  have ha' : a < 64 := ha
  simp only [junkChip]
  rw [if_pos ha']
  rfl

example : ∀ a, 64 ≤ a → (mrunPower geo2 (numKey 2) (numVal 1) junkMapCalls junkMap).2.fl.mem a = junkMap.fl.mem a :=
  by
  have h1 : junkMap.fl.faults = 0 := rfl
  have h2 : junkMap.cache.kp ≠ .tracked [] := by simp [junkMap]
  have h3 := junkMap_fresh
  have h4 := junkMap_documented
  generalize junkMap = s at h1 h2 h3
  generalize junkMapCalls = cs at h4
  intro a ha
  exact (map_stays_in_range geo2_wf (numKey 2) (numVal 1) h1 h3 h2 cs h4).2.1 a (Or.inr ha)

/-! ### C44 -/

variable {K' V' : Type} [DecidableEq K'] {kc' : KeyCodec K'} {vc' : ValCodec V'} {g' : Geo} {s' : St K'}

/-- C44. A queue and a map on one chip, in ranges that do not overlap: in any order of calls and power losses, each
answers as if it had the chip to itself. -/
theorem queue_and_map_do_not_interfere (hg : g.stop ≤ g'.start ∨ g'.stop ≤ g.start) (hfl : s.fl = s'.fl)
    (cs : List ((QCall (Cache K) ⊕ MCall K' V' (Cache K')) × Option Nat)) :
    (runBoth (qcall g) (mcall g' kc' vc') cs s s').1 =
      ((qrunPower g (firstOnly cs) s).1, (mrunPower g' kc' vc' (secondOnly cs) s').1) := by
  rw [← runOne_queue, ← runOne_map]
  exact (runBoth_alone (queue_keeps g) (map_keeps g' kc' vc') hg cs hfl (Near.refl _ _) (Near.refl _ _)).1

/-- C44. Two queues. -/
theorem two_queues_do_not_interfere (hg : g.stop ≤ g'.start ∨ g'.stop ≤ g.start) (hfl : s.fl = s'.fl)
    (cs : List ((QCall (Cache K) ⊕ QCall (Cache K')) × Option Nat)) :
    (runBoth (qcall g) (qcall g') cs s s').1 = ((qrunPower g (firstOnly cs) s).1, (qrunPower g' (secondOnly cs) s').1) := by
  rw [← runOne_queue, ← runOne_queue]
  exact (runBoth_alone (queue_keeps g) (queue_keeps g') hg cs hfl (Near.refl _ _) (Near.refl _ _)).1

/-- C44. Two maps. -/
theorem two_maps_do_not_interfere (hg : g.stop ≤ g'.start ∨ g'.stop ≤ g.start) (hfl : s.fl = s'.fl)
    (cs : List ((MCall K V (Cache K) ⊕ MCall K' V' (Cache K')) × Option Nat)) :
    (runBoth (mcall g kc vc) (mcall g' kc' vc') cs s s').1 =
      ((mrunPower g kc vc (firstOnly cs) s).1, (mrunPower g' kc' vc' (secondOnly cs) s').1) := by
  rw [← runOne_map, ← runOne_map]
  exact (runBoth_alone (map_keeps g kc vc) (map_keeps g' kc' vc') hg cs hfl (Near.refl _ _) (Near.refl _ _)).1

/-- A queue in the first two pages and a map in the next two. -/
def geoB : Geo := ⟨1, 4, 32, 64, 128⟩

def mixed : List ((QCall (Cache Unit) ⊕ MCall Key2 (BitVec (8 * 1)) (Cache Key2)) × Option Nat) :=
  [(.inl (.push [1#8, 2#8] false), none), (.inr (.store 5#16 7#8 buf32), none), (.inr (.store 5#16 8#8 buf32), some 3),
    (.inl (.push [3#8] false), none), (.inr (.fetch 5#16 buf32), none), (.inl (.pop buf32), none)]

def blankKeys : St Key2 := ⟨freshSt.fl, noCache, [], ⟨.address 0, .allPopped, 0⟩, ⟨0, 0, 0, 0⟩⟩

example : (runBoth (qcall geo2) (mcall geoB (numKey 2) (numVal 1)) mixed freshSt blankKeys).1 =
    ((qrunPower geo2 (firstOnly mixed) freshSt).1, (mrunPower geoB (numKey 2) (numVal 1) (secondOnly mixed) blankKeys).1) :=
  queue_and_map_do_not_interfere (s := freshSt) (s' := blankKeys) (Or.inl (show geo2.stop ≤ geoB.start by decide)) rfl mixed

example : (runBoth (qcall geo2) (mcall geoB (numKey 2) (numVal 1)) mixed freshSt blankKeys).1 =
    ([.ok .done, .ok .done, .ok (.item (some [1#8, 2#8]))],
      [.ok .done, .error .shutoff, .ok (.value (some 7#8))]) := by decide +kernel

end SeqStorage.Props
