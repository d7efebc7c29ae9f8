import Verif.Proofs.ReserveMap
import Verif.Props.Cost
/-
How much power a call needs: C68.
-/

namespace SeqStorage.Props
open M Spec Codec Proofs

variable {K : Type} [DecidableEq K] {V : Type} {g : Geo} {s : St K}

/-- The bytes a call of a queue programs at most: a push that is tried twice writes up to four markers and the item each
time, and each popped item has its header written over. -/
def queueBytes {C : Type} (g : Geo) : QCall C → Nat
  | .push d _ => 2 * (4 * g.word + g.hl + g.roundUp d.length)
  | .pop _ => g.hl
  | .iterate steps => steps.length * g.hl
  | .peek _ | .maxFit | .spaceLeft | .restart _ => 0

/-- The power that is enough for a call of a queue: what it may erase and what it may program. -/
def queueReserve {C : Type} (g : Geo) (c : QCall C) : Nat := g.eraseSize * queueErases g.pageCount c + queueBytes g c

theorem qcall_needs (w : g.WF) (c : QCall (Cache K)) : Needs g (qcall g c) (queueBytes g c) := by
  cases c with
  | push d o =>
    exact ((Needs.push w d o).bindTwo (c := 0) fun _ => .pure _).mono (by simp only [queueBytes, pushBytes]; omega)
  | pop b => exact (Needs.setBuf b).bind fun _ => (Needs.pop w).bindTwo (c := 0) fun _ => .pure _
  | peek b => exact (Needs.setBuf b).bind fun _ => Needs.peek.bind fun _ => .pure _
  | iterate steps => exact Needs.iterNew.bind fun _ => (Needs.iterSteps w steps).bindTwo (c := 0) fun _ => .pure _
  | maxFit => exact Needs.findMaxFit.bind fun _ => .pure _
  | spaceLeft => exact Needs.spaceLeft.bind fun _ => .pure _
  | restart c => exact (Needs.modifyCache _).bind fun _ => .pure _

omit [DecidableEq K] in
theorem withFuel_none (hp : s.fl.fuel = none) : withFuel s none = s := by
  obtain ⟨⟨m, fu, e, wr, p, fa, st⟩, c, b, q, i⟩ := s
  simp only at hp
  subst hp
  rfl

theorem SInv.power {mp : Bool} (h : SInv mp g s) (f : Option Nat) : SInv mp g (withFuel s f) :=
  SInv.flash h (fl := { s.fl with fuel := f }) rfl

/-- What a call does with its reserve. -/
theorem qcall_reserve (w : g.WF) (h : SInv false g s) (c : QCall (Cache K)) {k : Nat} (hk : queueReserve g c ≤ k) :
    ∃ k', k ≤ k' + queueReserve g c ∧
      qcall g c (withFuel s (some k)) = ((qcall g c (withFuel s none)).1, withFuel (qcall g c (withFuel s none)).2 (some k')) := by
  obtain ⟨_, n, h1, h2⟩ := qcall_needs w c (withFuel s none) rfl
  have h3 := qcall_cost w (SInv.power h none) c
  unfold CostAt at h3
  have h4 := Nat.mul_le_mul_left g.eraseSize h3
  rw [Nat.mul_add] at h4
  have hn : n ≤ queueReserve g c := by unfold queueReserve; omega
  exact ⟨k - n, by omega, h2 k (by omega)⟩

theorem qcall_sinv (w : g.WF) (h : SInv false g s) (c : QCall (Cache K)) (hd : Documented g c) : SInv false g (qcall g c s).2 := by
  have hn := (qcall_safe w h c (fun x hx => by rw [hx] at hd; exact hd)).cases
  rcases hn with ⟨a, s1, hr, h1⟩ | ⟨e, s1, hr, h1⟩ <;> (rw [hr]; exact h1.1)

theorem qrunPower_sinv (w : g.WF) (cs : List (QCall (Cache K) × Option Nat)) (hd : ∀ c ∈ cs, Documented g c.1) (h : SInv false g s) :
    SInv false g (qrunPower g cs s).2 := by
  induction cs generalizing s with
  | nil => exact h
  | cons c cs ih =>
    obtain ⟨c, fuel⟩ := c
    exact ih (fun c hc => hd c (by simp [hc])) (qcall_sinv w (SInv.power h fuel) c (hd (c, fuel) (by simp)))

/-- C68. Whatever was in the flash and wherever power was lost before: a call that has its reserve answers and leaves the
flash and the cache as with unlimited power, and it does not use more than the reserve. -/
theorem queue_reserve_is_enough (w : g.WF) (hf : s.fl.faults = 0) (hc : FreshCache g.pageCount s.cache)
    (cs : List (QCall (Cache K) × Option Nat)) (hd : ∀ c ∈ cs, Documented g c.1) (c : QCall (Cache K)) {k : Nat}
    (hk : queueReserve g c ≤ k) :
    let t := (qrunPower g cs s).2
    let free := qcall g c { t with fl := { t.fl with fuel := none } }
    let held := qcall g c { t with fl := { t.fl with fuel := some k } }
    held.1 = free.1 ∧ held.2.fl.mem = free.2.fl.mem ∧ held.2.cache = free.2.cache ∧
      ∃ k', held.2.fl.fuel = some k' ∧ k ≤ k' + queueReserve g c := by
  have h : SInv false g s := freshCache_sinv (mp := false) w (s := s) hf hc (by simp)
  obtain ⟨k', h1, h2⟩ := qcall_reserve w (qrunPower_sinv w cs hd h) c hk
  dsimp only
  change (qcall g c (withFuel _ (some k))).1 = (qcall g c (withFuel _ none)).1 ∧ (qcall g c (withFuel _ (some k))).2.fl.mem =
    (qcall g c (withFuel _ none)).2.fl.mem ∧ (qcall g c (withFuel _ (some k))).2.cache = (qcall g c (withFuel _ none)).2.cache ∧
    ∃ k', (qcall g c (withFuel _ (some k))).2.fl.fuel = some k' ∧ k ≤ k' + queueReserve g c
  rw [h2]
  exact ⟨rfl, rfl, rfl, k', rfl, h1⟩

/-- C68, many calls. When each call has its reserve, the run is the one without power loss. -/
theorem reserved_run (w : g.WF) (hf : s.fl.faults = 0) (hc : FreshCache g.pageCount s.cache) (hp : s.fl.fuel = none)
    (cs : List (QCall (Cache K) × Nat)) (hd : ∀ c ∈ cs, Documented g c.1) (hk : ∀ c ∈ cs, queueReserve g c.1 ≤ c.2) :
    (qrunPower g (cs.map fun c => (c.1, some c.2)) s).1 = (qrun g (cs.map Prod.fst) s).1 ∧
      (qrunPower g (cs.map fun c => (c.1, some c.2)) s).2.fl.mem = (qrun g (cs.map Prod.fst) s).2.fl.mem := by
  have h : SInv false g s := freshCache_sinv (mp := false) w (s := s) hf hc (by simp)
  clear hf hc
  have go : ∀ (cs : List (QCall (Cache K) × Nat)) (s : St K) (f : Option Nat), (∀ c ∈ cs, Documented g c.1) →
      (∀ c ∈ cs, queueReserve g c.1 ≤ c.2) → SInv false g s → s.fl.fuel = none →
      (qrunPower g (cs.map fun c => (c.1, some c.2)) (withFuel s f)).1 = (qrun g (cs.map Prod.fst) s).1 ∧
      (qrunPower g (cs.map fun c => (c.1, some c.2)) (withFuel s f)).2.fl.mem = (qrun g (cs.map Prod.fst) s).2.fl.mem := by
    intro cs
    induction cs with
    | nil => intro s f _ _ _ _; exact ⟨rfl, rfl⟩
    | cons c cs ih =>
      intro s f hd hk h hp
      obtain ⟨c, k⟩ := c
      obtain ⟨k', _, h2⟩ := qcall_reserve w h c (hk (c, k) (by simp))
      rw [withFuel_none hp] at h2
      have := ih (qcall g c s).2 (some k') (fun c hc => hd c (by simp [hc])) (fun c hc => hk c (by simp [hc]))
        (qcall_sinv w h c (hd (c, k) (by simp))) (qcall_needs w c s hp).1
      simp only [List.map_cons, qrunPower, qrun]
      change ((qcall g c (withFuel s (some k))).1 :: (qrunPower g _ (qcall g c (withFuel s (some k))).2).1) = _ ∧
        (qrunPower g _ (qcall g c (withFuel s (some k))).2).2.fl.mem = _
      rw [h2]
      exact ⟨congrArg _ this.1, this.2⟩
  have := go cs s none hd hk h hp
  rwa [withFuel_none hp] at this

/-- The bytes a call of a map programs at most. A repair writes a marker and may copy items to the end of the range. A store
goes round once for each page; a round writes the item, or up to three markers and copies as much. A removal writes over
headers, which lie in the pages. Storing and removing may be tried twice. -/
def mapBytes {C : Type} (g : Geo) : MCall K V C → Nat
  | .store _ _ _ => 2 * (g.pageCount * (3 * g.word + (g.stop - g.start))) + (g.word + (g.stop - g.start))
  | .remove _ _ | .removeAll _ => 2 * (g.pageCount * g.eraseSize) + (g.word + (g.stop - g.start))
  | .fetch _ _ | .fetchAll _ _ => g.word + (g.stop - g.start)
  | .restart _ => 0

/-- The power that is enough for a call of a map. -/
def mapReserve {C : Type} (g : Geo) (c : MCall K V C) : Nat := g.eraseSize * mapErases g.pageCount c + mapBytes g c

theorem mcall_needs (w : g.WF) (kc : KeyCodec K) (vc : ValCodec V) (c : MCall K V (Cache K)) : Needs g (mcall g kc vc c) (mapBytes g c) := by
  cases c with
  | store k v b =>
    exact (Needs.setBuf b).bind fun _ => (((Needs.storeInner w kc k (vc.ser v)).repair (Needs.mtryRepair w kc)).bindTwo (c := 0) fun _ => .pure _).mono
      (by simp only [mapBytes]; omega)
  | fetch k b => exact (Needs.setBuf b).bind fun _ => (Needs.fetchItem w kc vc k).bindTwo (c := 0) fun _ => .pure _
  | remove k b =>
    exact (Needs.setBuf b).bind fun _ => (((Needs.removeInner w kc (some k)).repair (Needs.mtryRepair w kc)).bindTwo (c := 0) fun _ => .pure _).mono
      (by simp only [mapBytes]; omega)
  | removeAll b =>
    exact (Needs.setBuf b).bind fun _ => (((Needs.removeInner w kc none).repair (Needs.mtryRepair w kc)).bindTwo (c := 0) fun _ => .pure _).mono
      (by simp only [mapBytes]; omega)
  | fetchAll b steps =>
    exact (Needs.setBuf b).bind fun _ => (Needs.fetchAll w kc).bindTwo (c := 0) fun _ => (Needs.mapSteps kc vc steps).bind fun _ => .pure _
  | restart c => exact (Needs.modifyCache _).bind fun _ => .pure _

theorem mcall_reserve (w : g.WF) (kc : KeyCodec K) (vc : ValCodec V) (s : St K) (c : MCall K V (Cache K)) {k : Nat} (hk : mapReserve g c ≤ k) :
    ∃ k', k ≤ k' + mapReserve g c ∧ mcall g kc vc c (withFuel s (some k)) =
      ((mcall g kc vc c (withFuel s none)).1, withFuel (mcall g kc vc c (withFuel s none)).2 (some k')) := by
  obtain ⟨_, n, h1, h2⟩ := mcall_needs w kc vc c (withFuel s none) rfl
  have h3 := map_calls_erase_boundedly g kc vc [(c, none)] s
  simp only [mrunPower, List.map_cons, List.map_nil, List.sum_cons, List.sum_nil, Nat.add_zero] at h3
  have h4 : g.eraseSize * (mcall g kc vc c (withFuel s none)).2.fl.erases.length ≤
    g.eraseSize * ((withFuel s none).fl.erases.length + mapErases g.pageCount c) := Nat.mul_le_mul_left g.eraseSize h3
  rw [Nat.mul_add] at h4
  have hn : n ≤ mapReserve g c := by unfold mapReserve; omega
  exact ⟨k - n, by omega, h2 k (by omega)⟩

/-- C68, map. Whatever is in the flash and in the caches: a call that has its reserve answers and leaves the flash and the
cache as with unlimited power, and it does not use more than the reserve. -/
theorem map_reserve_is_enough (w : g.WF) (kc : KeyCodec K) (vc : ValCodec V) (s : St K) (c : MCall K V (Cache K)) {k : Nat}
    (hk : mapReserve g c ≤ k) :
    let free := mcall g kc vc c { s with fl := { s.fl with fuel := none } }
    let held := mcall g kc vc c { s with fl := { s.fl with fuel := some k } }
    held.1 = free.1 ∧ held.2.fl.mem = free.2.fl.mem ∧ held.2.cache = free.2.cache ∧
      ∃ k', held.2.fl.fuel = some k' ∧ k ≤ k' + mapReserve g c := by
  obtain ⟨k', h1, h2⟩ := mcall_reserve w kc vc s c hk
  dsimp only
  change (mcall g kc vc c (withFuel _ (some k))).1 = (mcall g kc vc c (withFuel _ none)).1 ∧ (mcall g kc vc c (withFuel _ (some k))).2.fl.mem =
    (mcall g kc vc c (withFuel _ none)).2.fl.mem ∧ (mcall g kc vc c (withFuel _ (some k))).2.cache = (mcall g kc vc c (withFuel _ none)).2.cache ∧
    ∃ k', (mcall g kc vc c (withFuel _ (some k))).2.fl.fuel = some k' ∧ k ≤ k' + mapReserve g c
  rw [h2]
  exact ⟨rfl, rfl, rfl, k', rfl, h1⟩

/-- C68, many calls of a map. When each call has its reserve, the run is the one without power loss. -/
theorem reserved_map_run (w : g.WF) (kc : KeyCodec K) (vc : ValCodec V) (hp : s.fl.fuel = none) (cs : List (MCall K V (Cache K) × Nat))
    (hk : ∀ c ∈ cs, mapReserve g c.1 ≤ c.2) :
    (mrunPower g kc vc (cs.map fun c => (c.1, some c.2)) s).1 = (mrun g kc vc (cs.map Prod.fst) s).1 ∧
      (mrunPower g kc vc (cs.map fun c => (c.1, some c.2)) s).2.fl.mem = (mrun g kc vc (cs.map Prod.fst) s).2.fl.mem := by
  have go : ∀ (cs : List (MCall K V (Cache K) × Nat)) (s : St K) (f : Option Nat), (∀ c ∈ cs, mapReserve g c.1 ≤ c.2) → s.fl.fuel = none →
      (mrunPower g kc vc (cs.map fun c => (c.1, some c.2)) (withFuel s f)).1 = (mrun g kc vc (cs.map Prod.fst) s).1 ∧
      (mrunPower g kc vc (cs.map fun c => (c.1, some c.2)) (withFuel s f)).2.fl.mem = (mrun g kc vc (cs.map Prod.fst) s).2.fl.mem := by
    intro cs
    induction cs with
    | nil => intro s f _ _; exact ⟨rfl, rfl⟩
    | cons c cs ih =>
      intro s f hk hp
      obtain ⟨c, k⟩ := c
      obtain ⟨k', _, h2⟩ := mcall_reserve w kc vc s c (hk (c, k) (by simp))
      rw [withFuel_none hp] at h2
      have := ih (mcall g kc vc c s).2 (some k') (fun c hc => hk c (by simp [hc])) (mcall_needs w kc vc c s hp).1
      simp only [List.map_cons, mrunPower, mrun]
      change ((mcall g kc vc c (withFuel s (some k))).1 :: (mrunPower g kc vc _ (mcall g kc vc c (withFuel s (some k))).2).1) = _ ∧
        (mrunPower g kc vc _ (mcall g kc vc c (withFuel s (some k))).2).2.fl.mem = _
      rw [h2]
      exact ⟨congrArg _ this.1, this.2⟩
  have := go cs s none hk hp
  rwa [withFuel_none hp] at this

/-! ### Concrete runs -/

theorem junk_documented : ∀ c ∈ junkCalls, Documented geo2 c.1 := by
  intro c hc
  simp only [junkCalls, List.mem_cons, List.not_mem_nil, or_false] at hc
  rcases hc with rfl | rfl | rfl | rfl | rfl | rfl <;> trivial

/-- After power was lost on a flash full of junk: 184 bytes are enough to push an item of three bytes. -/
example : queueReserve geo2 (.push [1#8, 2#8, 3#8] true : QCall (Cache Unit)) = 184 := by decide

example (t : St Unit) (ht : t = (qrunPower geo2 junkCalls junkSt).2) : ∃ k', (qcall geo2 (.push [1#8, 2#8, 3#8] true)
    { t with fl := { t.fl with fuel := some 184 } }).2.fl.fuel = some k' ∧ 184 ≤ k' + 184 := by
  have h := queue_reserve_is_enough geo2_wf rfl junk_fresh junkCalls junk_documented (.push [1#8, 2#8, 3#8] true) (k := 184) (by decide)
  rw [← ht] at h
  exact h.2.2.2

/-- On an empty queue the push uses 16 bytes: a marker, a header and the padded item. With 15 it is interrupted. -/
example : (qcall geo2 (.push [1#8, 2#8, 3#8] true) { freshSt with fl := { freshSt.fl with fuel := some 16 } }).2.fl.fuel = some 0 := by
  decide +kernel
theorem push_without_reserve : (match (qcall geo2 (.push [1#8, 2#8, 3#8] true) { freshSt with fl := { freshSt.fl with fuel := some 15 } }).1 with
    | .error .shutoff => true
    | _ => false) = true := by decide +kernel

def reservedCalls : List (QCall (Cache Unit) × Nat) :=
  [(.push [1#8, 2#8] false, 184), (.peek buf32, 192), (.pop buf32, 200), (.iterate [(buf32, true), (buf32, true)], 336), (.spaceLeft, 64)]

example : (qrunPower geo2 (reservedCalls.map fun c => (c.1, some c.2)) junkSt).1 = (qrun geo2 (reservedCalls.map Prod.fst) junkSt).1 :=
  (reserved_run geo2_wf rfl junk_fresh rfl reservedCalls (by
    intro c hc
    simp only [reservedCalls, List.mem_cons, List.not_mem_nil, or_false] at hc
    rcases hc with rfl | rfl | rfl | rfl | rfl <;> trivial) (by decide)).1

/-- A map on two pages of junk: 628 bytes are enough to store a value of one byte. -/
example : mapReserve geo2 (.store 1 6 buf32 : MCall (BitVec 16) (BitVec 8) (Cache (BitVec 16))) = 628 := by decide

example (t : St (BitVec (8 * 2))) (_ht : t = junkMap) : ∃ k', (mcall geo2 (numKey 2) (numVal 1) (.store 1 6 buf32)
    { t with fl := { t.fl with fuel := some 628 } }).2.fl.fuel = some k' ∧ 628 ≤ k' + 628 := by
  have h := map_reserve_is_enough geo2_wf (numKey 2) (numVal 1) t (.store 1 6 buf32) (k := 628) (by decide)
  exact h.2.2.2

example (t : St (BitVec (8 * 2))) (ht : t = junkMap) : (mrunPower geo2 (numKey 2) (numVal 1) [(.store 1 6 buf32, some 628), (.fetch 1 buf32, some 196)] t).1 =
    (mrun geo2 (numKey 2) (numVal 1) [.store 1 6 buf32, .fetch 1 buf32] t).1 :=
  (reserved_map_run geo2_wf (numKey 2) (numVal 1) (by rw [ht]; rfl) [(.store 1 6 buf32, 628), (.fetch 1 buf32, 196)] (by decide)).1

end SeqStorage.Props
