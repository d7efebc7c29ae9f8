import Verif.Props.Map
import Verif.Proofs.MapDirty
/-
C38 for the map: what follows a call that failed with a flash error, when the application goes on with the same
storage object and its caches.
-/

namespace SeqStorage.Props
open M Spec Codec

variable {K : Type} [DecidableEq K] {V : Type}

/-- The calls that look at the dirty mark of the caches or throw the caches away before using them. The missing ones
are `remove_item`, which does neither (/repo/src/map.rs 625-722), and `fetch_all_items` (/repo/src/map.rs 784-849). -/
def LooksFirst : MCall K V (Cache K) → Prop
  | .store .. | .fetch .. | .removeAll _ | .restart _ => True
  | .remove .. | .fetchAll .. => False

theorem invalidate_twice (c : Cache K) : c.invalidate.invalidate = c.invalidate := by
  obtain ⟨d, ps, pp, kp⟩ := c
  simp only [Cache.invalidate, Cache.mk.injEq, true_and]
  refine ⟨?_, ?_, ?_⟩
  · cases ps <;> simp [PSCache.invalidate, CalcPS.new]
  · cases pp <;> simp [PPCache.invalidate]
  · cases kp <;> simp [KPCache.invalidate]

theorem cleans_looksFirst (g : Geo) (kc : KeyCodec K) (vc : ValCodec V) (c : MCall K V (Cache K)) (h : LooksFirst c) :
    Cleans (mcall g kc vc c) := by
  cases c with
  | store k v b => exact .store ..
  | fetch k b => exact .fetch ..
  | remove k b => exact h.elim
  | removeAll b =>
    have main : ∀ {α : Type} (f : Unit → M K α), Cleans (modifyCache Cache.invalidate >>= f) := by
      intro α f
      constructor
      intro s _
      rw [bind_run, bind_run]
      show f () { s with cache := s.cache.invalidate } = f () { s with cache := s.cache.invalidate.invalidate }
      rw [invalidate_twice]
    refine Cleans.afterBuf (Cleans.bind (Cleans.repair ?_ _) _) b
    exact main _
  | fetchAll b steps => exact h.elim
  | restart c => exact .restart c _

/-- C38, map part. Whatever the flash contents and the caches: after a call that failed with a flash error, the calls
that follow, with the same caches, answer as with empty ones. Missing: a `remove_item` or `fetch_all_items` right
after the failed call. It is false of the code for these, see `remove_after_failure_loses_value`,
`remove_after_failure_revives_key` and `fetch_all_after_failure_differs`. -/
theorem map_failed_call_forgotten_partial (g : Geo) (kc : KeyCodec K) (vc : ValCodec V) (c : MCall K V (Cache K)) (s : St K)
    (h : (mcall g kc vc c s).1 = .error .shutoff) :
    ∃ c', KnowsNothing c' ∧ ∀ c2, LooksFirst c2 → ∀ cs,
      (mrun g kc vc (c2 :: cs) (mcall g kc vc c s).2).1 =
        (mrun g kc vc (c2 :: cs) { (mcall g kc vc c s).2 with cache := c' }).1 := by
  refine ⟨_, knowsNothing_invalidate (mcall g kc vc c s).2.cache, fun c2 h2 cs => ?_⟩
  simp only [mrun]
  rw [(cleans_looksFirst g kc vc c2 h2).out _ (mcall_dirty g kc vc c s h)]

/-- A blank map with caches. -/
def mblank : St K2 := { blankMap with cache := fullCache 3 2 }

example : (mcall geo3 (numKey 2) (numVal 4) (.store 1 10 buf48) (powerFor (some 9) mblank)).1 = .error .shutoff ∧
    (mrun geo3 (numKey 2) (numVal 4) [.store 1 11 buf48, .remove 2 buf48, .fetch 1 buf48]
      (mcall geo3 (numKey 2) (numVal 4) (.store 1 10 buf48) (powerFor (some 9) mblank)).2).1 =
        [.ok .done, .ok .done, .ok (.value (some 11))] := by decide +kernel

/-- A store fails before anything is written. The caches now take the first page for the page in use and are marked
dirty. -/
def mfailed : St K2 := (mcall geo3 (numKey 2) (numVal 4) (.store 1 10 buf48) (powerFor (some 0) mblank)).2

/-- The program goes on: it removes a key, stores a value, and is started again later. -/
def mgoOn : List (MCall K2 V4 (Cache K2)) := [.remove 5 buf48, .store 1 10 buf48, .restart (fullCache 3 2), .fetch 1 buf48]

/-- C38 is false of the code: `remove_item` does not look at the mark and takes it away, so that the next store trusts
the caches and writes to a page that is not in use. It reports success, but the value is gone after a restart. -/
theorem remove_after_failure_loses_value :
    (mcall geo3 (numKey 2) (numVal 4) (.store 1 10 buf48) (powerFor (some 0) mblank)).1 = .error .shutoff ∧
    (mrun geo3 (numKey 2) (numVal 4) mgoOn mfailed).1 = [.ok .done, .ok .done, .ok .done, .ok (.value none)] ∧
    (mrun geo3 (numKey 2) (numVal 4) mgoOn { mfailed with cache := mfailed.cache.invalidate }).1 =
      [.ok .done, .ok .done, .ok .done, .ok (.value (some 10))] := by decide +kernel

/-- Key 1 has been stored three times, key 2 once. -/
def mthree : St K2 :=
  (mrun geo3 (numKey 2) (numVal 4) [.store 1 10 buf48, .store 2 20 buf48, .store 1 11 buf48, .store 1 12 buf48] mblank).2

/-- Storing more fails when the first page, whose items have been copied, is about to be erased. -/
def mfailed2 : St K2 := (mcall geo3 (numKey 2) (numVal 4) (.store 2 21 buf48) (powerFor (some 24) mthree)).2

/-- The program removes a key and is started again later. -/
def mremoves (k : K2) : List (MCall K2 V4 (Cache K2)) := [.remove k buf48, .fetch k buf48, .restart (fullCache 3 2), .fetch k buf48]

/-- Likewise `remove_item` passes over a page that the caches wrongly take for erased. It reports success, but after a
restart the removed key is back, even with a value older than the one that was removed. -/
theorem remove_after_failure_revives_key :
    (mcall geo3 (numKey 2) (numVal 4) (.store 2 21 buf48) (powerFor (some 24) mthree)).1 = .error .shutoff ∧
    (mrun geo3 (numKey 2) (numVal 4) [.fetch 1 buf48, .fetch 2 buf48] mthree).1 =
      [.ok (.value (some 12)), .ok (.value (some 20))] ∧
    (mrun geo3 (numKey 2) (numVal 4) (mremoves 1) mfailed2).1 =
      [.ok .done, .ok (.value none), .ok .done, .ok (.value (some 10))] ∧
    (mrun geo3 (numKey 2) (numVal 4) (mremoves 2) mfailed2).1 =
      [.ok .done, .ok (.value none), .ok .done, .ok (.value (some 20))] ∧
    (mrun geo3 (numKey 2) (numVal 4) (mremoves 1) { mfailed2 with cache := mfailed2.cache.invalidate }).1 =
      [.ok .done, .ok (.value none), .ok .done, .ok (.value none)] := by decide +kernel

/-- `fetch_all_items` does not look at the mark either. Here it goes by the caches, which take the half-erased page for
erased, and gives the items; with empty caches it would report that page (C39). -/
theorem fetch_all_after_failure_differs :
    (mcall geo3 (numKey 2) (numVal 4) (.store 2 21 buf48) (powerFor (some 40) mthree)).1 = .error .shutoff ∧
    (mcall geo3 (numKey 2) (numVal 4) (.fetchAll buf48 [buf48])
      (mcall geo3 (numKey 2) (numVal 4) (.store 2 21 buf48) (powerFor (some 40) mthree)).2).1 =
        .ok (.items [.ok (some (1, 11))]) ∧
    ∀ c, c = (mcall geo3 (numKey 2) (numVal 4) (.store 2 21 buf48) (powerFor (some 40) mthree)).2.cache.invalidate →
      (mcall geo3 (numKey 2) (numVal 4) (.fetchAll buf48 [buf48])
        { (mcall geo3 (numKey 2) (numVal 4) (.store 2 21 buf48) (powerFor (some 40) mthree)).2 with cache := c }).1 =
          .error .corrupted := by
  refine ⟨by decide +kernel, by decide +kernel, ?_⟩
  intro c hc
  subst hc
  decide +kernel

end SeqStorage.Props
