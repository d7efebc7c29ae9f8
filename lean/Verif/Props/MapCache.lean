import Verif.Proofs.MapDet
import Verif.Props.MapSafe
/-
C18 and C42 for a map: caches and restarts cannot be seen.
-/

set_option linter.unusedSectionVars false

namespace SeqStorage.Props
open SeqStorage Spec M Codec

variable {K V : Type} [DecidableEq K] {kc : KeyCodec K} {vc : ValCodec V} {c : Coding K V} {g : Geo} {s : St K} {lim : Nat}

/-- The same call without caches after a restart. -/
def mplain : MCall K V (Cache K) → MCall K V (Cache K)
  | .restart _ => .restart noCache
  | call => call

theorem noCache_any (n : Nat) : MapCache n (noCache : Cache K) := ⟨noCache_fresh n, by simp [noCache]⟩

theorem mplain_ok {call : MCall K V (Cache K)} (h : MUsable g lim c call) :
    MUsable g lim c (mplain call) := by
  cases call with
  | restart r => exact ⟨noCache_any _, trivial, trivial⟩
  | _ => exact h

theorem mrunA_plain (cs : List (MCall K V (Cache K))) : ∀ (σ : Shape) (P : Nat → PK),
    mrunA kc vc g (cs.map mplain) σ P = mrunA kc vc g cs σ P := by
  induction cs with
  | nil => intro σ P; rfl
  | cons call cs ih =>
    intro σ P
    have : mcallA kc vc g σ P (mplain call) = mcallA kc vc g σ P call := by cases call <;> rfl
    simp only [List.map_cons, mrunA, this, ih]

/-- C18, map part. With any caches, and any change of caches at restarts, every call answers as without cache
(take `noCache` for the cache of `s'`). -/
theorem map_caches_are_invisible {s' : St K} (w : g.WF) (hc : Codes kc vc c) (hn : 2 ≤ g.pageCount) (h : MStart g s) (h' : MStart g s')
    (cs : List (MCall K V (Cache K))) (hd : ∀ call ∈ cs, MUsable g lim c call) :
    (mrun g kc vc cs s).1 = (mrun g kc vc (cs.map mplain) s').1 := by
  have hd' : ∀ call ∈ cs.map mplain, MUsable g lim c call := by
    intro call hm
    obtain ⟨c0, h0, rfl⟩ := List.mem_map.1 hm
    exact mplain_ok (hd c0 h0)
  rw [(mrun_det w hc hn cs (h.mi w hn) hd).1, (mrun_det w hc hn (cs.map mplain) (h'.mi w hn) hd').1, mrunA_plain]

/-- Calls that use the caches of everything for a while. -/
def mcached : List (MCall K2 V4 (Cache K2)) :=
  .restart (fullCache 3 2) :: (mcalls ++ [.fetch 1 buf48, .fetch 2 buf48, .fetch 3 buf48, .fetchAll buf48 (List.replicate 6 buf48)])

theorem mcached_ok : ∀ call ∈ mcached, MUsable geo3 8 (numCoding 2 4) call := by
  intro call h
  unfold mcached at h
  rcases List.mem_cons.1 h with rfl | h
  · exact ⟨fullCache_map _ _ (by decide), trivial, trivial⟩
  rcases List.mem_append.1 h with h | h
  · exact mcalls_ok call h
  · simp only [List.mem_cons, List.not_mem_nil, or_false] at h
    rcases h with rfl | rfl | rfl | rfl <;> exact ⟨trivial, trivial, by unfold LargeBuffers; decide⟩

example : (mrun geo3 (numKey 2) (numVal 4) mcached blankMap).1 =
    (mrun geo3 (numKey 2) (numVal 4) (mcached.map mplain) blankMap).1 :=
  map_caches_are_invisible geo3_wf (num_codes 2 4) (by decide) (blank_start _) (blank_start _) _ mcached_ok

example : (mrun geo3 (numKey 2) (numVal 4) mcached blankMap).1.drop 12 = [.ok (.value (some 15)), .ok (.value (some 20)), .ok (.value (some 31)),
    .ok (.items [.ok (some (2, 20)), .ok (some (3, 31)), .ok (some (1, 14)), .ok (some (1, 15)), .ok none, .ok (some (2, 20))])] := by
  decide +kernel

/-- C42, map part. Restarting with any new cache, and any buffer left over, changes no later answer. -/
theorem map_restart_is_invisible (w : g.WF) (hc : Codes kc vc c) (hn : 2 ≤ g.pageCount) (h : MReached kc vc c g lim s) (r : Cache K)
    (hr : MapCache g.pageCount r) (cs : List (MCall K V (Cache K)))
    (hd : ∀ call ∈ cs, MUsable g lim c call) :
    (mrun g kc vc cs (mcall g kc vc (.restart r) s).2).1 = (mrun g kc vc cs s).1 := by
  obtain ⟨σ, P, h⟩ := h.mi w hc hn
  rw [(mrun_det w hc hn cs h hd).1]
  exact (mrun_det w hc hn cs (h.restart hr) hd).1

example : (mrun geo3 (numKey 2) (numVal 4) mcached (mcall geo3 (numKey 2) (numVal 4) (.restart (fullCache 3 1)) mst).2).1 =
    (mrun geo3 (numKey 2) (numVal 4) mcached mst).1 :=
  map_restart_is_invisible (s := mst) geo3_wf (num_codes 2 4) (by decide) mst_reached (fullCache 3 1) (fullCache_map _ _ (by decide)) mcached mcached_ok

/-- With a buffer that is too small for some item the key cache does show: the fetch of another key succeeds only
if its address is known. -/
theorem small_buffers_reveal_caches :
    ∃ cs : List (MCall K2 VB (Cache K2)),
      (mrun geo3 (numKey 2) (bytesVal none) (.restart (fullCache 3 2) :: cs) blankMap).1 =
        [.ok .done, .ok .done, .ok .done, .ok (.value (some (vb [7])))] ∧
      (mrun geo3 (numKey 2) (bytesVal none) (.restart noCache :: cs) blankMap).1 =
        [.ok .done, .ok .done, .ok .done, .error (.bufferTooSmall 12)] ∧
      cs = [.store 1 (vb [7]) buf48, .store 2 (vb ([1, 2, 3, 4, 5, 6, 7, 8])) buf48, .fetch 1 [0, 0, 0, 0, 0, 0, 0, 0]] :=
  ⟨_, by decide +kernel, by decide +kernel, rfl⟩

end SeqStorage.Props
