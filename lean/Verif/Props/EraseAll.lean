import Verif.Props.MapCrash
import Verif.Props.Range
/-
`erase_all` when power is lost on the way: property C67.
-/

namespace SeqStorage.Props
open SeqStorage Spec M Codec Proofs

variable {K V : Type} [DecidableEq K] {kc : KeyCodec K} {vc : ValCodec V} {c : Coding K V} {g : Geo} {lim : Nat} {s : St K}

/-- `erase_all` with `k` bytes left until power is lost, and a new start with the given cache. -/
def eraseCut (g : Geo) (s : St K) (k : Nat) (x : Cache K) : St K :=
  { (eraseAll g { s with fl := { s.fl with fuel := some k } }).2 with cache := x }

omit [DecidableEq K] in
/-- C67. Wherever power is lost, the bytes before that place are erased and all others are as before, and the caller gets
the error of the flash, whatever the flash held. -/
theorem interrupted_erase_all (w : g.WF) {k : Nat} (hk : k < g.stop - g.start) (hf : s.fl.fuel = some k) :
    (eraseAll g s).1 = .error .shutoff ∧ (eraseAll g s).2.cache = s.cache ∧ (eraseAll g s).2.fl.fuel = none ∧
    (∀ a, g.start ≤ a → a < g.start + k → (eraseAll g s).2.fl.mem a = 0xff#8) ∧
    (∀ a, a < g.start ∨ g.start + k ≤ a → (eraseAll g s).2.fl.mem a = s.fl.mem a) := by
  have h1 := w.range
  have h2 := Nat.mod_eq_zero_of_dvd w.start_dvd
  have h3 := Nat.mod_eq_zero_of_dvd w.stop_dvd
  have h4 : spend (some k) (g.stop - g.start) = (k, none, false) := by
    simp only [spend]
    rw [if_neg (by omega)]
  simp only [eraseAll, flashErase, Flash.erase, hf, h4]
  rw [if_neg (by omega), if_neg (by omega), if_neg (by omega)]
  refine ⟨rfl, trivial, rfl, ?_, ?_⟩
  · intro a ha1 ha2
    simp only [eraseBytes]
    rw [if_pos (by omega)]
  · intro a ha
    simp only [eraseBytes]
    rw [if_neg (by omega)]

omit [DecidableEq K] in
theorem eraseCut_power (w : g.WF) {k : Nat} (hk : k < g.stop - g.start) (x : Cache K) :
    (eraseCut g s k x).fl.fuel = none ∧ (eraseCut g s k x).cache = x :=
  ⟨(interrupted_erase_all (s := { s with fl := { s.fl with fuel := some k } }) w hk rfl).2.2.1, rfl⟩

/-- Several interrupted attempts, each followed by a new start. -/
def eraseCuts (g : Geo) : List (Nat × Cache K) → St K → St K
  | [], s => s
  | (k, x) :: rest, s => eraseCuts g rest (eraseCut g s k x)

/-- C67, queue. However often `erase_all` was interrupted, once it gets through the queue works like a fresh one, whatever
the flash held. Missing: a queue that goes on without calling `erase_all` again, for which this is false, see
`interrupted_erase_all_hides_items` and `interrupted_erase_all_garbles_item`. -/
theorem repeated_erase_all_queue_partial (w : g.WF) (l : List (Nat × Cache K)) {k : Nat} (hk : k < g.stop - g.start) {x : Cache K}
    (hx : FreshCache g.pageCount x) (cs : List (QCall (Cache K))) (hd : ∀ c ∈ cs, Documented g c) :
    (eraseAll g (eraseCut g (eraseCuts g l s) k x)).1 = .ok () ∧
    ∃ q, Runs (queueStep g.word g.eraseSize g.pageCount) [] cs (qrun g cs (eraseAll g (eraseCut g (eraseCuts g l s) k x)).2).1 q ∧
      Contents g (qrun g cs (eraseAll g (eraseCut g (eraseCuts g l s) k x)).2).2 q := by
  obtain ⟨h1, h2⟩ := eraseCut_power (s := eraseCuts g l s) w hk x
  exact erased_queue_is_fresh_partial w h1 (by rw [h2]; exact Or.inl hx) cs hd

/-- C67, map. The same for a map, started with new caches the last time. Missing: a map that goes on without calling
`erase_all` again, for which this is false, see `interrupted_erase_all_revives_value`. -/
theorem repeated_erase_all_map_partial (w : g.WF) (hcd : Codes kc vc c) (hn : 2 ≤ g.pageCount) (l : List (Nat × Cache K))
    {k : Nat} (hk : k < g.stop - g.start) {x : Cache K} (hx : FreshCache g.pageCount x) (hx' : x.kp ≠ .tracked [])
    (cs : List (MCall K V (Cache K))) (hd : ∀ call ∈ cs, MUsable g lim c call) :
    (eraseAll g (eraseCut g (eraseCuts g l s) k x)).1 = .ok () ∧
    ∃ m, Runs (mapStep g.word g.eraseSize lim c) (fun _ => none) cs (mrun g kc vc cs (eraseAll g (eraseCut g (eraseCuts g l s) k x)).2).1 m ∧
      Fetches kc vc g lim (mrun g kc vc cs (eraseAll g (eraseCut g (eraseCuts g l s) k x)).2).2 m := by
  obtain ⟨h1, h2⟩ := eraseCut_power (s := eraseCuts g l s) w hk x
  exact erased_map_is_fresh_partial w hcd hn h1 (by rw [h2]; exact Or.inl hx) (by rw [h2]; exact hx') cs hd

/-! ### Concrete cases -/

/-- A flash full of zeros, and 40 bytes until power is lost. -/
def zeroSt : St Unit := { freshSt with fl := { freshSt.fl with mem := fun _ => 0#8, fuel := some 40 } }

example : (eraseAll geo2 zeroSt).1 = .error .shutoff ∧ (eraseAll geo2 zeroSt).2.fl.mem 39 = 0xff#8 ∧ (eraseAll geo2 zeroSt).2.fl.mem 40 = 0#8 := by
  have h := interrupted_erase_all (s := zeroSt) geo2_wf (k := 40) (by decide) rfl
  exact ⟨h.1, h.2.2.2.1 39 (by decide) (by decide), h.2.2.2.2 40 (by decide)⟩

/-- The first attempt ends within the second page, the next one within the first. -/
example : ∃ q, Runs (queueStep 4 32 2) [] pushPop (qrun geo2 pushPop (eraseAll geo2 (eraseCut geo2 (eraseCuts geo2 [(40, noCache)] st2) 7 noCache)).2).1 q ∧
    Contents geo2 (qrun geo2 pushPop (eraseAll geo2 (eraseCut geo2 (eraseCuts geo2 [(40, noCache)] st2) 7 noCache)).2).2 q :=
  (repeated_erase_all_queue_partial geo2_wf [(40, noCache)] (by decide) (noCache_fresh _) pushPop (by simp [pushPop, Documented])).2

example : ∃ m, Runs (mapStep 4 48 8 (numCoding 2 4)) (fun _ => none) mnew
      (mrun geo3 (numKey 2) (numVal 4) mnew (eraseAll geo3 (eraseCut geo3 (eraseCuts geo3 [] mfresh) 50 (fullCache 3 2))).2).1 m ∧
    Fetches (numKey 2) (numVal 4) geo3 8
      (mrun geo3 (numKey 2) (numVal 4) mnew (eraseAll geo3 (eraseCut geo3 (eraseCuts geo3 [] mfresh) 50 (fullCache 3 2))).2).2 m :=
  (repeated_erase_all_map_partial geo3_wf (num_codes 2 4) (by decide) []
    (by decide) (fullCache_map 3 2 (by decide)).fresh (fullCache_map 3 2 (by decide)).room mnew (by
      intro call h
      simp only [mnew, List.mem_cons, List.not_mem_nil, or_false] at h
      rcases h with rfl | rfl | rfl | rfl <;>
        first | exact ⟨trivial, fun _ => by decide, by unfold LargeBuffers; decide⟩ | exact ⟨trivial, trivial, by unfold LargeBuffers; decide⟩ | exact ⟨fullCache_map _ _ (by decide), trivial, trivial⟩)).2

/-! ### Going on without calling it again -/

def geo44 : Geo := ⟨1, 4, 32, 0, 128⟩
theorem geo44_wf : geo44.WF := by constructor <;> decide

/-- Items that fill a page each, until the oldest is on the last page and younger ones on the first two. -/
def fullPage (n : Byte) : List Byte := List.replicate 16 n
def wrapCalls : List (QCall (Cache Unit)) :=
  [.push (fullPage 1) false, .push (fullPage 2) false, .push (fullPage 3) false, .push (fullPage 4) false, .pop buf32, .pop buf32,
    .pop buf32, .push (fullPage 5) false, .push [6#8] false]
def wrapSt : St Unit := (qrun geo44 wrapCalls freshSt).2

/-- C67 fails for a queue that goes on: after the first page is erased the queue seems empty after one item, although items are
left, and a new item is accepted and not found. -/
theorem interrupted_erase_all_hides_items :
    Reached geo44 wrapSt ∧
    (qrun geo44 [.pop buf32, .pop buf32, .push [7#8] false, .pop buf32] (eraseCut geo44 wrapSt 32 noCache)).1 =
      [.ok (.item (some (fullPage 4))), .ok (.item none), .ok .done, .ok (.item none)] := by
  refine ⟨⟨_, wrapCalls, fresh_start _, by simp [wrapCalls, Documented], rfl⟩, ?_⟩
  decide +kernel

/-- C67 fails for a queue that goes on: a page that was in use and is half erased counts as open. The next item is written on top
of what is left and cannot be read. -/
theorem interrupted_erase_all_garbles_item :
    ∃ s : St Unit, Reached geo44 s ∧
    (qrun geo44 [.push (fullPage 9) false, .pop buf32] (eraseCut geo44 s 12 noCache)).1 = [.ok .done, .ok (.item none)] ∧
    (qrun geo44 [.push (fullPage 9) false] (eraseCut geo44 s 12 noCache)).2.fl.stuck ≠ 0 := by
  refine ⟨(qrun geo44 [.push [1#8] false, .push [2#8] false] freshSt).2, ⟨_, _, fresh_start _, by simp [Documented], rfl⟩, ?_, ?_⟩
  · decide +kernel
  · decide +kernel

def reviveCalls : List (MCall K2 V4 (Cache K2)) :=
  [.store 1 10 buf48, .store 2 20 buf48, .store 2 21 buf48, .store 2 22 buf48, .store 2 23 buf48, .store 1 11 buf48, .store 1 12 buf48]

/-- C67 fails for a map that goes on: the newest value of a key is erased first and an old one comes back. -/
theorem interrupted_erase_all_revives_value :
    ∃ s : St K2, MReached (numKey 2) (numVal 4) (numCoding 2 4) geo3 8 s ∧
      (mrun geo3 (numKey 2) (numVal 4) [.fetch 1 buf48] s).1 = [.ok (.value (some 12))] ∧
      (mrun geo3 (numKey 2) (numVal 4) [.fetch 1 buf48] (eraseCut geo3 s 48 noCache)).1 = [.ok (.value (some 10))] := by
  refine ⟨(mrun geo3 (numKey 2) (numVal 4) reviveCalls blankMap).2, ⟨_, reviveCalls, blank_start _, ?_, rfl⟩, ?_, ?_⟩
  · intro call h
    simp only [reviveCalls, List.mem_cons, List.not_mem_nil, or_false] at h
    rcases h with rfl | rfl | rfl | rfl | rfl | rfl | rfl <;> exact ⟨trivial, fun _ => by decide, by unfold LargeBuffers; decide⟩
  · decide +kernel
  · decide +kernel

end SeqStorage.Props
