import Verif.Proofs.MapDamage
import Verif.Props.Damage
import Verif.Props.Map
/-
C49: bit flips in the items of a map. A key whose newest item is damaged falls back to the previous value that is still in
the flash, or has none; all other keys keep theirs.
-/

namespace SeqStorage.Props
open M Spec Codec

variable {K V : Type} [DecidableEq K] {kc : KeyCodec K} {vc : ValCodec V} {c : Coding K V}
variable {g : Geo} {lim : Nat}

/-- What a key has among the entries. -/
abbrev valueIn (l : List (Nat × K × V)) (k : K) : Option V := lastOf k (l.map (·.2))

/-- The map holds the entries `l` (address, key and value, oldest first). Whatever call is made next, within
the documented use, answers as a map with these entries, and afterwards there are only old entries and the stored one.
Whatever damage comes next leaves the entries that are still the same, if no cached location of a key is one
of a damaged item, for instance because of a restart with a new cache. If a key with such a location is the next one
to be fetched, the answer is correct and all is well again.
And so on for `n` further calls and damages, in any order. -/
def EnduresMap (g : Geo) (kc : KeyCodec K) (vc : ValCodec V) (c : Coding K V) (lim : Nat) : Nat → St K → List (Nat × K × V) → Prop
  | 0, _, _ => True
  | n + 1, s, l =>
    InPlace g.word s.fl.mem (itemsOf c l) ∧
    (∀ call, MUsable g lim c call → ∃ l', mapStep g.word g.eraseSize lim c (valueIn l) call (mcall g kc vc call s).1 (valueIn l') ∧
      (∀ e ∈ l', e.2 ∈ l.map (·.2) ∨ ∃ b, call = .store e.2.1 e.2.2 b) ∧ EnduresMap g kc vc c lim n (mcall g kc vc call s).2 l') ∧
    (∀ mem', Damage g.word s.fl.mem mem' (itemsOf c l) →
      (∀ cache, MapCache g.pageCount cache →
        EnduresMap g kc vc c lim n { s with fl := { s.fl with mem := mem' }, cache := cache } (survivingEntries c g.word mem' l)) ∧
      ((∀ k a, s.cache.kp.location k = some a → ∃ e ∈ survivingEntries c g.word mem' l, e.1 = a) →
        EnduresMap g kc vc c lim n { s with fl := { s.fl with mem := mem' } } (survivingEntries c g.word mem' l)) ∧
      (∀ k a b, s.cache.kp.location k = some a → (∀ e ∈ survivingEntries c g.word mem' l, e.1 ≠ a) → lim ≤ b.length →
        (mcall g kc vc (.fetch k b) { s with fl := { s.fl with mem := mem' } }).1 =
            .ok (.value (valueIn (survivingEntries c g.word mem' l) k)) ∧
          ∃ l', (∀ k', valueIn l' k' = valueIn (survivingEntries c g.word mem' l) k') ∧
            (∀ e ∈ l', e.2 ∈ (survivingEntries c g.word mem' l).map (·.2)) ∧
            EnduresMap g kc vc c lim n (mcall g kc vc (.fetch k b) { s with fl := { s.fl with mem := mem' } }).2 l'))

theorem lastOf_mem {k : K} {v : V} : ∀ {l : List (K × V)}, (k, v) ∈ l → lastOf k l ≠ none
  | (k', v') :: l, h => by
    unfold lastOf
    cases hl : lastOf k l with
    | some x => simp
    | none =>
      rcases List.mem_cons.1 h with h | h
      · simp only [Prod.mk.injEq] at h
        simp [h.1]
      · exact absurd hl (lastOf_mem h)

/-- C49. Missing: calls other than that fetch while the cache has the location of a damaged item. With them it is
false, see `stale_location_gives_other_value`. -/
theorem damaged_entries_are_skipped_partial (w : g.WF) (hc : Codes kc vc c) (hn : 2 ≤ g.pageCount) {s : St K} (h : MStart g s) (n : Nat) :
    EnduresMap g kc vc c lim n s [] := by
  have hW : (⟨true, false, some lim, fun _ => True, true⟩ : Mode).cf = false → 8 ≤ g.word := by simp
  have key : ∀ (n : Nat) (s : St K) (l : List (Nat × K × V)),
      MAt kc vc c ⟨true, false, some lim, fun _ => True, true⟩ g s l → EnduresMap g kc vc c lim n s l := by
    intro n
    induction n with
    | zero => intro s l _; trivial
    | succ n ih =>
      intro s l h
      obtain ⟨h1, h2⟩ := h.placed w
      refine ⟨⟨h1, h2⟩, fun call hu => ?_, fun mem' H => ⟨fun cache hca => ?_, fun hk => ?_, fun k a b hk ha hb => ?_⟩⟩
      · obtain ⟨l', h3, h4, h5⟩ := h.call w hc hn rfl rfl rfl rfl call hu
        exact ⟨l', h3, h4, ih _ _ h5⟩
      · exact ih _ _ (h.damage_restart w hW rfl rfl H hca)
      · exact ih _ _ (h.damage w hW rfl rfl H hk)
      · obtain ⟨h3, l', h4, h5, h6⟩ := h.fetch_stale w hc hn rfl rfl rfl rfl rfl H hk ha hb
        exact ⟨h3, l', h4, h5, ih _ _ h6⟩
  obtain ⟨l, h1, h2, h3⟩ := (MStart.holds (kc := kc) (vc := vc) (md := ⟨true, false, some lim, fun _ => True, true⟩) w h rfl rfl hn).mAt hc
  have hl : l = [] := by
    cases l with
    | nil => rfl
    | cons e l =>
      have h4 := congrFun h2 e.2.1
      exact absurd h4.symm (lastOf_mem (v := e.2.2) (by simp))
  rw [hl] at h1
  exact key n s [] h1

/-- A key without damaged entries keeps its value. -/
theorem undamaged_key_keeps_value {W : Nat} {mem' : Nat → Byte} {l : List (Nat × K × V)} {k : K}
    (h : ∀ e ∈ l, e.2.1 = k → InFlash W mem' (e.1, c.data e.2.1 e.2.2)) :
    valueIn (survivingEntries c W mem' l) k = valueIn l k := by
  induction l with
  | nil => rfl
  | cons e l ih =>
    have ih := ih fun x hx => h x (by simp [hx])
    unfold survivingEntries at ih ⊢
    unfold valueIn at ih ⊢
    by_cases hd : InFlash W mem' (e.1, c.data e.2.1 e.2.2)
    · rw [List.filter_cons_of_pos (by simpa using hd), List.map_cons, List.map_cons]
      show lastOf k ((e.2.1, e.2.2) :: _) = lastOf k ((e.2.1, e.2.2) :: _)
      unfold lastOf
      rw [ih]
    · rw [List.filter_cons_of_neg (by simpa using hd), ih, List.map_cons]
      have hne : e.2.1 ≠ k := fun hk => hd (h e (by simp) hk)
      show _ = lastOf k ((e.2.1, e.2.2) :: _)
      conv => rhs; unfold lastOf
      rw [if_neg hne]
      cases lastOf k (l.map (·.2)) <;> rfl

/-! ### Concrete cases -/

/-- A map with a cache for everything, after two stores. The item of key 1 is at 4, its value at 14. -/
def mwarm : St K2 := (mrun geo3 (numKey 2) (numVal 4) [.restart (fullCache 3 4), .store 1 10 buf48, .store 2 20 buf48] blankMap).2

/-- The entries of `mwarm`. -/
def warmEntries : List (Nat × K2 × V4) := [(4, 1, 10), (20, 2, 20)]

theorem warm_placed : InPlace 4 mwarm.fl.mem (itemsOf (numCoding 2 4) warmEntries) := by
  constructor
  · intro p hp
    have : p = (4, (numCoding 2 4).data 1 10) ∨ p = (20, (numCoding 2 4).data 2 20) := by
      simpa [itemsOf, warmEntries] using hp
    rcases this with rfl | rfl <;> decide +kernel
  · decide +kernel

/-- The value of key 1 is damaged; its location is cached. -/
example : Damage 4 mwarm.fl.mem (setByte mwarm.fl.mem 14 11#8) (itemsOf (numCoding 2 4) warmEntries) :=
  (one_byte_is_damage (p := (4, (numCoding 2 4).data 1 10)) (by decide) warm_placed (by decide +kernel) ⟨by decide, by decide +kernel, by decide⟩ _).1

example : survivingEntries (numCoding 2 4) 4 (setByte mwarm.fl.mem 14 11#8) warmEntries = [(20, 2, 20)] ∧ mwarm.cache.kp.location 1 = some 4 := by
  decide +kernel

/-- Fetching it at once is fine. -/
example : (mrun geo3 (numKey 2) (numVal 4) [.fetch 1 buf48, .fetch 2 buf48, .store 3 30 buf48, .store 3 31 buf48, .store 3 32 buf48,
      .store 3 33 buf48, .fetch 1 buf48] (stSet mwarm 14 11#8)).1 =
    [.ok (.value none), .ok (.value (some 20)), .ok .done, .ok .done, .ok .done, .ok .done, .ok (.value none)] := by decide +kernel

/-- A newer value is damaged: the key has the older one again. -/
example : (mrun geo3 (numKey 2) (numVal 4) [.store 1 12 buf48, .fetch 1 buf48] mwarm).1 = [.ok .done, .ok (.value (some 12))] ∧
    (mrun geo3 (numKey 2) (numVal 4) [.restart noCache, .fetch 1 buf48]
      (stSet (mrun geo3 (numKey 2) (numVal 4) [.restart noCache, .store 1 12 buf48] mwarm).2 62 13#8)).1 =
    [.ok .done, .ok (.value (some 10))] := by decide +kernel

/-- All calls and damages from an erased flash. -/
example : EnduresMap geo3 (numKey 2) (numVal 4) (numCoding 2 4) 8 100 blankMap [] :=
  damaged_entries_are_skipped_partial geo3_wf (num_codes 2 4) (by decide) (blank_start _) 100

example : valueIn (survivingEntries (numCoding 2 4) 4 (setByte mwarm.fl.mem 14 11#8) warmEntries) 2 = valueIn warmEntries 2 :=
  undamaged_key_keeps_value (by
    intro e he hk
    have : e = (4, 1, 10) ∨ e = (20, 2, 20) := by simpa [warmEntries] using he
    rcases this with rfl | rfl
    · exact absurd hk (by decide)
    · decide +kernel)

/-- C49. One flipped bit in the item of key 1, whose location is in the key cache. Key 1 is not used, so the cache is not
invalidated. When the page has been erased and written again, the cached location is that of another
item: fetching key 1 gives the value of key 3. The key of the item at a cached location is never compared
(/repo/src/map.rs 224-277). -/
theorem stale_location_gives_other_value :
    bitDiff (mwarm.fl.mem 14) 11#8 = 1 ∧
    (mrun geo3 (numKey 2) (numVal 4) [.store 3 30 buf48, .store 3 31 buf48, .store 3 32 buf48, .store 3 33 buf48, .fetch 1 buf48, .fetch 2 buf48]
      (stSet mwarm 14 11#8)).1 =
      [.ok .done, .ok .done, .ok .done, .ok .done, .ok (.value (some 33)), .ok (.value (some 20))] ∧
    (mrun geo3 (numKey 2) (numVal 4) [.restart noCache, .store 3 30 buf48, .store 3 31 buf48, .store 3 32 buf48, .store 3 33 buf48, .fetch 1 buf48, .fetch 2 buf48]
      (stSet mwarm 14 11#8)).1 =
      [.ok .done, .ok .done, .ok .done, .ok .done, .ok .done, .ok (.value none), .ok (.value (some 20))] := by
  refine ⟨by decide +kernel, by decide +kernel, by decide +kernel⟩

end SeqStorage.Props
