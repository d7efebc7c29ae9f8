import Verif.Proofs.MapUse
import Verif.Props.QueueCrash
import Verif.Props.Codec
/-
The map without power loss: C07, C08, C09, C13, C14, C36 and the map's part of C16 and C17.
-/

namespace SeqStorage.Props
open M Spec Codec

variable {K V : Type} [DecidableEq K] {kc : KeyCodec K} {vc : ValCodec V} {c : Coding K V} {g : Geo} {s : St K} {lim : Nat}

/-! ### Keys and values -/

omit [DecidableEq K] in
/-- Lawful serializers have bytes for every key and value. -/
theorem codes_of_round_trip {valid : K → Prop} (hk : KeyRoundTrip kc valid) (hr : ∀ k, ¬ valid k → ∀ n, ∃ e, kc.ser k n = .error e)
    (hv : ValRoundTrip vc) : ∃ c, Codes kc vc c := by
  classical
  refine ⟨⟨fun k => if h : valid k then some (Classical.choose (hk k h)) else none, fun v => Classical.choose (hv v)⟩, ?_⟩
  have key : ∀ {k bs}, (if h : valid k then some (Classical.choose (hk k h)) else none) = some bs →
      (∀ n, (bs.length ≤ n → kc.ser k n = .ok bs) ∧ (n < bs.length → ∃ e, kc.ser k n = .error e)) ∧
      (∀ rest, kc.de (bs ++ rest) = .ok (k, bs.length) ∧ kc.getLen (bs ++ rest) = .ok bs.length) := by
    intro k bs h
    split at h
    · rename_i hvk
      simp only [Option.some.injEq] at h
      subst h
      exact Classical.choose_spec (hk k hvk)
    · simp at h
  constructor
  · intro k n bs h; exact ((key h).1 n).1
  · intro k n bs h; exact ((key h).1 n).2
  · intro k n h
    refine hr k ?_ n
    intro hvk
    simp only at h
    rw [dif_pos hvk] at h
    simp at h
  · intro k bs rest h; exact (key h).2 rest
  · intro v n; exact ((Classical.choose_spec (hv v)).1 n).1
  · intro v n; exact ((Classical.choose_spec (hv v)).1 n).2
  · intro v; exact ⟨_, (Classical.choose_spec (hv v)).2⟩

example : ∃ c, Codes (vecKey none) (optionVal (numVal 4)) c :=
  codes_of_round_trip (vec_key_round_trip none)
    (fun k hk n => ⟨_, vec_key_too_long none k (by simpa using hk) n⟩) (option_val_round_trip _ (num_val_round_trip 4))

/-- The bytes of numbers. -/
def numCoding (a b : Nat) : Coding (BitVec (8 * a)) (BitVec (8 * b)) := ⟨fun k => some (leBytes a k), leBytes b⟩

theorem num_codes (a b : Nat) : Codes (numKey a) (numVal b) (numCoding a b) := by
  have hd : ∀ n (v : BitVec (8 * n)) (rest : List Byte), (numKey n).de (leBytes n v ++ rest) = .ok (v, n) := by
    intro n v rest
    have hl := leBytes_length n v
    simp only [numKey, List.length_append, hl]
    rw [if_neg (by omega), List.take_left' hl, ofLeBytes_leBytes]
  constructor
  · intro k n bs h hl; simp only [numCoding, Option.some.injEq] at h; subst h; exact fit_ok hl
  · intro k n bs h hl; simp only [numCoding, Option.some.injEq] at h; subst h; exact ⟨_, fit_err hl⟩
  · intro k n h; simp [numCoding] at h
  · intro k bs rest h
    simp only [numCoding, Option.some.injEq] at h; subst h
    rw [leBytes_length]
    exact ⟨hd a k rest, rfl⟩
  · intro v n hl; exact fit_ok hl
  · intro v n hl; exact ⟨_, fit_err hl⟩
  · intro v
    have := hd b v []
    rw [List.append_nil] at this
    exact ⟨_, this⟩

/-! ### Concrete maps, used for examples -/

/-- Keys of two bytes and values of four. -/
abbrev K2 := BitVec (8 * 2)
abbrev V4 := BitVec (8 * 4)

/-- An erased chip with nothing cached. -/
def blankMap : St K2 :=
  ⟨⟨fun _ => 0xff#8, none, [], fun _ => 0, fun _ => 0, 0, 0⟩, noCache, [], ⟨.address 0, .allPopped, 0⟩, ⟨0, 0, 0, 0⟩⟩

/-- A cache of everything, for `n` pages and `m` keys. -/
def fullCache (n m : Nat) : Cache K2 :=
  ⟨false, .table (List.replicate n none), .tracked (List.replicate n none) (List.replicate n none), .tracked (List.replicate m none)⟩

theorem noCache_map (n : Nat) : MapCache n (noCache : Cache K2) := ⟨noCache_fresh n, by simp [noCache]⟩

theorem fullCache_map (n m : Nat) (h : 0 < m) : MapCache n (fullCache n m) :=
  ⟨⟨rfl, Or.inr (Or.inr rfl), Or.inr rfl, Or.inr ⟨m, rfl⟩⟩, by
    unfold fullCache
    intro h'
    simp only [KPCache.tracked.injEq] at h'
    have := congrArg List.length h'
    simp at this; omega⟩

theorem blank_start (g : Geo) : MStart g blankMap :=
  ⟨⟨fun _ _ _ => rfl, rfl, fun _ => rfl, fun _ => rfl, rfl, rfl⟩, rfl, noCache_map _⟩

/-- Three pages of 48 bytes with words of four bytes: two items in a page. -/
def geo3 : Geo := ⟨1, 4, 48, 0, 144⟩
theorem geo3_wf : geo3.WF := by constructor <;> decide

def buf48 : List Byte := List.replicate 48 0#8

/-- Stores for two keys that go through all the pages more than once, and a remove. -/
def mcalls : List (MCall K2 V4 (Cache K2)) :=
  [.store 1 10 buf48, .store 2 20 buf48, .store 1 11 buf48, .store 1 12 buf48, .restart (fullCache 3 2), .store 1 13 buf48, .store 3 30 buf48,
    .remove 3 buf48, .store 1 14 buf48, .store 3 31 buf48, .store 1 15 buf48]

theorem mcalls_ok : ∀ call ∈ mcalls, MUsable geo3 8 (numCoding 2 4) call := by
  intro call h
  simp only [mcalls, List.mem_cons, List.not_mem_nil, or_false] at h
  rcases h with rfl | rfl | rfl | rfl | rfl | rfl | rfl | rfl | rfl | rfl | rfl <;>
    first | exact ⟨trivial, fun _ => by decide, by unfold LargeBuffers; decide⟩ | exact ⟨trivial, trivial, by unfold LargeBuffers; decide⟩ | exact ⟨fullCache_map _ _ (by decide), trivial, trivial⟩

/-- The state after that. -/
def mst : St K2 := (mrun geo3 (numKey 2) (numVal 4) mcalls blankMap).2

theorem mst_reached : MReached (numKey 2) (numVal 4) (numCoding 2 4) geo3 8 mst := ⟨_, mcalls, blank_start _, mcalls_ok, rfl⟩

/-- Four live items, so that nothing more fits. -/
def mcalls' : List (MCall K2 V4 (Cache K2)) := mcalls ++ [.store 4 40 buf48]

def mfull : St K2 := (mrun geo3 (numKey 2) (numVal 4) mcalls' blankMap).2

theorem mfull_reached : MReached (numKey 2) (numVal 4) (numCoding 2 4) geo3 8 mfull := by
  refine ⟨_, mcalls', blank_start _, ?_, rfl⟩
  intro call h
  rcases List.mem_append.1 h with h | h
  · exact mcalls_ok call h
  · simp only [List.mem_singleton] at h
    subst h
    exact ⟨trivial, fun _ => by decide, by unfold LargeBuffers; decide⟩

/-! ### C07 -/

/-- C07. Every sequence of calls on a fresh region answers like an ordinary map. -/
theorem map_is_finite_map (w : g.WF) (hc : Codes kc vc c) (hn : 2 ≤ g.pageCount) (h : MStart g s) (cs : List (MCall K V (Cache K)))
    (hd : ∀ call ∈ cs, MUsable g lim c call) :
    ∃ m, Runs (mapStep g.word g.eraseSize lim c) (fun _ => none) cs (mrun g kc vc cs s).1 m ∧ Fetches kc vc g lim (mrun g kc vc cs s).2 m := by
  obtain ⟨m, h1, h2⟩ := mrun_plain w hc hn (md := ⟨true, false, some lim, fun _ => True, false⟩) rfl rfl cs (h.holds w rfl rfl hn (big := true)) hd (by simp) (fun x _ => Stores.all x)
  exact ⟨m, h1, h2.fetches w hc hn rfl rfl⟩

example : ∃ m, Runs (mapStep 4 48 8 (numCoding 2 4)) (fun _ => none) mcalls (mrun geo3 (numKey 2) (numVal 4) mcalls blankMap).1 m ∧
    Fetches (numKey 2) (numVal 4) geo3 8 mst m :=
  map_is_finite_map geo3_wf (num_codes 2 4) (by decide) (blank_start _) mcalls mcalls_ok

/-- Buffers of the documented size: the longest item, rounded up to whole words. -/
def msmall : List (MCall K2 V4 (Cache K2)) :=
  (List.range 12).map fun i => .store (BitVec.ofNat 16 (i % 3)) (BitVec.ofNat 32 i) (List.replicate 8 0#8)

theorem msmall_ok : ∀ call ∈ msmall, MUsable geo3 8 (numCoding 2 4) call := by
  intro call h
  obtain ⟨i, _, rfl⟩ := List.mem_map.1 h
  refine ⟨trivial, fun _ => ?_, ?_⟩
  · have e : ((numCoding 2 4).data (BitVec.ofNat 16 (i % 3)) (BitVec.ofNat 32 i)).length = 6 := by
      simp [numCoding, Coding.data, leBytes_length]
    rw [e]; decide
  · simp [LargeBuffers]

example : ∃ m, Runs (mapStep 4 48 8 (numCoding 2 4)) (fun _ => none) msmall (mrun geo3 (numKey 2) (numVal 4) msmall blankMap).1 m ∧
    Fetches (numKey 2) (numVal 4) geo3 8 (mrun geo3 (numKey 2) (numVal 4) msmall blankMap).2 m :=
  map_is_finite_map geo3_wf (num_codes 2 4) (by decide) (blank_start _) msmall msmall_ok

example : (mrun geo3 (numKey 2) (numVal 4) msmall blankMap).1 = List.replicate 12 (.ok .done) := by decide +kernel

/-- With a byte less it fails. -/
theorem shorter_buffer_fails :
    (mrun geo3 (numKey 2) (numVal 4) [.store 1 10 (List.replicate 8 0#8), .fetch 1 (List.replicate 7 0#8)] blankMap).1 =
      [.ok .done, .error (.bufferTooSmall 8)] := by decide +kernel

/-- What a key was last set to by the calls that succeeded. -/
def lastSet (k : K) : Option V → List (MCall K V (Cache K) × Except Err (MAnswer K V)) → Option V
  | v, [] => v
  | v, (.store k' v' _, .ok _) :: l => lastSet k (if k = k' then some v' else v) l
  | v, (.remove k' _, .ok _) :: l => lastSet k (if k = k' then none else v) l
  | _, (.removeAll _, .ok _) :: l => lastSet k none l
  | v, _ :: l => lastSet k v l

theorem runs_lastSet {W page : Nat} (cs : List (MCall K V (Cache K))) : ∀ {rs : List (Except Err (MAnswer K V))} {m m' : K → Option V},
    Runs (mapStep W page lim c) m cs rs m' → ∀ k, m' k = lastSet k (m k) (cs.zip rs) := by
  induction cs with
  | nil => intro rs m m' h k; obtain ⟨rfl, rfl⟩ := h; rfl
  | cons call cs ih =>
    intro rs m m' h k
    obtain ⟨r, rs', m1, rfl, h1, h2⟩ := h
    rw [ih h2 k, List.zip_cons_cons]
    cases call with
    | store k' v' b =>
      rcases h1 with ⟨_, rfl, rfl⟩ | ⟨hr, rfl⟩
      · rfl
      · rcases hr with ⟨_, e, rfl⟩ | ⟨_, _, _, rfl⟩ | ⟨_, rfl⟩ <;> rfl
    | fetch k' b => obtain ⟨rfl, rfl⟩ := h1; rfl
    | remove k' b => obtain ⟨rfl, rfl⟩ := h1; rfl
    | removeAll b => obtain ⟨rfl, rfl⟩ := h1; rfl
    | fetchAll b steps => obtain ⟨rfl, todo, l, _, rfl, _⟩ := h1; rfl
    | restart r => obtain ⟨rfl, rfl⟩ := h1; rfl

/-- C07. A fetch gives what was last stored successfully, unless it was removed since. -/
theorem fetch_gives_last_stored (w : g.WF) (hc : Codes kc vc c) (hn : 2 ≤ g.pageCount) (h : MStart g s) (cs : List (MCall K V (Cache K)))
    (hd : ∀ call ∈ cs, MUsable g lim c call) (k : K) (b : List Byte) (hb : lim ≤ b.length) :
    (mcall g kc vc (.fetch k b) (mrun g kc vc cs s).2).1 = .ok (.value (lastSet k none (cs.zip (mrun g kc vc cs s).1))) := by
  obtain ⟨m, h1, h2⟩ := map_is_finite_map w hc hn h cs hd
  rw [h2 k b hb, runs_lastSet cs h1 k]

example : (mcall geo3 (numKey 2) (numVal 4) (.fetch 1 buf48) mst).1 = .ok (.value (some 15)) ∧
    (mcall geo3 (numKey 2) (numVal 4) (.fetch 2 buf48) mst).1 = .ok (.value (some 20)) ∧
    (mcall geo3 (numKey 2) (numVal 4) (.fetch 3 buf48) mst).1 = .ok (.value (some 31)) ∧
    (mcall geo3 (numKey 2) (numVal 4) (.fetch 4 buf48) mst).1 = .ok (.value none) := by
  refine ⟨?_, ?_, ?_, ?_⟩ <;>
  · rw [mst, fetch_gives_last_stored geo3_wf (num_codes 2 4) (by decide) (blank_start _) mcalls mcalls_ok _ _ (by decide)]
    decide +kernel

/-! ### C08, C09 -/

/-- C08. A refused store changes nothing, and when it is refused. -/
theorem refused_store_changes_nothing (w : g.WF) (hc : Codes kc vc c) (hn : 2 ≤ g.pageCount) (h : MReached kc vc c g lim s) (k : K) (v : V)
    (b : List Byte) (hb : lim ≤ b.length)
    (hw : FitsPage g.word g.eraseSize (c.data k v) → pad g.word (c.data k v).length ≤ lim) (e : Err) (he : (mcall g kc vc (.store k v b) s).1 = .error e) :
    ∃ m, Fetches kc vc g lim s m ∧ Fetches kc vc g lim (mcall g kc vc (.store k v b) s).2 m ∧
      (((c.key k = none ∨ b.length < (c.data k v).length) ∧ ∃ x, e = .serialization x) ∨
       (¬ FitsPage g.word g.eraseSize (c.data k v) ∧ e = .itemTooBig) ∨
       (¬ FitsOne g.word g.eraseSize c m k v ∧ e = .fullStorage)) := by
  obtain ⟨m, h⟩ := h.holds w hc hn
  obtain ⟨m', h1, h2⟩ := mcall_plain w hc hn rfl rfl h (.store k v b) trivial hw hb (by simp)
  simp only [mapStep, he] at h1
  rcases h1 with ⟨_, h1, _⟩ | ⟨hr, rfl⟩
  · simp at h1
  · refine ⟨_, h.fetches w hc hn rfl rfl, h2.fetches w hc hn rfl rfl, ?_⟩
    rcases hr with ⟨h3, x, h4⟩ | ⟨_, _, h3, h4⟩ | ⟨h3, h4⟩
    · exact Or.inl ⟨h3, x, by simpa using h4⟩
    · exact Or.inr (Or.inl ⟨h3, by simpa using h4⟩)
    · exact Or.inr (Or.inr ⟨h3, by simpa using h4⟩)

example : (mcall geo3 (numKey 2) (numVal 4) (.store 5 50 buf48) mfull).1 = .error .fullStorage := by decide +kernel

example : ∃ m, Fetches (numKey 2) (numVal 4) geo3 8 mfull m ∧
    Fetches (numKey 2) (numVal 4) geo3 8 (mcall geo3 (numKey 2) (numVal 4) (.store 5 50 buf48) mfull).2 m := by
  obtain ⟨m, h1, h2, _⟩ := refused_store_changes_nothing geo3_wf (num_codes 2 4) (by decide) mfull_reached 5 50 buf48
    (by decide) (fun _ => by decide) .fullStorage (by decide +kernel)
  exact ⟨m, h1, h2⟩

/-- C09. A store changes its own key and nothing else, also when it recycles pages. -/
theorem store_changes_one_key (w : g.WF) (hc : Codes kc vc c) (hn : 2 ≤ g.pageCount) (h : MReached kc vc c g lim s) (k : K) (v : V)
    (b : List Byte) (hb : lim ≤ b.length)
    (hw : FitsPage g.word g.eraseSize (c.data k v) → pad g.word (c.data k v).length ≤ lim) (hok : (mcall g kc vc (.store k v b) s).1 = .ok .done) :
    ∃ m, Fetches kc vc g lim s m ∧ Fetches kc vc g lim (mcall g kc vc (.store k v b) s).2 (put m k (some v)) := by
  obtain ⟨m, h⟩ := h.holds w hc hn
  obtain ⟨m', h1, h2⟩ := mcall_plain w hc hn rfl rfl h (.store k v b) trivial hw hb (by simp)
  simp only [mapStep, hok] at h1
  rcases h1 with ⟨_, _, rfl⟩ | ⟨hr, rfl⟩
  · exact ⟨_, h.fetches w hc hn rfl rfl, h2.fetches w hc hn rfl rfl⟩
  · rcases hr with ⟨_, _, h4⟩ | ⟨_, _, _, h4⟩ | ⟨_, h4⟩ <;> simp at h4

/-- A store that recycles a page. -/
example : (mrun geo3 (numKey 2) (numVal 4) (mcalls.take 9) blankMap).2.fl.erases = [48, 0] ∧
    (mrun geo3 (numKey 2) (numVal 4) (mcalls.take 10) blankMap).2.fl.erases = [96, 48, 0] ∧
    (mrun geo3 (numKey 2) (numVal 4) (mcalls.take 10) blankMap).1.getLast? = some (.ok .done) := by decide +kernel

example : ∃ m, Fetches (numKey 2) (numVal 4) geo3 8 (mrun geo3 (numKey 2) (numVal 4) (mcalls.take 9) blankMap).2 m ∧
    Fetches (numKey 2) (numVal 4) geo3 8
      (mcall geo3 (numKey 2) (numVal 4) (.store 3 31 buf48) (mrun geo3 (numKey 2) (numVal 4) (mcalls.take 9) blankMap).2).2 (put m 3 (some 31)) :=
  store_changes_one_key geo3_wf (num_codes 2 4) (by decide)
    ⟨_, mcalls.take 9, blank_start _, fun x hx => mcalls_ok x (List.mem_of_mem_take hx), rfl⟩ 3 31 buf48 (by decide) (fun _ => by decide)
    (by decide +kernel)

/-- C09. No other call changes what any key gives, except for the keys it removes. Recycling may go on in any call,
finishing what a refused store left. -/
theorem other_calls_keep_values (w : g.WF) (hc : Codes kc vc c) (hn : 2 ≤ g.pageCount) (h : MReached kc vc c g lim s)
    (call : MCall K V (Cache K)) (hd : MUsable g lim c call) :
    ∃ m m', Fetches kc vc g lim s m ∧ Fetches kc vc g lim (mcall g kc vc call s).2 m' ∧
      ∀ k, (∀ v b, call ≠ .store k v b) → (∀ b, call ≠ .remove k b) → (∀ b, call ≠ .removeAll b) → m' k = m k := by
  obtain ⟨m, h⟩ := h.holds w hc hn
  obtain ⟨m', h1, h2⟩ := mcall_plain w hc hn rfl rfl h call hd.doc hd.within hd.large (by simp)
  refine ⟨m, m', h.fetches w hc hn rfl rfl, h2.fetches w hc hn rfl rfl, ?_⟩
  intro k hk1 hk2 hk3
  cases call with
  | store k' v' b =>
    rcases h1 with ⟨_, _, rfl⟩ | ⟨_, rfl⟩
    · exact if_neg (by rintro rfl; exact hk1 v' b rfl)
    · rfl
  | remove k' b => rw [h1.2]; exact if_neg (by rintro rfl; exact hk2 b rfl)
  | removeAll b => exact absurd rfl (hk3 b)
  | fetch k' b => rw [h1.2]
  | fetchAll b steps => rw [h1.1]
  | restart r => rw [h1.2]

example : ∃ m m', Fetches (numKey 2) (numVal 4) geo3 8 mst m ∧
    Fetches (numKey 2) (numVal 4) geo3 8 (mcall geo3 (numKey 2) (numVal 4) (.remove 3 buf48) mst).2 m' ∧ m' 1 = m 1 := by
  obtain ⟨m, m', h1, h2, h3⟩ := other_calls_keep_values geo3_wf (num_codes 2 4) (by decide) mst_reached (.remove 3 buf48)
    ⟨trivial, trivial, by unfold LargeBuffers; decide⟩
  exact ⟨m, m', h1, h2, h3 1 (by simp) (by simp) (by simp)⟩

/-! ### C13 -/

/-- C13. Removing a key removes it completely and nothing else. -/
theorem remove_removes_one_key (w : g.WF) (hc : Codes kc vc c) (hn : 2 ≤ g.pageCount) (h : MReached kc vc c g lim s) (k : K)
    (b : List Byte) (hb : lim ≤ b.length) :
    (mcall g kc vc (.remove k b) s).1 = .ok .done ∧
    ∃ m, Fetches kc vc g lim s m ∧ Fetches kc vc g lim (mcall g kc vc (.remove k b) s).2 (put m k none) := by
  obtain ⟨m, h⟩ := h.holds w hc hn
  obtain ⟨m', h1, h2⟩ := mcall_plain w hc hn rfl rfl h (.remove k b) trivial trivial hb (by simp)
  obtain ⟨h1, rfl⟩ := h1
  exact ⟨h1, m, h.fetches w hc hn rfl rfl, h2.fetches w hc hn rfl rfl⟩

example : ∃ m, Fetches (numKey 2) (numVal 4) geo3 8 mst m ∧
    Fetches (numKey 2) (numVal 4) geo3 8 (mcall geo3 (numKey 2) (numVal 4) (.remove 1 buf48) mst).2 (put m 1 none) :=
  (remove_removes_one_key geo3_wf (num_codes 2 4) (by decide) mst_reached 1 buf48 (by decide)).2

/-- A removed key stays removed until it is stored again, whatever else happens. -/
theorem removed_stays_removed (w : g.WF) (hc : Codes kc vc c) (hn : 2 ≤ g.pageCount) (h : MReached kc vc c g lim s) (k : K)
    (b : List Byte) (hb : lim ≤ b.length) (cs : List (MCall K V (Cache K)))
    (hd : ∀ call ∈ cs, MUsable g lim c call) (hk : ∀ v b, MCall.store k v b ∉ cs)
    (b' : List Byte) (hb' : lim ≤ b'.length) :
    (mcall g kc vc (.fetch k b') (mrun g kc vc cs (mcall g kc vc (.remove k b) s).2).2).1 = .ok (.value none) := by
  obtain ⟨m, h⟩ := h.holds w hc hn
  obtain ⟨m1, h1, h2⟩ := mcall_plain w hc hn rfl rfl h (.remove k b) trivial trivial hb (by simp)
  obtain ⟨_, rfl⟩ := h1
  obtain ⟨m2, h3, h4⟩ := mrun_plain w hc hn rfl rfl cs h2 hd (by simp) (fun x _ => Stores.all x)
  rw [h4.fetches w hc hn rfl rfl k b' hb', runs_lastSet cs h3 k]
  have : ∀ (cs : List (MCall K V (Cache K))) (rs : List (Except Err (MAnswer K V))), (∀ v b, MCall.store k v b ∉ cs) →
      lastSet k none (cs.zip rs) = none := by
    intro cs
    induction cs with
    | nil => intro rs _; rfl
    | cons call cs ih =>
      intro rs hk
      cases rs with
      | nil => rfl
      | cons r rs =>
        rw [List.zip_cons_cons]
        have ih' := ih rs (fun v b hm => hk v b (by simp [hm]))
        cases call with
        | store k' v' b =>
          have hne : k ≠ k' := by rintro rfl; exact hk v' b (by simp)
          cases r <;> simp only [lastSet, if_neg hne] <;> exact ih'
        | remove k' b => cases r <;> simp only [lastSet, ite_self] <;> exact ih'
        | removeAll b => cases r <;> exact ih'
        | fetch k' b => exact ih'
        | fetchAll b steps => exact ih'
        | restart r => exact ih'
  have hp : put m k none k = none := if_pos rfl
  rw [hp, this cs _ hk]

example : (mcall geo3 (numKey 2) (numVal 4) (.fetch 1 buf48) (mrun geo3 (numKey 2) (numVal 4)
    [.store 3 32 buf48, .store 2 22 buf48, .store 3 33 buf48, .restart noCache, .store 2 23 buf48]
    (mcall geo3 (numKey 2) (numVal 4) (.remove 1 buf48) mst).2).2).1 = .ok (.value none) :=
  removed_stays_removed geo3_wf (num_codes 2 4) (by decide) mst_reached 1 buf48 (by decide) _
    (by
      intro call h
      simp only [List.mem_cons, List.not_mem_nil, or_false] at h
      rcases h with rfl | rfl | rfl | rfl | rfl <;>
        first | exact ⟨trivial, fun _ => by decide, by unfold LargeBuffers; decide⟩ | exact ⟨trivial, trivial, by unfold LargeBuffers; decide⟩ | exact ⟨noCache_map _, trivial, trivial⟩)
    (by intro v b h; simp at h) buf48 (by decide)

/-- C13. Removing everything removes everything. -/
theorem remove_all_removes_all (w : g.WF) (hc : Codes kc vc c) (hn : 2 ≤ g.pageCount) (h : MReached kc vc c g lim s)
    (b : List Byte) (hb : lim ≤ b.length) :
    (mcall g kc vc (.removeAll b) s).1 = .ok .done ∧ Fetches kc vc g lim (mcall g kc vc (.removeAll b) s).2 (fun _ => none) := by
  obtain ⟨m, h⟩ := h.holds w hc hn
  obtain ⟨m', h1, h2⟩ := mcall_plain w hc hn rfl rfl h (.removeAll b) trivial trivial hb (by simp)
  obtain ⟨h1, rfl⟩ := h1
  exact ⟨h1, h2.fetches w hc hn rfl rfl⟩

example : Fetches (numKey 2) (numVal 4) geo3 8 (mcall geo3 (numKey 2) (numVal 4) (.removeAll buf48) mst).2 (fun _ => none) :=
  (remove_all_removes_all geo3_wf (num_codes 2 4) (by decide) mst_reached buf48 (by decide)).2

/-! ### C14 -/

omit [DecidableEq K] in
theorem shows_large : ∀ {steps : List (List Byte)} {todo : List (K × V)} {l : List (Except Err (Option (K × V)))},
    (∀ b ∈ steps, lim ≤ b.length) → shows lim todo steps l →
    l.length = steps.length ∧ ∀ i, i < steps.length → i ≤ todo.length → l[i]? = some (.ok todo[i]?) := by
  intro steps
  induction steps with
  | nil => intro todo l _ h; simp only [shows] at h; subst h; simp
  | cons b steps ih =>
    intro todo l hb h
    simp only [shows] at h
    rcases h with ⟨x, rest, l', rfl, rfl, h⟩ | ⟨rfl, l', rfl, h, _⟩ | ⟨h, _⟩
    · obtain ⟨h1, h2⟩ := ih (fun b' hm => hb b' (by simp [hm])) h
      refine ⟨by simp [h1], ?_⟩
      intro i hi hle
      cases i with
      | zero => simp
      | succ i =>
        simp only [List.length_cons] at hi hle
        simpa using h2 i (by omega) (by omega)
    · refine ⟨by simp [h], ?_⟩
      intro i hi hle
      have : i = 0 := by simpa using hle
      subst this; simp
    · exact absurd h (not_small (hb b (by simp)))

/-- C14. The iterator gives a list of items and then nothing. The last value for each key in that list is the current
one; removed keys do not occur. -/
theorem iteration_shows_current (w : g.WF) (hc : Codes kc vc c) (hn : 2 ≤ g.pageCount) (h : MReached kc vc c g lim s) :
    ∃ (m : K → Option V) (todo : List (K × V)), Fetches kc vc g lim s m ∧ (∀ k, lastOf k todo = m k) ∧
      ∀ b, lim ≤ b.length → ∀ n, ∃ l,
        (mcall g kc vc (.fetchAll b (List.replicate n b)) s).1 = .ok (.items l) ∧ l.length = n ∧
        (∀ i, i < n → i ≤ todo.length → l[i]? = some (.ok todo[i]?)) ∧
        Fetches kc vc g lim (mcall g kc vc (.fetchAll b (List.replicate n b)) s).2 m := by
  obtain ⟨m, hh⟩ := h.holds w hc hn
  obtain ⟨b0, σ, P, h, hse, hm⟩ := id hh
  refine ⟨m, shown kc vc (icontent g.pageCount σ P), hh.fetches w hc hn rfl rfl, ?_, ?_⟩
  · intro k
    rw [lastOf_shown hc.lawful k _ h.mp.enc]; exact hm k
  · intro b hb n
    have hb' : ∀ b' ∈ List.replicate n b, lim ≤ b'.length := by
      intro b' hm'; rw [List.eq_of_mem_replicate hm']; exact hb
    have hcf : σ.corr = false := h.good.fs.torn_free rfl
    have e := mcall_buf (g := g) (kc := kc) (vc := vc) (.fetchAll b (List.replicate n b)) (by simp) b0 s
    rcases (fetchAll_call w rfl hc hn h hse hm b (List.replicate n b) (fun _ => ⟨hb, hb'⟩)).cases with
      ⟨a, s1, he, h1, h2⟩ | ⟨e, s1, he, _, h1, _⟩
    · rw [e] at he
      obtain ⟨_, l, rfl, h3⟩ := h1 hcf
      obtain ⟨h4, h5⟩ := shows_large hb' h3
      rw [he]
      refine ⟨l, rfl, by rw [h4]; simp, ?_, h2.have.fetches w hc hn rfl rfl⟩
      intro i hi hle
      exact h5 i (by simpa using hi) hle
    · rw [hcf] at h1; simp at h1

/-- Data that a call of the list stores. -/
def StoredIn (c : Coding K V) (cs : List (MCall K V (Cache K))) (d : List Byte) : Prop :=
  ∃ k v, c.key k ≠ none ∧ d = c.data k v ∧ ∃ b, .store k v b ∈ cs

theorem stores_in (cs : List (MCall K V (Cache K))) : ∀ call ∈ cs, Stores (StoredIn c cs) c call := by
  intro call hc
  cases call with
  | store k v b => exact fun hk => ⟨k, v, hk, rfl, b, hc⟩
  | _ => trivial

/-- C14. All that the iterator shows was stored: it makes nothing up. -/
theorem iteration_shows_stored (w : g.WF) (hc : Codes kc vc c) (hn : 2 ≤ g.pageCount) (h : MStart g s) (cs : List (MCall K V (Cache K)))
    (hd : ∀ call ∈ cs, MUsable g lim c call) (b : List Byte) (hb : lim ≤ b.length) (n : Nat) :
    ∃ (todo : List (K × V)) (l : List (Except Err (Option (K × V)))),
      (mcall g kc vc (.fetchAll b (List.replicate n b)) (mrun g kc vc cs s).2).1 = .ok (.items l) ∧ l.length = n ∧
      (∀ i, i < n → i ≤ todo.length → l[i]? = some (.ok todo[i]?)) ∧
      ∀ p ∈ todo, ∃ b, MCall.store p.1 p.2 b ∈ cs := by
  obtain ⟨m, _, hh⟩ := mrun_plain w hc hn (md := ⟨true, false, some lim, StoredIn c cs, false⟩) rfl rfl cs (h.holds w rfl rfl hn (big := true)) hd (by simp)
    (stores_in cs)
  generalize (mrun g kc vc cs s).2 = s at hh ⊢
  obtain ⟨b0, σ, P, h, hse, hm⟩ := id hh
  have hb' : ∀ b' ∈ List.replicate n b, lim ≤ b'.length := by
    intro b' hm'; rw [List.eq_of_mem_replicate hm']; exact hb
  have hcf : σ.corr = false := h.good.fs.torn_free rfl
  have e := mcall_buf (g := g) (kc := kc) (vc := vc) (.fetchAll b (List.replicate n b)) (by simp) b0 s
  rcases (fetchAll_call w rfl hc hn h hse hm b (List.replicate n b) (fun _ => ⟨hb, hb'⟩)).cases with
    ⟨a, s1, he, h1, h2⟩ | ⟨e, s1, he, _, h1, _⟩
  · rw [e] at he
    obtain ⟨_, l, rfl, h3⟩ := h1 hcf
    obtain ⟨h4, h5⟩ := shows_large hb' h3
    rw [he]
    exact ⟨shown kc vc (icontent g.pageCount σ P), l, rfl, by rw [h4]; simp, fun i hi hle => h5 i (by simpa using hi) hle,
      shown_stored hc fun it hi hp => (h.mp.nt it hi hp).2⟩
  · rw [hcf] at h1; simp at h1

example : ∃ (todo : List (K2 × V4)) (l : List (Except Err (Option (K2 × V4)))),
    (mcall geo3 (numKey 2) (numVal 4) (.fetchAll buf48 (List.replicate 4 buf48)) (mrun geo3 (numKey 2) (numVal 4) mcalls blankMap).2).1 = .ok (.items l) ∧
      l.length = 4 ∧ (∀ i, i < 4 → i ≤ todo.length → l[i]? = some (.ok todo[i]?)) ∧ ∀ p ∈ todo, ∃ b, MCall.store p.1 p.2 b ∈ mcalls :=
  iteration_shows_stored geo3_wf (num_codes 2 4) (by decide) (blank_start _) mcalls mcalls_ok buf48 (by decide) 4

example : (mcall geo3 (numKey 2) (numVal 4) (.fetchAll buf48 (List.replicate 4 buf48)) mst).1 =
    .ok (.items [.ok (some (2, 20)), .ok (some (3, 31)), .ok (some (1, 14)), .ok (some (1, 15))]) := by decide +kernel

example : ∃ (m : K2 → Option V4) (todo : List (K2 × V4)), Fetches (numKey 2) (numVal 4) geo3 8 mst m ∧ (∀ k, lastOf k todo = m k) := by
  obtain ⟨m, todo, h1, h2, _⟩ := iteration_shows_current geo3_wf (num_codes 2 4) (by decide) mst_reached
  exact ⟨m, todo, h1, h2⟩

/-- The iterator does not stay at its end: asked again after `None`, it starts over. -/
theorem iterator_starts_over :
    (mcall geo3 (numKey 2) (numVal 4) (.fetchAll buf48 (List.replicate 6 buf48)) mst).1 =
    .ok (.items [.ok (some (2, 20)), .ok (some (3, 31)), .ok (some (1, 14)), .ok (some (1, 15)), .ok none, .ok (some (2, 20))]) := by
  decide +kernel

/-! ### C36 -/

/-- C36. As long as everything fits in one page, a store succeeds. -/
theorem store_succeeds_if_one_page (w : g.WF) (hc : Codes kc vc c) (hn : 2 ≤ g.pageCount) (h : MReached kc vc c g lim s) (m : K → Option V)
    (hm : Fetches kc vc g lim s m) (k : K) (v : V) (b : List Byte) (hb : lim ≤ b.length)
    (hfit : pad g.word (c.data k v).length ≤ lim) (hw : Writable g.word g.eraseSize c k v b) (hf : FitsOne g.word g.eraseSize c m k v) :
    (mcall g kc vc (.store k v b) s).1 = .ok .done := by
  obtain ⟨m', h⟩ := h.holds w hc hn
  obtain rfl := hm.unique (h.fetches w hc hn rfl rfl)
  obtain ⟨m', h1, h2⟩ := mcall_plain w hc hn rfl rfl h (.store k v b) trivial (fun _ => hfit) hb (by simp)
  rcases h1 with ⟨_, h1, _⟩ | ⟨hr, _⟩
  · exact h1
  · rcases hr with ⟨h3 | h3, _⟩ | ⟨_, _, h3, _⟩ | ⟨h3, _⟩
    · exact absurd h3 hw.1
    · have := hw.2.1; omega
    · exact absurd hw.2.2 h3
    · exact absurd hf h3

/-- One key, stored nine times. -/
def ones : List (MCall K2 V4 (Cache K2)) := List.replicate 9 (.store 1 10 buf48)

def mone : St K2 := (mrun geo3 (numKey 2) (numVal 4) ones blankMap).2

theorem ones_ok : ∀ call ∈ ones, MUsable geo3 8 (numCoding 2 4) call := by
  intro call h
  rw [List.eq_of_mem_replicate h]
  exact ⟨trivial, fun _ => by decide, by unfold LargeBuffers; decide⟩

theorem mone_fetches : Fetches (numKey 2) (numVal 4) geo3 8 mone (put (fun _ => none) (1 : K2) (some (10 : V4))) := by
  intro k b hb
  rw [mone, fetch_gives_last_stored geo3_wf (num_codes 2 4) (by decide) (blank_start _) ones ones_ok k b hb]
  have : (mrun geo3 (numKey 2) (numVal 4) ones blankMap).1 = List.replicate 9 (.ok .done) := by decide +kernel
  rw [this]
  simp only [ones, List.replicate, List.zip_cons_cons, List.zip_nil_left, lastSet, put]
  split <;> rfl

/-- Though all the pages are in use, another key can be stored. -/
example : (mcall geo3 (numKey 2) (numVal 4) (.store 2 20 buf48) mone).1 = .ok .done := by
  refine store_succeeds_if_one_page geo3_wf (num_codes 2 4) (by decide) ⟨_, ones, blank_start _, ones_ok, rfl⟩ _ mone_fetches 2 20 buf48
    (by decide) (by decide) ⟨by simp [numCoding], by decide, by unfold FitsPage; decide⟩ ⟨[1], ?_, by decide⟩
  intro k hk
  unfold put at hk
  split at hk
  · simp [*]
  · exact absurd rfl hk

example : mone.fl.erases = [96, 48, 0] := by decide +kernel

/-! ### C16, C17 -/

/-- C16, map part. As long as nothing is removed, no word is programmed twice between two erases, whatever the
buffers. -/
theorem map_programs_words_once (w : g.WF) (hc : Codes kc vc c) (hn : 2 ≤ g.pageCount) (h : MStart g s) (cs : List (MCall K V (Cache K)))
    (hd : ∀ call ∈ cs, MDocumented g call) (hh : ∀ call ∈ cs, MHarmless call) (a : Nat) : (mrun g kc vc cs s).2.fl.peak a ≤ 1 := by
  obtain ⟨st, _, b, σ, P, h1, _⟩ := mrun_cf w hc hn (md := ⟨true, true, some (widest g), fun _ => True, false⟩) rfl rfl cs (h.holds w rfl rfl hn (big := false)) hd
    (fun x _ => within_widest x) (by simp) (fun _ => hh) (fun x _ => Stores.all x)
  exact h1.good.fs.peak rfl a

/-- C16, map part. Removing programs a word at most once more. -/
theorem map_programs_words_twice (w : g.WF) (hc : Codes kc vc c) (hn : 2 ≤ g.pageCount) (h : MStart g s) (cs : List (MCall K V (Cache K)))
    (hd : ∀ call ∈ cs, MDocumented g call) (a : Nat) : (mrun g kc vc cs s).2.fl.peak a ≤ 2 := by
  obtain ⟨st, _, b, σ, P, h1, _⟩ := mrun_cf w hc hn (md := ⟨true, false, some (widest g), fun _ => True, false⟩) rfl rfl cs (h.holds w rfl rfl hn (big := false)) hd
    (fun x _ => within_widest x) (by simp) (by simp) (fun x _ => Stores.all x)
  exact h1.good.fs.peak rfl a

example (a : Nat) : (mrun geo3 (numKey 2) (numVal 4) mcalls blankMap).2.fl.peak a ≤ 2 :=
  map_programs_words_twice geo3_wf (num_codes 2 4) (by decide) (blank_start _) mcalls (fun x hx => (mcalls_ok x hx).doc) a

/-- Stores and fetches that go round the pages. -/
def mstores (n : Nat) : List (MCall K2 V4 (Cache K2)) :=
  (List.range n).flatMap fun i => [.store (BitVec.ofNat 16 (i % 3)) (BitVec.ofNat 32 i) buf48, .fetch 1 (List.replicate (i % 9) 0#8)]

theorem mstores_ok (n : Nat) : (∀ call ∈ mstores n, MDocumented geo3 call) ∧ ∀ call ∈ mstores n, MHarmless call := by
  constructor <;>
  · intro call h
    obtain ⟨i, _, h⟩ := List.mem_flatMap.1 h
    simp only [List.mem_cons, List.not_mem_nil, or_false] at h
    rcases h with rfl | rfl <;> trivial

example (a : Nat) : (mrun geo3 (numKey 2) (numVal 4) (mstores 20) blankMap).2.fl.peak a ≤ 1 :=
  map_programs_words_once geo3_wf (num_codes 2 4) (by decide) (blank_start _) (mstores 20) (mstores_ok 20).1 (mstores_ok 20).2 a

example : (mrun geo3 (numKey 2) (numVal 4) (mstores 20) blankMap).2.fl.peak 52 = 1 ∧
    (mrun geo3 (numKey 2) (numVal 4) mcalls blankMap).2.fl.peak 52 = 1 ∧
    (mrun geo3 (numKey 2) (numVal 4) (mcalls ++ [.removeAll buf48]) blankMap).2.fl.peak 52 = 2 := by decide +kernel

/-- C17, map part. The pages are erased one after the other, round and round. -/
theorem map_erases_in_turn (w : g.WF) (hc : Codes kc vc c) (hn : 2 ≤ g.pageCount) (h : MReached kc vc c g lim s) :
    s.fl.erases.reverse = (List.range s.fl.erases.length).map (fun k => g.start + g.eraseSize * (k % g.pageCount)) := by
  obtain ⟨m, b, σ, P, h, _⟩ := h.holds w hc hn
  exact (h.log rfl).2.1.1.2

/-- C17, map part. The erase counts of any two pages differ by at most one. -/
theorem map_wears_evenly (w : g.WF) (hc : Codes kc vc c) (hn : 2 ≤ g.pageCount) (h : MReached kc vc c g lim s) (i j : Nat)
    (hi : i < g.pageCount) (hj : j < g.pageCount) :
    s.fl.erases.count (g.start + g.eraseSize * i) ≤ s.fl.erases.count (g.start + g.eraseSize * j) + 1 :=
  even_of_turns w (map_erases_in_turn w hc hn h) i j hi hj

example : ∀ i j, i < geo3.pageCount → j < geo3.pageCount → mst.fl.erases.count (geo3.start + geo3.eraseSize * i) ≤ mst.fl.erases.count (geo3.start + geo3.eraseSize * j) + 1 :=
  map_wears_evenly (s := mst) geo3_wf (num_codes 2 4) (by decide) mst_reached

example : mst.fl.erases = [0, 96, 48, 0] := by decide +kernel

end SeqStorage.Props
