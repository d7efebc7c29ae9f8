import Verif.Proofs.QueueInv
import Verif.Model.Map
import Verif.Props.KeyCache
/-
What a ring of pages means as a map, and the invariant of the map.
-/

set_option linter.unusedSectionVars false

namespace SeqStorage
open M

variable {K V : Type} [DecidableEq K]

/-! ### Serializers -/

/-- `d` is what storing `k` and `v` writes, for some buffer sizes. -/
def Enc (kc : KeyCodec K) (vc : ValCodec V) (d : List Byte) (k : K) (v : V) : Prop :=
  ∃ n m kb vb, kc.ser k n = .ok kb ∧ vc.ser v m = .ok vb ∧ d = kb ++ vb

/-- The serializers fit what they write into the buffer and can read it back. -/
structure Lawful (kc : KeyCodec K) (vc : ValCodec V) : Prop where
  key : ∀ k n kb, kc.ser k n = .ok kb → kb.length ≤ n ∧
    ∀ rest, kc.de (kb ++ rest) = .ok (k, kb.length) ∧ kc.getLen (kb ++ rest) = .ok kb.length
  val : ∀ v n vb, vc.ser v n = .ok vb → vb.length ≤ n ∧ ∃ m, vc.de vb = .ok (v, m)

/-- The key of an item. -/
def keyOf (kc : KeyCodec K) (it : It) : Option K :=
  match kc.de it.data with
  | .ok (k, _) => some k
  | .error _ => none

/-- The value of an item. -/
def valOf (kc : KeyCodec K) (vc : ValCodec V) (it : It) : Option V :=
  match kc.de it.data with
  | .ok (_, n) =>
    match vc.de (it.data.drop n) with
    | .ok (v, _) => some v
    | .error _ => none
  | .error _ => none

section
variable {kc : KeyCodec K} {vc : ValCodec V} (L : Lawful kc vc)
include L

theorem Enc.de {d : List Byte} {k : K} {v : V} (h : Enc kc vc d k v) :
    ∃ n, n ≤ d.length ∧ (∀ rest, kc.de (d ++ rest) = .ok (k, n)) ∧ (∀ rest, kc.getLen (d ++ rest) = .ok n) ∧
      ∃ m, vc.de (d.drop n) = .ok (v, m) := by
  obtain ⟨n, m, kb, vb, h1, h2, rfl⟩ := h
  obtain ⟨_, h3⟩ := L.key k n kb h1
  obtain ⟨_, h4⟩ := L.val v m vb h2
  refine ⟨kb.length, by simp, fun rest => ?_, fun rest => ?_, by simpa using h4⟩
  · rw [List.append_assoc]; exact (h3 _).1
  · rw [List.append_assoc]; exact (h3 _).2

theorem Enc.keyOf {it : It} {k : K} {v : V} (h : Enc kc vc it.data k v) : keyOf kc it = some k := by
  obtain ⟨n, _, h1, _, _⟩ := h.de L
  have := h1 []
  rw [List.append_nil] at this
  unfold SeqStorage.keyOf; rw [this]

theorem Enc.valOf {it : It} {k : K} {v : V} (h : Enc kc vc it.data k v) : valOf kc vc it = some v := by
  obtain ⟨n, _, h1, _, m, h2⟩ := h.de L
  have := h1 []
  rw [List.append_nil] at this
  unfold SeqStorage.valOf; rw [this]; simp only [h2]

end

/-! ### The newest item of a key -/

/-- A present item with the key. -/
def hits (kc : KeyCodec K) (k : K) (it : It) : Bool := it.present && decide (keyOf kc it = some k)

/-- The last present item with the key. -/
def look (kc : KeyCodec K) (k : K) (its : List It) : Option It := its.reverse.find? (hits kc k)

/-- The value of the last present item with the key. -/
def lookV (kc : KeyCodec K) (vc : ValCodec V) (k : K) (its : List It) : Option V := (look kc k its).bind (valOf kc vc)

section
variable {kc : KeyCodec K} {vc : ValCodec V} {k : K} {a b c its : List It} {x it : It}

@[simp] theorem look_nil : look kc k [] = none := rfl
@[simp] theorem lookV_nil : lookV kc vc k [] = none := rfl

theorem look_append (a b : List It) : look kc k (a ++ b) = (look kc k b).or (look kc k a) := by
  unfold look; rw [List.reverse_append, List.find?_append]

theorem look_single : look kc k [x] = if hits kc k x then some x else none := by
  unfold look; simp only [List.reverse_singleton, List.find?_cons, List.find?_nil]
  cases hits kc k x <;> rfl

theorem look_cons : look kc k (x :: b) = (look kc k b).or (if hits kc k x then some x else none) := by
  rw [← List.singleton_append, look_append, look_single]

theorem look_some (h : look kc k its = some it) : it ∈ its ∧ it.present = true ∧ keyOf kc it = some k := by
  have h1 := List.mem_of_find?_eq_some h
  have h2 := List.find?_some h
  simp only [hits, Bool.and_eq_true, decide_eq_true_eq] at h2
  exact ⟨List.mem_reverse.1 h1, h2⟩

theorem hits_iff : hits kc k it = true ↔ it.present = true ∧ keyOf kc it = some k := by
  simp only [hits, Bool.and_eq_true, decide_eq_true_eq]

theorem look_none : look kc k its = none ↔ ∀ it ∈ its, it.present = true → keyOf kc it ≠ some k := by
  unfold look
  rw [List.find?_eq_none]
  constructor
  · intro h it hi hp he
    exact h it (List.mem_reverse.2 hi) (hits_iff.2 ⟨hp, he⟩)
  · intro h it hi he
    obtain ⟨h1, h2⟩ := hits_iff.1 he
    exact h it (List.mem_reverse.1 hi) h1 h2

theorem look_absent (h : ∀ it ∈ its, it.present = false) : look kc k its = none := by
  rw [look_none]; intro it hi hp; rw [h it hi] at hp; simp at hp

/-- Items before are irrelevant if the key occurs after. -/
theorem look_append_some (h : look kc k b = some it) : look kc k (a ++ b) = some it := by
  rw [look_append, h]; rfl

theorem look_append_none (h : look kc k b = none) : look kc k (a ++ b) = look kc k a := by
  rw [look_append, h]; rfl

theorem lookV_append (a b : List It) :
    lookV kc vc k (a ++ b) = if (look kc k b).isSome then lookV kc vc k b else lookV kc vc k a := by
  unfold lookV; rw [look_append]
  cases look kc k b <;> simp

theorem lookV_congr (h : look kc k a = look kc k b) : lookV kc vc k a = lookV kc vc k b := by
  unfold lookV; rw [h]

end

/-! ### All items in order -/

/-- The items of `len` pages from distance `a` on. -/
def iseg (n o : Nat) (P : Nat → PK) (a len : Nat) : List It :=
  (List.range' a len).flatMap fun j => (P (ringPage n o j)).its

/-- All items, oldest first. -/
def icontent (n : Nat) (σ : Shape) (P : Nat → PK) : List It := iseg n σ.o P 0 σ.m

/-- All items but those of the newest page. -/
def older (n : Nat) (σ : Shape) (P : Nat → PK) : List It := iseg n σ.o P 0 (σ.m - 1)

section
variable {md : Mode} {g : Geo} {σ : Shape} {P P' : Nat → PK}

theorem iseg_add (n o a k l : Nat) : iseg n o P a (k + l) = iseg n o P a k ++ iseg n o P (a + k) l := by
  unfold iseg
  rw [← List.range'_append_1, List.flatMap_append]

@[simp] theorem iseg_zero (n o a : Nat) : iseg n o P a 0 = [] := rfl
theorem iseg_one (n o a : Nat) : iseg n o P a 1 = (P (ringPage n o a)).its := by
  simp [iseg, List.range'_one]

theorem iseg_congr {n o a len : Nat} (h : ∀ j, a ≤ j → j < a + len → (P' (ringPage n o j)).its = (P (ringPage n o j)).its) :
    iseg n o P' a len = iseg n o P a len := by
  unfold iseg
  apply flatMap_congr'
  intro j hj
  rw [List.mem_range'_1] at hj
  exact h j hj.1 hj.2

theorem iseg_pick {n o len j : Nat} (hj : j < len) :
    iseg n o P 0 len = iseg n o P 0 j ++ ((P (ringPage n o j)).its ++ iseg n o P (j + 1) (len - (j + 1))) := by
  have h1 : len = j + (1 + (len - (j + 1))) := by omega
  conv => lhs; rw [h1, iseg_add, iseg_add, iseg_one]
  simp

theorem iseg_upd {n o a len i : Nat} {pk : PK} (h : ∀ j, a ≤ j → j < a + len → ringPage n o j ≠ i) :
    iseg n o (upd P i pk) a len = iseg n o P a len :=
  iseg_congr (fun j h1 h2 => by rw [upd_ne (h j h1 h2)])

theorem mem_iseg {n o a len : Nat} {it : It} :
    it ∈ iseg n o P a len ↔ ∃ j, a ≤ j ∧ j < a + len ∧ it ∈ (P (ringPage n o j)).its := by
  unfold iseg
  rw [List.mem_flatMap]
  constructor
  · rintro ⟨j, hj, h⟩; rw [List.mem_range'_1] at hj; exact ⟨j, hj.1, hj.2, h⟩
  · rintro ⟨j, h1, h2, h⟩; exact ⟨j, by rw [List.mem_range'_1]; exact ⟨h1, h2⟩, h⟩

theorem mem_icontent {n : Nat} {it : It} :
    it ∈ icontent n σ P ↔ ∃ j, j < σ.m ∧ it ∈ (P (ringPage n σ.o j)).its := by
  unfold icontent; rw [mem_iseg]; simp

theorem icontent_pick {j : Nat} (hj : j < σ.m) : icontent g.pageCount σ P =
    iseg g.pageCount σ.o P 0 j ++ ((P (ringPage g.pageCount σ.o j)).its ++
      iseg g.pageCount σ.o P (j + 1) (σ.m - (j + 1))) := iseg_pick hj

theorem icontent_upd {j : Nat} (wf : σ.WF g.pageCount) (hj : j < σ.m) (pk : PK) :
    icontent g.pageCount σ (upd P (ringPage g.pageCount σ.o j) pk) =
      iseg g.pageCount σ.o P 0 j ++ (pk.its ++ iseg g.pageCount σ.o P (j + 1) (σ.m - (j + 1))) := by
  have hm := wf.m_le
  unfold icontent
  rw [iseg_pick hj, upd_same, iseg_upd, iseg_upd]
  · intro k h1 h2 he
    have := ringPage_inj wf.o_lt (by omega) (by omega) he
    omega
  · intro k h1 h2 he
    have := ringPage_inj wf.o_lt (by omega) (by omega) he
    omega

theorem icontent_upd_other {i : Nat} (h : ∀ j, j < σ.m → ringPage g.pageCount σ.o j ≠ i) (pk : PK) :
    icontent g.pageCount σ (upd P i pk) = icontent g.pageCount σ P :=
  iseg_upd (fun j _ h2 => h j (by omega))

theorem icontent_front (wf : σ.WF g.pageCount) (hp : σ.part = true) :
    icontent g.pageCount σ P = older g.pageCount σ P ++ (P (σ.front g.pageCount)).its := by
  have h1 := wf.part_pos hp
  have hj : σ.m - 1 < σ.m := by omega
  rw [icontent_pick hj, front_eq hp]
  have : σ.m - (σ.m - 1 + 1) = 0 := by omega
  simp [this, older]

theorem older_upd_front (wf : σ.WF g.pageCount) (hp : σ.part = true) (pk : PK) :
    older g.pageCount σ (upd P (σ.front g.pageCount) pk) = older g.pageCount σ P := by
  have h1 := wf.part_pos hp
  have hm := wf.m_le
  unfold older
  rw [front_eq hp]
  apply iseg_upd
  intro j _ h2 he
  have := ringPage_inj wf.o_lt (by omega) (by omega) he
  omega

theorem icontent_upd_front (wf : σ.WF g.pageCount) (hp : σ.part = true) (pk : PK) :
    icontent g.pageCount σ (upd P (σ.front g.pageCount) pk) = older g.pageCount σ P ++ pk.its := by
  rw [icontent_front wf hp, older_upd_front wf hp, upd_same]

theorem icontent_openFront (wf : σ.WF g.pageCount) (hp : σ.part = false) {pk : PK} (hd : pk.its = []) :
    icontent g.pageCount σ.openFront (upd P (σ.front g.pageCount) pk) = icontent g.pageCount σ P := by
  have hm := wf.m_le
  have hmn : σ.m < g.pageCount := by
    rcases Nat.lt_or_ge σ.m g.pageCount with h | h
    · exact h
    · have := (wf.full (by omega)).1; rw [hp] at this; simp at this
  rw [front_eq_open hp]
  unfold icontent
  simp only [Shape.openFront]
  rw [iseg_add, iseg_one, Nat.zero_add, upd_same, hd, List.append_nil]
  apply iseg_upd
  intro j _ h2 he
  have := ringPage_inj wf.o_lt (by omega) (by omega) he
  omega

theorem older_openFront (wf : σ.WF g.pageCount) (hp : σ.part = false) (pk : PK) :
    older g.pageCount σ.openFront (upd P (σ.front g.pageCount) pk) = icontent g.pageCount σ P := by
  have hm := wf.m_le
  have hmn : σ.m < g.pageCount := by
    rcases Nat.lt_or_ge σ.m g.pageCount with h | h
    · exact h
    · have := (wf.full (by omega)).1; rw [hp] at this; simp at this
  rw [front_eq_open hp]
  unfold older icontent
  simp only [Shape.openFront, Nat.add_sub_cancel]
  apply iseg_upd
  intro j _ h2 he
  have := ringPage_inj wf.o_lt (by omega) (by omega) he
  omega

theorem icontent_closeFront (wf : σ.WF g.pageCount) (hp : σ.part = true) {its : List It} {f f' : Nat}
    (hpk : P (σ.front g.pageCount) = .used false its f) :
    icontent g.pageCount σ.closeFront (upd P (σ.front g.pageCount) (.used true its f')) = icontent g.pageCount σ P := by
  have := icontent_upd_front (P := P) wf hp (.used true its f')
  rw [icontent_front wf hp, hpk]
  exact this

theorem icontent_dropOldest (wf : σ.WF g.pageCount) (hm : 2 ≤ σ.m) (pk : PK) :
    icontent g.pageCount σ P = (P σ.o).its ++
      icontent g.pageCount (σ.dropOldest g.pageCount) (upd P σ.o pk) := by
  have hml := wf.m_le
  have ho := wf.o_lt
  rw [icontent_pick (by omega : 0 < σ.m), ringPage_zero ho, iseg_zero, List.nil_append]
  congr 1
  unfold icontent
  simp only [Shape.dropOldest, Nat.zero_add]
  unfold iseg
  have : List.range' 1 (σ.m - 1) = (List.range' 0 (σ.m - 1)).map (· + 1) := by
    rw [show (fun x => x + 1) = (fun x => 1 + x) from by funext x; omega, List.map_add_range']
  rw [this, List.flatMap_map]
  apply flatMap_congr'
  intro j hj
  rw [List.mem_range'_1] at hj
  have hs := ringPage_shift ho (by omega : j + 1 < g.pageCount)
  rw [hs, upd_ne]
  intro he
  have h0 := ringPage_zero ho
  have := ringPage_inj ho (by omega) (by omega) (he.trans h0.symm)
  omega

theorem icontent_fixCorr (wf : σ.WF g.pageCount) (hc : σ.corr = true) (pk : PK) :
    icontent g.pageCount σ.fixCorr (upd P (σ.torn g.pageCount) pk) = icontent g.pageCount σ P := by
  have ht := Shape.st_err.1 (torn_st (g := g) wf hc)
  have hml := wf.m_le
  have : icontent g.pageCount σ.fixCorr (upd P (σ.torn g.pageCount) pk) =
    icontent g.pageCount σ (upd P (σ.torn g.pageCount) pk) := rfl
  rw [this]
  apply icontent_upd_other
  intro j hj he
  rw [← he, ringPos_page wf.o_lt (by omega)] at ht
  omega

end

/-! ### Key pointers -/

/-- A key cache that can be used. -/
def KPOk (c : KPCache K) : Prop :=
  c = .uncached ∨ ∃ cap l, 0 < cap ∧ Props.KeyOk cap l ∧ c = Props.tableOf cap l

theorem keyLookup_filter {l : List (K × Nat)} {k k' : K} (h : k' ≠ k) :
    Props.keyLookup (l.filter (·.1 ≠ k)) k' = Props.keyLookup l k' := by
  unfold Props.keyLookup
  congr 1
  induction l with
  | nil => rfl
  | cons x l ih =>
    rw [List.filter_cons]
    by_cases hx : x.1 = k
    · simp only [hx, ne_eq, not_true_eq_false, decide_false, Bool.false_eq_true, if_false, List.find?_cons,
        decide_eq_false (Ne.symm h)]
      exact ih
    · simp only [ne_eq, hx, not_false_eq_true, decide_true, if_true, List.find?_cons]
      split
      · rfl
      · exact ih

theorem keyLookup_filter_self {l : List (K × Nat)} {k : K} : Props.keyLookup (l.filter (·.1 ≠ k)) k = none := by
  unfold Props.keyLookup
  rw [Option.map_eq_none_iff, List.find?_eq_none]
  intro x hx
  rw [List.mem_filter] at hx
  simpa using hx.2

theorem keyLookup_take {l : List (K × Nat)} {k : K} {n a : Nat} (h : Props.keyLookup (l.take n) k = some a) :
    Props.keyLookup l k = some a := by
  unfold Props.keyLookup at *
  rw [Option.map_eq_some_iff] at *
  obtain ⟨x, h1, h2⟩ := h
  refine ⟨x, ?_, h2⟩
  rw [← List.take_append_drop n l, List.find?_append, h1]; rfl

namespace KPOk
variable {c : KPCache K}

theorem notice (h : KPOk c) (k : K) {a : Nat} (ha : a ≠ 0) :
    ∃ c', c.noticeLocation k a = .ok c' ∧ KPOk c' ∧ (∀ b, c'.location k = some b → b = a) ∧
      ∀ k', k' ≠ k → ∀ b, c'.location k' = some b → c.location k' = some b := by
  rcases h with rfl | ⟨cap, l, hc, hl, rfl⟩
  · refine ⟨.uncached, rfl, Or.inl rfl, ?_, ?_⟩ <;> simp [KPCache.location]
  · obtain ⟨h1, h2⟩ := Props.notice_tableOf cap hc l hl k a ha
    refine ⟨_, h1, Or.inr ⟨cap, _, hc, h2, rfl⟩, ?_, ?_⟩
    · intro b hb
      rw [Props.location_tableOf] at hb
      have := keyLookup_take hb
      simp [Props.keyLookup] at this
      exact this.symm
    · intro k' hk b hb
      rw [Props.location_tableOf] at hb ⊢
      have := keyLookup_take hb
      rw [← keyLookup_filter hk]
      unfold Props.keyLookup at this ⊢
      rw [List.find?_cons] at this
      simpa [Ne.symm hk] using this

theorem erased (h : KPOk c) (k : K) : KPOk (c.noticeErased k) ∧ (c.noticeErased k).location k = none ∧
    ∀ k', k' ≠ k → (c.noticeErased k).location k' = c.location k' := by
  rcases h with rfl | ⟨cap, l, hc, hl, rfl⟩
  · exact ⟨Or.inl rfl, rfl, fun _ _ => rfl⟩
  · obtain ⟨h1, h2⟩ := Props.erased_tableOf cap l hl k
    rw [h1]
    refine ⟨Or.inr ⟨cap, _, hc, h2, rfl⟩, ?_, ?_⟩
    · rw [Props.location_tableOf]; exact keyLookup_filter_self
    · intro k' hk; rw [Props.location_tableOf, Props.location_tableOf]; exact keyLookup_filter hk

theorem invalidate (h : KPOk c) : KPOk c.invalidate ∧ ∀ k, c.invalidate.location k = none := by
  rcases h with rfl | ⟨cap, l, hc, hl, rfl⟩
  · exact ⟨Or.inl rfl, fun _ => rfl⟩
  · rw [Props.invalidate_tableOf cap l hl]
    refine ⟨Or.inr ⟨cap, [], hc, ⟨by simp, by simp⟩, rfl⟩, fun k => ?_⟩
    rw [Props.location_tableOf]; rfl

theorem fresh {cap : Nat} (h : 0 < cap) : KPOk (.tracked (List.replicate cap none) : KPCache K) :=
  Or.inr ⟨cap, [], h, ⟨by simp, by simp⟩, by simp [Props.tableOf]⟩

end KPOk

/-! ### The invariant -/

section
variable (kc : KeyCodec K) (vc : ValCodec V)

/-- Some keys may have lost their value. -/
def Drift (F : K → Prop) (a b : List It) : Prop :=
  ∀ k, lookV kc vc k b = lookV kc vc k a ∨ (F k ∧ lookV kc vc k b = none)

/-- Data that items may have: it cannot be torn unnoticed and satisfies what the mode asks for. -/
def Mode.Allows (md : Mode) (g : Geo) (d : List Byte) : Prop := (md.cf = false → NoTorn md.was d) ∧ md.was d

/-- What holds of the pages of a map. In a ring whose pages are all in use the newest page holds
copies, and may be dropped; the keys in `F` may lose their value by that. -/
structure MP (md : Mode) (g : Geo) (σ : Shape) (P : Nat → PK) (F : K → Prop) : Prop where
  nojunk : ∀ i, i < g.pageCount → P i ≠ .junk
  shape : σ.m + 1 < g.pageCount → σ.o = 0
  corr : σ.corr = true → σ.part = true ∧ σ.m + 1 = g.pageCount
  enc : ∀ it ∈ icontent g.pageCount σ P, it.present = true → ∃ k v, Enc kc vc it.data k v
  nt : ∀ it ∈ icontent g.pageCount σ P, it.present = true → md.Allows g it.data
  dup : σ.m = g.pageCount → Drift kc vc F (icontent g.pageCount σ P) (older g.pageCount σ P)

/-- What the key cache says is true. -/
def KeysTrue (its : List It) (c : KPCache K) : Prop :=
  ∀ k a, c.location k = some a → ∃ it, look kc k its = some it ∧ it.addr = a

/-- The buffer can hold the data of every item. -/
def Wide (md : Mode) (len : Nat) : Prop := ∃ n, md.lim = some n ∧ n ≤ len

/-- The invariant of a map in use. With `big` all buffers are large enough to never be refused. -/
structure MG (md : Mode) (g : Geo) (big : Bool) (s : St K) (σ : Shape) (P : Nat → PK) (F : K → Prop) : Prop where
  good : Good md g s σ P
  mp : MP kc vc md g σ P F
  kpok : KPOk s.cache.kp
  kp : KeysTrue kc (icontent g.pageCount σ P) s.cache.kp
  log : big = true → md.cf = true ∧ Turns g s.fl.erases σ ∧ Wide md s.buf.length

/-- What is left after power loss. -/
structure MD (md : Mode) (g : Geo) (s : St K) (σ : Shape) (P : Nat → PK) (F : K → Prop) : Prop where
  fs : FS md g s.fl σ P
  mp : MP kc vc md g σ P F
  crash : md.cf = false

end

/-- Only the buffer's contents and the caches' knowledge changed. -/
structure Calm (s s' : St K) : Prop where
  fl : s'.fl = s.fl
  len : s'.buf.length = s.buf.length
  qit : s'.qit = s.qit
  mit : s'.mit = s.mit

theorem Calm.refl (s : St K) : Calm s s := ⟨rfl, rfl, rfl, rfl⟩
theorem Calm.trans {s s' s'' : St K} (h : Calm s s') (h' : Calm s' s'') : Calm s s'' :=
  ⟨h'.fl.trans h.fl, h'.len.trans h.len, h'.qit.trans h.qit, h'.mit.trans h.mit⟩
theorem Same.calm {s s' : St K} (h : Same s s') : Calm s s' := ⟨h.fl, by rw [h.buf], h.qit, h.mit⟩

/-- Only the buffer's contents changed. -/
structure BufOnly (s s' : St K) : Prop where
  fl : s'.fl = s.fl
  cache : s'.cache = s.cache
  len : s'.buf.length = s.buf.length
  qit : s'.qit = s.qit
  mit : s'.mit = s.mit

theorem BufOnly.refl (s : St K) : BufOnly s s := ⟨rfl, rfl, rfl, rfl, rfl⟩
theorem BufOnly.trans {s s' s'' : St K} (h : BufOnly s s') (h' : BufOnly s' s'') : BufOnly s s'' :=
  ⟨h'.fl.trans h.fl, h'.cache.trans h.cache, h'.len.trans h.len, h'.qit.trans h.qit, h'.mit.trans h.mit⟩
theorem BufOnly.calm {s s' : St K} (h : BufOnly s s') : Calm s s' := ⟨h.fl, h.len, h.qit, h.mit⟩

section
variable {kc : KeyCodec K} {vc : ValCodec V} {md : Mode} {g : Geo} {big : Bool} {σ : Shape} {P : Nat → PK}
  {F F' : K → Prop} {a b c : List It}

theorem Drift.refl : Drift kc vc F a a := fun _ => Or.inl rfl
theorem Drift.mono (h : Drift kc vc F a b) (hF : ∀ k, F k → F' k) : Drift kc vc F' a b := by
  intro k
  rcases h k with h | ⟨h1, h2⟩
  · exact Or.inl h
  · exact Or.inr ⟨hF k h1, h2⟩
theorem Drift.trans (h : Drift kc vc F a b) (h' : Drift kc vc F b c) : Drift kc vc F a c := by
  intro k
  rcases h' k with h1 | h1
  · rw [h1]; exact h k
  · exact Or.inr h1
theorem Drift.of_eq (h : ∀ k, lookV kc vc k b = lookV kc vc k a) : Drift kc vc F a b := fun k => Or.inl (h k)

theorem MP.mono (h : MP kc vc md g σ P F) (hF : ∀ k, F k → F' k) : MP kc vc md g σ P F' :=
  ⟨h.nojunk, h.shape, h.corr, h.enc, h.nt, fun hm => (h.dup hm).mono hF⟩

/-- Nothing but cache knowledge about page states and the buffer changed. -/
theorem MG.calm {s s' : St K} (h : MG kc vc md g big s σ P F) (hg : Good md g s' σ P) (hk : s'.cache.kp = s.cache.kp)
    (hc : Calm s s') : MG kc vc md g big s' σ P F :=
  ⟨hg, h.mp, by rw [hk]; exact h.kpok, by rw [hk]; exact h.kp, fun hb => by rw [hc.fl, hc.len]; exact h.log hb⟩

theorem Good.bufOnly {s s' : St K} (h : Good md g s σ P) (hb : BufOnly s s') : Good md g s' σ P := by
  obtain ⟨h1, h2, h3⟩ := h
  exact ⟨by rw [hb.fl]; exact h1, by rw [hb.cache]; exact h2, by rw [hb.cache]; exact h3⟩

theorem MG.bufOnly {s s' : St K} (h : MG kc vc md g big s σ P F) (hb : BufOnly s s') : MG kc vc md g big s' σ P F :=
  h.calm (h.good.bufOnly hb) (by rw [hb.cache]) hb.calm

theorem MG.same {s s' : St K} (h : MG kc vc md g big s σ P F) (hg : Good md g s' σ P) (hs : Same s s') :
    MG kc vc md g big s' σ P F := h.calm hg hs.kp hs.calm

end

end SeqStorage
