import Verif.Model.Cache
/-
C20: the key-pointer cache is a least-recently-noticed table.
-/

namespace SeqStorage.Props
variable {K : Type} [DecidableEq K]

/-! ### Specification -/

/-- Calls on the key-pointer cache. -/
inductive KeyOp (K : Type) where
  | notice (k : K) (addr : Nat)
  | erase (k : K)
  | invalidate

/-- The specification: an association list, most recently noticed key first, cut to `cap` entries. -/
def keySpec (cap : Nat) (l : List (K × Nat)) : KeyOp K → List (K × Nat)
  | .notice k a => ((k, a) :: l.filter (·.1 ≠ k)).take cap
  | .erase k => l.filter (·.1 ≠ k)
  | .invalidate => []

/-- The address the list has for a key. -/
def keyLookup (l : List (K × Nat)) (k : K) : Option Nat := (l.find? (·.1 = k)).map (·.2)

/-- Run the specification. -/
def keySpecRun (cap : Nat) (ops : List (KeyOp K)) : List (K × Nat) := ops.foldl (keySpec cap) []

/-- Run the modelled cache from empty; `error` is a panic. -/
def keyRun : List (KeyOp K) → KPCache K → Except Err (KPCache K)
  | [], c => .ok c
  | .notice k a :: ops, c => (c.noticeLocation k a).bind (keyRun ops)
  | .erase k :: ops, c => keyRun ops (c.noticeErased k)
  | .invalidate :: ops, c => keyRun ops c.invalidate

/-! ### Proof -/

/-- The table that represents the list `l`. -/
def tableOf (cap : Nat) (l : List (K × Nat)) : KPCache K :=
  .tracked (l.map some ++ List.replicate (cap - l.length) none)

/-- Keys are unique and the list fits. -/
def KeyOk (cap : Nat) (l : List (K × Nat)) : Prop := (l.map (·.1)).Nodup ∧ l.length ≤ cap

theorem find?_map_some (k : K) (l : List (K × Nat)) (n : Nat) :
    ((l.map some ++ List.replicate n none).find? (KPCache.isKey k)).join = l.find? (·.1 = k) := by
  induction l with
  | nil =>
    have : (List.replicate n (none : Option (K × Nat))).find? (KPCache.isKey k) = none := by
      simp [KPCache.isKey]
    simp [this]
  | cons x l ih =>
    simp only [List.map_cons, List.cons_append, List.find?_cons, KPCache.isKey]
    by_cases h : x.1 = k
    · simp [h]
    · simp only [h, Ne.symm h, decide_false]; exact ih

theorem location_tableOf (cap : Nat) (l : List (K × Nat)) (k : K) :
    (tableOf cap l).location k = keyLookup l k := by
  simp only [tableOf, KPCache.location, find?_map_some, keyLookup]

theorem findIdx?_split {α : Type} (p : α → Bool) (l : List α) :
    (l.findIdx? p = none ∧ ∀ x ∈ l, p x = false) ∨
    ∃ a x b, l = a ++ x :: b ∧ p x = true ∧ (∀ y ∈ a, p y = false) ∧ l.findIdx? p = some a.length := by
  induction l with
  | nil => left; simp
  | cons y l ih =>
    by_cases h : p y = true
    · right
      refine ⟨[], y, l, rfl, h, by simp, by simp [List.findIdx?_cons, h]⟩
    · rcases ih with ⟨h1, h2⟩ | ⟨a, x, b, e, h1, h2, h3⟩
      · left
        refine ⟨by simp [List.findIdx?_cons, h, h1], ?_⟩
        intro x hx
        simp at hx
        rcases hx with rfl | hx
        · simpa using h
        · exact h2 x hx
      · right
        refine ⟨y :: a, x, b, by rw [e]; rfl, h1, ?_, by simp [List.findIdx?_cons, h, h3]⟩
        intro z hz
        simp at hz
        rcases hz with rfl | hz
        · simpa using h
        · exact h2 z hz

theorem moveToFront_split {α : Type} (a : List α) (x : α) (b : List α) :
    KPCache.moveToFront (a ++ x :: b) a.length = x :: (a ++ b) := by
  simp [KPCache.moveToFront, List.eraseIdx_append_of_length_le]

theorem moveToBack_split {α : Type} (a : List α) (x : α) (b : List α) :
    KPCache.moveToBack (a ++ x :: b) a.length = a ++ b ++ [x] := by
  simp [KPCache.moveToBack, List.eraseIdx_append_of_length_le]

/-- Either the key is in the list, at one place, or it is not in the table. -/
theorem key_split (cap : Nat) (l : List (K × Nat)) (hl : KeyOk cap l) (k : K) :
    ((l.map some ++ List.replicate (cap - l.length) none).findIdx? (KPCache.isKey k) = none ∧
      l.filter (·.1 ≠ k) = l) ∨
    ∃ a x b, l = a ++ (k, x) :: b ∧ l.filter (·.1 ≠ k) = a ++ b ∧
      (l.map some ++ List.replicate (cap - l.length) none).findIdx? (KPCache.isKey k) = some a.length := by
  have step : ∀ n, (∀ y ∈ l, y.1 ≠ k) →
      (l.map some ++ List.replicate n none).findIdx? (KPCache.isKey k) = none := by
    intro n h
    rw [List.findIdx?_eq_none_iff]
    intro y hy
    simp [List.mem_replicate] at hy
    rcases hy with ⟨a, b, hy, rfl⟩ | ⟨_, rfl⟩
    · simp [KPCache.isKey]; intro e; exact h _ hy e.symm
    · rfl
  rcases findIdx?_split (fun y : K × Nat => decide (y.1 = k)) l with ⟨_, h2⟩ | ⟨a, x, b, e, h1, h2, _⟩
  · left
    have h2' : ∀ y ∈ l, y.1 ≠ k := fun y hy => by simpa using h2 y hy
    exact ⟨step _ h2', List.filter_eq_self.2 (fun y hy => by simpa using h2' y hy)⟩
  · right
    simp at h1
    have h2' : ∀ y ∈ a, y.1 ≠ k := fun y hy => by simpa using h2 y hy
    have hb : ∀ y ∈ b, y.1 ≠ k := by
      intro y hy hyk
      have hnd := hl.1
      rw [e] at hnd
      simp only [List.map_append, List.map_cons, List.nodup_append, List.nodup_cons] at hnd
      exact hnd.2.1.1 (List.mem_map.2 ⟨y, hy, by rw [hyk, h1]⟩)
    obtain ⟨xk, xa⟩ := x
    simp at h1
    subst h1
    refine ⟨a, xa, b, e, ?_, ?_⟩
    · rw [e, List.filter_append, List.filter_cons]
      simp only [ne_eq, not_true_eq_false, decide_false]
      rw [List.filter_eq_self.2 (fun y hy => by simpa using h2' y hy)]
      congr 1
      simp
      intro a' b' hy he
      exact hb _ hy he
    · rw [e]
      simp only [List.map_append, List.map_cons, List.append_assoc, List.cons_append]
      rw [List.findIdx?_append]
      have hn : (a.map some).findIdx? (KPCache.isKey xk) = none := by
        rw [List.findIdx?_eq_none_iff]
        intro y hy
        simp at hy
        obtain ⟨a', b', hy, rfl⟩ := hy
        simp [KPCache.isKey]; intro h; exact h2' _ hy h.symm
      rw [hn]
      simp [List.findIdx?_cons, KPCache.isKey]

theorem notice_tableOf (cap : Nat) (hcap : 0 < cap) (l : List (K × Nat)) (hl : KeyOk cap l) (k : K)
    (addr : Nat) (ha : addr ≠ 0) :
    (tableOf cap l).noticeLocation k addr = .ok (tableOf cap (keySpec cap l (.notice k addr))) ∧
    KeyOk cap (keySpec cap l (.notice k addr)) := by
  simp only [tableOf, KPCache.noticeLocation, ha, if_false, keySpec]
  have hfilt : ((l.filter (·.1 ≠ k)).map (·.1)).Nodup :=
    hl.1.sublist (List.Sublist.map _ List.filter_sublist)
  have hnd : (((k, addr) :: l.filter (·.1 ≠ k)).map (·.1)).Nodup := by
    simp only [List.map_cons, List.nodup_cons]
    refine ⟨?_, hfilt⟩
    simp
  rcases key_split cap l hl k with ⟨h1, h2⟩ | ⟨a, x, b, e, h2, h1⟩
  · rw [h1, h2]
    have hlen : (l.map some ++ List.replicate (cap - l.length) (none : Option (K × Nat))).length = cap := by
      simp; have := hl.2; omega
    simp only [hlen, Nat.pos_iff_ne_zero.1 hcap, if_false]
    refine ⟨?_, ?_, by simp [List.length_take]; omega⟩
    · congr 1
      congr 1
      rcases Nat.lt_or_ge l.length cap with hlt | hge
      · obtain ⟨m, hm⟩ : ∃ m, cap - l.length = m + 1 := ⟨cap - l.length - 1, by omega⟩
        rw [hm, List.replicate_succ', ← List.append_assoc]
        have hi : cap - 1 = (l.map some ++ List.replicate m (none : Option (K × Nat))).length := by
          simp; omega
        rw [hi, List.set_append_right _ _ (Nat.le_refl _)]
        simp only [Nat.sub_self, List.set_cons_zero]
        rw [moveToFront_split]
        rw [List.take_of_length_le (by simp; omega)]
        simp only [List.map_cons, List.length_cons, List.append_nil, List.cons_append]
        rw [show cap - (l.length + 1) = m from by omega]
      · have hlc : l.length = cap := by have := hl.2; omega
        rcases List.eq_nil_or_concat l with rfl | ⟨l', y, rfl⟩
        · simp at hlc; omega
        · simp at hlc
          have hz : cap - (l' ++ [y]).length = 0 := by simp; omega
          rw [show l'.concat y = l' ++ [y] from by simp] at *
          rw [hz]
          simp only [List.replicate_zero, List.append_nil, List.map_append, List.map_cons, List.map_nil]
          have hi : cap - 1 = (l'.map some).length := by simp; omega
          rw [hi, List.set_append_right _ _ (Nat.le_refl _)]
          simp only [Nat.sub_self, List.set_cons_zero]
          rw [moveToFront_split]
          obtain ⟨c', rfl⟩ : ∃ c', cap = c' + 1 := ⟨cap - 1, by omega⟩
          rw [List.take_succ_cons, List.take_append_of_le_length (by omega), List.take_of_length_le (by omega)]
          simp
          omega
    · rw [List.map_take]
      rw [h2] at hnd
      exact hnd.sublist (List.take_sublist _ _)
  · rw [h1, h2]
    rw [h2] at hnd
    have hlen : a.length + b.length + 1 ≤ cap := by have := hl.2; rw [e] at this; simp at this; omega
    refine ⟨?_, ?_, by simp [List.length_take]; omega⟩
    · show Except.ok _ = _
      congr 1
      congr 1
      rw [e]
      simp only [List.map_append, List.map_cons, List.append_assoc, List.cons_append]
      have hi : a.length = (a.map (some : K × Nat → _)).length := by simp
      rw [hi, List.set_append_right _ _ (Nat.le_refl _)]
      simp only [Nat.sub_self, List.set_cons_zero]
      rw [moveToFront_split, List.take_of_length_le (by simp; omega)]
      simp
      omega
    · rw [List.map_take]
      exact hnd.sublist (List.take_sublist _ _)

theorem erased_tableOf (cap : Nat) (l : List (K × Nat)) (hl : KeyOk cap l) (k : K) :
    (tableOf cap l).noticeErased k = tableOf cap (keySpec cap l (.erase k)) ∧
    KeyOk cap (keySpec cap l (.erase k)) := by
  have hok : KeyOk cap (l.filter (·.1 ≠ k)) :=
    ⟨hl.1.sublist (List.Sublist.map _ List.filter_sublist),
      Nat.le_trans (List.length_filter_le _ _) hl.2⟩
  refine ⟨?_, hok⟩
  simp only [tableOf, KPCache.noticeErased, keySpec]
  rcases key_split cap l hl k with ⟨h1, h2⟩ | ⟨a, x, b, e, h2, h1⟩
  · rw [h1, h2]
  · rw [h1, h2]
    have hlen : a.length + b.length + 1 ≤ cap := by have := hl.2; rw [e] at this; simp at this; omega
    show KPCache.tracked _ = _
    congr 1
    rw [e]
    simp only [List.map_append, List.map_cons, List.append_assoc, List.cons_append]
    have hi : a.length = (a.map (some : K × Nat → _)).length := by simp
    rw [hi, List.set_append_right _ _ (Nat.le_refl _)]
    simp only [Nat.sub_self, List.set_cons_zero]
    rw [moveToBack_split]
    simp only [List.length_append, List.length_cons, List.append_assoc]
    rw [show cap - (a.length + b.length) = cap - (a.length + (b.length + 1)) + 1 from by omega,
      List.replicate_succ']

omit [DecidableEq K] in
theorem invalidate_tableOf (cap : Nat) (l : List (K × Nat)) (hl : KeyOk cap l) :
    (tableOf cap l).invalidate = tableOf cap [] := by
  have := hl.2
  simp only [tableOf, KPCache.invalidate]
  congr 1
  simp [Function.comp_def]
  rw [List.map_const', List.replicate_append_replicate]
  congr 1; omega

theorem keyRun_sim (cap : Nat) (hcap : 0 < cap) : ∀ (ops : List (KeyOp K)) (l : List (K × Nat)), KeyOk cap l →
    (∀ k a, KeyOp.notice k a ∈ ops → a ≠ 0) →
    keyRun ops (tableOf cap l) = .ok (tableOf cap (ops.foldl (keySpec cap) l))
  | [], l, _, _ => rfl
  | .notice k a :: ops, l, hl, ha => by
    obtain ⟨h1, h2⟩ := notice_tableOf cap hcap l hl k a (ha k a (by simp))
    simp only [keyRun, h1, List.foldl_cons]
    exact keyRun_sim cap hcap ops _ h2 (fun k a h => ha k a (by simp [h]))
  | .erase k :: ops, l, hl, ha => by
    obtain ⟨h1, h2⟩ := erased_tableOf cap l hl k
    simp only [keyRun, h1, List.foldl_cons]
    exact keyRun_sim cap hcap ops _ h2 (fun k a h => ha k a (by simp [h]))
  | .invalidate :: ops, l, hl, ha => by
    simp only [keyRun, invalidate_tableOf cap l hl, List.foldl_cons]
    exact keyRun_sim cap hcap ops _ ⟨by simp, by simp⟩ (fun k a h => ha k a (by simp [h]))

/-- **C20.** For every capacity of at least one and every sequence of calls with non-zero addresses,
the key-pointer cache never panics and afterwards answers exactly like the association list that keeps
the `cap` most recently noticed keys. -/
theorem key_cache_is_lru (cap : Nat) (hcap : 0 < cap) (ops : List (KeyOp K))
    (ha : ∀ k a, KeyOp.notice k a ∈ ops → a ≠ 0) :
    ∃ c, keyRun ops (.tracked (List.replicate cap none)) = .ok c ∧
      ∀ k, c.location k = keyLookup (keySpecRun cap ops) k := by
  have h0 : KPCache.tracked (List.replicate cap (none : Option (K × Nat))) = tableOf cap [] := by
    simp [tableOf]
  refine ⟨_, ?_, fun k => location_tableOf cap _ k⟩
  rw [h0]
  exact keyRun_sim cap hcap ops [] ⟨by simp, by simp⟩ ha

/-- Read directly: what the cache answers for a key is the address of the latest notice for it, and
nothing if the key was erased or everything invalidated since. -/
theorem key_cache_answers_latest (cap : Nat) (ops : List (KeyOp K)) (k : K) (a : Nat)
    (h : keyLookup (keySpecRun cap ops) k = some a) :
    ∃ before after, ops = before ++ .notice k a :: after ∧
      ∀ op ∈ after, (∀ a', op ≠ .notice k a') ∧ op ≠ .erase k ∧ op ≠ .invalidate := by
  have key : ∀ ops : List (KeyOp K), (k, a) ∈ keySpecRun cap ops →
      ∃ before after, ops = before ++ .notice k a :: after ∧
      ∀ op ∈ after, (∀ a', op ≠ .notice k a') ∧ op ≠ .erase k ∧ op ≠ .invalidate := by
    intro ops
    generalize hn : ops.length = n
    induction n generalizing ops with
    | zero => intro h; simp at hn; subst hn; simp [keySpecRun] at h
    | succ n ih0 =>
      rcases List.eq_nil_or_concat ops with rfl | ⟨ops, op, rfl⟩
      · simp at hn
      simp only [List.concat_eq_append] at hn ⊢
      have ih := ih0 ops (by simpa using hn)
      intro h
      simp only [keySpecRun, List.foldl_append, List.foldl_cons, List.foldl_nil] at h
      have go : (k, a) ∈ keySpecRun cap ops → (∀ a', op ≠ .notice k a') ∧ op ≠ .erase k ∧ op ≠ .invalidate →
          ∃ before after, ops ++ [op] = before ++ .notice k a :: after ∧
          ∀ op ∈ after, (∀ a', op ≠ .notice k a') ∧ op ≠ .erase k ∧ op ≠ .invalidate := by
        intro h1 h2
        obtain ⟨b, af, e, h3⟩ := ih h1
        refine ⟨b, af ++ [op], by rw [e]; simp, ?_⟩
        intro o ho
        simp at ho
        rcases ho with ho | rfl
        · exact h3 o ho
        · exact h2
      cases op with
      | notice k' a' =>
        simp only [keySpec] at h
        have := List.mem_of_mem_take h
        simp only [List.mem_cons, List.mem_filter] at this
        rcases this with h1 | ⟨h1, h2⟩
        · simp at h1
          obtain ⟨rfl, rfl⟩ := h1
          exact ⟨ops, [], rfl, by simp⟩
        · simp at h2
          exact go h1 ⟨fun a' e => by simp at e; exact h2 e.1.symm, by simp, by simp⟩
      | erase k' =>
        simp only [keySpec, List.mem_filter] at h
        obtain ⟨h1, h2⟩ := h
        simp at h2
        exact go h1 ⟨by simp, by simpa [eq_comm] using h2, by simp⟩
      | invalidate => simp [keySpec] at h
  simp only [keyLookup, Option.map_eq_some_iff] at h
  obtain ⟨⟨k', a'⟩, h1, rfl⟩ := h
  have := List.find?_some h1
  simp at this
  subst this
  exact key ops (List.mem_of_find?_eq_some h1)

/-- Three keys through a cache of two entries: the oldest is gone, an erased one too. -/
example :
    let ops : List (KeyOp Nat) := [.notice 1 8, .notice 2 16, .notice 1 24, .notice 3 32, .erase 3]
    (∀ k a, KeyOp.notice k a ∈ ops → a ≠ 0) ∧
    (keySpecRun 2 ops) = [(1, 24)] := by
  refine ⟨?_, by decide⟩
  intro k a h
  simp at h
  omega

/-- A cache without entries panics on the first notice. -/
theorem key_cache_without_entries_panics :
    (KPCache.tracked ([] : List (Option (Nat × Nat)))).noticeLocation 1 8 = .error .panic := by rfl

end SeqStorage.Props
