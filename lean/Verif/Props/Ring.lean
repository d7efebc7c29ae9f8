import Verif.Proofs.Ring
import Verif.Spec.Fifo
/-
C27, C28: `RamRing` is a bounded FIFO of byte strings.
-/

namespace SeqStorage.Props
open Spec

/-- One call on the modelled ring. -/
def ringStep (r : Ring) : FifoOp → FifoOut × Ring
  | .push d => match r.push d with
    | some r' => (.accepted true, r')
    | none => (.accepted false, r)
  | .pushOverwriting d => match r.pushOverwriting d with
    | some r' => (.accepted true, r')
    | none => (.accepted false, r)
  | .peek n => (.peeked (r.peekInto n), r)
  | .discard => (.done, r.discardOldest)

/-- A sequence of calls on the modelled ring. -/
def ringRun : List FifoOp → Ring → List FifoOut × Ring
  | [], r => ([], r)
  | op :: ops, r =>
    let (o, r') := ringStep r op
    let (os, r'') := ringRun ops r'
    (o :: os, r'')

theorem footprint_eq (l : List (List Byte)) : footprint l = Ring.size l := rfl

theorem dropUntilRoom_eq (cap room : Nat) : ∀ l, dropUntilRoom cap room l = Ring.dropFor cap room l
  | [] => rfl
  | d :: l => by
    simp only [dropUntilRoom, Ring.dropFor, footprint_eq, dropUntilRoom_eq cap room l]
    by_cases h : Ring.size (d :: l) + room ≤ cap
    · rw [if_pos h, if_neg (by omega)]
    · rw [if_neg h, if_pos (by omega)]

theorem writeRaw_cap (r : Ring) (d : List Byte) : (r.writeRaw d).cap = r.cap :=
  Ring.foldl_cap (Ring.frame d) r

/-- One call answers as the FIFO does and keeps the representation. -/
theorem ringStep_sim {r : Ring} {l : List (List Byte)} (h : Ring.Rep r l) (op : FifoOp) :
    (ringStep r op).1 = (fifoStep r.cap l op).1 ∧
    Ring.Rep (ringStep r op).2 (fifoStep r.cap l op).2 ∧ (ringStep r op).2.cap = r.cap := by
  cases op with
  | push d =>
    have hs : footprint (l ++ [d]) = r.used + (2 + d.length) := by
      rw [footprint_eq, Ring.size_append, h.used]; simp [Ring.size]; omega
    simp only [ringStep, fifoStep, Ring.push, hs]
    by_cases h1 : d.length > 65535
    · simp only [h1, if_true]
      rw [if_neg (by omega)]; exact ⟨rfl, h, trivial⟩
    · by_cases h2 : r.used + (2 + d.length) > r.cap
      · simp only [h1, h2, if_true, if_false]
        rw [if_neg (by omega)]; exact ⟨rfl, h, trivial⟩
      · simp only [h1, h2, if_false]
        rw [if_pos (by omega)]
        exact ⟨rfl, h.writeRaw (by omega) (by omega), writeRaw_cap r d⟩
  | pushOverwriting d =>
    have hs : footprint [d] = 2 + d.length := by simp [footprint]; omega
    simp only [ringStep, fifoStep, Ring.pushOverwriting, hs, dropUntilRoom_eq]
    by_cases h1 : d.length > 65535
    · simp only [h1, if_true]
      rw [if_neg (by omega)]; exact ⟨rfl, h, trivial⟩
    · by_cases h2 : 2 + d.length > r.cap
      · simp only [h1, h2, if_true, if_false]
        rw [if_neg (by omega)]; exact ⟨rfl, h, trivial⟩
      · simp only [h1, h2, if_false]
        rw [if_pos (by omega)]
        obtain ⟨hr, hc⟩ := Ring.Rep.makeRoom (r := r) (2 + d.length) (by omega) l r.cap r rfl h h.fits
        refine ⟨rfl, hr.writeRaw (by omega) ?_, by rw [writeRaw_cap, hc]⟩
        have := Ring.dropFor_fits r.cap (2 + d.length) (by omega) l
        rw [hr.used, hc]; exact this
  | peek n =>
    cases l with
    | nil => simp [ringStep, fifoStep, h.peek_nil, h]
    | cons d l => simp [ringStep, fifoStep, h.peek_cons, h]
  | discard =>
    cases l with
    | nil => simp [ringStep, fifoStep, h.discard_nil, h]
    | cons d l => simpa [ringStep, fifoStep, Ring.discard_cap] using h.discard_cons

theorem ringRun_sim (ops : List FifoOp) : ∀ (r : Ring) (l : List (List Byte)), Ring.Rep r l →
    (ringRun ops r).1 = (fifoRun r.cap ops l).1 ∧
    Ring.Rep (ringRun ops r).2 (fifoRun r.cap ops l).2 := by
  induction ops with
  | nil => intro r l h; exact ⟨rfl, h⟩
  | cons op ops ih =>
    intro r l h
    obtain ⟨h1, h2, h3⟩ := ringStep_sim h op
    have := ih _ _ h2
    simp only [ringRun, fifoRun, h1]
    rw [h3] at this
    exact ⟨by rw [this.1], this.2⟩

/-- **C27.** For every capacity and every sequence of calls on a new `RamRing`, the answers are
those of the bounded FIFO, and afterwards `len`, `bytes_used` and `oldest_len` are the number of
items, their footprint and the length of the oldest item of that FIFO. -/
theorem ram_ring_is_fifo (n : Nat) (ops : List FifoOp) :
    (ringRun ops (Ring.new n)).1 = (fifoRun n ops []).1 ∧
    (ringRun ops (Ring.new n)).2.count = (fifoRun n ops []).2.length ∧
    (ringRun ops (Ring.new n)).2.used = footprint (fifoRun n ops []).2 ∧
    (ringRun ops (Ring.new n)).2.oldestLen = (fifoRun n ops []).2.head?.map List.length := by
  have hc : (Ring.new n).cap = n := by simp [Ring.new, Ring.cap]
  obtain ⟨h1, h2⟩ := ringRun_sim ops _ _ (Ring.rep_new n)
  rw [hc] at h1 h2
  refine ⟨h1, h2.count, h2.used, ?_⟩
  cases hl : (fifoRun n ops []).2 with
  | nil => rw [hl] at h2; simpa using h2.oldestLen_nil
  | cons d l => rw [hl] at h2; simpa using h2.oldestLen_cons

/-- A run in which items wrap around the end of the ring, one is refused and two are dropped. -/
example :
    (ringRun [.push [1#8, 2#8], .push [3#8], .push [4#8, 5#8], .peek 8, .pushOverwriting [6#8, 7#8, 8#8],
      .peek 0, .peek 8, .discard, .peek 8] (Ring.new 9)).1 =
    [.accepted true, .accepted true, .accepted false, .peeked (some [1#8, 2#8]), .accepted true,
      .peeked none, .peeked (some [3#8]), .done, .peeked (some [6#8, 7#8, 8#8])] := by decide

/-- **C28.** Whatever happened before, `push_overwriting` of an item that can fit at all is
accepted and from then on the ring answers like one holding exactly the items after the shortest
prefix whose removal makes room, followed by the new item; an item that can never fit is refused and nothing changes. -/
theorem push_overwriting_drops_least (n : Nat) (ops : List FifoOp) (d : List Byte) :
    let r := (ringRun ops (Ring.new n)).2
    let l := (fifoRun n ops []).2
    let r' := (ringStep r (.pushOverwriting d)).2
    if d.length ≤ 65535 ∧ d.length + 2 ≤ n then
      (ringStep r (.pushOverwriting d)).1 = .accepted true ∧
      ∃ dropped kept, l = dropped ++ kept ∧
        (∀ later, (ringRun later r').1 = (fifoRun n later (kept ++ [d])).1) ∧
        footprint (kept ++ [d]) ≤ n ∧
        (∀ x xs, dropped = xs ++ [x] → n < footprint ([x] ++ kept ++ [d]))
    else (ringStep r (.pushOverwriting d)).1 = .accepted false ∧ r' = r := by
  have hc : (Ring.new n).cap = n := by simp [Ring.new, Ring.cap]
  obtain ⟨-, h2⟩ := ringRun_sim ops _ _ (Ring.rep_new n)
  rw [hc] at h2
  have hn : (ringRun ops (Ring.new n)).2.cap = n := by
    have : ∀ ops (r : Ring) l, Ring.Rep r l → (ringRun ops r).2.cap = r.cap := by
      intro ops
      induction ops with
      | nil => intro r l _; rfl
      | cons op ops ih =>
        intro r l h
        obtain ⟨_, h2, h3⟩ := ringStep_sim h op
        simp only [ringRun]
        rw [ih _ _ h2, h3]
    rw [this ops _ _ (Ring.rep_new n), hc]
  intro r l r'
  obtain ⟨h3, h4, h5⟩ := ringStep_sim h2 (.pushOverwriting d)
  have hs : footprint [d] = d.length + 2 := by simp [footprint]
  split
  · rename_i hd
    simp only [fifoStep, hn, hs, hd, and_self, if_true] at h3 h4
    refine ⟨h3, ?_⟩
    have key : ∀ l : List (List Byte), ∃ dropped kept, l = dropped ++ kept ∧
        kept = dropUntilRoom n (d.length + 2) l ∧ footprint kept + (d.length + 2) ≤ n ∧
        (∀ x xs, dropped = xs ++ [x] → n < footprint ([x] ++ kept) + (d.length + 2)) := by
      intro l
      induction l with
      | nil => exact ⟨[], [], rfl, rfl, by simpa [footprint] using hd.2, by simp⟩
      | cons y l ih =>
        simp only [dropUntilRoom]
        split
        · rename_i hy; exact ⟨[], y :: l, rfl, rfl, hy, by simp⟩
        · rename_i hy
          obtain ⟨dr, k, e1, e2, e3, e4⟩ := ih
          refine ⟨y :: dr, k, by rw [e1]; rfl, e2, e3, ?_⟩
          intro x xs hx
          cases xs with
          | nil =>
            simp at hx
            obtain ⟨rfl, rfl⟩ := hx
            simp at e1; subst e1; simpa using Nat.lt_of_not_le hy
          | cons z zs =>
            simp at hx
            exact e4 x zs hx.2
    obtain ⟨dr, k, e1, e2, e3, e4⟩ := key l
    have fa : ∀ a b : List (List Byte), footprint (a ++ b) = footprint a + footprint b := by
      intro a b; simp [footprint]
    refine ⟨dr, k, e1, ?_, ?_, ?_⟩
    · intro later
      have hc' : r'.cap = n := by rw [h5, hn]
      have := (ringRun_sim later _ _ h4).1
      rw [← e2] at this
      rw [← hc']; exact this
    · rw [fa, hs]; exact e3
    · intro x xs hx
      have := e4 x xs hx
      rw [fa, hs]; exact this
  · rename_i hd
    simp only [fifoStep, hn, hs, hd, if_false] at h3 h4
    refine ⟨h3, ?_⟩
    show (ringStep _ _).2 = _
    have : (ringRun ops (Ring.new n)).2.pushOverwriting d = none := by
      unfold Ring.pushOverwriting
      split
      · rfl
      · rw [if_pos (by rw [hn]; omega)]
    simp only [ringStep, r, this]

/-- An overwriting push that has to drop two of three items. -/
example :
    let r := (ringRun [.push [1#8], .push [2#8], .push [3#8]] (Ring.new 9)).2
    (ringRun [.pushOverwriting [4#8, 5#8, 6#8], .peek 9, .discard, .peek 9] r).1 =
      [.accepted true, .peeked (some [3#8]), .done, .peeked (some [4#8, 5#8, 6#8])] := by decide

end SeqStorage.Props
