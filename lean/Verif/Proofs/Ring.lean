import Verif.Model.Ring
/-
The RAM ring refines a list of byte strings.
-/

namespace SeqStorage.Ring

/-- The bytes an item occupies in the ring. -/
def frame (d : List Byte) : List Byte :=
  BitVec.ofNat 8 d.length :: BitVec.ofNat 8 (d.length >>> 8) :: d

theorem frame_length (d : List Byte) : (frame d).length = d.length + 2 := rfl

/-- How many bytes items take in the ring. -/
def size (l : List (List Byte)) : Nat := (l.map fun d => d.length + 2).sum

theorem size_cons (d : List Byte) (l : List (List Byte)) : size (d :: l) = d.length + 2 + size l := by
  simp [size]

theorem size_append (l l' : List (List Byte)) : size (l ++ l') = size l + size l' := by
  simp [size]

theorem flat_len : ∀ l : List (List Byte), (l.flatMap frame).length = size l
  | [] => rfl
  | d :: l => by
    rw [List.flatMap_cons, List.length_append, flat_len l, size_cons, frame_length]

/-- `bs` lies in the ring from position `p` on. -/
def At (r : Ring) (p : Nat) (bs : List Byte) : Prop :=
  ∀ i, (h : i < bs.length) → r.byteAt ((p + i) % r.cap) = bs[i]

/-- The ring `r` holds the items `l`, oldest first. -/
structure Rep (r : Ring) (l : List (List Byte)) : Prop where
  short : ∀ d ∈ l, d.length ≤ 65535
  count : r.count = l.length
  used : r.used = size l
  fits : r.used ≤ r.cap
  read : r.cap ≠ 0 → r.readPos < r.cap
  write : r.cap ≠ 0 → r.writePos = (r.readPos + r.used) % r.cap
  bytes : At r r.readPos (l.flatMap frame)

theorem rep_new (n : Nat) : Rep (new n) [] := by
  constructor <;> simp [new, cap, At, size] <;> omega

theorem At.append_left {r : Ring} {p : Nat} {a b : List Byte} (h : At r p (a ++ b)) : At r p a := by
  intro i hi
  have := h i (by simp; omega)
  rw [this, List.getElem_append_left hi]

theorem At.append_right {r : Ring} {p : Nat} {a b : List Byte} (h : At r p (a ++ b)) :
    At r ((p + a.length) % r.cap) b := by
  intro i hi
  have := h (a.length + i) (by simp; omega)
  rw [Nat.mod_add_mod, Nat.add_assoc, this, List.getElem_append_right (by omega)]
  simp

theorem bytesFrom_eq {r : Ring} (d : List Byte) : ∀ p, p < r.cap → At r p d →
    r.bytesFrom d.length p = d := by
  induction d with
  | nil => intros; rfl
  | cons b d ih =>
    intro p hp h
    have h0 := h 0 (by simp)
    have ht : At r ((p + 1) % r.cap) d := At.append_right (a := [b]) h
    simp only [List.length_cons, bytesFrom]
    rw [ih _ (Nat.mod_lt _ (by omega)) ht]
    simp [Nat.mod_eq_of_lt hp] at h0
    rw [h0]

theorem len_bytes (n : Nat) (h : n ≤ 65535) :
    (BitVec.ofNat 8 n).toNat ||| ((BitVec.ofNat 8 (n >>> 8)).toNat <<< 8) = n := by
  have e1 : (BitVec.ofNat 8 n).toNat = n % 2 ^ 8 := by simp
  have e2 : (BitVec.ofNat 8 (n >>> 8)).toNat = n / 256 := by
    simp [Nat.shiftRight_eq_div_pow]; omega
  rw [e1, e2, Nat.or_comm, Nat.shiftLeft_eq, Nat.mul_comm,
    ← Nat.two_pow_add_eq_or_of_lt (by omega : n % 2 ^ 8 < 2 ^ 8)]
  omega

variable {r : Ring} {l : List (List Byte)} {d : List Byte}

theorem Rep.cap_pos (h : Rep r (d :: l)) : 2 + d.length ≤ r.cap := by
  have := h.used; have := h.fits
  rw [size_cons] at *; omega

theorem Rep.oldestLen_nil (h : Rep r []) : r.oldestLen = none := by
  have := h.count
  simp [oldestLen] at *; omega

theorem Rep.oldestLen_cons (h : Rep r (d :: l)) : r.oldestLen = some d.length := by
  have hc := h.count
  have hcap := h.cap_pos
  have hr := h.read (by omega)
  have h0 := h.bytes 0 (by simp [frame])
  have h1 := h.bytes 1 (by simp [frame])
  simp [frame, Nat.mod_eq_of_lt hr] at h0 h1
  have hd := len_bytes d.length (h.short d (by simp))
  unfold oldestLen
  rw [if_neg (by simp at hc; omega), h0, h1, hd]

theorem Rep.peek_nil (h : Rep r []) (n : Nat) : r.peekInto n = none := by
  simp [peekInto, h.oldestLen_nil]

theorem Rep.peek_cons (h : Rep r (d :: l)) (n : Nat) :
    r.peekInto n = if d.length ≤ n then some d else none := by
  have hcap := h.cap_pos
  have hb : At r ((r.readPos + 2) % r.cap) d := by
    have h1 : At r r.readPos (frame d) :=
      At.append_left (b := l.flatMap frame) (by simpa using h.bytes)
    exact At.append_right (a := [_, _]) h1
  have := bytesFrom_eq d _ (Nat.mod_lt _ (by omega)) hb
  unfold peekInto
  rw [h.oldestLen_cons]
  simp only [this]
  by_cases hn : d.length ≤ n
  · simp [hn, Nat.not_lt.2 hn]
  · simp [hn, Nat.lt_of_not_le hn]

theorem Rep.discard_nil (h : Rep r []) : r.discardOldest = r := by
  simp [discardOldest, h.oldestLen_nil]

theorem Rep.discard_cons (h : Rep r (d :: l)) : Rep r.discardOldest l := by
  have hcap := h.cap_pos
  have hu := h.used
  have hf := h.fits
  rw [size_cons] at hu
  have e : r.discardOldest = { r with readPos := (r.readPos + 2 + d.length) % r.cap, used := r.used - (2 + d.length), count := r.count - 1 } := by
    simp [discardOldest, h.oldestLen_cons]
  rw [e]
  refine ⟨fun x hx => h.short x (by simp [hx]), ?_, ?_, ?_, ?_, ?_, ?_⟩
  · have := h.count; simp at *; omega
  · show r.used - (2 + d.length) = _; omega
  · show r.used - (2 + d.length) ≤ r.cap; omega
  · intro _; exact Nat.mod_lt _ (by omega)
  · intro _
    have := h.write (by omega)
    show r.writePos = ((r.readPos + 2 + d.length) % r.cap + (r.used - (2 + d.length))) % r.cap
    rw [this, Nat.mod_add_mod]; congr 1; omega
  · have := At.append_right (a := frame d) (b := l.flatMap frame) (by simpa using h.bytes)
    rw [frame_length, Nat.add_comm d.length 2, ← Nat.add_assoc] at this
    exact this

/-! Writing -/

theorem writeByte_cap (b : Byte) : (r.writeByte b).cap = r.cap := by simp [writeByte, cap]

theorem foldl_cap (bs : List Byte) : ∀ r : Ring, (bs.foldl writeByte r).cap = r.cap := by
  induction bs with
  | nil => simp
  | cons b bs ih => intro r; simp [ih, writeByte_cap]

/-- What writing bytes does to the ring. -/
theorem foldl_write (bs : List Byte) : ∀ r : Ring, r.writePos < r.cap → bs.length ≤ r.cap →
    (bs.foldl writeByte r).readPos = r.readPos ∧ (bs.foldl writeByte r).used = r.used ∧
    (bs.foldl writeByte r).count = r.count ∧
    (bs.foldl writeByte r).writePos = (r.writePos + bs.length) % r.cap ∧
    (∀ i, i < r.cap → (bs.foldl writeByte r).byteAt ((r.writePos + i) % r.cap) =
      if h : i < bs.length then bs[i] else r.byteAt ((r.writePos + i) % r.cap)) := by
  induction bs with
  | nil => intro r hw _; simp [Nat.mod_eq_of_lt hw]
  | cons b bs ih =>
    intro r hw hl
    simp at hl
    have hc := writeByte_cap (r := r) b
    have hw' : (r.writeByte b).writePos = (r.writePos + 1) % r.cap := rfl
    have := ih (r.writeByte b) (by rw [hc, hw']; exact Nat.mod_lt _ (by omega)) (by rw [hc]; omega)
    simp only [List.foldl_cons]
    obtain ⟨h1, h2, h3, h4, h5⟩ := this
    refine ⟨h1, h2, h3, ?_, ?_⟩
    · rw [h4, hc, hw', Nat.mod_add_mod]; congr 1; simp; omega
    · intro i hi
      have bAt : ∀ q, q < r.cap → (r.writeByte b).byteAt q = if q = r.writePos then b else r.byteAt q := by
        intro q hq
        simp only [byteAt, writeByte, List.getD_eq_getElem?_getD, List.getElem?_set]
        by_cases hqq : r.writePos = q
        · subst hqq; simp only [cap] at hq; simp [hq]
        · simp [hqq, Ne.symm hqq]
      rcases Nat.eq_zero_or_pos i with rfl | hpos
      · have hlast := h5 (r.cap - 1) (by rw [hc]; omega)
        rw [hc, hw'] at hlast
        have e : ((r.writePos + 1) % r.cap + (r.cap - 1)) % r.cap = r.writePos := by
          rw [Nat.mod_add_mod, Nat.add_assoc, Nat.add_sub_cancel' (by omega), Nat.add_mod_right,
            Nat.mod_eq_of_lt hw]
        rw [e] at hlast
        simp only [Nat.add_zero, Nat.mod_eq_of_lt hw, hlast]
        rw [dif_neg (by omega), bAt _ hw]
        simp
      · have hi1 := h5 (i - 1) (by rw [hc]; omega)
        rw [hc, hw'] at hi1
        have e : ((r.writePos + 1) % r.cap + (i - 1)) % r.cap = (r.writePos + i) % r.cap := by
          rw [Nat.mod_add_mod]; congr 1; omega
        rw [e] at hi1
        rw [hi1]
        have hlt : (r.writePos + i) % r.cap < r.cap := Nat.mod_lt _ (by omega)
        have hne : (r.writePos + i) % r.cap ≠ r.writePos := by
          intro hh
          rcases Nat.lt_or_ge (r.writePos + i) r.cap with h | h
          · rw [Nat.mod_eq_of_lt h] at hh; omega
          · rw [Nat.mod_eq_sub_mod h, Nat.mod_eq_of_lt (by omega)] at hh; omega
        rw [bAt _ hlt, if_neg hne]
        by_cases hh : i < bs.length + 1
        · rw [dif_pos (by omega), dif_pos (by simpa using hh)]
          obtain ⟨j, rfl⟩ : ∃ j, i = j + 1 := ⟨i - 1, by omega⟩
          simp
        · rw [dif_neg (by omega), dif_neg (by simpa using hh)]

theorem Rep.writeRaw (h : Rep r l) (hd : d.length ≤ 65535) (hf : r.used + (2 + d.length) ≤ r.cap) :
    Rep (r.writeRaw d) (l ++ [d]) := by
  have hcap : r.cap ≠ 0 := by omega
  have hr := h.read hcap
  have hw := h.write hcap
  have hwlt : r.writePos < r.cap := by rw [hw]; exact Nat.mod_lt _ (by omega)
  have e : r.writeRaw d =
      { (frame d).foldl writeByte r with
        used := ((frame d).foldl writeByte r).used + (2 + d.length),
        count := ((frame d).foldl writeByte r).count + 1 } := rfl
  obtain ⟨h1, h2, h3, h4, h5⟩ := foldl_write (frame d) r hwlt (by simp [frame_length]; omega)
  have hc := foldl_cap (frame d) r
  rw [e, h2, h3]
  have hcap' : ∀ u c, Ring.cap { (frame d).foldl Ring.writeByte r with used := u, count := c } = r.cap := fun _ _ => hc
  refine ⟨?_, ?_, ?_, ?_, ?_, ?_, ?_⟩
  · intro x hx; simp at hx; rcases hx with hx | rfl
    · exact h.short x hx
    · exact hd
  · simp [h.count]
  · have := h.used; rw [size_append, size_cons]; simp only [size, List.map_nil, List.sum_nil] at *; omega
  · rw [hcap']; exact hf
  · intro _; rw [hcap']; simpa [h1] using hr
  · intro _
    rw [hcap']
    show ((frame d).foldl Ring.writeByte r).writePos = (((frame d).foldl Ring.writeByte r).readPos + (r.used + (2 + d.length))) % r.cap
    rw [h4, h1, hw, Nat.mod_add_mod, frame_length]; congr 1; omega
  · intro i hi
    rw [hcap']
    show ((frame d).foldl Ring.writeByte r).byteAt ((((frame d).foldl Ring.writeByte r).readPos + i) % r.cap) = _
    rw [h1]
    simp only [List.flatMap_append, List.flatMap_cons, List.flatMap_nil, List.append_nil] at hi ⊢
    have hu := h.used
    have hfl := flat_len l
    rcases Nat.lt_or_ge i (l.flatMap frame).length with hlt | hge
    · have hb := h.bytes i hlt
      rw [List.getElem_append_left hlt, ← hb]
      have := h5 (r.cap - r.used + i) (by omega)
      have e2 : (r.writePos + (r.cap - r.used + i)) % r.cap = (r.readPos + i) % r.cap := by
        rw [hw, Nat.mod_add_mod,
          show r.readPos + r.used + (r.cap - r.used + i) = r.readPos + i + r.cap from by omega,
          Nat.add_mod_right]
      rw [e2] at this
      rw [this, dif_neg (by simp [frame_length]; omega)]
    · rw [List.getElem_append_right hge]
      rw [List.length_append, flat_len, frame_length] at hi
      rw [flat_len] at hge
      have := h5 (i - r.used) (by omega)
      have e2 : (r.writePos + (i - r.used)) % r.cap = (r.readPos + i) % r.cap := by
        rw [hw, Nat.mod_add_mod]; congr 1; omega
      rw [e2] at this
      rw [this, dif_pos (by simp [frame_length]; omega)]
      simp only [hu, hfl]

/-- The shortest-prefix drop. -/
def dropFor (cap total : Nat) : List (List Byte) → List (List Byte)
  | [] => []
  | d :: l => if size (d :: l) + total > cap then dropFor cap total l else d :: l

theorem discard_cap (r : Ring) : r.discardOldest.cap = r.cap := by
  unfold discardOldest; split <;> rfl

theorem Rep.makeRoom (total : Nat) (ht : total ≤ r.cap) : ∀ (l : List (List Byte)) (rounds : Nat) (r' : Ring),
    r'.cap = r.cap → Rep r' l → r'.used ≤ rounds → 
    Rep (makeRoom total rounds r') (dropFor r.cap total l) ∧ (Ring.makeRoom total rounds r').cap = r.cap := by
  intro l
  induction l with
  | nil =>
    intro rounds r' hc h hu
    have h0 := h.used
    simp [size] at h0
    cases rounds with
    | zero => exact ⟨h, hc⟩
    | succ n => 
      simp only [Ring.makeRoom, dropFor]
      rw [if_neg (by omega)]; exact ⟨h, hc⟩
  | cons d l ih =>
    intro rounds r' hc h hu
    have h0 := h.used
    simp only [dropFor]
    have hs := size_cons d l
    cases rounds with
    | zero => omega
    | succ n => 
      simp only [Ring.makeRoom]
      rw [hc, h0]
      split
      · have h' := h.discard_cons
        exact ih n _ (by rw [discard_cap, hc]) h' (by rw [h'.used]; omega)
      · exact ⟨h, hc⟩

theorem dropFor_fits (cap total : Nat) (ht : total ≤ cap) : ∀ l, size (dropFor cap total l) + total ≤ cap
  | [] => by simpa [dropFor, size] using ht
  | d :: l => by
    simp only [dropFor]
    split
    · exact dropFor_fits cap total ht l
    · omega

end SeqStorage.Ring
