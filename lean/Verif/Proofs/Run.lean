import Verif.Proofs.Header
/-
Running the monadic code: reading headers and items.
-/

set_option linter.unusedSectionVars false

namespace SeqStorage
open M

variable {K : Type} [DecidableEq K] {α β : Type}

theorem bind_run (m : M K α) (f : α → M K β) (s : St K) :
    (m >>= f) s = match m s with
      | (.ok a, s') => f a s'
      | (.error e, s') => (.error e, s') := rfl

theorem bind_ok {m : M K α} {f : α → M K β} {s s' : St K} {a : α} (h : m s = (.ok a, s')) :
    (m >>= f) s = f a s' := by rw [bind_run, h]

theorem bind_err {m : M K α} {f : α → M K β} {s s' : St K} {e : Err} (h : m s = (.error e, s')) :
    (m >>= f) s = (.error e, s') := by rw [bind_run, h]

@[simp] theorem pure_run (a : α) (s : St K) : (pure a : M K α) s = (.ok a, s) := rfl
@[simp] theorem mpure_run (a : α) (s : St K) : (M.pure a : M K α) s = (.ok a, s) := rfl
@[simp] theorem throw_run (e : Err) (s : St K) : (M.throw e : M K α) s = (.error e, s) := rfl
@[simp] theorem lift_run (r : Except Err α) (s : St K) : (M.lift r : M K α) s = (r, s) := rfl
@[simp] theorem get_run (s : St K) : (M.get : M K (St K)) s = (.ok s, s) := rfl
@[simp] theorem modify_run (f : St K → St K) (s : St K) : (M.modify f : M K Unit) s = (.ok (), f s) := rfl
@[simp] theorem attempt_run (m : M K α) (s : St K) : M.attempt m s = (.ok (m s).1, (m s).2) := rfl
@[simp] theorem modifyCache_run (f : Cache K → Cache K) (s : St K) :
    modifyCache f s = (.ok (), { s with cache := f s.cache }) := rfl

/-- The state with another flash. -/
theorem flashRead_run {g : Geo} (w : g.WF) {a n : Nat} (s : St K) (ha : g.word ∣ a)
    (hb : g.readSize ∣ n) (hne : n ≠ 0) (h1 : g.start ≤ a) (h2 : a + n ≤ g.stop) :
    flashRead g a n s = (.ok (readBytes s.fl.mem a n), s) := by
  simp only [flashRead, Flash.read_ok w s.fl ha hb hne h1 h2]

/-- The header at `a`, as `read_new` sees it, as a function of the memory. -/
def hdrAt (g : Geo) (mem : Nat → Byte) (a e : Nat) : Except Err (Option Header) :=
  if a + g.hl > e then .ok none
  else match decodeHeader (readBytes mem a g.hl) with
    | .ok none => .ok none
    | .ok (some h) => if h.next g a > e then .error .corrupted else .ok (some h)
    | .error _ => .error .corrupted

theorem decodeHeader_err {bs : List Byte} {e : Err} (h : decodeHeader bs = .error e) : e = .corrupted := by
  unfold decodeHeader at h
  split at h
  · simp at h
  · simp only at h
    split at h
    · simp at h; exact h.symm
    · simp at h

theorem readHeader_run {g : Geo} (w : g.WF) {a e : Nat} (s : St K) (ha : g.word ∣ a)
    (h1 : g.start ≤ a) (h2 : a + g.hl ≤ e → a + g.hl ≤ g.stop) :
    readHeader g a e s = (hdrAt g s.fl.mem a e, s) := by
  unfold readHeader hdrAt
  by_cases hc : a + g.hl > e
  · simp [hc]
  · simp only [hc, if_false]
    rw [bind_ok (flashRead_run w s ha (Nat.dvd_trans w.read_dvd w.hl_dvd)
      (by have := w.hl_ge; omega) h1 (h2 (by omega)))]
    simp only [bind_run, lift_run]
    cases hd : decodeHeader (readBytes s.fl.mem a g.hl) with
    | error e' => simp [decodeHeader_err hd]
    | ok o =>
      cases o with
      | none => simp
      | some h => by_cases hn : h.next g a > e <;> simp [hn]

theorem hdrAt_some {g : Geo} {mem : Nat → Byte} {a e : Nat} {h : Header} (h1 : a + g.hl ≤ e)
    (h2 : decodeHeader (readBytes mem a g.hl) = .ok (some h)) (h3 : h.next g a ≤ e) :
    hdrAt g mem a e = .ok (some h) := by
  unfold hdrAt
  rw [if_neg (by omega), h2]
  simp only
  rw [if_neg (by omega)]

theorem hdrAt_some_iff {g : Geo} {mem : Nat → Byte} {a e : Nat} {h : Header} :
    hdrAt g mem a e = .ok (some h) ↔ a + g.hl ≤ e ∧
      decodeHeader (readBytes mem a g.hl) = .ok (some h) ∧ h.next g a ≤ e := by
  constructor
  · unfold hdrAt
    by_cases hc : a + g.hl > e
    · simp [hc]
    · rw [if_neg hc]
      cases hd : decodeHeader (readBytes mem a g.hl) with
      | error e' => simp
      | ok o =>
        cases o with
        | none => simp
        | some h' =>
          simp only
          by_cases hn : h'.next g a > e
          · simp [hn]
          · rw [if_neg hn]
            simp only [Except.ok.injEq, Option.some.injEq]
            rintro rfl; exact ⟨by omega, rfl, by omega⟩
  · exact fun h => hdrAt_some h.1 h.2.1 h.2.2

theorem hdrAt_err {g : Geo} {mem : Nat → Byte} {a e : Nat} {er : Err} (h : hdrAt g mem a e = .error er) :
    er = .corrupted := by
  unfold hdrAt at h
  split at h
  · simp at h
  · split at h
    · simp at h
    · split at h
      · simp at h; exact h.symm
      · simp at h
    · simp at h; exact h.symm

theorem hdrAt_none_iff {g : Geo} {mem : Nat → Byte} {a e : Nat} :
    hdrAt g mem a e = .ok none ↔ e < a + g.hl ∨ decodeHeader (readBytes mem a g.hl) = .ok none := by
  unfold hdrAt
  by_cases hc : a + g.hl > e
  · simp [hc]
  · rw [if_neg hc]
    cases hd : decodeHeader (readBytes mem a g.hl) with
    | error e' => simp; omega
    | ok o =>
      cases o with
      | none => simp
      | some h' =>
        simp only
        split <;> simp <;> omega

theorem decode_none_iff {bs : List Byte} : decodeHeader bs = .ok none ↔ ∀ b ∈ bs, b = 0xff#8 := by
  unfold decodeHeader
  by_cases h : bs.all (· == 0xff#8)
  · rw [if_pos h]
    simp only [true_iff]
    intro b hb
    simpa using List.all_eq_true.1 h b hb
  · rw [if_neg h]
    simp only
    constructor
    · split <;> simp
    · intro hb
      exact absurd (List.all_eq_true.2 fun b hb' => by simp [hb b hb']) h

/-- The data bytes of the item at `a`. -/
def dataAt (g : Geo) (mem : Nat → Byte) (a len : Nat) : List Byte := readBytes mem (a + g.hl) len

@[simp] theorem dataAt_length (g : Geo) (mem : Nat → Byte) (a len : Nat) : (dataAt g mem a len).length = len := by
  simp [dataAt]

/-- The item at `a` with header `h` is intact. -/
def Present (g : Geo) (mem : Nat → Byte) (a : Nat) (h : Header) : Prop :=
  h.crc ≠ 0#32 ∧ adaptedCrc32 (dataAt g mem a h.len.toNat) = h.crc

instance (g : Geo) (mem : Nat → Byte) (a : Nat) (h : Header) : Decidable (Present g mem a h) := by
  unfold Present; infer_instance

theorem adapted_ne_zero (d : List Byte) : adaptedCrc32 d ≠ 0#32 := by
  intro h
  have := (Props.stored_checksum_low_byte d).2
  rw [h] at this
  exact this (by decide)

theorem present_iff {g : Geo} {mem : Nat → Byte} {a : Nat} {h : Header} :
    Present g mem a h ↔ adaptedCrc32 (dataAt g mem a h.len.toNat) = h.crc := by
  unfold Present
  constructor
  · exact fun h => h.2
  · intro h'; exact ⟨by rw [← h']; exact adapted_ne_zero _, h'⟩

/-- The buffer after reading the item at `a`. -/
def bufAfter (g : Geo) (mem : Nat → Byte) (a : Nat) (h : Header) (buf : List Byte) : List Byte :=
  readBytes mem (a + g.hl) (g.roundUp h.len.toNat) ++ buf.drop (g.roundUp h.len.toNat)

theorem bufAfter_length {g : Geo} {mem : Nat → Byte} {a : Nat} {h : Header} {buf : List Byte}
    (hb : g.roundUp h.len.toNat ≤ buf.length) : (bufAfter g mem a h buf).length = buf.length := by
  simp [bufAfter]; omega

theorem bufAfter_take {g : Geo} (w : g.WF) {mem : Nat → Byte} {a : Nat} {h : Header} {buf : List Byte} :
    (bufAfter g mem a h buf).take h.len.toNat = dataAt g mem a h.len.toNat := by
  have := w.le_roundUp h.len.toNat
  unfold bufAfter dataAt
  rw [List.take_append_of_le_length (by simpa using this), readBytes_take]
  congr 1; omega

/-- Reading an item: erased items are recognised without touching the buffer; otherwise the buffer
must be large enough. -/
theorem readItem_run {g : Geo} (w : g.WF) {a e : Nat} {h : Header} (s : St K) (ha : g.word ∣ a)
    (h1 : g.start ≤ a) (he : h.next g a ≤ e) (h2 : h.next g a ≤ g.stop) :
    readItem g h a e s =
      if h.crc = 0#32 then (.ok (.erased h), s)
      else if s.buf.length < g.roundUp h.len.toNat then (.error (.bufferTooSmall (g.roundUp h.len.toNat)), s)
      else (.ok (if Present g s.fl.mem a h then .present h else .corrupted h),
        { s with buf := bufAfter g s.fl.mem a h s.buf }) := by
  unfold readItem
  by_cases hz : h.crc = 0#32
  · simp [hz]
  · simp only [hz, if_false]
    unfold Header.next at he h2
    rw [if_neg (by omega), bind_ok (get_run s)]
    by_cases hb : s.buf.length < g.roundUp h.len.toNat
    · simp [hb]
    · simp only [hb, if_false]
      have hr : readIntoBuf g (a + g.hl) (g.roundUp h.len.toNat) s =
          (.ok (), { s with buf := bufAfter g s.fl.mem a h s.buf }) := by
        unfold readIntoBuf
        by_cases h0 : g.roundUp h.len.toNat = 0
        · simp [h0, bufAfter, readBytes]
        · rw [if_neg h0]
          rw [bind_ok (flashRead_run w s (Nat.dvd_add ha w.hl_dvd)
            (Nat.dvd_trans w.read_dvd (w.roundUp_dvd _)) h0 (by omega) (by omega))]
          rfl
      rw [bind_ok hr, bind_ok (get_run _)]
      simp only [bufAfter_take w]
      by_cases hp : adaptedCrc32 (dataAt g s.fl.mem a h.len.toNat) = h.crc
      · rw [if_pos hp, if_pos (present_iff.2 hp)]; rfl
      · rw [if_neg hp, if_neg (fun h' => hp (present_iff.1 h'))]; rfl

theorem flashWrite_run {g : Geo} (w : g.WF) (s : St K) {a : Nat} {bs : List Byte}
    (ha : g.word ∣ a) (hb : g.word ∣ bs.length) (hne : bs.length ≠ 0) (h1 : g.start ≤ a)
    (h2 : a + bs.length ≤ g.stop) :
    flashWrite g a bs s =
      (if (spend s.fl.fuel bs.length).2.2 then .ok () else .error .shutoff,
        { s with fl :=
          { s.fl with
            mem := programBytes s.fl.mem a (bs.take (spend s.fl.fuel bs.length).1)
            fuel := (spend s.fl.fuel bs.length).2.1
            writes := countWrites g.writeSize s.fl.writes a (spend s.fl.fuel bs.length).1
            peak := peakWrites g.writeSize s.fl.peak s.fl.writes a (spend s.fl.fuel bs.length).1
            stuck := s.fl.stuck + clashes s.fl.mem a (bs.take (spend s.fl.fuel bs.length).1) } }) := by
  simp only [flashWrite, Flash.write_ok w s.fl ha hb hne h1 h2]

end SeqStorage
