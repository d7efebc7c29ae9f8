import Verif.Proofs.Run
import Verif.Model.Reread
/-
With repeatable reads the retries change nothing.
-/

namespace SeqStorage
open M

variable {K : Type} [DecidableEq K] {g : Geo}

theorem readHeader_state (s : St K) (a e : Nat) (r : Except Err (Option Header)) (s' : St K)
    (h : readHeader g a e s = (r, s')) : (r = .error .corrupted ∨ r.isOk) → s' = s := by
  unfold readHeader at h
  split at h
  · intro _; simp only [pure_run, Prod.mk.injEq] at h; exact h.2.symm
  · rw [bind_run] at h
    simp only [flashRead] at h
    cases hr : s.fl.read g a g.hl with
    | error err =>
      rw [hr] at h
      simp only [Prod.mk.injEq] at h
      intro hh
      rw [← h.1] at hh
      exfalso
      unfold Flash.read at hr
      split at hr
      · simp only [Except.error.injEq] at hr; subst hr; simp [Except.isOk, Except.toBool] at hh
      · split at hr
        · simp only [Except.error.injEq] at hr; subst hr; simp [Except.isOk, Except.toBool] at hh
        · simp at hr
    | ok bs =>
      rw [hr] at h
      simp only [bind_run, lift_run] at h
      intro _
      cases hd : decodeHeader bs with
      | error err => rw [hd] at h; simp only [Prod.mk.injEq] at h; exact h.2.symm
      | ok o =>
        rw [hd] at h
        cases o with
        | none => simp only [pure_run, Prod.mk.injEq] at h; exact h.2.symm
        | some hd =>
          simp only at h
          split at h
          · simp only [M.throw, Prod.mk.injEq] at h; exact h.2.symm
          · simp only [pure_run, Prod.mk.injEq] at h; exact h.2.symm

theorem reread_header_same (s : St K) (a e t : Nat) :
    (rereadHeader g (s.fl.bus g) a e t).1 = (readHeader g a e s).1 := by
  unfold rereadHeader readHeader
  split
  · rfl
  · rw [bind_run]
    simp only [flashRead, Flash.bus]
    cases hr : s.fl.read g a g.hl with
    | error err => rfl
    | ok bs =>
      simp only [bind_run, lift_run, headerPass]
      cases hd : decodeHeader bs with
      | error err => simp only; rw [decodeHeader_err hd]
      | ok o =>
        cases o with
        | none => rfl
        | some h =>
          simp only [headerCheck]
          split <;> rfl

/-- What `read_item` returns is the kind of item, and the data is a prefix of the buffer. -/
def SameItem (x : Except Err MaybeItem × St K) (y : Except Err (MaybeItem × List Byte)) (s : St K) : Prop :=
  match x, y with
  | (.ok m, s'), .ok (m', d) => m = m' ∧ s'.fl = s.fl ∧ s'.buf.length = s.buf.length ∧
      ∀ h, m = .present h → s'.buf.take h.len.toNat = d
  | (.error e, _), .error e' => e = e'
  | _, _ => False

theorem read_length {f : Flash} {a n : Nat} {bs : List Byte} (h : f.read g a n = .ok bs) : bs.length = n := by
  unfold Flash.read at h
  split at h
  · simp at h
  · split at h
    · simp at h
    · simp only [Except.ok.injEq] at h
      subst h
      simp [readBytes]

theorem reread_item_same (s : St K) (h : Header) (a e t : Nat) (hr : h.len.toNat ≤ g.roundUp h.len.toNat) :
    SameItem (readItem g h a e s) (rereadItem g (s.fl.bus g) h a e s.buf.length t).1 s := by
  unfold rereadItem readItem
  split
  · exact ⟨rfl, rfl, rfl, fun _ h => by simp at h⟩
  · split
    · exact ⟨rfl, rfl, rfl, fun _ h => by simp at h⟩
    · rw [bind_run, get_run]
      simp only
      split
      · simp only [M.throw]; exact rfl
      · rename_i hb
        rw [bind_run]
        simp only [readIntoBuf, readData]
        by_cases h0 : g.roundUp h.len.toNat = 0
        · rw [if_pos h0, if_pos h0]
          have hl : h.len.toNat = 0 := by omega
          simp only [pure_run, bind_run, get_run, hl, List.take_zero]
          split
          · exact ⟨rfl, rfl, rfl, fun h' hh => by cases hh; rw [hl]; rfl⟩
          · rw [if_pos (by have := h0; rw [hl] at this; exact this)]
            exact ⟨rfl, rfl, rfl, fun _ h => by simp at h⟩
        · rw [if_neg h0, if_neg h0]
          rw [bind_run]
          simp only [flashRead, Flash.bus]
          cases hrd : s.fl.read g (a + g.hl) (g.roundUp h.len.toNat) with
          | error err => exact rfl
          | ok bs =>
            have hlen := read_length hrd
            have ht : (bs ++ s.buf.drop (g.roundUp h.len.toNat)).take h.len.toNat = bs.take h.len.toNat := by
              rw [List.take_append_of_le_length (by omega)]
            have hll : (bs ++ s.buf.drop (g.roundUp h.len.toNat)).length = s.buf.length := by
              rw [List.length_append, List.length_drop]; omega
            simp only [modify_run, bind_run, get_run, ht]
            split
            · exact ⟨rfl, rfl, hll, fun h' hh => by cases hh; exact ht⟩
            · rename_i hne
              simp only [if_neg hne]
              exact ⟨rfl, rfl, hll, fun _ h => by simp at h⟩

theorem reread_traverse_same (s : St K) (e : Nat) : ∀ (r a t : Nat),
    (rereadTraverse g (s.fl.bus g) e r a t).1 = (traverse g e (fun _ => false) r a s).1 ∧
    ((traverse g e (fun _ => false) r a s).1.isOk → (traverse g e (fun _ => false) r a s).2 = s)
  | 0, _, _ => ⟨rfl, fun h => by simp [traverse, M.throw, Except.isOk, Except.toBool] at h⟩
  | r + 1, a, t => by
    have h1 := reread_header_same (g := g) s a e t
    rw [rereadTraverse, traverse, bind_run, attempt_run]
    rcases hx : rereadHeader g (s.fl.bus g) a e t with ⟨x, t'⟩
    rcases hy : readHeader g a e s with ⟨y, s'⟩
    rw [hx, hy] at h1
    simp only at h1
    subst h1
    have hs := readHeader_state s a e _ s' hy
    match x with
    | .ok (some h) =>
      have := hs (Or.inr rfl); subst this
      exact ⟨rfl, fun _ => rfl⟩
    | .ok none =>
      have := hs (Or.inr rfl); subst this
      exact ⟨rfl, fun _ => rfl⟩
    | .error err =>
      by_cases hc : err = .corrupted
      · subst hc
        have := hs (Or.inl rfl); subst this
        exact reread_traverse_same s' e r (a + g.word) t'
      · cases err <;> first | exact absurd rfl hc | exact ⟨rfl, fun h => by simp [M.throw, Except.isOk, Except.toBool] at h⟩

/-- The two answers of `ItemIter::next` agree. -/
def SameNext (x : Except Err (Option (Header × Nat) × Nat) × St K)
    (y : Except Err (Option (Header × Nat × List Byte) × Nat)) : Prop :=
  match x, y with
  | (.ok (none, n), _), .ok (none, n') => n = n'
  | (.ok (some (h, a), n), s'), .ok (some (h', a', d), n') => n = n' ∧ h = h' ∧ a = a' ∧ s'.buf.take h.len.toNat = d
  | (.error e, _), .error e' => e = e'
  | _, _ => False

theorem reread_next_same (hru : ∀ n, n ≤ g.roundUp n) (e : Nat) : ∀ (r a t : Nat) (s : St K),
    SameNext (itemNext g e r a s) (rereadNext g (s.fl.bus g) e s.buf.length r a t).1
  | 0, _, _, _ => rfl
  | r + 1, a, t, s => by
    obtain ⟨h1, h2⟩ := reread_traverse_same (g := g) s e g.rounds a t
    rw [rereadNext, itemNext, bind_run]
    rcases hx : rereadTraverse g (s.fl.bus g) e g.rounds a t with ⟨x, t'⟩
    rcases hy : traverse g e (fun _ => false) g.rounds a s with ⟨y, s'⟩
    rw [hx, hy] at h1
    rw [hy] at h2
    simp only at h1 h2
    subst h1
    match x with
    | .error err => exact rfl
    | .ok (none, ad, nx) => exact rfl
    | .ok (some h, ad, nx) =>
      have := h2 rfl; subst this
      simp only
      rw [bind_run]
      have hi := reread_item_same s' h ad e t' (hru _)
      rcases hu : rereadItem g (s'.fl.bus g) h ad e s'.buf.length t' with ⟨u, t2⟩
      rcases hv : readItem g h ad e s' with ⟨v, s2⟩
      rw [hu, hv] at hi
      match u, v with
      | .error _, .error _ => exact hi
      | .error _, .ok _ => exact hi.elim
      | .ok _, .error _ => exact hi.elim
      | .ok (m', d), .ok m =>
        obtain ⟨rfl, hf, hb, hd⟩ := hi
        match m with
        | .present h' =>
          exact ⟨rfl, rfl, rfl, hd h' rfl⟩
        | .erased h' =>
          have := reread_next_same hru e r nx t2 s2
          rw [hf, hb] at this
          exact this
        | .corrupted h' =>
          have := reread_next_same hru e r nx t2 s2
          rw [hf, hb] at this
          exact this

end SeqStorage
