import Verif.Proofs.CutMap
import Verif.Props.Decode
import Verif.Props.Reading
/-
What a map call with a too small buffer leaves behind: C69.
-/

namespace SeqStorage.Props
open M Spec Codec Proofs
open Short (KeyExt SerExt)

variable {K : Type} [DecidableEq K] {V : Type} {g : Geo} {s : St K} {kc : KeyCodec K} {vc : ValCodec V}
variable {ke : K → Option (List Byte)} {ve : V → List Byte}

/-- The same call with another buffer. -/
def giveBuf {C : Type} (b : List Byte) : MCall K V C → MCall K V C
  | .store k v _ => .store k v b
  | .fetch k _ => .fetch k b
  | .remove k _ => .remove k b
  | .removeAll _ => .removeAll b
  | .fetchAll _ steps => .fetchAll b steps
  | .restart c => .restart c

/-- An error that tells that the buffer does not take a key, a value or an item. -/
def Complains {α : Type} (r : Except Err α) : Prop :=
  (∃ n, r = .error (.bufferTooSmall n)) ∨ ∃ e, r = .error (.serialization e)

theorem cut_after {α : Type} {m : M K α} {f : α → MAnswer K V} (h : Short.Cut m) : Short.Cut (m >>= fun a => pure (f a)) :=
  h.bind fun _ => (Short.Plain.pure _).cut

omit [DecidableEq K] in
/-- The steps of an iteration have their own buffers. -/
theorem mapSteps_buf (g : Geo) (kc : KeyCodec K) (vc : ValCodec V) (steps : List (List Byte)) (t : St K) (b : List Byte) :
    let r := mapSteps g kc vc steps t
    let r' := mapSteps g kc vc steps { t with buf := b }
    r'.1 = r.1 ∧ r'.2.fl = r.2.fl ∧ r'.2.cache = r.2.cache := by
  cases steps <;> exact ⟨rfl, rfl, rfl⟩

/-- The steps only read. -/
theorem iteration_cut {m : M K Unit} (hm : Short.Cut m) (hs : s.fl.fuel = none) (b : List Byte) (n : Nat) (steps : List (List Byte)) :
    let it : M K (MAnswer K V) := m >>= fun _ => mapSteps g kc vc steps >>= fun l => pure (.items l)
    let small := it { s with buf := b.take n }
    let large := it { s with buf := b }
    (small.1 = large.1 ∧ small.2.fl = large.2.fl ∧ small.2.cache = large.2.cache) ∨
      Complains small.1 ∧ ∃ k, (it { s with fl := { s.fl with fuel := some k }, buf := b }).2.fl.mem = small.2.fl.mem := by
  have h := hm.rel { s with buf := b.take n } (b.drop n) hs trivial
  have e1 : Short.ext { s with buf := b.take n } (b.drop n) = { s with buf := b } := by simp only [Short.ext, List.take_append_drop]
  unfold Short.Rel at h
  rw [e1] at h
  intro it small large
  have hl : Leaves untouched (mapSteps g kc vc steps >>= fun l => (pure (.items l) : M K (MAnswer K V))) :=
    (Leaves.mapSteps g kc vc steps).bind fun _ => .pure _
  have run : ∀ s, it s = match m s with
      | (.ok _, t) => (mapSteps g kc vc steps >>= fun l => (pure (.items l) : M K (MAnswer K V))) t
      | (.error e, t) => (.error e, t) := fun s => by
    show (m >>= _) s = _
    rw [bind_run]
    rcases m s with ⟨_ | _, _⟩ <;> rfl
  rcases h with h | ⟨⟨e, h1, h2⟩, k, h3⟩
  · left
    simp only [small, large, run, h]
    rcases m { s with buf := b.take n } with ⟨r, t⟩
    cases r with
    | error e => exact ⟨rfl, rfl, rfl⟩
    | ok u =>
      have h4 := mapSteps_buf g kc vc steps t (t.buf ++ b.drop n)
      show _ = ((mapSteps g kc vc steps >>= fun l => (pure (.items l) : M K (MAnswer K V))) { t with buf := t.buf ++ b.drop n }).1 ∧
        _ = ((mapSteps g kc vc steps >>= fun l => (pure (.items l) : M K (MAnswer K V))) { t with buf := t.buf ++ b.drop n }).2.fl ∧
        _ = ((mapSteps g kc vc steps >>= fun l => (pure (.items l) : M K (MAnswer K V))) { t with buf := t.buf ++ b.drop n }).2.cache
      simp only [bind_run]
      obtain ⟨h5, h6, h7⟩ := h4
      rcases hr1 : mapSteps g kc vc steps t with ⟨r1, t1⟩
      rcases hr2 : mapSteps g kc vc steps { t with buf := t.buf ++ b.drop n } with ⟨r2, t2⟩
      rw [hr1, hr2] at h5 h6 h7
      obtain rfl : r2 = r1 := h5
      cases r2 <;> exact ⟨rfl, h6.symm, h7.symm⟩
  · right
    have e2 : small = (.error e, (m { s with buf := b.take n }).2) := by
      simp only [small, run]
      rcases hr : m { s with buf := b.take n } with ⟨r, t⟩
      rw [hr] at h2
      dsimp only at h2
      subst h2
      rfl
    rw [e2]
    refine ⟨?_, k, ?_⟩
    · cases e with
      | bufferTooSmall x => exact .inl ⟨x, rfl⟩
      | serialization x => exact .inr ⟨x, rfl⟩
      | _ => exact h1.elim
    · rw [run]
      have h5 : (m { s with fl := { s.fl with fuel := some k }, buf := b }).2.fl.mem = (m { s with buf := b.take n }).2.fl.mem := h3.1
      rcases hr : m { s with fl := { s.fl with fuel := some k }, buf := b } with ⟨r, t⟩
      rw [hr] at h5
      cases r with
      | error e => exact h5
      | ok u => exact (hl.out t).mem.trans h5

theorem small_buffer_interrupts_gen (w : g.WF) (hk : KeyExt kc) (hv : ∀ v, SerExt (vc.ser v)) (hs : s.fl.fuel = none)
    (c : MCall K V (Cache K)) (b : List Byte) (n : Nat) :
    let small := mcall g kc vc (giveBuf (b.take n) c) s
    let large := mcall g kc vc (giveBuf b c) s
    (small.1 = large.1 ∧ small.2.fl = large.2.fl ∧ small.2.cache = large.2.cache) ∨
      Complains small.1 ∧ ∃ k, (mcall g kc vc (giveBuf b c) { s with fl := { s.fl with fuel := some k } }).2.fl.mem = small.2.fl.mem := by
  have go : ∀ {m : M K (MAnswer K V)}, Short.Cut m →
      let small := m { s with buf := b.take n }
      let large := m { s with buf := b }
      (small.1 = large.1 ∧ small.2.fl = large.2.fl ∧ small.2.cache = large.2.cache) ∨
        Complains small.1 ∧ ∃ k, (m { s with fl := { s.fl with fuel := some k }, buf := b }).2.fl.mem = small.2.fl.mem := by
    intro m hm
    have h := hm.rel { s with buf := b.take n } (b.drop n) hs trivial
    have e1 : Short.ext { s with buf := b.take n } (b.drop n) = { s with buf := b } := by simp only [Short.ext, List.take_append_drop]
    unfold Short.Rel at h
    rw [e1] at h
    rcases h with h | ⟨⟨e, h1, h2⟩, k, h3⟩
    · left
      simp only [h]
      exact ⟨trivial, rfl, rfl⟩
    · refine .inr ⟨?_, k, h3.1⟩
      rw [h2]
      cases e with
      | bufferTooSmall x => exact .inl ⟨x, rfl⟩
      | serialization x => exact .inr ⟨x, rfl⟩
      | _ => exact h1.elim
  cases c with
  | store k v b' => exact go (cut_after (Short.Cut.storeItem w hk vc k v (hv v)))
  | fetch k b' => exact go (cut_after (Short.Cut.fetchItem w hk vc k))
  | remove k b' => exact go (cut_after (Short.Cut.removeItem w hk k))
  | removeAll b' => exact go (cut_after (Short.Cut.removeAll w hk))
  | fetchAll b' steps =>
    exact iteration_cut (Short.Cut.fetchAll w hk) hs b n steps
  | restart c => exact .inl ⟨rfl, rfl, rfl⟩

theorem BuiltInKey.ext (h : BuiltInKey kc ke) : KeyExt kc where
  ser k n bs hs := by
    obtain ⟨h1, h2⟩ := (built_in_codes h .bool).key_ok hs
    exact ⟨h2, fun n' hn => (built_in_codes h .bool).fits k n' bs h1 (by omega)⟩
  de b r x hd := by
    obtain ⟨k, n⟩ := r
    obtain ⟨bs, rest, h1, rfl, h3⟩ := (key_decodes_iff h b k n).1 hd
    exact (key_decodes_iff h _ k n).2 ⟨bs, rest ++ x, h1, by simp, h3⟩

theorem BuiltInVal.ext (h : BuiltInVal vc ve) (v : V) : SerExt (vc.ser v) := by
  intro n bs hs
  obtain ⟨rfl, h2⟩ := (built_in_codes .unit h).val_ok hs
  exact ⟨h2, fun n' hn => (built_in_codes .unit h).vfits v n' (by omega)⟩

/-- C69. A map call with only the first `n` bytes of a buffer answers as with all of them and leaves the same flash and cache,
or it complains about the buffer and the flash is as if the call with all of them had lost power before some byte or after the last one. This holds for any
contents of flash and cache and for the built-in keys and values; an iteration may be asked for items with any buffers. -/
theorem small_buffer_interrupts (w : g.WF) (hk : BuiltInKey kc ke) (hv : BuiltInVal vc ve) (hs : s.fl.fuel = none)
    (c : MCall K V (Cache K)) (b : List Byte) (n : Nat) :
    let small := mcall g kc vc (giveBuf (b.take n) c) s
    let large := mcall g kc vc (giveBuf b c) s
    (small.1 = large.1 ∧ small.2.fl = large.2.fl ∧ small.2.cache = large.2.cache) ∨
      Complains small.1 ∧ ∃ k, (mcall g kc vc (giveBuf b c) { s with fl := { s.fl with fuel := some k } }).2.fl.mem = small.2.fl.mem :=
  small_buffer_interrupts_gen w hk.ext hv.ext hs c b n

/-- The answer complains about the buffer. -/
def tells {α : Type} : Except Err α → Option Nat
  | .error (.bufferTooSmall n) => some n
  | _ => none

/-- For a store that succeeds with the whole buffer. -/
theorem complaint_interrupts (w : g.WF) (hk : BuiltInKey kc ke) (hv : BuiltInVal vc ve) (hs : s.fl.fuel = none) (key : K) (v : V) (b : List Byte) (n : Nat)
    {m : Nat} (h1 : tells (mcall g kc vc (.store key v (b.take n)) s).1 = some m) (h2 : tells (mcall g kc vc (.store key v b) s).1 = none) :
    ∃ k, (mcall g kc vc (.store key v b) { s with fl := { s.fl with fuel := some k } }).2.fl.mem = (mcall g kc vc (.store key v (b.take n)) s).2.fl.mem := by
  rcases small_buffer_interrupts w hk hv hs (.store key v []) b n with ⟨h3, _⟩ | ⟨_, h3⟩
  · simp only [giveBuf] at h3
    rw [h3, h2] at h1
    cases h1
  · exact h3

/-- Three pages of 64 bytes. -/
def geo3x64 : Geo := ⟨1, 4, 64, 0, 192⟩

theorem geo3x64_wf : geo3x64.WF := by constructor <;> decide

/-- A value of `n` bytes. -/
def sevens (n : Nat) : {l : List Byte // ∀ c ∈ (none : Option Nat), l.length ≤ c} := ⟨List.replicate n 7#8, by simp⟩

/-- A map with two pages in use, of which the older one holds a short and a long item. -/
def twoPages : St K2 :=
  (mrun geo3x64 (numKey 2) (bytesVal none) ([.store 1 (sevens 2) (List.replicate 32 0#8), .store 2 (sevens 14) (List.replicate 32 0#8)] ++
    List.replicate 5 (.store 3 (sevens 2) (List.replicate 32 0#8))) blankMap).2

/-- The store with four bytes of buffer. -/
def tightStore : Except Err (MAnswer K2 {l : List Byte // ∀ c ∈ (none : Option Nat), l.length ≤ c}) × St K2 :=
  mcall geo3x64 (numKey 2) (bytesVal none) (.store 3 (sevens 2) ((List.replicate 32 0#8).take 4)) twoPages

/-- The store has to make room: it closes the page in use, opens the third one and then finds that the buffer does not take the item
of 16 bytes in the oldest page. It fails, and the two markers stay. -/
theorem small_buffer_leaves_markers :
    tells tightStore.1 = some 16 ∧ twoPages.fl.mem 124 = 0xff#8 ∧ twoPages.fl.mem 128 = 0xff#8 ∧
      tightStore.2.fl.mem 124 = 0#8 ∧ tightStore.2.fl.mem 128 = 0#8 ∧ twoPages.fl.fuel = none := by
  decide +kernel

theorem large_buffer_stores :
    tells (mcall geo3x64 (numKey 2) (bytesVal none) (.store 3 (sevens 2) (List.replicate 32 0#8)) twoPages).1 = none := by
  decide +kernel

/-- The theorem applied to it: the flash is that of an interrupted store. -/
example : ∃ k, (mcall geo3x64 (numKey 2) (bytesVal none) (.store 3 (sevens 2) (List.replicate 32 0#8))
    { twoPages with fl := { twoPages.fl with fuel := some k } }).2.fl.mem = tightStore.2.fl.mem := by
  obtain ⟨h1, _, _, _, _, h2⟩ := small_buffer_leaves_markers
  have h3 := large_buffer_stores
  rw [tightStore] at h1 ⊢
  generalize twoPages = t at h1 h2 h3 ⊢
  exact complaint_interrupts geo3x64_wf (.num 2) (.bytes none) h2 3 (sevens 2) (List.replicate 32 0#8) 4 h1 h3

end SeqStorage.Props
