import Verif.Proofs.Answers
import Verif.Props.SharedQueue
import Verif.Props.MapSafe
/-
What errors say about the arguments of a call: C61.
-/

namespace SeqStorage.Props
open M Spec

set_option linter.unusedSectionVars false

variable {K : Type} [DecidableEq K] {V : Type} {g : Geo}

/-- When the errors about the storage being full, an item being too big, (de)serialization and the buffer being too
small for a number of bytes are allowed. Nothing may find a buffer too big. -/
structure Says where
  full : Prop
  big : Prop
  ser : Prop
  small : Nat → Prop

/-- The result is no error that is not allowed. -/
def Says.holds {α : Type} (x : Says) : Except Err α → Prop
  | .error .fullStorage => x.full
  | .error .itemTooBig => x.big
  | .error (.serialization _) => x.ser
  | .error (.bufferTooSmall n) => x.small n
  | .error .bufferTooBig => False
  | _ => True

/-- None of these errors. -/
def Says.none : Says := ⟨False, False, False, fun _ => False⟩

/-- For a buffer of `len` bytes that is read into. -/
def Says.reads (len : Nat) : Says := ⟨False, False, False, fun n => len < n⟩

/-- The same where keys or values are decoded. -/
def Says.decodes (len : Nat) : Says := ⟨False, False, True, fun n => len < n⟩

theorem errs_says {α : Type} {x : Nat → Says} {m : M K α}
    (h : ∀ P : Kind, (∀ n e, P.ok n e ↔ (x n).holds (.error e : Except Err α)) → Errs P m) (s : St K) : (x s.buf.length).holds (m s).1 := by
  let P : Kind := ⟨fun n e => (x n).holds (.error e : Except Err α), by intro n e h; cases e <;> first | exact h.elim | trivial⟩
  have := ((h P fun _ _ => Iff.rfl).out s).2
  cases hm : (m s).1 with
  | ok a => trivial
  | error e => exact this e hm

/-- C61. Whatever is in flash, in the caches and in the buffer: a push says `FullStorage` only if nothing may be
overwritten, and `ItemTooBig` only for data that do not fit on a page; popping, peeking and iterating say only
`BufferTooSmall` of these, with more bytes than the buffer has; starting an iteration, popping its entry and the
questions for sizes say none of them. -/
theorem queue_errors_mean (w : g.WF) (s : St K) :
    (∀ d ow, Says.holds ⟨ow = false, ¬ FitsPage g.word g.eraseSize d, False, fun _ => False⟩ (Queue.push g d ow s).1) ∧
    (Says.reads s.buf.length).holds (Queue.pop g s).1 ∧ (Says.reads s.buf.length).holds (Queue.peek g s).1 ∧
    (Says.reads s.buf.length).holds (Queue.iterNext g s).1 ∧
    Says.none.holds (Queue.iterNew g s).1 ∧ (∀ h a, Says.none.holds (Queue.entryPop g h a s).1) ∧
    Says.none.holds (Queue.findMaxFit g s).1 ∧ Says.none.holds (Queue.spaceLeft g s).1 ∧ Says.none.holds (eraseAll g s).1 := by
  refine ⟨fun d ow => ?_, ?_, ?_, ?_, ?_, fun h a => ?_, ?_, ?_, ?_⟩
  · refine errs_says (x := fun _ => ⟨_, _, _, _⟩) (fun P hP => .push g d ow (fun h n => (hP _ _).2 h) (fun h n => (hP _ _).2 ?_)) s
    intro hf
    rw [(fitsPage_iff w).1 hf] at h
    cases h
  · exact errs_says (x := Says.reads) (fun P hP => .pop (fun n k h => (hP _ _).2 h) g) s
  · exact errs_says (x := Says.reads) (fun P hP => .peek (fun n k h => (hP _ _).2 h) g) s
  · exact errs_says (x := Says.reads) (fun P hP => .iterNext (fun n k h => (hP _ _).2 h) g) s
  · exact errs_says (x := fun _ => Says.none) (fun P hP => .iterNew g) s
  · exact errs_says (x := fun _ => Says.none) (fun P hP => .entryPop ..) s
  · exact errs_says (x := fun _ => Says.none) (fun P hP => .repair (.maxFitInner g) (.queueRepair g)) s
  · exact errs_says (x := fun _ => Says.none) (fun P hP => .repair (.spaceInner g) (.queueRepair g)) s
  · exact errs_says (x := fun _ => Says.none) (fun P hP => .erase ..) s

/-- C61. And data that do not fit on a page are always refused so, before anything is read or written. -/
theorem too_big_always_refused (w : g.WF) (s : St K) (d : List Byte) (ow : Bool) (hd : ¬ FitsPage g.word g.eraseSize d) :
    (Queue.push g d ow s).1 = .error .itemTooBig ∧ (Queue.push g d ow s).2.fl = s.fl := by
  have hb : g.tooBig d.length = true := by
    cases h : g.tooBig d.length with
    | true => rfl
    | false => exact (hd ((fitsPage_iff w).2 h)).elim
  unfold Queue.push withRepair Queue.pushInner
  simp only [hb, if_true]
  exact ⟨rfl, rfl⟩

/-- Keys and values that write no more than the buffer holds. -/
def Modest (kc : KeyCodec K) (vc : ValCodec V) : Prop :=
  (∀ k n b, kc.ser k n = .ok b → b.length ≤ n) ∧ ∀ v n b, vc.ser v n = .ok b → b.length ≤ n

/-- C61. Whatever is in flash, in the caches and in the buffer: of these errors fetching, removing and iterating give
only those of deserialization and `BufferTooSmall`, with more bytes than the buffer has; storing can also give
`FullStorage`, and `ItemTooBig` only if the bytes of key and value do not fit on a page. -/
theorem map_errors_mean (w : g.WF) (kc : KeyCodec K) (vc : ValCodec V) (hm : Modest kc vc) (s : St K) :
    (∀ k, (Says.decodes s.buf.length).holds (Map.fetchItem g kc vc k s).1) ∧
    (∀ k, (Says.decodes s.buf.length).holds (Map.removeItem g kc k s).1) ∧
    (Says.decodes s.buf.length).holds (Map.removeAll g kc s).1 ∧
    (Says.decodes s.buf.length).holds (Map.fetchAll g kc s).1 ∧
    (Says.decodes s.buf.length).holds (Map.iterNext g kc vc s).1 ∧
    (∀ k v, Says.holds ⟨True,
      ∃ kb vb, kc.ser k s.buf.length = .ok kb ∧ vc.ser v (s.buf.length - kb.length) = .ok vb ∧ ¬ FitsPage g.word g.eraseSize (kb ++ vb),
      True, fun n => s.buf.length < n⟩ (Map.storeItem g kc vc k v s).1) := by
  have hS : ∀ {α : Type} (P : Kind), (∀ n e, P.ok n e ↔ (Says.decodes n).holds (.error e : Except Err α)) →
      (∀ n k, n < k → P.ok n (.bufferTooSmall k)) ∧ ∀ n e, P.ok n (.serialization e) :=
    fun {α} P hP => ⟨fun n k h => (hP _ _).2 h, fun n e => (hP _ _).2 trivial⟩
  refine ⟨fun k => ?_, fun k => ?_, ?_, ?_, ?_, fun k v => ?_⟩
  · exact errs_says (x := Says.decodes) (fun P hP => .fetchItem (hS P hP).1 (hS P hP).2 ..) s
  · exact errs_says (x := Says.decodes) (fun P hP => .repair (.removeInner (hS P hP).1 (hS P hP).2 ..) (.mapRepair (hS P hP).1 (hS P hP).2 ..)) s
  · exact errs_says (x := Says.decodes) (fun P hP => .repair (.removeInner (hS P hP).1 (hS P hP).2 ..) (.mapRepair (hS P hP).1 (hS P hP).2 ..)) s
  · exact errs_says (x := Says.decodes) (fun P hP => .fetchAll (hS P hP).1 (hS P hP).2 ..) s
  · exact errs_says (x := Says.decodes) (fun P hP => .mapNext (hS P hP).1 (hS P hP).2 ..) s
  · refine errs_says (x := fun n => ⟨True,
      ∃ kb vb, kc.ser k n = .ok kb ∧ vc.ser v (n - kb.length) = .ok vb ∧ ¬ FitsPage g.word g.eraseSize (kb ++ vb), True, fun m => n < m⟩)
      (fun P hP => .store (fun n k h => (hP _ _).2 h) (fun n e => (hP _ _).2 trivial) (hm.1 k) (hm.2 v) ?_ (fun n => (hP _ _).2 trivial)) s
    intro n kb vb h1 h2 h3
    refine (hP _ _).2 ⟨kb, vb, h1, h2, fun hf => ?_⟩
    rw [(fitsPage_iff w).1 hf] at h3
    cases h3

/-! ### Cases -/

/-- A flash whose two pages both look partially written. -/
def twoFronts : St Unit := { freshSt with fl := { freshSt.fl with mem := fun x => if x % 32 < 28 then 0#8 else 0xff#8 } }

/-- The full queue of C59 refuses an item, unless old ones may be overwritten. A flash that no sequence of calls makes
is reported as corrupted in either case. An item that is longer than a page is too big. -/
theorem errors_seen :
    (Queue.push geo2 (big 3) false fullShared.st).1 = .error .fullStorage ∧ (Queue.push geo2 (big 3) true fullShared.st).1 = .ok () ∧
    (Queue.push geo2 (big 3) false twoFronts).1 = .error .corrupted ∧ (Queue.push geo2 (big 3) true twoFronts).1 = .error .corrupted ∧
    (Queue.push geo2 buf100 true fullShared.st).1 = .error .itemTooBig ∧
    (Queue.pop geo2 { fullShared.st with buf := [] }).1 = .error (.bufferTooSmall 16) := by decide +kernel

open Codec in
theorem num_modest (a b : Nat) : Modest (numKey a) (numVal b) := by
  have hf : ∀ (x : List Byte) n y, fit x n .bufferTooSmall = .ok y → y.length ≤ n := by
    intro x n y h
    unfold fit at h
    split at h
    · cases h
    · cases h; omega
  exact ⟨fun k n y h => hf _ n y h, fun v n y h => hf _ n y h⟩

open Codec in
/-- A map in whose flash there is no key of eight bytes finds the bytes too few for one, refuses a value that is too big
for a page, and a buffer that is too small. -/
example : Modest (numKey 8) (numVal 30) ∧
    (Map.fetchItem geo2 (numKey 20) (numVal 4) 0 { fullShared.st with
      cache := ⟨false, .uncached, .uncached, .uncached⟩, buf := List.replicate 16 0#8 }).1 = .error (.serialization .bufferTooSmall) ∧
    (Map.storeItem geo2 (numKey 8) (numVal 30) 0 0 { freshSt with
      cache := ⟨false, .uncached, .uncached, .uncached⟩, buf := buf100 }).1 = .error .itemTooBig ∧
    (Map.storeItem geo2 (numKey 8) (numVal 8) 0 0 { freshSt with
      cache := ⟨false, .uncached, .uncached, .uncached⟩, buf := List.replicate 9 0#8 }).1 = .error (.serialization .bufferTooSmall) := by
  refine ⟨num_modest 8 30, ?_, ?_, ?_⟩
  all_goals decide +kernel

end SeqStorage.Props
