import Verif.Proofs.Blind
import Verif.Props.MapCache
/-
What was in the data buffer before a call does not matter: C70.
-/

set_option linter.unusedSectionVars false

namespace SeqStorage.Props
open M Spec Codec

variable {K V : Type} [DecidableEq K] {kc : KeyCodec K} {vc : ValCodec V} {c : Coding K V} {g : Geo} {s : St K} {lim : Nat}

/-- The same call with all buffers filled with zeros. -/
def zeroed {ρ : Type} : QCall ρ → QCall ρ
  | .pop b => .pop (List.replicate b.length 0#8)
  | .peek b => .peek (List.replicate b.length 0#8)
  | .iterate steps => .iterate (steps.map fun x => (List.replicate x.1.length 0#8, x.2))
  | call => call

/-! ### Runs that differ in the buffers -/

section
open Blind
variable {α β : Type}

/-- From states that differ in the contents of the buffer only, the two functions give the same and get to such states. -/
def Twins (m m' : M K α) : Prop :=
  ∀ s b, b.length = s.buf.length → ∃ b', m' { s with buf := b } = ((m s).1, { (m s).2 with buf := b' }) ∧ b'.length = (m s).2.buf.length

theorem twins_of {m : M K α} {E : α → Nat} (h : On 0 E m) : Twins m m := fun s b hb =>
  let ⟨b', h1, h2, _⟩ := h s b hb (by simp)
  ⟨b', h1, h2⟩

theorem twins_bind {m m' : M K α} {f f' : α → M K β} (hm : Twins m m') (hf : ∀ a, Twins (f a) (f' a)) : Twins (m >>= f) (m' >>= f') := by
  intro s b hb
  obtain ⟨b', h1, h2⟩ := hm s b hb
  change ∃ b', M.bind m' f' _ = ((M.bind m f s).1, { (M.bind m f s).2 with buf := b' }) ∧ b'.length = (M.bind m f s).2.buf.length
  unfold M.bind
  rw [h1]
  rcases hr : m s with ⟨r, t⟩
  rw [hr] at h2
  cases r with
  | error e => exact ⟨b', rfl, h2⟩
  | ok a => exact hf a t b' h2

theorem twins_attempt {m m' : M K α} (hm : Twins m m') : Twins (M.attempt m) (M.attempt m') := by
  intro s b hb
  obtain ⟨b', h1, h2⟩ := hm s b hb
  refine ⟨b', ?_, h2⟩
  unfold M.attempt
  rw [h1]

theorem twins_setBuf {b b' : List Byte} (h : b'.length = b.length) : Twins (setBuf b : M K Unit) (setBuf b') :=
  fun _ _ _ => ⟨b', rfl, h⟩

theorem twins_off {m : M K α} (h : Off m) : Twins m m := twins_of h.keep

theorem twins_steps (w : g.WF) (steps : List (List Byte × Bool)) :
    Twins (iterSteps g steps : M K _) (iterSteps g (steps.map fun x => (List.replicate x.1.length 0#8, x.2))) := by
  induction steps with
  | nil => exact twins_off (.pure _)
  | cons x rest ih =>
    obtain ⟨b, p⟩ := x
    simp only [List.map_cons]
    unfold iterSteps
    refine twins_bind (twins_setBuf (by simp)) fun _ => twins_bind (twins_attempt (twins_of (On.iterNext w))) fun r => ?_
    split
    · exact twins_bind ih fun _ => twins_off (.pure _)
    · split
      · exact twins_bind (twins_off (.entryPop _ _)) fun _ => twins_bind ih fun _ => twins_off (.pure _)
      · exact twins_bind ih fun _ => twins_off (.pure _)
    · exact twins_bind ih fun _ => twins_off (.pure _)
    · exact twins_off (.throw _)

theorem twins_call (w : g.WF) (call : QCall (Cache K)) : Twins (qcall g call) (qcall g (zeroed call)) := by
  cases call with
  | push d o => exact twins_off ((Off.push d o).bind fun _ => .pure _)
  | pop b => exact twins_bind (twins_setBuf (by simp)) fun _ => twins_bind (twins_of (On.pop w)) fun _ => twins_off (.pure _)
  | peek b => exact twins_bind (twins_setBuf (by simp)) fun _ => twins_bind (twins_of (On.peek w)) fun _ => twins_off (.pure _)
  | iterate steps => exact twins_bind (twins_off .iterNew) fun _ => twins_bind (twins_steps w steps) fun _ => twins_off (.pure _)
  | maxFit => exact twins_off (Off.findMaxFit.bind fun _ => .pure _)
  | spaceLeft => exact twins_off (Off.spaceLeft.bind fun _ => .pure _)
  | restart r => exact twins_off ((Off.modifyCache _).bind fun _ => .pure _)

end

theorem zeroed_run (w : g.WF) (cs : List (QCall (Cache K) × Option Nat)) : ∀ (s : St K) (b : List Byte), b.length = s.buf.length →
    ∃ b', qrunPower g (cs.map fun x => (zeroed x.1, x.2)) { s with buf := b } = ((qrunPower g cs s).1, { (qrunPower g cs s).2 with buf := b' }) ∧
      b'.length = (qrunPower g cs s).2.buf.length := by
  induction cs with
  | nil => exact fun _ b hb => ⟨b, rfl, hb⟩
  | cons x cs ih =>
    intro s b hb
    obtain ⟨call, fuel⟩ := x
    obtain ⟨b', h1, h2⟩ := twins_call w call { s with fl := { s.fl with fuel := fuel } } b hb
    obtain ⟨b'', i1, i2⟩ := ih _ b' h2
    simp only [List.map_cons, qrunPower]
    dsimp only at h1
    rw [h1]
    dsimp only
    rw [i1]
    exact ⟨b'', rfl, i2⟩

/-- C70 for a queue. Two sequences of calls that differ in the contents of the buffers only, interrupted at the same bytes, give the same
answers and leave the same state apart from the contents of the buffer: flash, cache and position of the iterator. This holds from any
state. -/
theorem queue_ignores_buffer_contents (w : g.WF) (s : St K) (cs cs' : List (QCall (Cache K) × Option Nat))
    (h : cs.map (fun x => (zeroed x.1, x.2)) = cs'.map fun x => (zeroed x.1, x.2)) :
    (qrunPower g cs s).1 = (qrunPower g cs' s).1 ∧
      ∃ b, b.length = (qrunPower g cs s).2.buf.length ∧ (qrunPower g cs' s).2 = { (qrunPower g cs s).2 with buf := b } := by
  obtain ⟨b, h1, h2⟩ := zeroed_run w cs s s.buf rfl
  obtain ⟨b', i1, i2⟩ := zeroed_run w cs' s s.buf rfl
  rw [h, i1, Prod.mk.injEq] at h1
  obtain ⟨h3, h4⟩ := h1
  refine ⟨h3.symm, (qrunPower g cs' s).2.buf, ?_, ?_⟩
  · rw [← h2, ← i2]
    exact congrArg (fun t : St K => t.buf.length) h4
  · have := congrArg (fun t : St K => { t with buf := (qrunPower g cs' s).2.buf }) h4
    exact this

/-! ### Maps -/

/-- The same call with the buffer of a store filled with zeros and without the other buffers. -/
def bufless {ρ : Type} : MCall K V ρ → MCall K V ρ
  | .store k v b => .store k v (List.replicate b.length 0#8)
  | .fetch k _ => .fetch k []
  | .remove k _ => .remove k []
  | .removeAll _ => .removeAll []
  | .fetchAll _ steps => .fetchAll [] (steps.map fun _ => [])
  | .restart r => .restart r

theorem mcallA_bufless (σ : Shape) (P : Nat → PK) (call : MCall K V (Cache K)) : mcallA kc vc g σ P (bufless call) = mcallA kc vc g σ P call := by
  cases call <;> simp [bufless, mcallA]

theorem mrunA_bufless (cs : List (MCall K V (Cache K))) : ∀ (σ : Shape) (P : Nat → PK),
    mrunA kc vc g (cs.map bufless) σ P = mrunA kc vc g cs σ P := by
  induction cs with
  | nil => intro σ P; rfl
  | cons call cs ih =>
    intro σ P
    simp only [List.map_cons, mrunA, mcallA_bufless, ih]

/-- C70 for a map that was never interrupted, with buffers that take every item: the contents of all buffers and the lengths of those of
calls other than stores do not matter.
Missing: maps that were interrupted, smaller buffers. For a flash with an item that is shorter than a key it is false, see below. -/
theorem map_ignores_buffer_contents_partial (w : g.WF) (hc : Codes kc vc c) (hn : 2 ≤ g.pageCount) (h : MReached kc vc c g lim s)
    (cs cs' : List (MCall K V (Cache K))) (hd : ∀ call ∈ cs, MUsable g lim c call) (hd' : ∀ call ∈ cs', MUsable g lim c call)
    (he : cs.map bufless = cs'.map bufless) :
    (mrun g kc vc cs s).1 = (mrun g kc vc cs' s).1 := by
  obtain ⟨σ, P, h⟩ := h.mi w hc hn
  rw [(mrun_det w hc hn cs h hd).1, (mrun_det w hc hn cs' h hd').1, ← mrunA_bufless cs, he, mrunA_bufless]

/-! ### Concrete cases -/

/-- Words of one byte. -/
def geoBytes : Geo := ⟨1, 1, 64, 0, 192⟩

theorem geoBytes_wf : geoBytes.WF := by constructor <;> decide

/-- How a call ends. -/
inductive Ending
  | fine
  | panicked
  | other
  deriving DecidableEq

def ending {α : Type} : Except Err α → Ending
  | .ok _ => .fine
  | .error .panic => .panicked
  | .error _ => .other

/-- A push that loses power, a push that does not and a pop. -/
def noisy (x : Byte) : List (QCall (Cache K2) × Option Nat) :=
  [(.push [1#8, 2#8] false, some 5), (.push [3#8] false, none), (.pop [x, x, x, x], none), (.iterate [([x], false)], none)]

example (x y : Byte) (s : St K2) : (qrunPower geoBytes (noisy x) s).1 = (qrunPower geoBytes (noisy y) s).1 :=
  (queue_ignores_buffer_contents geoBytes_wf s (noisy x) (noisy y) rfl).1

example : (qrunPower geoBytes (noisy 7#8) blankMap).1.map ending = [.other, .fine, .fine, .fine] := by decide +kernel

/-- A store and a fetch of it, with buffers of 48 and `n` times the byte `x`. -/
def filled (n : Nat) (x : Byte) : List (MCall K2 V4 (Cache K2)) := [.store 1 10 (List.replicate 48 x), .fetch 1 (List.replicate n x)]

theorem filled_ok {n : Nat} {x : Byte} (hn : 8 ≤ n) : ∀ call ∈ filled n x, MUsable geo3 8 (numCoding 2 4) call := by
  intro call h
  simp only [filled, List.mem_cons, List.not_mem_nil, or_false] at h
  rcases h with rfl | rfl
  · exact ⟨trivial, fun _ => by decide, by simp [LargeBuffers]⟩
  · exact ⟨trivial, trivial, by simp [LargeBuffers, hn]⟩

example (x y : Byte) : (mrun geo3 (numKey 2) (numVal 4) (filled 48 x) mst).1 = (mrun geo3 (numKey 2) (numVal 4) (filled 50 y) mst).1 :=
  map_ignores_buffer_contents_partial (s := mst) geo3_wf (num_codes 2 4) (by decide) mst_reached (filled 48 x) (filled 50 y)
    (filled_ok (by decide)) (filled_ok (by decide)) rfl

/-- A page with an item of one byte, as a map with keys of one byte and empty values writes it. -/
def foreign : St K2 :=
  ((partialClosePage geoBytes 0 >>= fun _ => writeNew geoBytes (geoBytes.dataStart 0) [5#8] : M K2 Unit) blankMap).2

/-- Asked for a key of two bytes, a map takes the byte of the item and the next one of the old contents of the buffer for a key. When it is
the key that is asked for, the call panics (/repo/src/map.rs 208). -/
theorem old_buffer_contents_matter :
    ending (mcall geoBytes (numKey 2) (numVal 4) (.fetch 0x0105 [0, 0, 0, 0]) foreign).1 = .fine ∧
      ending (mcall geoBytes (numKey 2) (numVal 4) (.fetch 0x0105 [0, 1, 0, 0]) foreign).1 = .panicked := by decide +kernel

end SeqStorage.Props
