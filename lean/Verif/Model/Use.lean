import Verif.Model.Queue
import Verif.Spec.Queue
/-
How an application uses a queue: a sequence of calls on one storage object
(/repo/src/queue/mod.rs 119-346), with restarts in between.
-/

namespace SeqStorage
open M Spec

variable {K : Type} [DecidableEq K]

/-- The flash region as it is before first use (`MockFlashBase::default`, /repo/src/mock_flash.rs 56-76). -/
structure Erased (g : Geo) (fl : Flash) : Prop where
  blank : ∀ a, g.start ≤ a → a < g.stop → fl.mem a = 0xff#8
  erases : fl.erases = []
  writes : ∀ a, fl.writes a = 0
  peak : ∀ a, fl.peak a = 0
  faults : fl.faults = 0
  stuck : fl.stuck = 0

/-- A new cache for `n` pages: any of the constructors of /repo/src/cache/mod.rs 104-135 and 143-270. -/
structure FreshCache (n : Nat) (c : Cache K) : Prop where
  dirty : c.dirty = false
  ps : c.ps = .uncached ∨ c.ps = .calculated (CalcPS.new n) ∨ c.ps = .table (List.replicate n none)
  pp : c.pp = .uncached ∨ c.pp = .tracked (List.replicate n none) (List.replicate n none)
  kp : c.kp = .uncached ∨ ∃ k, c.kp = .tracked (List.replicate k none)

/-- The cache with nothing cached: `Cache::new_uncached` (/repo/src/cache/mod.rs 121-129). -/
def noCache : Cache K := ⟨false, .uncached, .uncached, .uncached⟩

omit [DecidableEq K] in
theorem noCache_fresh (n : Nat) : FreshCache n (noCache : Cache K) := ⟨rfl, Or.inl rfl, Or.inl rfl, Or.inl rfl⟩

/-- The caller hands in a `data_buffer` (e.g. /repo/src/queue/mod.rs 296). -/
def setBuf (b : List Byte) : M K Unit := M.modify fun s => { s with buf := b }

/-- Ask an iterator for items (`next`, /repo/src/queue/mod.rs 677-704), popping some of them (848-871). When the buffer is too small the caller tries
again with the next one; any other error ends the iteration. -/
def iterSteps (g : Geo) : List (List Byte × Bool) → M K (List (Except Err (Option (List Byte))))
  | [] => pure []
  | (b, p) :: rest => do
    setBuf b
    match ← M.attempt (Queue.iterNext g) with
    | .ok none => do
      let l ← iterSteps g rest
      pure (.ok none :: l)
    | .ok (some (h, a, d)) => do
      if p then do
        Queue.entryPop g h a
        let l ← iterSteps g rest
        pure (.ok (some d) :: l)
      else do
        let l ← iterSteps g rest
        pure (.ok (some d) :: l)
    | .error (.bufferTooSmall n) => do
      let l ← iterSteps g rest
      pure (.error (.bufferTooSmall n) :: l)
    | .error e => M.throw e

/-- One call of a method of `QueueStorage` (/repo/src/queue/mod.rs 163-430). -/
def qcall (g : Geo) : QCall (Cache K) → M K QAnswer
  | .push d overwrite => do
    Queue.push g d overwrite
    pure .done
  | .pop b => do
    setBuf b
    let r ← Queue.pop g
    pure (.item r)
  | .peek b => do
    setBuf b
    let r ← Queue.peek g
    pure (.item r)
  | .iterate steps => do
    Queue.iterNew g
    let l ← iterSteps g steps
    pure (.items l)
  | .maxFit => do
    let r ← Queue.findMaxFit g
    pure (.fit r)
  | .spaceLeft => do
    let r ← Queue.spaceLeft g
    pure (.space r)
  | .restart c => do
    modifyCache fun _ => c
    pure .done

/-- A sequence of calls of an application, which is not in /repo, to /repo/src/queue/mod.rs 163-430; a failing call does not stop it. -/
def qrun (g : Geo) : List (QCall (Cache K)) → St K → List (Except Err QAnswer) × St K
  | [], s => ([], s)
  | c :: cs, s =>
    let r := qcall g c s
    let rs := qrun g cs r.2
    (r.1 :: rs.1, rs.2)

/-- A sequence of calls, each with its own number of bytes until power is lost (`bytes_until_shutoff`, /repo/src/mock_flash.rs 101-116; `none`:
never). -/
def qrunPower (g : Geo) : List (QCall (Cache K) × Option Nat) → St K → List (Except Err QAnswer) × St K
  | [], s => ([], s)
  | (c, fuel) :: cs, s =>
    let r := qcall g c { s with fl := { s.fl with fuel := fuel } }
    let rs := qrunPower g cs r.2
    (r.1 :: rs.1, rs.2)

end SeqStorage
