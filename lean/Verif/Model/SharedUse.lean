import Verif.Model.Use
import Verif.Model.Ring
/-
A task that uses a `SharedRamRing` with a queue in flash, and interrupts that enqueue items meanwhile
(/repo/src/queue/buffered.rs 382-535).
-/

namespace SeqStorage
open Spec

/-- What the task can call: `wait`, `drain_one`, `drain_all`, `wait_and_drain_all`, `pop` and `peek`
(/repo/src/queue/buffered.rs 426-508), with the `scratch` or `data_buffer` and `allow_overwrite`. -/
inductive TaskCall where
  | wait
  | drainOne (buf : List Byte) (overwrite : Bool)
  | drainAll (buf : List Byte) (overwrite : Bool)
  | waitDrain (buf : List Byte) (overwrite : Bool)
  | pop (buf : List Byte) (overwrite : Bool)
  | peek (buf : List Byte) (overwrite : Bool)
  deriving DecidableEq, Repr

/-- What a running drain belongs to: `drain_one`, `drain_all`, `pop` or `peek` (/repo/src/queue/buffered.rs 437-511). -/
inductive Purpose where
  | one
  | all
  | pop
  | peek
  deriving DecidableEq, Repr

/-- Where the task is: between calls, or in a call before its next atomic step. `waiting` is before the signal
(427), with `allow_overwrite` of the drain that follows if one does (481-482); `counting` is before
`ram_pending_count` (492, 506); `peeking`, `pushing` and `discarding` are in `drain_one` before the peek
(443-445), the flash push (449) and the discard (450); `reading` is before the `pop` or `peek` of the storage
(496, 510). -/
inductive TaskAt where
  | idle
  | waiting (drain : Option Bool)
  | counting (pop : Bool) (overwrite : Bool)
  | peeking (p : Purpose) (overwrite : Bool)
  | pushing (data : List Byte) (p : Purpose) (overwrite : Bool)
  | discarding (p : Purpose) (overwrite : Bool)
  | reading (pop : Bool)
  deriving DecidableEq, Repr

/-- What a call of the task returns (/repo/src/queue/buffered.rs 426-511). -/
inductive TaskRet where
  | done
  | drained (b : Bool)
  | popped (d : Option (List Byte))
  | peeked (d : Option (List Byte))
  deriving DecidableEq, Repr

/-- What can be seen from outside: the result of an `enqueue` (/repo/src/queue/buffered.rs 412-421), or a call of the task returning. -/
inductive TaskOut where
  | accepted (b : Bool)
  | back (r : Except Err TaskRet)
  deriving DecidableEq

/-- An interrupt that enqueues (/repo/src/queue/buffered.rs 412-421), the task beginning a call, or the task's next atomic step. -/
inductive TaskEv where
  | interrupt (d : List Byte) (policy : OverflowPolicy)
  | call (c : TaskCall)
  | run
  deriving DecidableEq

/-- The storage, which only the task uses, the ring and the signal (/repo/src/queue/buffered.rs 382-391), and the task. The task's buffer is `st.buf`. -/
structure SharedQ (K : Type) where
  st : St K
  ring : Ring
  signal : Bool
  task : TaskAt

namespace SharedQ
variable {K : Type} [DecidableEq K]

/-- A task that has not called anything yet, with `SharedRamRing::new` (/repo/src/queue/buffered.rs 396-403). -/
def new (cap : Nat) (s : St K) : SharedQ K := ⟨s, Ring.new cap, false, .idle⟩

/-- The beginning of a call, up to its first atomic step (/repo/src/queue/buffered.rs 426-511). -/
def begin (q : SharedQ K) : TaskCall → SharedQ K
  | .wait => { q with task := .waiting none }
  | .drainOne b o => { q with st := { q.st with buf := b }, task := .peeking .one o }
  | .drainAll b o => { q with st := { q.st with buf := b }, task := .peeking .all o }
  | .waitDrain b o => { q with st := { q.st with buf := b }, task := .waiting (some o) }
  | .pop b o => { q with st := { q.st with buf := b }, task := .counting true o }
  | .peek b o => { q with st := { q.st with buf := b }, task := .counting false o }

/-- The next atomic step of the task (/repo/src/queue/buffered.rs 426-511, see `TaskAt`). A flash operation is one step: interrupts that happen during it only touch
the ring and the signal. `Signal::wait` returns and resets the signal if it is set, and keeps waiting if not. -/
def run (g : Geo) (q : SharedQ K) : SharedQ K × Option TaskOut :=
  match q.task with
  | .idle => (q, none)
  | .waiting d =>
    if q.signal = false then (q, none)
    else
      match d with
      | none => ({ q with signal := false, task := .idle }, some (.back (.ok .done)))
      | some o => ({ q with signal := false, task := .peeking .all o }, none)
  | .counting pop o =>
    if 0 < q.ring.count then ({ q with task := .peeking (if pop then .pop else .peek) o }, none)
    else ({ q with task := .reading pop }, none)
  | .peeking p o =>
    match q.ring.peekInto q.st.buf.length with
    | some d => ({ q with st := BQ.fill q.st d, task := .pushing d p o }, none)
    | none =>
      match p with
      | .one => ({ q with task := .idle }, some (.back (.ok (.drained false))))
      | .all => ({ q with task := .idle }, some (.back (.ok .done)))
      | .pop => ({ q with task := .reading true }, none)
      | .peek => ({ q with task := .reading false }, none)
  | .pushing d p o =>
    match Queue.push g d o q.st with
    | (.error e, s) => ({ q with st := s, task := .idle }, some (.back (.error e)))
    | (.ok _, s) => ({ q with st := s, task := .discarding p o }, none)
  | .discarding p o =>
    match p with
    | .one => ({ q with ring := q.ring.discardOldest, task := .idle }, some (.back (.ok (.drained true))))
    | p => ({ q with ring := q.ring.discardOldest, task := .peeking p o }, none)
  | .reading pop =>
    if pop then
      let r := Queue.pop g q.st
      ({ q with st := r.2, task := .idle }, some (.back (r.1.map .popped)))
    else
      let r := Queue.peek g q.st
      ({ q with st := r.2, task := .idle }, some (.back (r.1.map .peeked)))

/-- One event. `enqueue` (/repo/src/queue/buffered.rs 412-421) signals when the item is accepted. A call begins
only when the task is between calls. -/
def step (g : Geo) (q : SharedQ K) : TaskEv → SharedQ K × Option TaskOut
  | .interrupt d policy =>
    match q.ring.enqueue d policy with
    | some r => ({ q with ring := r, signal := true }, some (.accepted true))
    | none => (q, some (.accepted false))
  | .call c => if q.task = .idle then (q.begin c, none) else (q, none)
  | .run => q.run g

/-- A schedule of interrupts and the task (documented use, /repo/src/queue/buffered.rs 363-380): the outputs, one for each event, and the final state. -/
def schedule (g : Geo) : List TaskEv → SharedQ K → List (Option TaskOut) × SharedQ K
  | [], q => ([], q)
  | e :: es, q =>
    let r := q.step g e
    let rs := schedule g es r.1
    (r.2 :: rs.1, rs.2)

end SharedQ
end SeqStorage
