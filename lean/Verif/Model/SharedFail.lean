import Verif.Model.SharedUse
/-
A task and interrupts that share a queue, when the flash may fail, calls may be cancelled and power may be lost
(/repo/src/queue/buffered.rs 382-535).
-/

namespace SeqStorage
open Spec

/-- What can happen: an event with the number of bytes until the flash fails (/repo/src/mock_flash.rs 101-116; `none`: it does not), the future of a call
being dropped, or a new start of the program with the given cache. -/
inductive HardEv (K : Type) where
  | ev (e : TaskEv) (fuel : Option Nat)
  | cancel
  | reset (c : Cache K)

namespace SharedQ
variable {K : Type} [DecidableEq K]

/-- One event. A future can be dropped only where it waits: for the signal (/repo/src/queue/buffered.rs 427) or for the
flash (449, 496, 510). Dropped before its first flash access it leaves everything as it is; dropped later it leaves what
a failure of the flash at that place leaves, since no code runs on the way out. A new start makes a new ring with
`SharedRamRing::new` (396-403). -/
def hardStep (g : Geo) (q : SharedQ K) : HardEv K → SharedQ K × Option TaskOut
  | .ev e fuel => step g { q with st := { q.st with fl := { q.st.fl with fuel := fuel } } } e
  | .cancel =>
    match q.task with
    | .waiting _ => ({ q with task := .idle }, none)
    | .pushing .. => ({ q with task := .idle }, none)
    | .reading _ => ({ q with task := .idle }, none)
    | _ => (q, none)
  | .reset c => (⟨{ q.st with cache := c }, Ring.new q.ring.cap, false, .idle⟩, none)

/-- A schedule of interrupts and the task (documented use, /repo/src/queue/buffered.rs 363-380): the outputs, one for each event, and the final state. -/
def hardSchedule (g : Geo) : List (HardEv K) → SharedQ K → List (Option TaskOut) × SharedQ K
  | [], q => ([], q)
  | e :: es, q =>
    let r := q.hardStep g e
    let rs := hardSchedule g es r.1
    (r.2 :: rs.1, rs.2)

end SharedQ
end SeqStorage
