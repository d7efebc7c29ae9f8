import Verif.Model.Queue
/-
The RAM ring and the two wrappers around it. Follows /repo/src/queue/buffered.rs.
-/

namespace SeqStorage

/-- `RamRing<N>` (/repo/src/queue/buffered.rs 43-50); `N` is `buf.length`. -/
structure Ring where
  buf : List Byte
  readPos : Nat
  writePos : Nat
  used : Nat
  count : Nat
  deriving DecidableEq, Repr

namespace Ring

/-- `RamRing::new` (/repo/src/queue/buffered.rs 54-62). -/
def new (n : Nat) : Ring := ⟨List.replicate n 0#8, 0, 0, 0, 0⟩

/-- `N` (/repo/src/queue/buffered.rs 43-50). -/
def cap (r : Ring) : Nat := r.buf.length

/-- `self.buf[i]` (e.g. /repo/src/queue/buffered.rs 81-88); the default is never reached for `i < N`. -/
def byteAt (r : Ring) (i : Nat) : Byte := r.buf.getD i 0#8

/-- `oldest_len` (/repo/src/queue/buffered.rs 81-88). -/
def oldestLen (r : Ring) : Option Nat :=
  if r.count = 0 then none
  else some ((r.byteAt r.readPos).toNat ||| ((r.byteAt ((r.readPos + 1) % r.cap)).toNat <<< 8))

/-- `write_byte` (/repo/src/queue/buffered.rs 163-166). -/
def writeByte (r : Ring) (b : Byte) : Ring :=
  { r with buf := r.buf.set r.writePos b, writePos := (r.writePos + 1) % r.cap }

/-- `write_raw` (/repo/src/queue/buffered.rs 152-161). -/
def writeRaw (r : Ring) (data : List Byte) : Ring :=
  let r1 := (r.writeByte (BitVec.ofNat 8 data.length)).writeByte (BitVec.ofNat 8 (data.length >>> 8))
  let r2 := data.foldl writeByte r1
  { r2 with used := r2.used + (2 + data.length), count := r2.count + 1 }

/-- `push` (/repo/src/queue/buffered.rs 94-105); `none` is `Err(())`. -/
def push (r : Ring) (data : List Byte) : Option Ring :=
  if data.length > 65535 then none
  else if r.used + (2 + data.length) > r.cap then none
  else some (r.writeRaw data)

/-- `discard_oldest` (/repo/src/queue/buffered.rs 144-150). -/
def discardOldest (r : Ring) : Ring :=
  match r.oldestLen with
  | none => r
  | some len =>
    { r with readPos := (r.readPos + 2 + len) % r.cap, used := r.used - (2 + len),
             count := r.count - 1 }

/-- The `while` loop of `push_overwriting` (/repo/src/queue/buffered.rs 120-122), given at most
`rounds` rounds. -/
def makeRoom (total : Nat) : (rounds : Nat) → Ring → Ring
  | 0, r => r
  | rounds + 1, r => if r.used + total > r.cap then makeRoom total rounds r.discardOldest else r

/-- `push_overwriting` (/repo/src/queue/buffered.rs 111-125). Every discarded item is at least two
bytes, so `N` rounds are enough; that the loop ends with room is a theorem. -/
def pushOverwriting (r : Ring) (data : List Byte) : Option Ring :=
  if data.length > 65535 then none
  else if 2 + data.length > r.cap then none
  else some ((makeRoom (2 + data.length) r.cap r).writeRaw data)

/-- `n` bytes of the ring from position `p` on, wrapping (/repo/src/queue/buffered.rs 135-139). -/
def bytesFrom (r : Ring) : (n p : Nat) → List Byte
  | 0, _ => []
  | n + 1, p => r.byteAt p :: bytesFrom r n ((p + 1) % r.cap)

/-- `peek_into` (/repo/src/queue/buffered.rs 130-141) for a buffer of `bufLen` bytes: the bytes
copied to its start. -/
def peekInto (r : Ring) (bufLen : Nat) : Option (List Byte) :=
  match r.oldestLen with
  | none => none
  | some len =>
    if bufLen < len then none else some (r.bytesFrom len ((r.readPos + 2) % r.cap))

end Ring

/-- `OverflowPolicy` (/repo/src/queue/buffered.rs 180-188). -/
inductive OverflowPolicy where
  | err
  | discardOldest
  deriving DecidableEq, Repr

/-- `enqueue` on the ring (/repo/src/queue/buffered.rs 235-240 and 413-416). -/
def Ring.enqueue (r : Ring) (data : List Byte) (policy : OverflowPolicy) : Option Ring :=
  match policy with
  | .err => r.push data
  | .discardOldest => r.pushOverwriting data

/-! ### BufferedQueue -/

/-- `BufferedQueue` (/repo/src/queue/buffered.rs 216-219): the storage's state and the ring. The
`data_buffer`/`scratch` argument is the state's `buf`. -/
structure BQ (K : Type) where
  st : St K
  ram : Ring

namespace BQ
variable {K : Type} [DecidableEq K]

/-- `enqueue` (/repo/src/queue/buffered.rs 235-240): success and the new state. -/
def enqueue (q : BQ K) (data : List Byte) (policy : OverflowPolicy) : Bool × BQ K :=
  match q.ram.enqueue data policy with
  | some r => (true, { q with ram := r })
  | none => (false, q)

/-- Put bytes at the start of the caller's buffer (`peek_into`, /repo/src/queue/buffered.rs 248-260). -/
def fill (s : St K) (bs : List Byte) : St K := { s with buf := bs ++ s.buf.drop bs.length }

/-- `drain_one` (/repo/src/queue/buffered.rs 248-260). -/
def drainOne (g : Geo) (allow : Bool) (q : BQ K) : Except Err Bool × BQ K :=
  match q.ram.peekInto q.st.buf.length with
  | none => (.ok false, q)
  | some data =>
    match Queue.push g data allow (fill q.st data) with
    | (.error e, s) => (.error e, { q with st := s })
    | (.ok _, s) => (.ok true, ⟨s, q.ram.discardOldest⟩)

/-- `drain_all` (/repo/src/queue/buffered.rs 265-272), given at most `rounds` rounds. -/
def drainAll (g : Geo) (allow : Bool) : (rounds : Nat) → BQ K → Except Err Unit × BQ K
  | 0, q => (.error .diverge, q)
  | rounds + 1, q =>
    match drainOne g allow q with
    | (.error e, q) => (.error e, q)
    | (.ok true, q) => drainAll g allow rounds q
    | (.ok false, q) => (.ok (), q)

/-- `pop` (/repo/src/queue/buffered.rs 278-296). -/
def pop (g : Geo) (q : BQ K) : Except Err (Option (List Byte)) × BQ K :=
  match Queue.pop g q.st with
  | (.error e, s) => (.error e, { q with st := s })
  | (.ok (some d), s) => (.ok (some d), { q with st := s })
  | (.ok none, s) =>
    match q.ram.peekInto s.buf.length with
    | some d => (.ok (some d), ⟨fill s d, q.ram.discardOldest⟩)
    | none => (.ok none, { q with st := s })

/-- `peek` (/repo/src/queue/buffered.rs 302-319). -/
def peek (g : Geo) (q : BQ K) : Except Err (Option (List Byte)) × BQ K :=
  match Queue.peek g q.st with
  | (.error e, s) => (.error e, { q with st := s })
  | (.ok (some d), s) => (.ok (some d), { q with st := s })
  | (.ok none, s) =>
    match q.ram.peekInto s.buf.length with
    | some d => (.ok (some d), { q with st := fill s d })
    | none => (.ok none, { q with st := s })

end BQ

/-! ### SharedRamRing -/

/-- Where the draining task is: between calls, or inside `drain_one` after the peek, holding the
peeked bytes while the flash write runs, or after the flash write (/repo/src/queue/buffered.rs
443-451). -/
inductive Drainer where
  | idle
  | writing (data : List Byte)
  | written
  deriving DecidableEq, Repr

/-- `SharedRamRing` (/repo/src/queue/buffered.rs 382-391) with one draining task and the sequence of
items that task has pushed to flash successfully. The flash is only touched by the task, so its
contents are abstracted to that sequence. `signal` is the embassy signal. -/
structure Shared where
  ring : Ring
  drainer : Drainer
  pushed : List (List Byte)
  signal : Bool
  deriving DecidableEq, Repr

/-- One atomic step of `enqueue` (/repo/src/queue/buffered.rs 412-421) or `drain_one` (437-452): the producer's critical section, or a stretch of the draining task between its
critical sections. -/
inductive SharedEv where
  | enqueue (data : List Byte) (policy : OverflowPolicy)
  | drainStart (scratchLen : Nat)
  | pushOk
  | pushFail
  | drainFinish
  | wait
  deriving Repr

namespace Shared

/-- `SharedRamRing::new` (/repo/src/queue/buffered.rs 396-403). -/
def new (n : Nat) : Shared := ⟨Ring.new n, .idle, [], false⟩

/-- Transitions: `enqueue` (412-421), the peek of `drain_one` (443-448), the flash push succeeding or
failing (449), the discard of `drain_one` (450), `wait` returning (426-428). An event that cannot
happen in the current state leaves it unchanged. -/
def step (s : Shared) : SharedEv → Shared
  | .enqueue data policy =>
    match s.ring.enqueue data policy with
    | some r => { s with ring := r, signal := true }
    | none => s
  | .drainStart scratchLen =>
    match s.drainer with
    | .idle =>
      match s.ring.peekInto scratchLen with
      | some d => { s with drainer := .writing d }
      | none => s
    | _ => s
  | .pushOk =>
    match s.drainer with
    | .writing d => { s with drainer := .written, pushed := s.pushed ++ [d] }
    | _ => s
  | .pushFail =>
    match s.drainer with
    | .writing _ => { s with drainer := .idle }
    | _ => s
  | .drainFinish =>
    match s.drainer with
    | .written => { s with drainer := .idle, ring := s.ring.discardOldest }
    | _ => s
  | .wait => if s.signal then { s with signal := false } else s

end Shared

end SeqStorage
