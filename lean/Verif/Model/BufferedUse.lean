import Verif.Spec.Buffered
import Verif.Model.Use
import Verif.Model.Ring
/-
A program that uses a `BufferedQueue` (/repo/src/queue/buffered.rs 216-346).
-/

namespace SeqStorage
open Spec

variable {K : Type} [DecidableEq K]

/-- One call. The `scratch` or `data_buffer` argument is put in the state first. `drain_all` loops once for
every item and once more to see that nothing is left; that these rounds are enough is a theorem. `status` is
`ram_pending_count`, `ram_bytes_used` and `ram_free_bytes` (326-339). `restart` is a new program with the given
cache and a new `BufferedQueue` of the same capacity (223-228); `into_storage` (341-346) does the same to the
items in RAM. -/
def bcall (g : Geo) (c : BCall (Cache K)) (q : BQ K) : Except Err BAnswer × BQ K :=
  match c with
  | .enqueue d discard =>
    let r := q.enqueue d (if discard then .discardOldest else .err)
    (.ok (.accepted r.1), r.2)
  | .drainOne b overwrite =>
    let r := BQ.drainOne g overwrite { q with st := { q.st with buf := b } }
    (r.1.map .drained, r.2)
  | .drainAll b overwrite =>
    let r := BQ.drainAll g overwrite (q.ram.count + 1) { q with st := { q.st with buf := b } }
    (r.1.map fun _ => .done, r.2)
  | .pop b =>
    let r := BQ.pop g { q with st := { q.st with buf := b } }
    (r.1.map .item, r.2)
  | .peek b =>
    let r := BQ.peek g { q with st := { q.st with buf := b } }
    (r.1.map .item, r.2)
  | .status => (.ok (.status q.ram.count q.ram.used (q.ram.cap - q.ram.used)), q)
  | .restart c => (.ok .done, ⟨{ q.st with cache := c }, Ring.new q.ram.cap⟩)

/-- A sequence of calls of a `BufferedQueue` (/repo/src/queue/buffered.rs 235-346), made by the application, which is not in /repo; a
failing call does not stop it. -/
def brun (g : Geo) : List (BCall (Cache K)) → BQ K → List (Except Err BAnswer) × BQ K
  | [], q => ([], q)
  | c :: cs, q =>
    let r := bcall g c q
    let rs := brun g cs r.2
    (r.1 :: rs.1, rs.2)

/-- A sequence of calls (/repo/src/queue/buffered.rs 235-346; `bytes_until_shutoff` in /repo/src/mock_flash.rs 101-114), each with its own number of bytes until the flash fails (`none`: never). -/
def brunPower (g : Geo) : List (BCall (Cache K) × Option Nat) → BQ K → List (Except Err BAnswer) × BQ K
  | [], q => ([], q)
  | (c, fuel) :: cs, q =>
    let r := bcall g c { q with st := { q.st with fl := { q.st.fl with fuel := fuel } } }
    let rs := brunPower g cs r.2
    (r.1 :: rs.1, rs.2)

end SeqStorage
