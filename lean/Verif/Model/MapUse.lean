import Verif.Model.Map
import Verif.Model.Use
import Verif.Spec.Map
/-
How an application uses a map: a sequence of calls on one storage object
(/repo/src/map.rs 179-211, 397-428, 590-622, 784-849), with restarts in between.
-/

namespace SeqStorage
open M Spec

variable {K : Type} [DecidableEq K] {V : Type}

/-- Ask an iterator for items (`next`, /repo/src/map.rs 1068-1123). An error does not stop the caller from asking again. -/
def mapSteps (g : Geo) (kc : KeyCodec K) (vc : ValCodec V) :
    List (List Byte) → M K (List (Except Err (Option (K × V))))
  | [] => pure []
  | b :: rest => do
    setBuf b
    let r ← M.attempt (Map.iterNext g kc vc)
    let l ← mapSteps g kc vc rest
    pure (r :: l)

/-- One call of a method of `MapStorage` (/repo/src/map.rs 187-800). -/
def mcall (g : Geo) (kc : KeyCodec K) (vc : ValCodec V) : MCall K V (Cache K) → M K (MAnswer K V)
  | .store k v b => do
    setBuf b
    Map.storeItem g kc vc k v
    pure .done
  | .fetch k b => do
    setBuf b
    let r ← Map.fetchItem g kc vc k
    pure (.value r)
  | .remove k b => do
    setBuf b
    Map.removeItem g kc k
    pure .done
  | .removeAll b => do
    setBuf b
    Map.removeAll g kc
    pure .done
  | .fetchAll b steps => do
    setBuf b
    Map.fetchAll g kc
    let l ← mapSteps g kc vc steps
    pure (.items l)
  | .restart c => do
    modifyCache fun _ => c
    pure .done

/-- A sequence of calls of an application, which is not in /repo, to /repo/src/map.rs 187-800; a failing call does not stop it. -/
def mrun (g : Geo) (kc : KeyCodec K) (vc : ValCodec V) :
    List (MCall K V (Cache K)) → St K → List (Except Err (MAnswer K V)) × St K
  | [], s => ([], s)
  | c :: cs, s =>
    let r := mcall g kc vc c s
    let rs := mrun g kc vc cs r.2
    (r.1 :: rs.1, rs.2)

/-- A sequence of calls, each with its own number of bytes until power is lost (`bytes_until_shutoff`, /repo/src/mock_flash.rs 101-116; `none`:
never). -/
def mrunPower (g : Geo) (kc : KeyCodec K) (vc : ValCodec V) :
    List (MCall K V (Cache K) × Option Nat) → St K → List (Except Err (MAnswer K V)) × St K
  | [], s => ([], s)
  | (c, fuel) :: cs, s =>
    let r := mcall g kc vc c { s with fl := { s.fl with fuel := fuel } }
    let rs := mrunPower g kc vc cs r.2
    (r.1 :: rs.1, rs.2)

/-- A program that lost power during a call starts again with the given cache (`MapStorage::new`, /repo/src/map.rs 167-176). -/
def startedAgain (cache : Cache K) {α : Type} : Except Err α × St K → St K
  | (.error .shutoff, s) => { s with cache := cache }
  | (_, s) => s

/-- A sequence of calls, each with its own number of bytes until power is lost (`bytes_until_shutoff`, /repo/src/mock_flash.rs 101-116).
A program that loses power starts
again, with the cache given for that case. -/
def mrunCrash (g : Geo) (kc : KeyCodec K) (vc : ValCodec V) :
    List (MCall K V (Cache K) × Option Nat × Cache K) → St K → List (Except Err (MAnswer K V)) × St K
  | [], s => ([], s)
  | (c, fuel, cache) :: cs, s =>
    let r := mcall g kc vc c { s with fl := { s.fl with fuel := fuel } }
    let rs := mrunCrash g kc vc cs (startedAgain cache r)
    (r.1 :: rs.1, rs.2)

end SeqStorage
