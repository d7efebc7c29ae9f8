import Verif.Model.Flash
import Verif.Model.Cache
/-
The state the storage code works on and the monad the translated functions live in.
-/

namespace SeqStorage

/-- `PreviousItemStates` (/repo/src/queue/mod.rs 621-626). -/
inductive PrevItems where
  | allPopped
  | allButCurrentPopped
  | unpopped
  deriving DecidableEq, Repr

/-- `NextAddress` (/repo/src/queue/mod.rs 644-648). -/
inductive NextAddr where
  | address (a : Nat)
  | pageAfter (i : Nat)
  deriving DecidableEq, Repr

/-- The fields of `QueueIterator` other than the borrow (/repo/src/queue/mod.rs 629-634). -/
structure QIter where
  next : NextAddr
  prev : PrevItems
  oldest : Nat
  deriving DecidableEq, Repr

/-- The fields of `MapItemIter` other than the borrow (/repo/src/map.rs 1058-1064);
`cur` and `fin` are those of `current_iter` (/repo/src/item.rs 572-574, 607-610). -/
structure MIter where
  first : Nat
  page : Nat
  cur : Nat
  fin : Nat
  deriving DecidableEq, Repr

/-- Everything the code can change (`GenericStorage`, /repo/src/lib.rs 46-51, and the arguments of the calls): the flash, the cache, the caller's `data_buffer`, and the state
of the iterator that borrows the storage (the borrow checker allows at most one). -/
structure St (K : Type) where
  fl : Flash
  cache : Cache K
  buf : List Byte
  qit : QIter
  mit : MIter

/-- `Result<_, Error<S::Error>>` (/repo/src/lib.rs 503-543) with the state; the state survives an error. -/
def M (K : Type) (α : Type) : Type := St K → Except Err α × St K

namespace M
variable {K : Type} {α β : Type}

/-- `Ok(a)` (e.g. /repo/src/lib.rs 92). -/
protected def pure (a : α) : M K α := fun s => (.ok a, s)

/-- `?` followed by the rest of the function (e.g. /repo/src/lib.rs 85). -/
protected def bind (m : M K α) (f : α → M K β) : M K β := fun s =>
  match m s with
  | (.ok a, s') => f a s'
  | (.error e, s') => (.error e, s')

instance : Monad (M K) where
  pure := M.pure
  bind := M.bind

/-- `return Err(e)` (e.g. /repo/src/lib.rs 240). -/
protected def throw (e : Err) : M K α := fun s => (.error e, s)

/-- Run `m` and hand its result, error or not, to the caller: a `match` on a result (e.g. /repo/src/lib.rs 81-84). -/
protected def attempt (m : M K α) : M K (Except Err α) := fun s =>
  match m s with
  | (r, s') => (.ok r, s')

/-- Lift a result of a function without effects (e.g. the `match` of /repo/src/lib.rs 235-247). -/
protected def lift (r : Except Err α) : M K α := fun s => (r, s)

/-- Read the state: `self` and its fields (/repo/src/lib.rs 46-51). -/
protected def get : M K (St K) := fun s => (.ok s, s)

/-- Change the state: assignments to `self` and its fields (/repo/src/lib.rs 46-51). -/
protected def modify (f : St K → St K) : M K Unit := fun s => (.ok (), f s)

end M

open M

variable {K : Type} [DecidableEq K]

/-- `self.flash.read` (/repo/src/mock_flash.rs 187-200, e.g. used in /repo/src/lib.rs 205-215). -/
def flashRead (g : Geo) (a n : Nat) : M K (List Byte) := fun s =>
  match s.fl.read g a n with
  | .ok bs => (.ok bs, s)
  | .error e => (.error e, { s with fl := s.fl.fault })

/-- `self.flash.write` (/repo/src/mock_flash.rs 247-297, e.g. used in /repo/src/lib.rs 287-295). -/
def flashWrite (g : Geo) (a : Nat) (bs : List Byte) : M K Unit := fun s =>
  match s.fl.write g a bs with
  | (r, fl) => (r, { s with fl := fl })

/-- `self.flash.erase` (/repo/src/mock_flash.rs 219-245, e.g. used in /repo/src/lib.rs 57-66). -/
def flashErase (g : Geo) (a b : Nat) : M K Unit := fun s =>
  match s.fl.erase g a b with
  | (r, fl) => (r, { s with fl := fl })

/-- Change the cache without failing (e.g. `mark_dirty`, /repo/src/cache/mod.rs 141-149). -/
def modifyCache (f : Cache K → Cache K) : M K Unit := M.modify fun s => { s with cache := f s.cache }

/-- Change the cache, possibly panicking (then the cache is irrelevant; e.g. /repo/src/cache/mod.rs 159-168). -/
def updateCache (f : Cache K → Except Err (Cache K)) : M K Unit := fun s =>
  match f s.cache with
  | .ok c => (.ok (), { s with cache := c })
  | .error e => (.error e, s)

/-- `cache.unmark_dirty()` (/repo/src/cache/mod.rs 146-149). -/
def unmarkDirty : M K Unit := modifyCache Cache.unmark

/-- `if cache.is_dirty() { cache.invalidate_cache_state(); }`
(e.g. /repo/src/queue/mod.rs 179-181). -/
def checkDirty : M K Unit :=
  modifyCache fun c => if c.dirty then c.invalidate else c

/-- `run_with_auto_repair!` (/repo/src/lib.rs 634-652). -/
def withRepair {α : Type} (f : M K α) (repair : M K Unit) : M K α := do
  match ← M.attempt f with
  | .error .corrupted => do
    repair
    f
  | r => M.lift r

end SeqStorage
