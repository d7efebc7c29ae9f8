import Verif.Model.Item
/-
The map. Follows /repo/src/map.rs lines 179-955 and 1058-1124.
-/

namespace SeqStorage

/-- The `Key` trait (/repo/src/map.rs 1134-1146). `ser k n` is what `serialize_into` puts at the
start of a buffer of `n` bytes (a failing call leaves the buffer alone in the model), `de` is
`deserialize_from` and `getLen` is `get_len`. -/
structure KeyCodec (K : Type) where
  ser : K → Nat → Except SerErr (List Byte)
  de : List Byte → Except SerErr (K × Nat)
  getLen : List Byte → Except SerErr Nat

/-- The `Value` trait (/repo/src/map.rs 1231-1246). -/
structure ValCodec (V : Type) where
  ser : V → Nat → Except SerErr (List Byte)
  de : List Byte → Except SerErr (V × Nat)

namespace Map
open M

variable {K : Type} [DecidableEq K]

/-- `SerializationError` turned into `Error` (/repo/src/lib.rs 545-549). -/
def liftSer {α : Type} (r : Except SerErr α) : M K α :=
  M.lift (match r with
    | .ok a => .ok a
    | .error e => .error (.serialization e))

/-- `u32::MAX`. -/
def u32Max : Nat := 4294967295

/-- `cache.notice_key_location` (/repo/src/cache/mod.rs 218-223). -/
def noticeKey (k : K) (a : Nat) (dirty : Bool) : M K Unit :=
  updateCache fun c => c.noticeKey k a dirty

/-- The key-cache lookup at the start of `fetch_item_with_location` (/repo/src/map.rs 224-278). -/
def fetchCached (g : Geo) (k : K) : M K (Option (Header × Nat)) := do
  let s ← M.get
  match s.cache.kp.location k with
  | none => pure none
  | some loc => do
    let e := g.dataEnd (g.pageIndex loc)
    match ← readHeader g loc e with
    | none => do
      modifyCache Cache.invalidate
      pure none
    | some h => do
      match ← readItem g h loc e with
      | .present h => pure (some (h, loc))
      | _ => do
        modifyCache Cache.invalidate
        pure none

/-- The search for the last used page (/repo/src/map.rs 281-313): `none` means that there are no
items yet. -/
def lastUsedPage (g : Geo) : M K (Option Nat) := do
  match ← findFirstPage g 0 .partialOpen with
  | some p => pure (some p)
  | none => do
    match ← findFirstPage g 0 .open with
    | some firstOpen => do
      let prev := g.prevPage firstOpen
      let st ← getPageStateCached g prev
      if st.isClosed then pure (some prev) else pure none
    | none => M.throw .corrupted

/-- The scan of one page for the newest item with the key (/repo/src/map.rs 329-335), starting at
`a`. The key is decoded from the whole data buffer, as `item.data()` is the whole buffer
(/repo/src/item.rs 159-162, 251-253). -/
def scanPage (g : Geo) (kc : KeyCodec K) (k : K) (e : Nat) :
    (rounds a : Nat) → (found : Option (Nat × Nat)) → M K (Option (Nat × Nat))
  | 0, _, _ => M.throw .diverge
  | rounds + 1, a, found => do
    match ← itemNext g e g.rounds a with
    | (none, _) => pure found
    | (some (_, addr), nxt) => do
      let s ← M.get
      let (k', klen) ← liftSer (kc.de s.buf)
      scanPage g kc k e rounds nxt (if k' = k then some (addr, klen) else found)

/-- The search through the pages, newest page first (/repo/src/map.rs 318-356). -/
def searchPages (g : Geo) (kc : KeyCodec K) (k : K) :
    (rounds page : Nat) → M K (Option (Nat × Nat))
  | 0, _ => M.throw .diverge
  | rounds + 1, page => do
    match ← scanPage g kc k (g.dataEnd page) g.rounds (g.dataStart page) none with
    | some (a, klen) => do
      noticeKey k a false
      pure (some (a, klen))
    | none => do
      let prev := g.prevPage page
      let st ← getPageStateCached g prev
      if st ≠ .closed then pure none
      else searchPages g kc k rounds prev

/-- `fetch_item_with_location` (/repo/src/map.rs 215-390). -/
def fetchLoc (g : Geo) (kc : KeyCodec K) (k : K) : M K (Option (Header × Nat × Option Nat)) := do
  checkDirty
  match ← fetchCached g k with
  | some (h, a) => pure (some (h, a, none))
  | none => do
    match ← lastUsedPage g with
    | none => do
      unmarkDirty
      pure none
    | some page => do
      match ← searchPages g kc k (g.pageCount + 1) page with
      | none => do
        unmarkDirty
        pure none
      | some (a, klen) => do
        unmarkDirty
        match ← readHeader g a u32Max with
        | none => M.throw .corrupted
        | some h => do
          match ← readItem g h a u32Max with
          | .present h => pure (some (h, a, some klen))
          | .corrupted _ => M.throw .corrupted
          | .erased _ => M.throw .logicBug

/-- The copying loop of `migrate_items` (/repo/src/map.rs 867-907); `w` is
`next_page_write_address`. -/
def migrateLoop (g : Geo) (kc : KeyCodec K) (e : Nat) : (rounds a w : Nat) → M K Unit
  | 0, _, _ => M.throw .diverge
  | rounds + 1, a, w => do
    match ← itemNext g e g.rounds a with
    | (none, _) => pure ()
    | (some (_, addr), nxt) => do
      let s ← M.get
      let (k, _) ← liftSer (kc.de s.buf)
      unmarkDirty
      match ← fetchLoc g kc k with
      | none => M.throw .corrupted
      | some (h, found, _) => do
        let s ← M.get
        if s.buf.length < h.len.toNat then M.throw .logicBug
        else if found = addr then do
          noticeKey k w true
          writeRaw g h (s.buf.take h.len.toNat) w
          migrateLoop g kc e rounds nxt (h.next g w)
        else migrateLoop g kc e rounds nxt w

/-- `migrate_items` (/repo/src/map.rs 851-912). -/
def migrate (g : Geo) (kc : KeyCodec K) (src tgt : Nat) : M K Unit := do
  migrateLoop g kc (g.dataEnd src) g.rounds (g.dataStart src) (g.dataStart tgt)
  openPage g src

/-- `try_repair` (/repo/src/map.rs 924-955). -/
def tryRepair (g : Geo) (kc : KeyCodec K) : M K Unit := do
  modifyCache Cache.invalidate
  tryGeneralRepair g
  match ← findFirstPage g 0 .partialOpen with
  | none => pure ()
  | some p => do
    let b := g.nextPage p
    let st ← getPageStateCached g b
    if st.isOpen then pure ()
    else do
      openPage g p
      let _ ← partialClosePage g p
      migrate g kc b p

/-- `fetch_item` (/repo/src/map.rs 187-211). The value is decoded from the bytes after the key.
Slicing with a key longer than the item panics (line 208). -/
def fetchItem {V : Type} (g : Geo) (kc : KeyCodec K) (vc : ValCodec V) (k : K) : M K (Option V) := do
  match ← withRepair (fetchLoc g kc k) (tryRepair g kc) with
  | none => pure none
  | some (h, _, klen?) => do
    let s ← M.get
    let dataLen := h.len.toNat
    let klen ← match klen? with
      | some n => pure n
      | none => liftSer (kc.getLen (s.buf.take dataLen))
    if dataLen < klen then M.throw .panic
    else do
      let (v, _) ← liftSer (vc.de ((s.buf.take dataLen).drop klen))
      pure (some v)

/-- The serialization into the buffer (/repo/src/map.rs 480-484): the item's data. `vser n` is the
value's `serialize_into` for a buffer of `n` bytes. -/
def serializeItem (kc : KeyCodec K) (k : K) (vser : Nat → Except SerErr (List Byte)) :
    M K (List Byte) := do
  let s ← M.get
  let kb ← liftSer (kc.ser k s.buf.length)
  M.modify fun s => { s with buf := kb ++ s.buf.drop kb.length }
  let vb ← liftSer (vser (s.buf.length - kb.length))
  M.modify fun s => { s with buf := kb ++ vb ++ s.buf.drop (kb.length + vb.length) }
  pure (kb ++ vb)

/-- The step of `store_item_inner` that follows a partial page being full: `next` becomes the
partial page (/repo/src/map.rs 533-556). -/
def storeAdvance (g : Geo) (kc : KeyCodec K) (next : Nat) : M K Unit := do
  let st ← getPageStateCached g next
  if st.isOpen = false then M.throw .corrupted
  else do
    let _ ← partialClosePage g next
    let b := g.nextPage next
    let bst ← getPageStateCached g b
    if bst.isOpen then pure () else migrate g kc b next

/-- One round of the loop of `store_item_inner` (/repo/src/map.rs 448-575): `true` when the item was
stored. -/
def storeRound (g : Geo) (kc : KeyCodec K) (k : K) (vser : Nat → Except SerErr (List Byte)) :
    M K Bool := do
  match ← findFirstPage g 0 .partialOpen with
  | some p => do
    let nst ← getPageStateCached g (g.nextPage p)
    if nst.isOpen = false then M.throw .corrupted
    else do
      let data ← serializeItem kc k vser
      if g.tooBig data.length then do
        unmarkDirty
        M.throw .itemTooBig
      else do
        match ← findFreeSpot g (g.dataStart p) (g.dataEnd p) data.length with
        | some a => do
          noticeKey k a true
          writeNew g a data
          unmarkDirty
          pure true
        | none => do
          closePage g p
          storeAdvance g kc (g.nextPage p)
          pure false
  | none => do
    match ← findFirstPage g 0 .open with
    | none => M.throw .corrupted
    | some p => do
      let _ ← partialClosePage g p
      pure false

/-- The loop of `store_item_inner` with the number of rounds left before `recursion_level` reaches
the page count (/repo/src/map.rs 440-446, 574). -/
def storeLoop (g : Geo) (kc : KeyCodec K) (k : K) (vser : Nat → Except SerErr (List Byte)) :
    (left : Nat) → M K Unit
  | 0 => do
    unmarkDirty
    M.throw .fullStorage
  | left + 1 => do
    if ← storeRound g kc k vser then pure () else storeLoop g kc k vser left

/-- `store_item_inner` (/repo/src/map.rs 430-576). -/
def storeInner (g : Geo) (kc : KeyCodec K) (k : K) (vser : Nat → Except SerErr (List Byte)) :
    M K Unit := do
  checkDirty
  storeLoop g kc k vser g.pageCount

/-- `store_item` and `store_item_generic` (/repo/src/map.rs 397-428). -/
def storeItem {V : Type} (g : Geo) (kc : KeyCodec K) (vc : ValCodec V) (k : K) (v : V) : M K Unit :=
  withRepair (storeInner g kc k (vc.ser v)) (tryRepair g kc)

/-- The removal loop over the items of one page (/repo/src/map.rs 678-715), starting at `a`. -/
def removePage (g : Geo) (kc : KeyCodec K) (k? : Option K) (e : Nat) : (rounds a : Nat) → M K Unit
  | 0, _ => M.throw .diverge
  | rounds + 1, a => do
    match ← traverse g e (fun _ => false) g.rounds a with
    | (none, _, _) => pure ()
    | (some h, addr, nxt) => do
      match ← readItem g h addr e with
      | .present h => do
        let s ← M.get
        let hit ← match k? with
          | some k => do
            let (k', _) ← liftSer (kc.de s.buf)
            pure (decide (k' = k))
          | none => pure true
        if hit then eraseItem g h addr else pure ()
        removePage g kc k? e rounds nxt
      | _ => removePage g kc k? e rounds nxt

/-- The removal loop over the pages (/repo/src/map.rs 661-716). -/
def removeIn (g : Geo) (kc : KeyCodec K) (k? : Option K) : List Nat → M K Unit
  | [] => pure ()
  | i :: rest => do
    let st ← getPageStateCached g i
    if st.isOpen then removeIn g kc k? rest
    else do
      removePage g kc k? (g.dataEnd i) g.rounds (g.dataStart i)
      removeIn g kc k? rest

/-- `remove_item_inner` (/repo/src/map.rs 625-722). Unlike the other operations it does not look at
the dirty flag first. -/
def removeInner (g : Geo) (kc : KeyCodec K) (k? : Option K) : M K Unit := do
  match k? with
  | some k => modifyCache fun c => c.noticeKeyErased k
  | none => modifyCache Cache.invalidate
  let last ← match ← findFirstPage g 0 .partialOpen with
    | some p => pure p
    | none => do
      let r ← findLastPage g 0 .closed
      pure (r.getD 0)
  removeIn g kc k? (g.pages (g.nextPage last))
  unmarkDirty

/-- `remove_item` (/repo/src/map.rs 590-602). -/
def removeItem (g : Geo) (kc : KeyCodec K) (k : K) : M K Unit :=
  withRepair (removeInner g kc (some k)) (tryRepair g kc)

/-- `remove_all_items` (/repo/src/map.rs 614-622). -/
def removeAll (g : Geo) (kc : KeyCodec K) : M K Unit :=
  withRepair (removeInner g kc none) (tryRepair g kc)

/-- The block given to `run_with_auto_repair!` in `fetch_all_items` (/repo/src/map.rs 792-833). The
`?` operators inside it leave `fetch_all_items` itself, so only the explicit `Err` at the end is a
value the macro sees; that is the inner `Except`. -/
def fetchAllFirst (g : Geo) : M K (Except Err Nat) := do
  match ← findFirstPage g 0 .partialOpen with
  | some p => pure (.ok (g.nextPage p))
  | none => do
    match ← findFirstPage g 0 .open with
    | some firstOpen => do
      let st ← getPageStateCached g (g.prevPage firstOpen)
      if st.isClosed then pure (.ok firstOpen)
      else do
        unmarkDirty
        pure (.ok 0)
    | none => pure (.error .corrupted)

/-- `fetch_all_items` (/repo/src/map.rs 784-849). The new iterator is put in the state. -/
def fetchAll (g : Geo) (kc : KeyCodec K) : M K Unit := do
  let r ← fetchAllFirst g
  let first ← match r with
    | .error .corrupted => do
      tryRepair g kc
      let r' ← fetchAllFirst g
      M.lift r'
    | r => M.lift r
  M.modify fun s => { s with mit := ⟨first, first, g.dataStart first, g.dataEnd first⟩ }

/-- `self.current_iter.next(..)` of `MapItemIter::next` (/repo/src/item.rs 583-604), keeping the
iterator's position in the state, where it has advanced past the item even when reading the item's
data fails. -/
def iterItem (g : Geo) : (rounds : Nat) → M K (Option Header)
  | 0 => M.throw .diverge
  | rounds + 1 => do
    let s ← M.get
    match ← traverse g s.mit.fin (fun _ => false) g.rounds s.mit.cur with
    | (some h, addr, nxt) => do
      M.modify fun s => { s with mit := { s.mit with cur := nxt } }
      match ← readItem g h addr s.mit.fin with
      | .present h => pure (some h)
      | _ => iterItem g rounds
    | (none, _, nxt) => do
      M.modify fun s => { s with mit := { s.mit with cur := nxt } }
      pure none

/-- The inner loop of `MapItemIter::next` (/repo/src/map.rs 1085-1114): go to the next page with
items; `false` when the iteration is over. Errors of the page state are skipped over (`_ => continue`,
line 1112); a panic is not an error value and is passed on. -/
def iterPage (g : Geo) : (rounds : Nat) → M K Bool
  | 0 => M.throw .diverge
  | rounds + 1 => do
    M.modify fun s => { s with mit := { s.mit with page := g.nextPage s.mit.page } }
    let s ← M.get
    if s.mit.page = s.mit.first then pure false
    else do
      match ← M.attempt (getPageStateCached g s.mit.page) with
      | .error .panic => M.throw .panic
      | .ok .closed | .ok .partialOpen => do
        M.modify fun s =>
          { s with mit := { s.mit with cur := g.dataStart s.mit.page, fin := g.dataEnd s.mit.page } }
        pure true
      | _ => iterPage g rounds

/-- The outer loop of `MapItemIter::next` (/repo/src/map.rs 1073-1115). -/
def iterLoop (g : Geo) : (rounds : Nat) → M K (Option Header)
  | 0 => M.throw .diverge
  | rounds + 1 => do
    match ← iterItem g g.rounds with
    | some h => pure (some h)
    | none => do
      if ← iterPage g (g.pageCount + 1) then iterLoop g rounds else pure none

/-- `MapItemIter::next` (/repo/src/map.rs 1068-1123). Slicing with a key longer than the item
panics (line 1119). -/
def iterNext {V : Type} (g : Geo) (kc : KeyCodec K) (vc : ValCodec V) : M K (Option (K × V)) := do
  match ← iterLoop g (g.pageCount + 1) with
  | none => pure none
  | some h => do
    let s ← M.get
    let dataLen := h.len.toNat
    let (k, klen) ← liftSer (kc.de s.buf)
    if dataLen < klen then M.throw .panic
    else do
      let (v, _) ← liftSer (vc.de ((s.buf.take dataLen).drop klen))
      pure (some (k, v))

end Map
end SeqStorage
