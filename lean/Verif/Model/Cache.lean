import Verif.Model.Basic
/-
The three sub-caches and the dirt tracker.
Follows /repo/src/cache/mod.rs, page_states.rs, page_pointers.rs and key_pointers.rs.
A Rust panic (`unreachable!`, index out of range, `unwrap` on `None`, arithmetic overflow in a debug
build) is the value `.error .panic`.
-/

namespace SeqStorage

/-! ### Page states -/

/-- `CalculatedPageStates` (/repo/src/cache/page_states.rs 43-50). -/
structure CalcPS where
  pageCount : Nat
  anchor : Option Nat
  anchorIsPartial : Bool
  anchorIsGuess : Bool
  closedPages : Nat
  openPages : Nat
  deriving DecidableEq, Repr

namespace CalcPS

/-- `CalculatedPageStates::new` (/repo/src/cache/page_states.rs 71-80). -/
def new (n : Nat) : CalcPS := ⟨n, none, false, true, 0, 0⟩

/-- `places_in_front_of_anchor` with the anchor given (/repo/src/cache/page_states.rs 82-90). -/
def inFront (c : CalcPS) (a i : Nat) : Nat :=
  if a ≤ i then i - a else c.pageCount - a + i

/-- `places_behind_of_anchor` with the anchor given (/repo/src/cache/page_states.rs 92-100). -/
def behind (c : CalcPS) (a i : Nat) : Nat :=
  if i ≤ a then a - i else a + 1 + c.pageCount - i

/-- `get_page_state` (/repo/src/cache/page_states.rs 104-122). -/
def get (c : CalcPS) (i : Nat) : Option PageState :=
  match c.anchor with
  | none => none
  | some a =>
    if a = i then some (if c.anchorIsPartial then .partialOpen else .open)
    else if c.inFront a i < c.openPages then some .open
    else if c.behind a i ≤ c.closedPages then some .closed
    else none

/-- `notice_page_state` (/repo/src/cache/page_states.rs 124-235). The two `unreachable!` arms
(lines 142 and 169) and the underflow of `open_pages -= 1` (line 164) are panics. -/
def notice (c : CalcPS) (i : Nat) (st : PageState) : Except Err CalcPS :=
  match st with
  | .partialOpen =>
    match c.get i with
    | some .partialOpen => .ok { c with anchorIsGuess := false }
    | some .open =>
      .ok { c with anchor := some i, anchorIsPartial := true, anchorIsGuess := false }
    | some .closed => .error .panic
    | none =>
      .ok { c with
            anchor := some i, anchorIsPartial := true, openPages := 1, anchorIsGuess := false }
  | .closed =>
    match c.get i with
    | some .closed => .ok c
    | some .partialOpen =>
      match c.anchor with
      | none => .error .panic
      | some a =>
        if c.openPages = 0 ∨ c.pageCount = 0 then .error .panic
        else .ok { c with
                   closedPages := c.closedPages + 1
                   openPages := c.openPages - 1
                   anchor := some ((a + 1) % c.pageCount)
                   anchorIsPartial := false }
    | some .open => .error .panic
    | none =>
      if c.anchorIsGuess then .ok c
      else match c.anchor with
        | none => .ok c
        | some a => .ok { c with closedPages := max c.closedPages (c.behind a i) }
  | .open =>
    match c.get i with
    | some .open => .ok c
    | some .partialOpen => .ok { c with anchorIsPartial := false }
    | some .closed =>
      match c.anchor with
      | none => .ok c
      | some a =>
        if c.pageCount = 0 then .error .panic
        else .ok { c with
                   openPages := max c.openPages (c.inFront a i + 1)
                   closedPages := min c.closedPages (c.behind a ((i + 1) % c.pageCount)) }
    | none =>
      match c.anchor with
      | some a =>
        if c.anchorIsGuess then
          if c.pageCount = 0 then .error .panic
          else if i = (a + c.openPages) % c.pageCount then
            .ok { c with openPages := c.openPages + 1 }
          else .ok c
        else .ok { c with openPages := max c.openPages (c.inFront a i + 1) }
      | none =>
        .ok { c with
              anchor := some i, anchorIsPartial := false, anchorIsGuess := true
              openPages := 1, closedPages := 0 }

end CalcPS

/-- The three implementations of `PageStatesCache`: `Uncached` (/repo/src/cache/mod.rs 272-279),
`CalculatedPageStates`, and `ArrayPageStates`/`HeapPageStates`
(/repo/src/cache/page_states.rs 249-320), which behave alike. -/
inductive PSCache where
  | uncached
  | calculated (c : CalcPS)
  | table (pages : List (Option PageState))
  deriving DecidableEq, Repr

namespace PSCache

/-- `SealedPageStatesCache::get_page_state` (/repo/src/cache/page_states.rs 11, 104-122, 269-271, 305-307; /repo/src/cache/mod.rs
273-275). -/
def get (c : PSCache) (i : Nat) : Except Err (Option PageState) :=
  match c with
  | uncached => .ok none
  | calculated c => .ok (c.get i)
  | table l => if h : i < l.length then .ok l[i] else .error .panic

/-- `SealedPageStatesCache::notice_page_state` (/repo/src/cache/page_states.rs 12, 124-235, 273-275, 309-311; /repo/src/cache/mod.rs
276). -/
def notice (c : PSCache) (i : Nat) (st : PageState) : Except Err PSCache :=
  match c with
  | uncached => .ok uncached
  | calculated c => (c.notice i st).map calculated
  | table l => if i < l.length then .ok (table (l.set i (some st))) else .error .panic

/-- `SealedPageStatesCache::invalidate_cache_state` (/repo/src/cache/page_states.rs 237-242,
277-281, 313-317; /repo/src/cache/mod.rs 277). -/
def invalidate (c : PSCache) : PSCache :=
  match c with
  | uncached => uncached
  | calculated c => calculated (CalcPS.new c.pageCount)
  | table l => table (l.map fun _ => none)

end PSCache

/-! ### Page pointers -/

/-- `ArrayPagePointers`/`HeapPagePointers` (/repo/src/cache/page_pointers.rs 42-199) or `Uncached`
(/repo/src/cache/mod.rs 281-305). `Option<NonZeroU32>` becomes `Option Nat`; `NonZeroU32::new(0)` is
`none`. -/
inductive PPCache where
  | uncached
  | tracked (afterErased afterWritten : List (Option Nat))
  deriving DecidableEq, Repr

namespace PPCache

/-- `NonZeroU32::new`. -/
def nonZero (a : Nat) : Option Nat := if a = 0 then none else some a

/-- `first_item_after_erased` (/repo/src/cache/page_pointers.rs 202-208). -/
def afterErased (c : PPCache) (i : Nat) : Option Nat :=
  match c with
  | uncached => none
  | tracked e _ => (e[i]?).join

/-- `first_item_after_written` (/repo/src/cache/page_pointers.rs 210-216). -/
def afterWritten (c : PPCache) (i : Nat) : Option Nat :=
  match c with
  | uncached => none
  | tracked _ w => (w[i]?).join

/-- `notice_item_written` (/repo/src/cache/page_pointers.rs 218-238); `next` is the item's
`next_item_address`. `List.set` out of range does nothing, like `get_mut` returning `None`. -/
def noticeWritten (c : PPCache) (page next : Nat) : PPCache :=
  match c with
  | uncached => uncached
  | tracked e w =>
    match (w[page]?).join with
    | some old => if next ≤ old then tracked e w else tracked e (w.set page (nonZero next))
    | none => tracked e (w.set page (nonZero next))

/-- `notice_item_erased` (/repo/src/cache/page_pointers.rs 240-259); `pageData` is the address of
the first item of the page and `next` the erased item's `next_item_address`. -/
def noticeErased (c : PPCache) (page pageData addr next : Nat) : PPCache :=
  match c with
  | uncached => uncached
  | tracked e w =>
    if addr = ((e[page]?).join).getD pageData then tracked (e.set page (nonZero next)) w
    else tracked e w

/-- `notice_page_state` (/repo/src/cache/page_pointers.rs 261-271). -/
def noticePage (c : PPCache) (i : Nat) (st : PageState) : PPCache :=
  match c with
  | uncached => uncached
  | tracked e w => if st.isOpen then tracked (e.set i none) (w.set i none) else tracked e w

/-- `invalidate_cache_state` (/repo/src/cache/page_pointers.rs 273-280). -/
def invalidate (c : PPCache) : PPCache :=
  match c with
  | uncached => uncached
  | tracked e w => tracked (e.map fun _ => none) (w.map fun _ => none)

end PPCache

/-! ### Key pointers -/

/-- `ArrayKeyPointers`/`HeapKeyPointers` (/repo/src/cache/key_pointers.rs 27-129) or `Uncached`
(/repo/src/cache/mod.rs 307-315). -/
inductive KPCache (K : Type) where
  | uncached
  | tracked (entries : List (Option (K × Nat)))
  deriving Repr

namespace KPCache
variable {K : Type} [DecidableEq K]

/-- `move_to_front` (/repo/src/cache/key_pointers.rs 186-193): `data[..=index].rotate_right(1)`. -/
def moveToFront {α : Type} (l : List α) (i : Nat) : List α :=
  match l[i]? with
  | some x => x :: l.eraseIdx i
  | none => l

/-- `move_to_back` (/repo/src/cache/key_pointers.rs 195-202): `data[index..].rotate_left(1)`. -/
def moveToBack {α : Type} (l : List α) (i : Nat) : List α :=
  match l[i]? with
  | some x => l.eraseIdx i ++ [x]
  | none => l

/-- Whether an entry is for `k`: the comparison in `key_location`, `notice_key_location` and `notice_key_erased`
(/repo/src/cache/key_pointers.rs 144, 154, 171). -/
def isKey (k : K) (e : Option (K × Nat)) : Bool :=
  match e with
  | some (k', _) => decide (k = k')
  | none => false

/-- `key_location` (/repo/src/cache/key_pointers.rs 140-146). -/
def location (c : KPCache K) (k : K) : Option Nat :=
  match c with
  | uncached => none
  | tracked l => ((l.find? (isKey k)).join).map (·.2)

/-- `notice_key_location` with `insert_front` (/repo/src/cache/key_pointers.rs 131-137, 148-164).
Panics on address 0 and when the table has no entries. -/
def noticeLocation (c : KPCache K) (k : K) (a : Nat) : Except Err (KPCache K) :=
  match c with
  | uncached => .ok uncached
  | tracked l =>
    if a = 0 then .error .panic
    else match l.findIdx? (isKey k) with
      | some i => .ok (tracked (moveToFront (l.set i (some (k, a))) i))
      | none =>
        if l.length = 0 then .error .panic
        else .ok (tracked (moveToFront (l.set (l.length - 1) (some (k, a))) (l.length - 1)))

/-- `notice_key_erased` (/repo/src/cache/key_pointers.rs 166-177). -/
def noticeErased (c : KPCache K) (k : K) : KPCache K :=
  match c with
  | uncached => uncached
  | tracked l =>
    match l.findIdx? (isKey k) with
    | some i => tracked (moveToBack (l.set i none) i)
    | none => tracked l

/-- `invalidate_cache_state` (/repo/src/cache/key_pointers.rs 179-183). -/
def invalidate (c : KPCache K) : KPCache K :=
  match c with
  | uncached => uncached
  | tracked l => tracked (l.map fun _ => none)

end KPCache

/-! ### The combined cache -/

/-- `Cache` (/repo/src/cache/mod.rs 91-102). -/
structure Cache (K : Type) where
  dirty : Bool
  ps : PSCache
  pp : PPCache
  kp : KPCache K

namespace Cache
variable {K : Type} [DecidableEq K]

/-- `notice_page_state` (/repo/src/cache/mod.rs 159-165). -/
def noticePage (c : Cache K) (i : Nat) (st : PageState) (dirty : Bool) : Except Err (Cache K) :=
  match c.ps.notice i st with
  | .error e => .error e
  | .ok ps => .ok { c with dirty := c.dirty || dirty, ps := ps, pp := c.pp.noticePage i st }

/-- `notice_key_location` (/repo/src/cache/mod.rs 218-223). -/
def noticeKey (c : Cache K) (k : K) (a : Nat) (dirty : Bool) : Except Err (Cache K) :=
  match c.kp.noticeLocation k a with
  | .error e => .error e
  | .ok kp => .ok { c with dirty := c.dirty || dirty, kp := kp }

/-- `notice_key_erased` (/repo/src/cache/mod.rs 225-228). -/
def noticeKeyErased (c : Cache K) (k : K) : Cache K :=
  { c with dirty := true, kp := c.kp.noticeErased k }

/-- `invalidate_cache_state` (/repo/src/cache/mod.rs 203-208). -/
def invalidate (c : Cache K) : Cache K :=
  ⟨false, c.ps.invalidate, c.pp.invalidate, c.kp.invalidate⟩

/-- `unmark_dirty` (/repo/src/cache/mod.rs 146-148). -/
def unmark (c : Cache K) : Cache K := { c with dirty := false }

end Cache

end SeqStorage
