import Verif.Model.Basic
/-
NOR flash with power loss after a given number of bytes.
Follows /repo/src/mock_flash.rs lines 87-115 and 187-298.
-/

namespace SeqStorage

/-- The flash memory plus `bytes_until_shutoff` (/repo/src/mock_flash.rs 30-50).
`erases` logs, newest first, the start address of every completed or interrupted page erase and
`writes` counts how often each word was programmed since the last erase (the role of `writable`,
/repo/src/mock_flash.rs 268-288, with the limit left to the properties); `peak` is the highest value each
of these counters ever had; `faults` counts the accesses that were refused because they were misaligned, of
zero length or out of range; `stuck` counts the bytes that were programmed and did not read back as programmed,
because a bit to be 1 was 0 already. All five are observations only. -/
structure Flash where
  mem : Nat → Byte
  fuel : Option Nat
  erases : List Nat
  writes : Nat → Nat
  peak : Nat → Nat
  faults : Nat
  stuck : Nat := 0

/-- An access is refused (/repo/src/mock_flash.rs 87-99). The model counts refusals; the code only returns the error. -/
def Flash.fault (f : Flash) : Flash := { f with faults := f.faults + 1 }

/-- `n` bytes starting at `a`: the copy in `read` (/repo/src/mock_flash.rs 187-200). -/
def readBytes (mem : Nat → Byte) (a n : Nat) : List Byte :=
  (List.range n).map (fun i => mem (a + i))

/-- Program `bs` at `a`: every byte is ANDed (/repo/src/mock_flash.rs 292). -/
def programBytes (mem : Nat → Byte) (a : Nat) (bs : List Byte) : Nat → Byte :=
  fun x => if a ≤ x ∧ x < a + bs.length then mem x &&& bs.getD (x - a) 0xff#8 else mem x

/-- How many of the bytes `bs` do not read back after they are programmed at `a`. The code ANDs in silence
(/repo/src/mock_flash.rs 292); this is an observation. -/
def clashes (mem : Nat → Byte) : Nat → List Byte → Nat
  | _, [] => 0
  | a, b :: bs => (if mem a &&& b = b then 0 else 1) + clashes mem (a + 1) bs

/-- Erase `n` bytes from `a` on (/repo/src/mock_flash.rs 235-242). -/
def eraseBytes (mem : Nat → Byte) (a n : Nat) : Nat → Byte :=
  fun x => if a ≤ x ∧ x < a + n then 0xff#8 else mem x

/-- Word write counters after programming the bytes `[a, a+n)`: a word counts as written as soon as
its first byte is (/repo/src/mock_flash.rs 269-288). -/
def countWrites (w : Nat) (writes : Nat → Nat) (a n : Nat) : Nat → Nat :=
  fun x => if x % w = 0 ∧ a ≤ x ∧ x < a + n then writes x + 1 else writes x

/-- The highest counters so far (the code only has the counters, /repo/src/mock_flash.rs 24-35), when the bytes `[a, a+n)` are programmed. -/
def peakWrites (w : Nat) (peak writes : Nat → Nat) (a n : Nat) : Nat → Nat :=
  fun x => if x % w = 0 ∧ a ≤ x ∧ x < a + n then max (peak x) (writes x + 1) else peak x

/-- Word write counters after erasing the bytes `[a, a+n)` (/repo/src/mock_flash.rs 239-241). -/
def resetWrites (w : Nat) (writes : Nat → Nat) (a n : Nat) : Nat → Nat :=
  fun x => if x % w = 0 ∧ a ≤ x ∧ x < a + n then 0 else writes x

/-- `read` (/repo/src/mock_flash.rs 187-200, 87-99). The bounds are those of the configured range
rather than of the chip, which is stricter. -/
def Flash.read (g : Geo) (f : Flash) (a n : Nat) : Except Err (List Byte) :=
  if a % g.readSize ≠ 0 ∨ n = 0 ∨ n % g.readSize ≠ 0 then .error .notAligned
  else if a < g.start ∨ g.stop < a + n then .error .outOfBounds
  else .ok (readBytes f.mem a n)

/-- How many of `n` bytes are processed before power is lost, the remaining budget, and whether
all of them were (`check_shutoff`, /repo/src/mock_flash.rs 101-115). -/
def spend (fuel : Option Nat) (n : Nat) : Nat × Option Nat × Bool :=
  match fuel with
  | none => (n, none, true)
  | some k => if n ≤ k then (n, some (k - n), true) else (k, none, false)

/-- `write` (/repo/src/mock_flash.rs 247-297). The write-count check is turned into a counter. -/
def Flash.write (g : Geo) (f : Flash) (a : Nat) (bs : List Byte) : Except Err Unit × Flash :=
  if a % g.writeSize ≠ 0 ∨ bs.length = 0 ∨ bs.length % g.writeSize ≠ 0 then (.error .notAligned, f.fault)
  else if a < g.start ∨ g.stop < a + bs.length then (.error .outOfBounds, f.fault)
  else
    let (k, fuel', done) := spend f.fuel bs.length
    (if done then .ok () else .error .shutoff,
      { f with
        mem := programBytes f.mem a (bs.take k)
        fuel := fuel'
        writes := countWrites g.writeSize f.writes a k
        peak := peakWrites g.writeSize f.peak f.writes a k
        stuck := f.stuck + clashes f.mem a (bs.take k) })

/-- `erase` (/repo/src/mock_flash.rs 219-245). -/
def Flash.erase (g : Geo) (f : Flash) (fro to : Nat) : Except Err Unit × Flash :=
  if to < fro then (.error .panic, f.fault)
  else if fro < g.start ∨ g.stop < to then (.error .outOfBounds, f.fault)
  else if fro % g.eraseSize ≠ 0 ∨ to % g.eraseSize ≠ 0 then (.error .notAligned, f.fault)
  else
    let (k, fuel', done) := spend f.fuel (to - fro)
    (if done then .ok () else .error .shutoff,
      { f with
        mem := eraseBytes f.mem fro k
        fuel := fuel'
        erases := fro :: f.erases
        writes := resetWrites g.writeSize f.writes fro k })

end SeqStorage
