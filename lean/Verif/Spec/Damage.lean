import Verif.Spec.Queue
import Verif.Spec.Map
import Verif.Model.Crc
/-
Bit flips: which bytes of the flash may change by themselves, and what a queue or map is supposed to do then.
-/

namespace SeqStorage.Spec

/-- The four bytes at `a` as a number. -/
def word32 (mem : Nat → Byte) (a : Nat) : BitVec 32 := ofLe32 (mem a) (mem (a + 1)) (mem (a + 2)) (mem (a + 3))

/-- The data bytes of an item at `p.1` that was written with the data `p.2`. -/
def dataOf (W : Nat) (mem : Nat → Byte) (p : Nat × List Byte) : List Byte :=
  (List.range p.2.length).map fun i => mem (p.1 + pad W 8 + i)

/-- The item is in the flash: the checksum and, behind the header, the data. -/
def InFlash (W : Nat) (mem : Nat → Byte) (p : Nat × List Byte) : Prop :=
  word32 mem p.1 = adaptedCrc32 p.2 ∧ dataOf W mem p = p.2

instance (W : Nat) (mem : Nat → Byte) (p : Nat × List Byte) : Decidable (InFlash W mem p) := by
  unfold InFlash; infer_instance

/-- The byte at `x` is part of the item, but not of the length in its header (bytes four to seven). -/
def Inside (W : Nat) (p : Nat × List Byte) (x : Nat) : Prop :=
  p.1 ≤ x ∧ x < p.1 + itemSize W p.2 ∧ ¬ (p.1 + 4 ≤ x ∧ x < p.1 + 8)

/-- Bytes of the items `l` changed, any number of them, and every item that is no longer the same
has a wrong checksum. -/
structure Damage (W : Nat) (mem mem' : Nat → Byte) (l : List (Nat × List Byte)) : Prop where
  where_ : ∀ x, mem' x ≠ mem x → ∃ p ∈ l, Inside W p x
  seen : ∀ p ∈ l, InFlash W mem' p ∨ word32 mem' p.1 ≠ adaptedCrc32 (dataOf W mem' p)

/-- The items that are still what they were. -/
def survivors (W : Nat) (mem' : Nat → Byte) (l : List (Nat × List Byte)) : List (Nat × List Byte) :=
  l.filter fun p => decide (InFlash W mem' p)

/-- One call on a queue that may contain damaged items. These are not shown, but they may be in the way: a buffer too small
for one of them is reported, and they take up space. -/
def damagedStep {ρ : Type} (W page pages : Nat) (q : List (List Byte)) (c : QCall ρ) (r : Except Err QAnswer)
    (q' : List (List Byte)) : Prop :=
  (crashStep W page pages q c r q' ∧ r ≠ .error .shutoff) ∨
  (match c with | .maxFit => pages = 1 ∧ r = .error .corrupted ∧ q' = q | _ => False)

/-! ### Damaged lengths -/

/-- The length in the header of the item (bytes four and five) is that of its data, and its checksum (bytes six and
seven) matches. -/
def LenOk (mem : Nat → Byte) (p : Nat × List Byte) : Prop :=
  ofLe16 (mem (p.1 + 4)) (mem (p.1 + 5)) = BitVec.ofNat 16 p.2.length ∧
  crc16 [mem (p.1 + 4), mem (p.1 + 5)] = ofLe16 (mem (p.1 + 6)) (mem (p.1 + 7))

instance (mem : Nat → Byte) (p : Nat × List Byte) : Decidable (LenOk mem p) := by
  unfold LenOk; infer_instance

/-- The word of `W` bytes at `a` is neither blank nor a header. -/
def Unreadable (W : Nat) (mem : Nat → Byte) (a : Nat) : Prop :=
  crc16 [mem (a + 4), mem (a + 5)] ≠ ofLe16 (mem (a + 6)) (mem (a + 7)) ∧ ∃ i, i < W ∧ mem (a + i) ≠ 0xff#8

/-- Any bytes of the items `l` changed, any number of them. Items that kept their length are the same or have a wrong
checksum, and no word of the others reads as a header or as blank. -/
structure Wreck (W : Nat) (mem mem' : Nat → Byte) (l : List (Nat × List Byte)) : Prop where
  where_ : ∀ x, mem' x ≠ mem x → ∃ p ∈ l, p.1 ≤ x ∧ x < p.1 + itemSize W p.2
  seen : ∀ p ∈ l, LenOk mem' p → InFlash W mem' p ∨ word32 mem' p.1 ≠ adaptedCrc32 (dataOf W mem' p)
  lost : ∀ p ∈ l, ¬ LenOk mem' p → ∀ k, k * W < itemSize W p.2 → Unreadable W mem' (p.1 + k * W)

/-- The items that are still what they were, with their length. -/
def intact (W : Nat) (mem' : Nat → Byte) (l : List (Nat × List Byte)) : List (Nat × List Byte) :=
  l.filter fun p => decide (LenOk mem' p ∧ InFlash W mem' p)

/-! ### Maps -/

variable {K V : Type}

/-- The items of entries: address, key and value. -/
def itemsOf (c : Coding K V) (l : List (Nat × K × V)) : List (Nat × List Byte) := l.map fun e => (e.1, c.data e.2.1 e.2.2)

/-- The entries that are still what they were. -/
def survivingEntries (c : Coding K V) (W : Nat) (mem' : Nat → Byte) (l : List (Nat × K × V)) : List (Nat × K × V) :=
  l.filter fun e => decide (InFlash W mem' (e.1, c.data e.2.1 e.2.2))

end SeqStorage.Spec
