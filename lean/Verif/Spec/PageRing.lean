import Verif.Model.Basic
/-
The life of the ring of pages, independent of the flash and of the caches: `m` pages in a row,
starting at page `o`, are in use; the last of them may still be partially open. All others are open,
except that the page just before the row may be unreadable after an interrupted erase.
-/

namespace SeqStorage

/-- The distance of page `i` from page `o`, going forward in a ring of `n` pages. -/
def ringPos (n o i : Nat) : Nat := if o ≤ i then i - o else i + n - o

/-- The page at distance `j` from page `o`, for `j < n`. -/
def ringPage (n o j : Nat) : Nat := if o + j < n then o + j else o + j - n

/-- The states of all pages, and how many times an oldest page was erased. -/
structure Shape where
  o : Nat
  m : Nat
  part : Bool
  corr : Bool
  d : Nat
  deriving DecidableEq, Repr

namespace Shape

/-- The state of a page; an error when its markers make no sense. -/
def st (σ : Shape) (n i : Nat) : Except Err PageState :=
  if ringPos n σ.o i < σ.m then
    if σ.part = true ∧ ringPos n σ.o i + 1 = σ.m then .ok .partialOpen else .ok .closed
  else if σ.corr = true ∧ ringPos n σ.o i + 1 = n then .error .corrupted
  else .ok .open

/-- The shapes that occur. -/
structure WF (σ : Shape) (n : Nat) : Prop where
  o_lt : σ.o < n
  m_le : σ.m ≤ n
  part_pos : σ.part = true → 1 ≤ σ.m
  full : σ.m = n → σ.part = true ∧ σ.corr = false
  empty : σ.m = 0 → σ.o = 0 ∧ σ.corr = false

/-- The page that is written to, or that will be written to next. -/
def front (σ : Shape) (n : Nat) : Nat := ringPage n σ.o (if σ.part then σ.m - 1 else σ.m)

/-- The start marker of the front page is written. -/
def openFront (σ : Shape) : Shape := { σ with m := σ.m + 1, part := true }
/-- The end marker of the front page is written. -/
def closeFront (σ : Shape) : Shape := { σ with part := false }
/-- The oldest page is erased. -/
def dropOldest (σ : Shape) (n : Nat) : Shape := { σ with o := ringPage n σ.o 1, m := σ.m - 1, d := σ.d + 1 }
/-- The erase of the oldest page is cut short. -/
def tearOldest (σ : Shape) (n : Nat) : Shape := { σ.dropOldest n with corr := true }
/-- The unreadable page is erased. -/
def fixCorr (σ : Shape) : Shape := { σ with corr := false }
/-- The partially open page is erased. -/
def dropFront (σ : Shape) : Shape := { σ with m := σ.m - 1, part := false }
/-- Nothing in use. -/
def initial : Shape := ⟨0, 0, false, false, 0⟩
/-- The only page is erased. -/
def dropOnly (σ : Shape) : Shape := ⟨0, 0, false, false, σ.d + 1⟩

end Shape
end SeqStorage
