import Verif.Model.Sparse
import Mathlib.Algebra.BigOperators.Group.List.Basic

/-! # Specification vocabulary for the sparse matrices -/

namespace Lalib

variable {T : Type}

/-- Row-major order of positions. -/
def posLe (p q : Nat × Nat) : Prop := p.1 < q.1 ∨ (p.1 = q.1 ∧ p.2 ≤ q.2)

/-- Strict row-major order of positions. -/
def posLt (p q : Nat × Nat) : Prop := p.1 < q.1 ∨ (p.1 = q.1 ∧ p.2 < q.2)

/-- Positions and values of three parallel arrays. -/
def triplets (val : List T) (row col : List Nat) : List ((Nat × Nat) × T) := (row.zip col).zip val

namespace Coo

/-- The stored positions, in storage order. -/
def pos (a : Coo T) : List (Nat × Nat) := a.row.zip a.col

/-- The stored triplets, in storage order. -/
def entries (a : Coo T) : List ((Nat × Nat) × T) := triplets a.val a.row a.col

/-- The three arrays are equally long. -/
def Wf (a : Coo T) : Prop := a.row.length = a.val.length ∧ a.col.length = a.val.length

/-- The positions are in row-major order. -/
def Sorted (a : Coo T) : Prop := a.pos.Pairwise posLe

/-- No position is stored twice. -/
def Distinct (a : Coo T) : Prop := a.pos.Nodup

/-- The matrix element at `(i, j)`: the stored one, or zero. -/
def elem [Zero T] (a : Coo T) (i j : Nat) : T := (a.entries.lookup (i, j)).getD 0

/-- Row `i` has a stored element. -/
def Occupied (a : Coo T) (i : Nat) : Prop := i ∈ a.row

/-- Column of the element that storage order puts right after (where there would be) row `i` of `A` while
`A += B` works on row `i`: an element of a later row of `A`, or the first element of `B` appended so far. -/
def nextCol (A B : Coo T) (i : Nat) : Option Nat :=
  ((A.pos.filter (fun p => decide (i < p.1)) ++
    B.pos.filter (fun p => decide (p.1 < i ∧ p ∉ A.pos))).head?).map Prod.snd

/-- The safe domain of `A += B`: for every row stored in `B` but not in `A` there is a following element,
and its column is not one of `B`'s columns in that row. -/
def AddSafe (A B : Coo T) : Prop :=
  ∀ i, B.Occupied i → ¬ A.Occupied i → ∃ c, nextCol A B i = some c ∧ (i, c) ∉ B.pos

end Coo

namespace Csr

/-- Row pointers start at 0, never decrease, end at the number of elements; columns and values are
equally many. -/
structure Wf (a : Csr T) : Prop where
  len : a.col.length = a.val.length
  ptr0 : a.rowPtr[0]? = some 0
  mono : a.rowPtr.Pairwise (· ≤ ·)
  last : a.rowPtr.getLast? = some a.val.length

/-- Number of rows given by the row pointers. -/
def nrows (a : Csr T) : Nat := a.rowPtr.length - 1

/-- Within each row no column is stored twice. -/
def Distinct (a : Csr T) : Prop :=
  ∀ i k k', a.rowPtr.getD i 0 ≤ k → k < a.rowPtr.getD (i + 1) 0 → a.rowPtr.getD i 0 ≤ k' →
    k' < a.rowPtr.getD (i + 1) 0 → a.col.getD k 0 = a.col.getD k' 0 → k = k'

/-- Position `(i, j)` is stored at index `k`. -/
def StoredAt (a : Csr T) (i j k : Nat) : Prop :=
  a.rowPtr.getD i 0 ≤ k ∧ k < a.rowPtr.getD (i + 1) 0 ∧ a.col[k]? = some j

end Csr

/-- Sum of the values stored at position `(i, j)`. -/
def sumAt [AddCommMonoid T] (es : List ((Nat × Nat) × T)) (i j : Nat) : T :=
  (es.map (fun e => if e.1 = (i, j) then e.2 else 0)).sum

end Lalib
