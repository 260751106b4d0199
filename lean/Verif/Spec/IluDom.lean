import Mathlib.Algebra.Order.Field.Basic
import Mathlib.Algebra.Order.BigOperators.Group.Finset

/-! # Matrices whose diagonal dominates, in some positive weights -/

namespace Lalib

open Finset

variable {K : Type} [Field K] [LinearOrder K] [IsStrictOrderedRing K]

/-- How much of the weighted diagonal entry of row `i` is left after the rest of the row is taken off. -/
def rowGap (n : ℕ) (A : ℕ → ℕ → K) (w : ℕ → K) (i : ℕ) : K :=
  |A i i| * w i - ∑ j ∈ (range n).erase i, |A i j| * w j

/-- Strict diagonal dominance by rows after the columns are scaled by positive weights.  All weights 1: the textbook
condition.  A matrix that has such weights is called an H-matrix. -/
structure WeightDom (n : ℕ) (A : ℕ → ℕ → K) (w : ℕ → K) : Prop where
  pos : ∀ j, j < n → 0 < w j
  gap : ∀ i, i < n → 0 < rowGap n A w i

/-- Positive diagonal, nothing positive elsewhere, and `A w > 0` for some `w > 0`: a non-singular M-matrix. -/
structure MMatrix (n : ℕ) (A : ℕ → ℕ → K) (w : ℕ → K) : Prop where
  diag : ∀ i, i < n → 0 < A i i
  off : ∀ i j, i < n → j < n → i ≠ j → A i j ≤ 0
  pos : ∀ j, j < n → 0 < w j
  row : ∀ i, i < n → 0 < ∑ j ∈ range n, A i j * w j

end Lalib
