import Verif.Spec.Float

/-! # Conditioning

The maximum norm of vectors and of inverses, without norms: `InvBound n A K` says that the norm of the inverse of `A` is at
most `K`. -/

namespace Lalib

open Finset

/-- All components are at most `X` in absolute value. -/
def MaxLe (n : ℕ) (x : ℕ → ℝ) (X : ℝ) : Prop := ∀ i, i < n → |x i| ≤ X

/-- The absolute values of every row add up to at most `S`. -/
def RowLe (n : ℕ) (A : ℕ → ℕ → ℝ) (S : ℝ) : Prop := ∀ i, i < n → ∑ j ∈ range n, |A i j| ≤ S

/-- `max |x| ≤ K max |A x|` for every vector `x`. -/
def InvBound (n : ℕ) (A : ℕ → ℕ → ℝ) (K : ℝ) : Prop :=
  0 ≤ K ∧ ∀ (x : ℕ → ℝ) (M : ℝ), 0 ≤ M → MaxLe n (mulVec n A x) M → MaxLe n x (K * M)

/-- `B` is a left inverse of `A`. -/
def LeftInv (n : ℕ) (B A : ℕ → ℕ → ℝ) : Prop :=
  ∀ i k, i < n → k < n → ∑ j ∈ range n, B i j * A j k = if i = k then 1 else 0

/-- In every row the diagonal exceeds the sum of the others, in absolute values, by at least `d`. -/
def DomBy (n : ℕ) (A : ℕ → ℕ → ℝ) (d : ℝ) : Prop :=
  ∀ i, i < n → ∑ j ∈ (range n).erase i, |A i j| + d ≤ |A i i|

end Lalib
