import Verif.Spec.Forward
import Verif.Spec.IeeeBack

/-! # Time steps with rounding errors -/

namespace Lalib

open Finset

/-- Every step is carried out with errors: in the sum, relative errors of at most `u`; in the solution of the system, changes of
the matrix by at most `c` in every row, and of the right-hand side by at most `c0`. -/
def Drifts (n : ℕ) (A : ℕ → ℕ → ℝ) (f : ℕ → ℝ) (u c c0 : ℝ) (x : ℕ → ℕ → ℝ) : Prop :=
  ∀ k, ∃ (b : ℕ → ℝ) (E : ℕ → ℕ → ℝ) (e : ℕ → ℝ), NearSolves2 n A E e (x (k + 1)) b ∧ (∀ i, i < n → ∑ j ∈ range n, E i j ≤ c) ∧
    (∀ i, i < n → e i ≤ c0) ∧ ∀ i, i < n → |b i - (x k i + f i)| ≤ u * |x k i + f i|

end Lalib
