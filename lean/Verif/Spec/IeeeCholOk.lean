import Verif.Spec.IeeeBack
import Mathlib.Algebra.BigOperators.Group.Finset.Basic

/-! # Positive definite matrices and right-hand sides that are well inside the range of a binary format -/

namespace Lalib

open Finset

/-- `x^T A x` is at least `lam` times the sum of `A_pp x_p^2`. -/
def FormAbove (n : ℕ) (A : ℕ → ℕ → ℝ) (lam : ℝ) : Prop :=
  ∀ x : ℕ → ℝ, lam * ∑ p ∈ range n, A p p * x p ^ 2 ≤ ∑ p ∈ range n, ∑ q ∈ range n, x p * A p q * x q

/-- The diagonal entries are positive, sixteen times each of them is in range, and underflows are small beside them. -/
structure FactorRange (F : Fmt) (n : ℕ) (A : ℕ → ℕ → ℝ) : Prop where
  pos : ∀ p, p < n → 0 < A p p
  top : ∀ p, p < n → 16 * A p p < F.top
  low : ∀ i j, i < n → j < n → F.eta * (n + 2 * Real.sqrt (A j j)) ≤ F.u * (Real.sqrt (A i i) * Real.sqrt (A j j))

/-- `X` bounds the solution, in the scale of the matrix (first part), and numbers of that size are neither near overflow nor
near underflow. -/
structure SolveRange (F : Fmt) (n : ℕ) (A : ℕ → ℕ → ℝ) (lam : ℝ) (b : ℕ → ℝ) (X : ℝ) : Prop where
  pos : 0 < X
  rhs : 64 * ∑ p ∈ range n, b p ^ 2 / A p p ≤ lam ^ 2 * X ^ 2
  top : 32 * ((n + 1) * X) < F.top
  mul : ∀ p, p < n → 16 * (X * Real.sqrt (A p p)) < F.top
  div : ∀ p, p < n → X < Real.sqrt (A p p) * F.top
  low : ∀ p, p < n → 4 * (F.eta * (n + 2 * Real.sqrt (A p p))) ≤ F.u * (Real.sqrt lam * X)
  lowMul : ∀ p, p < n → 4 * (F.eta * (n + 2 * Real.sqrt (A p p))) ≤ F.u * (Real.sqrt lam * X * Real.sqrt (A p p))

/-- What the computed solution is worth: all of it is finite, it is no larger than `X`, it is the exact solution of a system
close to the given one, and it is close to the exact solution of the given one.  Sizes are in the scale of the matrix. -/
structure CholSolved (F : Fmt) (n : ℕ) (A : ℕ → ℕ → ℝ) (lam X : ℝ) (b x : ℕ → Fp F) : Prop where
  fin : ∀ i, i < n → (x i).IsFin
  size : ∑ p ∈ range n, A p p * (x p).val ^ 2 ≤ X ^ 2
  near : NearSolves2 n A (fun i j => gam F.u (6 * (n + 1)) * (Real.sqrt (A i i) * Real.sqrt (A j j)))
    (fun i => gam F.u (6 * (n + 1)) * (Real.sqrt (A i i) * X)) (fun i => (x i).val) (fun i => (b i).val)
  err : ∀ z, Solves n A z (fun i => (b i).val) →
    lam ^ 2 * ∑ p ∈ range n, A p p * ((x p).val - z p) ^ 2 ≤ (2 * (n * gam F.u (6 * (n + 1)) * X)) ^ 2

end Lalib
