import Verif.Spec.Newton

/-! # A program: Newton's method

The program of `Spec/Newton.lean` with a `solve` which computes the matrix again from the vector in `x`, factorises it and solves. -/

namespace Lalib

open Finset

/-- `A` is good enough as derivative of `F` at `x`, near its zero `s`: it predicts the value up to a term of second order and an error `eta` of
the matrix.  `K` bounds the inverse, `S` the rows of the matrix and `c` those of the solver's backward error `E`. -/
structure Tangent (n : ℕ) (F : (ℕ → ℝ) → ℕ → ℝ) (s : ℕ → ℝ) (M eta K S c : ℝ) (x : ℕ → ℝ) (A E : ℕ → ℕ → ℝ) : Prop where
  near : ∀ e, MaxLe n (fun i => x i - s i) e → MaxLe n (fun i => F x i - mulVec n A (fun j => x j - s j) i) ((M * e + eta) * e)
  inv : InvBound n A K
  row : RowLe n A S
  back : ∀ i, i < n → ∑ j ∈ range n, E i j ≤ c

/-- The call replaces the vector in `r` by a solution, with backward error, of a system with such a matrix; nothing else changes. -/
def NewtonFor {R : Rounding} (n : ℕ) (F : (ℕ → ℝ) → ℕ → ℝ) (s : ℕ → ℝ) (rho M eta K S c : ℝ) (x r : ℕ) (solve : Mem (Fl R) → Res (Mem (Fl R))) :
    Prop :=
  ∀ m : Mem (Fl R), m.len x = n → m.len r = n → MaxLe n (fun i => (m.val x i).val - s i) rho → ∃ A E l,
    Tangent n F s M eta K S c (fun i => (m.val x i).val) A E ∧ solve m = .ok (m.setBuf r l) ∧ l.length = n ∧
      NearSolves n A E (fun i => (val0 l i).val) (fun i => (m.val r i).val)

end Lalib
