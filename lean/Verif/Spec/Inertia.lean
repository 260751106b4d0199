import Verif.Spec.LinAlg
import Mathlib.LinearAlgebra.Dimension.Constructions
import Mathlib.LinearAlgebra.Matrix.Charpoly.Basic
import Mathlib.Data.Real.Basic
import Mathlib.Algebra.Polynomial.Roots

/-! # Signs of symmetric matrices: index and eigenvalues -/

namespace Lalib

variable {T : Type}

/-- The quadratic form of `A`. -/
def form [CommRing T] (n : Nat) (A : Nat → Nat → T) (x : Fin n → T) : T := ∑ i : Fin n, ∑ j : Fin n, x i * A i j * x j

/-- The form of `A` is negative on a space of dimension `k`, and on no space of a higher dimension. -/
def NegIndex [Field T] [LT T] (n : Nat) (A : Nat → Nat → T) (k : Nat) : Prop :=
  (∃ W : Submodule T (Fin n → T), Module.finrank T W = k ∧ ∀ x ∈ W, x ≠ 0 → form n A x < 0) ∧
  ∀ W : Submodule T (Fin n → T), (∀ x ∈ W, x ≠ 0 → form n A x < 0) → Module.finrank T W ≤ k

/-- How many of the first `n` numbers are negative. -/
def negCount [Zero T] [LT T] [DecidableLT T] (n : Nat) (d : Nat → T) : Nat := ((Finset.range n).filter fun i => d i < 0).card

/-- How many of the first `n` numbers are positive. -/
def posCount [Zero T] [LT T] [DecidableLT T] (n : Nat) (d : Nat → T) : Nat := ((Finset.range n).filter fun i => 0 < d i).card

/-- `A - s I`. -/
def shiftBy [CommRing T] (A : Nat → Nat → T) (s : T) (i j : Nat) : T := A i j - if i = j then s else 0

/-- The eigenvalues, with multiplicity: the zeros of the characteristic polynomial. -/
noncomputable def eigs (n : Nat) (A : Nat → Nat → ℝ) : Multiset ℝ := (Matrix.of fun i j : Fin n => A i j).charpoly.roots

end Lalib
