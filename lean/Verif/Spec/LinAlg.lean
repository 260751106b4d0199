import Verif.Spec.Mat
import Verif.Spec.Struct
import Mathlib.LinearAlgebra.Matrix.Determinant.Basic
import Mathlib.Algebra.Order.AbsoluteValue.Basic

/-! # Vocabulary of the solver specifications

A matrix is a function `A : ℕ → ℕ → T` of which the entries below a given size are looked at. -/

namespace Lalib

variable {T : Type}

/-- Component `i` of `A x`. -/
def mulVec [NonUnitalNonAssocSemiring T] (n : Nat) (A : Nat → Nat → T) (x : Nat → T) (i : Nat) : T :=
  ∑ j ∈ Finset.range n, A i j * x j

/-- `x` solves the `n x n` system `A x = b`. -/
def Solves [NonUnitalNonAssocSemiring T] (n : Nat) (A : Nat → Nat → T) (x b : Nat → T) : Prop :=
  ∀ i, i < n → mulVec n A x i = b i

/-- The leading principal minor of order `k`. -/
def minor [CommRing T] (A : Nat → Nat → T) (k : Nat) : T :=
  Matrix.det (Matrix.of fun i j : Fin k => A i j)

/-- No leading principal minor of orders `1..n` vanishes. -/
def Regular [CommRing T] (A : Nat → Nat → T) (n : Nat) : Prop :=
  ∀ k, k < n → minor A (k + 1) ≠ 0

/-- Strict row diagonal dominance. -/
def DiagDom [CommRing T] [LinearOrder T] (A : Nat → Nat → T) (n : Nat) : Prop :=
  ∀ i, i < n → (∑ j ∈ (Finset.range n).erase i, |A i j|) < |A i i|

/-- Symmetric. -/
def Symm (n : Nat) (A : Nat → Nat → T) : Prop := ∀ i j, i < n → j < n → A i j = A j i

/-- Positive definite: the quadratic form is positive on every non-zero vector. -/
def PosDef [CommRing T] [LT T] (n : Nat) (A : Nat → Nat → T) : Prop :=
  ∀ x : Nat → T, (∃ i, i < n ∧ x i ≠ 0) →
    0 < ∑ i ∈ Finset.range n, ∑ j ∈ Finset.range n, x i * A i j * x j

/-- The lower-triangular part. -/
def low [Zero T] (L : Nat → Nat → T) (i k : Nat) : T := if k ≤ i then L i k else 0

/-- The lower part of `L` is a Cholesky factor of `A`: `L Lᵀ = A`, positive diagonal. -/
def IsChol [CommRing T] [LT T] (n : Nat) (L A : Nat → Nat → T) : Prop :=
  (∀ i, i < n → 0 < L i i) ∧
  ∀ i j, i < n → j < n → ∑ k ∈ Finset.range n, low L i k * low L j k = A i j

/-- The full matrix which a tri-diagonal matrix stands for. -/
def triFull [Zero T] (a : TriDiag T) (i j : Nat) : T :=
  if i = j then val0 a.d i else if i + 1 = j then val0 a.du i else if i = j + 1 then val0 a.dl j else 0

/-- Length of the data of an `n x n` matrix: all entries by rows, or the rows of the lower triangle. -/
def squareLen (n : Nat) : Nat := n * n
def packedLen (n : Nat) : Nat := n * (n + 1) / 2

/-- Entry `(i, j)`, `j ≤ i`, of a lower triangle stored row after row. -/
def packed [Zero T] (l : List T) (i j : Nat) : T := val0 l (i * (i + 1) / 2 + j)

end Lalib
