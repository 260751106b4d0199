import Verif.Spec.Basic
import Mathlib.Algebra.Order.Field.Basic

/-! # Vocabulary: inner products, independence, orthogonal families

A family of vectors is a function `v : Nat → Nat → T`; `v k i` is component `i` of vector `k`. -/

namespace Lalib

variable {T : Type}

/-- Inner product of the first `n` components. -/
def ip [AddCommMonoid T] [Mul T] (n : Nat) (x y : Nat → T) : T := ∑ i ∈ Finset.range n, x i * y i

/-- The vectors `v 0, ..., v (m-1)` of dimension `n` are linearly independent. -/
def Indep [AddCommMonoid T] [Mul T] (n m : Nat) (v : Nat → Nat → T) : Prop :=
  ∀ c : Nat → T, (∀ i, i < n → ∑ k ∈ Finset.range m, c k * v k i = 0) → ∀ k, k < m → c k = 0

/-- `x` is, on the first `n` components, a combination of `v 0, ..., v (m-1)`. -/
def Comb [AddCommMonoid T] [Mul T] (n m : Nat) (v : Nat → Nat → T) (x : Nat → T) : Prop :=
  ∃ c : Nat → T, ∀ i, i < n → x i = ∑ k ∈ Finset.range m, c k * v k i

/-- The vectors are pairwise orthogonal. -/
def Orthogonal [AddCommMonoid T] [Mul T] (n m : Nat) (w : Nat → Nat → T) : Prop :=
  ∀ k l, k < m → l < m → k ≠ l → ip n (w k) (w l) = 0

end Lalib
