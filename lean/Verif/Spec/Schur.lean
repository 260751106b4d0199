import Verif.Spec.LinAlg

/-! # Subsystems and elimination in two stages (C114)

Mathematical notions only; independent of the model. -/

namespace Lalib

open Finset

variable {T : Type}

/-- The equations `f 0, …, f (k-1)` of the `n` equations with matrix `A` are different ones, and contain no other unknowns than
`f 0, …, f (k-1)`. -/
structure ClosedSub [Zero T] (n k : Nat) (f : Nat → Nat) (A : Nat → Nat → T) : Prop where
  lt : ∀ i, i < k → f i < n
  inj : ∀ i j, i < k → j < k → f i = f j → i = j
  zero : ∀ i j, i < k → j < n → (∀ s, s < k → f s ≠ j) → A (f i) j = 0

/-- The last rows and columns of `A`, from number `p` on, after elimination of the first `p` unknowns, where `Y` solves
`A₁₁ Y = A₁₂`: `A₂₂ - A₂₁ Y`. -/
def schur [Ring T] (p : Nat) (A Y : Nat → Nat → T) (i j : Nat) : T :=
  A (p + i) (p + j) - ∑ k ∈ range p, A (p + i) k * Y k j

/-- The right-hand side after the elimination, where `z` solves `A₁₁ z = b₁`: `b₂ - A₂₁ z`. -/
def schurRhs [Ring T] (p : Nat) (A : Nat → Nat → T) (z b : Nat → T) (i : Nat) : T :=
  b (p + i) - ∑ k ∈ range p, A (p + i) k * z k

end Lalib
