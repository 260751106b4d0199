import Verif.Spec.LinAlg
import Verif.Spec.Minimise

/-! # Minimisation under linear conditions (C121)

Mathematical notions only; independent of the model. -/

namespace Lalib

open Finset

variable {T : Type}

/-- `x` satisfies the `q` conditions `C x = d`. -/
def Feasible [NonUnitalNonAssocSemiring T] (n q : Nat) (C : Nat → Nat → T) (d x : Nat → T) : Prop := ∀ a, a < q → mulVec n C x a = d a

/-- No condition is a combination of the others. -/
def RowsIndep [NonUnitalNonAssocSemiring T] (n q : Nat) (C : Nat → Nat → T) : Prop :=
  ∀ t : Nat → T, (∀ j, j < n → ∑ a ∈ range q, t a * C a j = 0) → ∀ a, a < q → t a = 0

/-- The matrix of the second system, where `Y` solves `A Y = C^T`: `C Y`. -/
def condMat [NonUnitalNonAssocSemiring T] (n : Nat) (C Y : Nat → Nat → T) (a c : Nat) : T := ∑ i ∈ range n, C a i * Y i c

end Lalib
