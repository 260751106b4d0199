import Verif.Spec.LinAlg
import Verif.Spec.Orth
import Mathlib.Data.Int.Cast.Basic

/-! # Replaced columns and rank-one changes

Used by property C113. -/

namespace Lalib

variable {T : Type}

/-- `A` with column `k` replaced by `b`. -/
def setCol (A : Nat → Nat → T) (k : Nat) (b : Nat → T) (i j : Nat) : T := if j = k then b i else A i j

/-- `A + t u vᵀ`. -/
def rankOne [CommRing T] (A : Nat → Nat → T) (t : T) (u v : Nat → T) (i j : Nat) : T := A i j + t * u i * v j

/-- Cramer's rule for the vector `x`: `det A * x_i` is the determinant of `A` with column `i` replaced by `b`. -/
def Cramer [CommRing T] (n : Nat) (A : Nat → Nat → T) (x b : Nat → T) : Prop :=
  ∀ i, i < n → minor A n * x i = minor (setCol A i b) n

/-- The number is an integer. -/
def IsInt [IntCast T] (x : T) : Prop := ∃ z : ℤ, x = z

/-- What Cramer's rule says for integer data: the determinant is an integer `d`, every `d * x_i` is an integer, and if `d` is 1 or -1
every `x_i` is one. -/
def IntResult [CommRing T] (n : Nat) (A : Nat → Nat → T) (x b : Nat → T) : Prop :=
  (∀ i j, i < n → j < n → IsInt (A i j)) → (∀ i, i < n → IsInt (b i)) →
    ∃ d : ℤ, minor A n = d ∧ (∀ i, i < n → IsInt (d * x i)) ∧ (d = 1 ∨ d = -1 → ∀ i, i < n → IsInt (x i))

end Lalib
