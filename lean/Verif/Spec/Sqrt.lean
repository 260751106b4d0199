import Verif.Model.VecOps
import Mathlib.Analysis.Real.Sqrt
import Mathlib.Data.Rat.Cast.Order
import Mathlib.Data.Rat.Sqrt

/-! # What is required of the square root -/

namespace Lalib

/-- The scalar type is an ordered field in which every non-negative number has the root which `sqrt`
returns (exact arithmetic). -/
class LawfulSqrt (T : Type) [Field T] [LinearOrder T] [Sqrt T] : Prop where
  sqrt_nonneg : ∀ x : T, 0 ≤ Sqrt.sqrt x
  mul_self_sqrt : ∀ x : T, 0 ≤ x → Sqrt.sqrt x * Sqrt.sqrt x = x

noncomputable instance : Sqrt ℝ := ⟨Real.sqrt⟩

instance : LawfulSqrt ℝ where
  sqrt_nonneg := Real.sqrt_nonneg
  mul_self_sqrt := fun _ h => Real.mul_self_sqrt h

/-- Rational roots of squares, used only to run the model on concrete data. -/
instance : Sqrt ℚ := ⟨Rat.sqrt⟩

end Lalib
