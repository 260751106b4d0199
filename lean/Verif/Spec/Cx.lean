import Verif.Spec.Float
import Mathlib.Analysis.Complex.Basic

/-! # Complex numbers with rounded parts

`Cx T` is `std::complex<T>`: a pair of numbers with the operations of the C++ library, each made of operations on the
parts.  The product is the formula with four products; the library's recomputation when both parts are NaN cannot occur
in `Fl R`, where there is no NaN. -/

namespace Lalib

/-- `std::complex<T>`. -/
@[ext] structure Cx (T : Type) where
  re : T
  im : T

namespace Cx
variable {T : Type}

instance [Zero T] : Zero (Cx T) := ⟨⟨0, 0⟩⟩
instance [One T] [Zero T] : One (Cx T) := ⟨⟨1, 0⟩⟩
instance [Neg T] : Neg (Cx T) := ⟨fun z => ⟨-z.re, -z.im⟩⟩
instance [Add T] : Add (Cx T) := ⟨fun z w => ⟨z.re + w.re, z.im + w.im⟩⟩
instance [Sub T] : Sub (Cx T) := ⟨fun z w => ⟨z.re - w.re, z.im - w.im⟩⟩
instance [Add T] [Sub T] [Mul T] : Mul (Cx T) :=
  ⟨fun z w => ⟨z.re * w.re - z.im * w.im, z.re * w.im + z.im * w.re⟩⟩

/-- The complex number a pair stands for. -/
def toC {R : Rounding} (z : Cx (Fl R)) : ℂ := ⟨z.re.val, z.im.val⟩

end Cx

/-- Bound for the relative error of one complex operation: `sqrt 2 * (1/(1-u)^2 - 1)`, about `2.83 u`. -/
noncomputable def cxu (u : ℝ) : ℝ := √2 * (1 / (1 - u) ^ 2 - 1)

/-- Bound for the relative error of `k` complex operations: `(1 + cxu)^k - 1`. -/
noncomputable def cgam (u : ℝ) (k : ℕ) : ℝ := (1 + cxu u) ^ k - 1

end Lalib
