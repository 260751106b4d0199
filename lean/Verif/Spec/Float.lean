import Verif.Model.VecOps
import Verif.Spec.LinAlg
import Mathlib.Analysis.Real.Sqrt
import Mathlib.Data.Int.Log

/-! # Rounded arithmetic

The standard model of floating-point arithmetic: every operation returns the exact result, rounded, and rounding makes a
relative error of at most `u`.  `Fl R` is a type of numbers with these operations; the functions of the model run on it
as they are.

Overflow, underflow, infinities, NaN and the sign of zero are not part of it: the exponent range is unbounded. -/

namespace Lalib

/-- A rounding of the reals. -/
structure Rounding where
  /-- unit roundoff -/
  u : ℝ
  u_nonneg : 0 ≤ u
  u_lt_one : u < 1
  rnd : ℝ → ℝ
  err : ∀ x, |rnd x - x| ≤ u * |x|
  idem : ∀ x, rnd (rnd x) = rnd x
  neg : ∀ x, rnd x = x → rnd (-x) = -x
  one : rnd 1 = 1

/-- Numbers that are not changed by rounding. -/
@[ext] structure Fl (R : Rounding) where
  val : ℝ
  rep : R.rnd val = val

namespace Rounding
variable (R : Rounding)

/-- The rounded number. -/
def fl (x : ℝ) : Fl R := ⟨R.rnd x, R.idem x⟩

theorem rnd_zero : R.rnd 0 = 0 := by
  have := R.err 0
  simpa using this

end Rounding

namespace Fl
variable {R : Rounding}

noncomputable instance : Zero (Fl R) := ⟨⟨0, R.rnd_zero⟩⟩
noncomputable instance : One (Fl R) := ⟨⟨1, R.one⟩⟩
noncomputable instance : Neg (Fl R) := ⟨fun a => ⟨-a.val, R.neg _ a.rep⟩⟩
noncomputable instance : Add (Fl R) := ⟨fun a b => R.fl (a.val + b.val)⟩
noncomputable instance : Sub (Fl R) := ⟨fun a b => R.fl (a.val - b.val)⟩
noncomputable instance : Mul (Fl R) := ⟨fun a b => R.fl (a.val * b.val)⟩
noncomputable instance : Div (Fl R) := ⟨fun a b => R.fl (a.val / b.val)⟩
noncomputable instance : Sqrt (Fl R) := ⟨fun a => R.fl (Real.sqrt a.val)⟩
instance : LT (Fl R) := ⟨fun a b => a.val < b.val⟩
noncomputable instance : DecidableEq (Fl R) := Classical.decEq _
noncomputable instance : DecidableLT (Fl R) := fun _ _ => Classical.propDecidable _

end Fl

/-- The bound for `k` roundings: `1/(1-u)^k - 1`. -/
noncomputable def gam (u : ℝ) (k : ℕ) : ℝ := 1 / (1 - u) ^ k - 1

/-- `x` is the exact solution of a system whose matrix differs from `A`, entry by entry, by at most `E`. -/
def NearSolves (n : ℕ) (A E : ℕ → ℕ → ℝ) (x b : ℕ → ℝ) : Prop :=
  ∃ dA : ℕ → ℕ → ℝ, (∀ i j, i < n → j < n → |dA i j| ≤ E i j) ∧ Solves n (fun i j => A i j + dA i j) x b

/-- The real numbers which the entries of a matrix stand for. -/
def Fl.mat {R : Rounding} (A : ℕ → ℕ → Fl R) (i j : ℕ) : ℝ := (A i j).val

/-- The number is an integer. -/
def Fl.IsInt {R : Rounding} (a : Fl R) : Prop := ∃ z : ℤ, a.val = z

/-! ## Binary rounding

Round to nearest, ties to even, with `p` significant bits: `p = 24` is the precision of `float` (binary32), `p = 53` that
of `double` (binary64). -/

/-- Nearest integer, ties to even. -/
noncomputable def nearestEven (x : ℝ) : ℤ :=
  if Int.fract x < 1 / 2 then ⌊x⌋
  else if 1 / 2 < Int.fract x then ⌊x⌋ + 1
  else if Even ⌊x⌋ then ⌊x⌋ else ⌊x⌋ + 1

/-- Distance of neighbouring numbers with `p` bits at `x`. -/
noncomputable def ulp (p : ℕ) (x : ℝ) : ℝ := (2 : ℝ) ^ (Int.log 2 |x| + 1 - (p : ℤ))

/-- Rounding to `p` bits. -/
noncomputable def rndBin (p : ℕ) (x : ℝ) : ℝ := nearestEven (x / ulp p x) * ulp p x

/-- `static_cast<size_t>(std::sqrt(n))` in double arithmetic (`dyn_mat.hpp:397, 539`): the integer is converted (rounded), the square root is
rounded, the result is cut to an integer. -/
noncomputable def sqrtDouble (n : ℕ) : ℕ := ⌊rndBin 53 (Real.sqrt (rndBin 53 n))⌋₊

end Lalib
