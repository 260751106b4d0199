import Verif.Spec.Float

/-! # Arithmetic that is only known to be accurate

`Fl R` (`Verif/Spec/Float.lean`) rounds every operation by one function of the exact result.  A compiler may do otherwise:
evaluate `a * b + c` with one rounding (contraction, the default of GCC), keep intermediate results in a wider format,
replace `a / b` by `a * (1 / b)` (with a larger `u`), choose differently at every place.  Here no more is known than that
each operation has a relative error of at most `u`: two operations with the same operands may yield different numbers,
`0 + a` need not be `a`, nothing is commutative. -/

namespace Lalib

/-- Numbers of which only the accuracy of the operations is known.  An element may hold more than its value (how it was
computed, say), so the error can be different for equal operands. -/
structure Noisy where
  /-- what a variable holds -/
  C : Type
  /-- the real number it stands for -/
  val : C → ℝ
  u : ℝ
  u_nonneg : 0 ≤ u
  u_lt_one : u < 1
  zero : C
  one : C
  neg : C → C
  add : C → C → C
  sub : C → C → C
  mul : C → C → C
  div : C → C → C
  sqrt : C → C
  val_zero : val zero = 0
  val_one : val one = 1
  val_neg : ∀ a, val (neg a) = -val a
  add_err : ∀ a b, |val (add a b) - (val a + val b)| ≤ u * |val a + val b|
  sub_err : ∀ a b, |val (sub a b) - (val a - val b)| ≤ u * |val a - val b|
  mul_err : ∀ a b, |val (mul a b) - val a * val b| ≤ u * |val a * val b|
  div_err : ∀ a b, val b ≠ 0 → |val (div a b) - val a / val b| ≤ u * |val a / val b|
  sqrt_err : ∀ a, 0 ≤ val a → |val (sqrt a) - Real.sqrt (val a)| ≤ u * Real.sqrt (val a)

/-- The numbers of such an arithmetic, as an element type for the model. -/
def Nz (N : Noisy) : Type := N.C

namespace Nz
variable {N : Noisy}

def val (a : Nz N) : ℝ := N.val a

instance : Zero (Nz N) := ⟨N.zero⟩
instance : One (Nz N) := ⟨N.one⟩
instance : Neg (Nz N) := ⟨N.neg⟩
instance : Add (Nz N) := ⟨N.add⟩
instance : Sub (Nz N) := ⟨N.sub⟩
instance : Mul (Nz N) := ⟨N.mul⟩
/-- The value for a zero divisor, and below the root of a negative number, is never used: see `divC`, `sqrtC`. -/
noncomputable instance : Div (Nz N) := by
  classical exact ⟨fun a b => if N.val b = 0 then N.zero else N.div a b⟩
noncomputable instance : Sqrt (Nz N) := by
  classical exact ⟨fun a => if N.val a < 0 then N.zero else N.sqrt a⟩
/-- Comparisons are exact. -/
instance : LT (Nz N) := ⟨fun a b => a.val < b.val⟩
noncomputable instance : DecidableLT (Nz N) := fun _ _ => Classical.propDecidable _
noncomputable instance : CZero (Nz N) := ⟨fun a => a.val = 0, fun _ => Classical.propDecidable _⟩
/-- A zero divisor, or the root of a negative number, leaves the finite numbers. -/
noncomputable instance : CDiv (Nz N) := ⟨fun a b => if IsZ b then .error .nonFinite else .ok (a / b)⟩
noncomputable instance : CSqrt (Nz N) := ⟨fun a => if a < 0 then .error .nonFinite else .ok (Sqrt.sqrt a)⟩

/-- The real numbers which the entries of a matrix stand for. -/
def mat (A : ℕ → ℕ → Nz N) (i j : ℕ) : ℝ := (A i j).val

end Nz

/-! ## Contraction

A product that is used by an addition or subtraction only may be passed on without being rounded; a fused multiply-add
then makes the one rounding of the sum.  The model is more liberal: any product may be left unrounded, as decided by
`fuse`, which sees how both factors were computed. -/

/-- How a number was computed. -/
inductive Hist where
  | lit (i : Nat)
  | neg (a : Hist)
  | add (a b : Hist)
  | sub (a b : Hist)
  | mul (a b : Hist)
  | div (a b : Hist)
  | sqrt (a : Hist)

/-- Rounded arithmetic in which the products chosen by `fuse` are not rounded. -/
noncomputable def contracted (R : Rounding) (fuse : Hist → Hist → Bool) : Noisy where
  C := ℝ × Hist
  val := Prod.fst
  u := R.u
  u_nonneg := R.u_nonneg
  u_lt_one := R.u_lt_one
  zero := (0, .lit 0)
  one := (1, .lit 1)
  neg a := (-a.1, .neg a.2)
  add a b := (R.rnd (a.1 + b.1), .add a.2 b.2)
  sub a b := (R.rnd (a.1 - b.1), .sub a.2 b.2)
  mul a b := (if fuse a.2 b.2 then a.1 * b.1 else R.rnd (a.1 * b.1), .mul a.2 b.2)
  div a b := (R.rnd (a.1 / b.1), .div a.2 b.2)
  sqrt a := (R.rnd (Real.sqrt a.1), .sqrt a.2)
  val_zero := rfl
  val_one := rfl
  val_neg _ := rfl
  add_err a b := R.err _
  sub_err a b := R.err _
  mul_err a b := by
    show |(if fuse a.2 b.2 then a.1 * b.1 else R.rnd (a.1 * b.1)) - a.1 * b.1| ≤ _
    split_ifs
    · rw [sub_self, abs_zero]; exact mul_nonneg R.u_nonneg (abs_nonneg _)
    · exact R.err _
  div_err a b _ := R.err _
  sqrt_err a _ := by
    have := R.err (Real.sqrt a.1)
    rwa [abs_of_nonneg (Real.sqrt_nonneg _)] at this

/-- Rounded arithmetic itself is the case without contraction. -/
noncomputable def Rounding.noisy (R : Rounding) : Noisy where
  C := Fl R
  val := Fl.val
  u := R.u
  u_nonneg := R.u_nonneg
  u_lt_one := R.u_lt_one
  zero := 0
  one := 1
  neg a := -a
  add a b := a + b
  sub a b := a - b
  mul a b := a * b
  div a b := a / b
  sqrt a := Sqrt.sqrt a
  val_zero := rfl
  val_one := rfl
  val_neg _ := rfl
  add_err a b := R.err _
  sub_err a b := R.err _
  mul_err a b := R.err _
  div_err a b _ := R.err _
  sqrt_err a _ := by
    have := R.err (Real.sqrt a.val)
    rwa [abs_of_nonneg (Real.sqrt_nonneg _)] at this

/-- Additions on the longest way from a product to the result of a reduction. -/
def RedTree.depth : RedTree → ℕ
  | .zero => 0
  | .leaf _ => 0
  | .node l r => max l.depth r.depth + 1

end Lalib
