import Verif.Spec.Ieee
import Verif.Spec.Eval
import Verif.Spec.Scaling

/-! # Order

Two runs of one function, the numbers of the second being larger in absolute value than those of the first: are the
results ordered as well?  In exact arithmetic this is clear for sums of products of non-negative numbers, and it is the
comparison principle for matrices with non-positive entries off the diagonal.  Here the numbers are those of the computer;
all that is known about an operation is that its result is the exact one rounded by a monotone function, provided the
exact one is within range. -/

namespace Lalib

/-- Arithmetic by monotone rounding.  `fin a`: the number is finite, its value is `val a`; `inR r`: the real `r` is within
range. -/
structure OrdArith (T : Type) [Zero T] [Add T] [Sub T] [Mul T] [Neg T] [Div T] [CDiv T] [CZero T] [LT T]
    [Sqrt T] [CSqrt T] where
  fin : T → Prop
  val : T → ℝ
  rnd : ℝ → ℝ
  inR : ℝ → Prop
  mono : ∀ {x y}, x ≤ y → rnd x ≤ rnd y
  rnd_zero : rnd 0 = 0
  conv : ∀ {x y z}, inR x → inR z → x ≤ y → y ≤ z → inR y
  inR_val : ∀ {a}, fin a → inR (val a)
  zero : fin 0 ∧ val 0 = 0
  neg : ∀ {a}, (fin (-a) ↔ fin a) ∧ val (-a) = -val a
  add : ∀ {a b}, fin a → fin b → inR (val a + val b) → fin (a + b) ∧ val (a + b) = rnd (val a + val b)
  add_fin : ∀ {a b}, fin (a + b) → fin a ∧ fin b ∧ inR (val a + val b)
  sub : ∀ {a b}, fin a → fin b → inR (val a - val b) → fin (a - b) ∧ val (a - b) = rnd (val a - val b)
  sub_fin : ∀ {a b}, fin (a - b) → fin a ∧ fin b ∧ inR (val a - val b)
  mul : ∀ {a b}, fin a → fin b → inR (val a * val b) → fin (a * b) ∧ val (a * b) = rnd (val a * val b)
  mul_fin : ∀ {a b}, fin (a * b) → fin a ∧ fin b ∧ inR (val a * val b)
  div : ∀ {a b}, fin a → fin b → val b ≠ 0 → inR (val a / val b) → fin (a / b) ∧ val (a / b) = rnd (val a / val b)
  div_fin : ∀ {a b}, fin b → val b ≠ 0 → fin (a / b) → fin a ∧ inR (val a / val b)
  sqrt : ∀ {a}, fin a → 0 ≤ val a → fin (Sqrt.sqrt a) ∧ val (Sqrt.sqrt a) = rnd (Real.sqrt (val a))
  sqrt_fin : ∀ {a}, fin (Sqrt.sqrt a) → fin a
  isZ : ∀ {a}, fin a → (IsZ a ↔ val a = 0)
  lt : ∀ {a b}, fin a → fin b → (a < b ↔ val a < val b)
  sqrtC_ok : ∀ v : T, ¬ v < 0 → CSqrt.sqrtC v = .ok (Sqrt.sqrt v)
  sqrtC_eq : ∀ v w : T, CSqrt.sqrtC v = .ok w → w = Sqrt.sqrt v
  isZ_zero : IsZ (0 : T)
  div_ok : ∀ b : T, ¬ IsZ b → DivAt b
  sqrt_nz : ∀ v : T, ¬ v < 0 → ¬ IsZ v → ¬ IsZ (Sqrt.sqrt v)

namespace OrdArith
variable {T : Type} [Zero T] [Add T] [Sub T] [Mul T] [Neg T] [Div T] [CDiv T] [CZero T] [LT T] [Sqrt T] [CSqrt T]
  (S : OrdArith T)

/-- `0 ≤ a ≤ a'`, finite. -/
structure Nn (a a' : T) : Prop where
  fin : S.fin a
  fin' : S.fin a'
  nn : 0 ≤ S.val a
  le : S.val a ≤ S.val a'

/-- `a' ≤ a ≤ 0`, finite. -/
structure Np (a a' : T) : Prop where
  fin : S.fin a
  fin' : S.fin a'
  np : S.val a ≤ 0
  le : S.val a' ≤ S.val a

/-- `a' ≤ a`, finite. -/
structure Ls (a a' : T) : Prop where
  fin : S.fin a
  fin' : S.fin a'
  le : S.val a' ≤ S.val a

/-- `|a| ≤ |a'|`, finite. -/
structure Ab (a a' : T) : Prop where
  fin : S.fin a
  fin' : S.fin a'
  le : |S.val a| ≤ |S.val a'|

/-- Finite and positive. -/
def Pos (a : T) : Prop := S.fin a ∧ 0 < S.val a

/-- `A' ≤ A`, with non-positive entries off the diagonal. -/
structure MMat (n : Nat) (A A' : Nat → Nat → T) : Prop where
  diag : ∀ i, i < n → S.Ls (A i i) (A' i i)
  off : ∀ i j, i < n → j < n → i ≠ j → S.Np (A i j) (A' i j)

/-- The same, of the lower triangles. -/
structure MLow (n : Nat) (A A' : Nat → Nat → T) : Prop where
  diag : ∀ i, i < n → S.Ls (A i i) (A' i i)
  off : ∀ i j, j < i → i < n → S.Np (A i j) (A' i j)

/-- The same, of tri-diagonal matrices. -/
structure MTri (n : Nat) (a a' : TriDiag T) : Prop where
  d : ∀ i, i < n → S.Ls (val0 a.d i) (val0 a'.d i)
  dl : ∀ i, i + 1 < n → S.Np (val0 a.dl i) (val0 a'.dl i)
  du : ∀ i, i + 1 < n → S.Np (val0 a.du i) (val0 a'.du i)

end OrdArith

/-- The rounding function of `R` is monotone. -/
def Rounding.Mono (R : Rounding) : Prop := ∀ x y, x ≤ y → R.rnd x ≤ R.rnd y

end Lalib
