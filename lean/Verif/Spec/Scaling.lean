import Verif.Spec.Ieee
import Verif.Spec.Eval

/-! # Changing the units

Two runs of one function, the numbers of the second being those of the first times known factors ("in other units"): when
are the results those of the first run times known factors, exactly?  For rounded arithmetic the factors are those that
commute with rounding (powers of two, for a binary format); for IEEE 754 numbers with their limited range they are the
signs. -/

namespace Lalib

/-- Two calls end in the same way, with results related by `P`. -/
def SameOut {α β : Type} (P : α → β → Prop) : Res α → Res β → Prop
  | .ok a, .ok b => P a b
  | .error e, .error e' => e = e'
  | _, _ => False

/-- Factors and what it means to be `c` times something.  `rel c a b`: the number `b` of the second run is `c` times the
number `a` of the first. -/
structure Scaling (T : Type) [Zero T] [Add T] [Sub T] [Mul T] [Neg T] [Div T] [CDiv T] [CZero T] [LT T]
    [Sqrt T] [CSqrt T] where
  ok : ℝ → Prop
  rel : ℝ → T → T → Prop
  ne_zero : ∀ {c}, ok c → c ≠ 0
  ok_one : ok 1
  ok_mul : ∀ {c d}, ok c → ok d → ok (c * d)
  ok_inv : ∀ {c}, ok c → ok c⁻¹
  ok_abs : ∀ {c}, ok c → ok |c|
  refl : ∀ a, rel 1 a a
  zero_any : ∀ {c d a b}, ok c → ok d → IsZ a → rel c a b → rel d a b
  isZ : ∀ {c a b}, ok c → rel c a b → (IsZ a ↔ IsZ b)
  lt : ∀ {c a b a' b'}, ok c → rel |c| a a' → rel |c| b b' → (a < b ↔ a' < b')
  neg : ∀ {c a b}, ok c → rel c a b → rel c (-a) (-b)
  add : ∀ {c a b a' b'}, ok c → rel c a a' → rel c b b' → rel c (a + b) (a' + b')
  sub : ∀ {c a b a' b'}, ok c → rel c a a' → rel c b b' → rel c (a - b) (a' - b')
  mul : ∀ {c d a b a' b'}, ok c → ok d → rel c a a' → rel d b b' → rel (c * d) (a * b) (a' * b')
  div : ∀ {c d a b a' b'}, ok c → ok d → ¬ IsZ b → rel c a a' → rel d b b' → rel (c / d) (a / b) (a' / b')
  sqrt : ∀ {c a b}, ok c → rel (c * c) a b → rel |c| (Sqrt.sqrt a) (Sqrt.sqrt b)
  sqrtC : ∀ {c a b}, ok c → rel (c * c) a b → SameOut (rel |c|) (sqrtC a) (sqrtC b)
  /-- division by a sum of squares, which may be zero -/
  divSq : ∀ {c d a a'} {g g' : Nat → T} {n : Nat}, ok c → ok d → rel c a a' → rel d (g 0) (g' 0) →
    (∀ k, k < n → rel d (g k) (g' k)) →
    SameOut (rel (c / (d * d))) (divC a (addUp (fun i => g i * g i) 1 n (g 0 * g 0)))
      (divC a' (addUp (fun i => g' i * g' i) 1 n (g' 0 * g' 0)))
  isZ_zero : IsZ (0 : T)
  div_ok : ∀ b : T, ¬ IsZ b → DivAt b
  sqrt_ok : ∀ v : T, ¬ v < 0 → ¬ IsZ v → CSqrt.sqrtC v = .ok (Sqrt.sqrt v) ∧ ¬ IsZ (Sqrt.sqrt v)

/-! ## Rounded arithmetic -/

/-- The factor commutes with rounding, and so does its absolute value. -/
def Rounding.Scale (R : Rounding) (c : ℝ) : Prop :=
  c ≠ 0 ∧ (∀ x, R.rnd (c * x) = c * R.rnd x) ∧ ∀ x, R.rnd (|c| * x) = |c| * R.rnd x

/-- `b` is `c` times `a`. -/
def Fl.Times {R : Rounding} (c : ℝ) (a b : Fl R) : Prop := b.val = c * a.val

/-! ## IEEE 754 numbers -/

/-- Equal but for the sign of a zero. -/
def Fp.Eqv {F : Fmt} (a b : Fp F) : Prop := a = b ∨ IsZ a ∧ IsZ b

/-- `b` is `a` (factor 1) or `-a` (any other factor), but for the sign of a zero. -/
noncomputable def Fp.Signed {F : Fmt} (c : ℝ) (a b : Fp F) : Prop :=
  open Classical in Fp.Eqv (if c = 1 then a else -a) b

/-! ## Matrices and memories -/

variable {T : Type} [Zero T] [Add T] [Sub T] [Mul T] [Neg T] [Div T] [CDiv T] [CZero T] [LT T] [Sqrt T] [CSqrt T]

/-- `A'` is `diag(r) A diag(c)`. -/
def Scaling.Mat (S : Scaling T) (n m : Nat) (r c : Nat → ℝ) (A A' : Nat → Nat → T) : Prop :=
  ∀ i j, i < n → j < m → S.rel (r i * c j) (A i j) (A' i j)

/-- `x'` is `diag(c) x`. -/
def Scaling.Vec (S : Scaling T) (n : Nat) (c : Nat → ℝ) (x x' : Nat → T) : Prop :=
  ∀ i, i < n → S.rel (c i) (x i) (x' i)

/-- The pivots of a tri-diagonal matrix. -/
def triPivot (a : TriDiag T) : Nat → T
  | 0 => val0 a.d 0
  | i + 1 => val0 a.d (i + 1) + val0 a.dl i * (-val0 a.du i / triPivot a i)

/-- `a'` is `diag(r) a diag(c)`. -/
structure Scaling.Tri (S : Scaling T) (n : Nat) (r c : Nat → ℝ) (a a' : TriDiag T) : Prop where
  d : ∀ i, i < n → S.rel (r i * c i) (val0 a.d i) (val0 a'.d i)
  dl : ∀ i, i + 1 < n → S.rel (r (i + 1) * c i) (val0 a.dl i) (val0 a'.dl i)
  du : ∀ i, i + 1 < n → S.rel (r i * c (i + 1)) (val0 a.du i) (val0 a'.du i)

/-- Unit of an entry of the two ILU factors of `diag(r) A diag(c)`, the unit lower one without its diagonal and the upper
one. -/
noncomputable def iluUnit (r c : Nat → ℝ) (i j : Nat) : ℝ := if j < i then r i / r j else r i * c j

/-- Same length and `l'` is `diag(u) l`. -/
def Scaling.Buf (S : Scaling T) (u : Nat → ℝ) (l l' : List T) : Prop :=
  l.length = l'.length ∧ ∀ i, i < l.length → S.rel (u i) (val0 l i) (val0 l' i)

/-- Buffer `p` of the second memory is `u p` times the one of the first, for the buffers of `P`. -/
def Scaling.Bufs (S : Scaling T) (P : Nat → Prop) (u : Nat → Nat → ℝ) (m m' : Mem T) : Prop :=
  ∀ p, P p → S.Buf (u p) (m p) (m' p)

end Lalib
