import Verif.Spec.Mat
import Verif.Spec.Struct
import Verif.Model.VecOps

/-! # Results as expressions

What the kernels compute, written as expressions whose operations are performed in a fixed order.  No law of
arithmetic is assumed: the operations of `T` may be those of a floating-point type. -/

namespace Lalib

variable {T : Type}

/-- `(..((t + g lo) + g (lo+1)) + ..) + g (hi-1)`. -/
def addUp [Add T] (g : Nat → T) (lo hi : Nat) (t : T) : T :=
  (List.range' lo (hi - lo)).foldl (fun v k => v + g k) t

/-- `(..((t - g lo) - g (lo+1)) - ..) - g (hi-1)`. -/
def subUp [Sub T] (g : Nat → T) (lo hi : Nat) (t : T) : T :=
  (List.range' lo (hi - lo)).foldl (fun v k => v - g k) t

/-- The first term of a cell of `alpha * A * B + beta * C`: the order of the two factors depends on whether the result
shares storage with an operand. -/
def gemmStart [Mul T] (shared : Bool) (beta c : T) : T := if shared then beta * c else c * beta

/-- Back substitution with the upper-triangular matrix `R`. -/
def BackSubRec [Sub T] [Mul T] [Div T] (n : Nat) (R : Nat → Nat → T) (y x : Nat → T) : Prop :=
  ∀ i, i < n → x i = subUp (fun j => R i j * x j) (i + 1) n (y i) / R i i

/-- Forward substitution with the lower-triangular matrix `L`. -/
def FwdSubRec [Sub T] [Mul T] [Div T] (n : Nat) (L : Nat → Nat → T) (b y : Nat → T) : Prop :=
  ∀ i, i < n → y i = subUp (fun j => L i j * y j) 0 i (b i) / L i i

/-- Forward substitution with a unit lower-triangular matrix. -/
def FwdUnitRec [Sub T] [Mul T] (n : Nat) (L : Nat → Nat → T) (b y : Nat → T) : Prop :=
  ∀ i, i < n → y i = subUp (fun j => L i j * y j) 0 i (b i)

/-- The Cholesky factor, row by row. -/
def CholRec [Sub T] [Mul T] [Div T] [Sqrt T] (n : Nat) (A L : Nat → Nat → T) : Prop :=
  ∀ i, i < n → (∀ j, j < i → L i j = subUp (fun k => L i k * L j k) 0 j (A i j) / L j j) ∧
    L i i = Sqrt.sqrt (subUp (fun k => L i k * L i k) 0 i (A i i))

/-- The modified factor: below the diagonal `L D`, on it `D`. -/
def ModRec [Sub T] [Mul T] [Div T] (n : Nat) (A L : Nat → Nat → T) : Prop :=
  ∀ i j, j ≤ i → i < n → L i j = subUp (fun k => L i k * L j k / L k k) 0 j (A i j)

/-- Forward sweep of the solvers: with the factor itself, or (`md`) with the unit factor of the modified
factorisation. -/
def CholFwdRec [Sub T] [Mul T] [Div T] (md : Bool) (n : Nat) (L : Nat → Nat → T) (b y : Nat → T) : Prop :=
  if md then FwdUnitRec n (fun i j => L i j / L j j) b y else FwdSubRec n L b y

/-- Solving with the Cholesky factor or the modified one. -/
def CholSolveRec [Sub T] [Mul T] [Div T] (md : Bool) (n : Nat) (L : Nat → Nat → T) (b x : Nat → T) : Prop :=
  ∃ y, CholFwdRec md n L b y ∧ BackSubRec n (fun i j => L j i) y x

/-- Solving with the two ILU factors. -/
def IluSolveRec [Sub T] [Mul T] [Div T] (n : Nat) (F : Nat → Nat → T) (b x : Nat → T) : Prop :=
  ∃ y, FwdUnitRec n F b y ∧ BackSubRec n F y x

/-- Entry `(i, j)` of ILU(0), both factors in one array.  `IsZ` is the test `== 0`. -/
def IluCell [CZero T] [Sub T] [Mul T] [Div T] (A F : Nat → Nat → T) (i j : Nat) : Prop :=
  (IsZ (A i j) → F i j = A i j) ∧
  (j < i → ¬ IsZ (A i j) → ¬ IsZ (F j j) ∧ F i j = subUp (fun k => F i k * F k j) 0 j (A i j) / F j j) ∧
  (i ≤ j → ¬ IsZ (A i j) → F i j = subUp (fun k => F i k * F k j) 0 i (A i j))

/-- ILU(0). -/
def IluRec [CZero T] [Sub T] [Mul T] [Div T] (n : Nat) (A F : Nat → Nat → T) : Prop :=
  ∀ i j, i < n → j < n → IluCell A F i j

/-- The two sweeps of the tri-diagonal solver, with pivots `D`. -/
structure TdmaEq [Zero T] [Add T] [Sub T] [Mul T] [Neg T] [Div T] (n : Nat) (a : TriDiag T) (b x : Nat → T)
    (D P Q : Nat → T) : Prop where
  d0 : D 0 = val0 a.d 0
  d : ∀ i, i + 1 < n → D (i + 1) = val0 a.d (i + 1) + val0 a.dl i * P i
  p : ∀ i, i + 1 < n → P i = -val0 a.du i / D i
  q0 : Q 0 = b 0 / D 0
  q : ∀ i, i + 1 < n → Q (i + 1) = (b (i + 1) - val0 a.dl i * Q i) / D (i + 1)
  last : x (n - 1) = Q (n - 1)
  back : ∀ i, i + 1 < n → x i = P i * x (i + 1) + Q i

/-- The same, and no pivot is zero. -/
structure TdmaRec [Zero T] [Add T] [Sub T] [Mul T] [Neg T] [Div T] (n : Nat) (a : TriDiag T) (b x : Nat → T)
    (D P Q : Nat → T) : Prop extends TdmaEq n a b x D P Q where
  nonzero : ∀ i, i < n → D i ≠ 0

end Lalib
