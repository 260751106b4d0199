import Verif.Model.VecOps
import Verif.Spec.Float
import Mathlib.Analysis.Calculus.Deriv.Basic

/-! # One program, many number types

The functions of the library are templates.  A family of runs, one for each `i` (with the numbers `T i`), is compared with
one run with other numbers `T'`.  `S.rel f a` says that the family `f` of numbers is described by `a`.  If the operations
preserve this, every result of the run with `T'` describes the results of the family, as far as these are wanted ("for
`i` eventually", as the filter `l` says).

Four cases: `a` is the limit of `f`; `a` is a dual number, holding value and derivative of `f` at a point; `a` is the limit of
rounded numbers as the unit roundoff tends to zero; `a` is an interval that contains `f`. -/

namespace Lalib

open Filter Topology

variable {ι : Type}

/-- If the run on the right returns `b`, then eventually the runs of the family return, and their results are described
by `b`. -/
def Lim (l : Filter ι) {α : ι → Type} {β : Type} (P : (∀ i, α i) → β → Prop) (r : ∀ i, Res (α i)) (r' : Res β) : Prop :=
  ∀ b, r' = .ok b → ∃ a : ∀ i, α i, (∀ᶠ i in l, r i = .ok (a i)) ∧ P a b

/-- A description of families of numbers that the operations preserve. -/
structure LogRel (l : Filter ι) (T : ι → Type) (T' : Type) [∀ i, Zero (T i)] [∀ i, One (T i)] [∀ i, Neg (T i)]
    [∀ i, Add (T i)] [∀ i, Sub (T i)] [∀ i, Mul (T i)] [∀ i, CDiv (T i)] [∀ i, CZero (T i)] [∀ i, CSqrt (T i)]
    [∀ i, LT (T i)] [Zero T'] [One T'] [Neg T'] [Add T'] [Sub T'] [Mul T'] [CDiv T'] [CZero T'] [CSqrt T'] [LT T'] where
  rel : (∀ i, T i) → T' → Prop
  zero : rel (fun _ => 0) 0
  one : rel (fun _ => 1) 1
  neg : ∀ {f a}, rel f a → rel (fun i => -f i) (-a)
  add : ∀ {f g a b}, rel f a → rel g b → rel (fun i => f i + g i) (a + b)
  sub : ∀ {f g a b}, rel f a → rel g b → rel (fun i => f i - g i) (a - b)
  mul : ∀ {f g a b}, rel f a → rel g b → rel (fun i => f i * g i) (a * b)
  div : ∀ {f g a b}, rel f a → rel g b → Lim l rel (fun i => divC (f i) (g i)) (divC a b)
  zero_isZ : (∀ i, IsZ (0 : T i)) ∧ IsZ (0 : T')
  /-- a number that is not zero -/
  nz : ∀ {f a}, rel f a → ¬ IsZ a → ∀ᶠ i in l, ¬ IsZ (f i)
  /-- a pivot that passes the tests of the Cholesky factorisation -/
  pos : ∀ {f a}, rel f a → ¬ IsZ a → ¬ a < 0 → ∀ᶠ i in l, ¬ IsZ (f i) ∧ ¬ f i < 0
  sqrt : ∀ {f a}, rel f a → ¬ IsZ a → ¬ a < 0 → Lim l rel (fun i => sqrtC (f i)) (sqrtC a)

section
variable {l : Filter ι} {T : ι → Type} {T' : Type} [∀ i, Zero (T i)] [∀ i, One (T i)] [∀ i, Neg (T i)]
    [∀ i, Add (T i)] [∀ i, Sub (T i)] [∀ i, Mul (T i)] [∀ i, CDiv (T i)] [∀ i, CZero (T i)] [∀ i, CSqrt (T i)]
    [∀ i, LT (T i)] [Zero T'] [One T'] [Neg T'] [Add T'] [Sub T'] [Mul T'] [CDiv T'] [CZero T'] [CSqrt T'] [LT T']

/-- Lists of one length, element by element. -/
def LogRel.Buf (S : LogRel l T T') (a : ∀ i, List (T i)) (b : List T') : Prop :=
  (∀ i, (a i).length = b.length) ∧ ∀ k, k < b.length → S.rel (fun i => val0 (a i) k) (val0 b k)

/-- Memories, for the buffers of `P`. -/
def LogRel.Bufs (S : LogRel l T T') (P : Nat → Prop) (m : ∀ i, Mem (T i)) (m' : Mem T') : Prop :=
  ∀ p, P p → S.Buf (fun i => m i p) (m' p)

end

/-! ## Dual numbers -/

/-- Value and derivative. -/
structure Dual where
  re : ℝ
  eps : ℝ

namespace Dual

noncomputable section

instance : Zero Dual := ⟨⟨0, 0⟩⟩
instance : One Dual := ⟨⟨1, 0⟩⟩
instance : Neg Dual := ⟨fun a => ⟨-a.re, -a.eps⟩⟩
instance : Add Dual := ⟨fun a b => ⟨a.re + b.re, a.eps + b.eps⟩⟩
instance : Sub Dual := ⟨fun a b => ⟨a.re - b.re, a.eps - b.eps⟩⟩
instance : Mul Dual := ⟨fun a b => ⟨a.re * b.re, a.eps * b.re + a.re * b.eps⟩⟩
/-- Comparisons look at the values. -/
instance : LT Dual := ⟨fun a b => a.re < b.re⟩
instance : DecidableLT Dual := fun a b => Classical.propDecidable (a.re < b.re)
instance : CZero Dual := ⟨fun a => a.re = 0, fun _ => Classical.propDecidable _⟩
instance : CDiv Dual :=
  ⟨fun a b => if b.re = 0 then .error .nonFinite else .ok ⟨a.re / b.re, (a.eps * b.re - a.re * b.eps) / b.re ^ 2⟩⟩
instance : CSqrt Dual :=
  ⟨fun a => if a.re ≤ 0 then .error .nonFinite else .ok ⟨Real.sqrt a.re, a.eps / (2 * Real.sqrt a.re)⟩⟩

end

end Dual

/-! ## Intervals -/

/-- Directed roundings. -/
structure Directed where
  dn : ℝ → ℝ
  up : ℝ → ℝ
  dn_le : ∀ x, dn x ≤ x
  le_up : ∀ x, x ≤ up x

/-- Intervals, computed with directed roundings. -/
structure Iv (D : Directed) where
  lo : ℝ
  hi : ℝ

namespace Iv

variable {D : Directed}

/-- `x` lies in the interval. -/
def Has (I : Iv D) (x : ℝ) : Prop := I.lo ≤ x ∧ x ≤ I.hi

noncomputable section

instance : Zero (Iv D) := ⟨⟨0, 0⟩⟩
instance : One (Iv D) := ⟨⟨1, 1⟩⟩
instance : Neg (Iv D) := ⟨fun a => ⟨-a.hi, -a.lo⟩⟩
instance : Add (Iv D) := ⟨fun a b => ⟨D.dn (a.lo + b.lo), D.up (a.hi + b.hi)⟩⟩
instance : Sub (Iv D) := ⟨fun a b => ⟨D.dn (a.lo - b.hi), D.up (a.hi - b.lo)⟩⟩
instance : Mul (Iv D) := ⟨fun a b =>
  ⟨min (min (D.dn (a.lo * b.lo)) (D.dn (a.lo * b.hi))) (min (D.dn (a.hi * b.lo)) (D.dn (a.hi * b.hi))),
    max (max (D.up (a.lo * b.lo)) (D.up (a.lo * b.hi))) (max (D.up (a.hi * b.lo)) (D.up (a.hi * b.hi)))⟩⟩
/-- "Can be less". -/
instance : LT (Iv D) := ⟨fun a b => a.lo < b.hi⟩
instance : DecidableLT (Iv D) := fun a b => Classical.propDecidable (a.lo < b.hi)
/-- "Can be zero". -/
instance : CZero (Iv D) := ⟨fun a => a.lo ≤ 0 ∧ 0 ≤ a.hi, fun _ => Classical.propDecidable _⟩
/-- An interval that contains zero is no divisor. -/
instance : CDiv (Iv D) := ⟨fun a b => if b.lo ≤ 0 ∧ 0 ≤ b.hi then .error .nonFinite else
  .ok ⟨min (min (D.dn (a.lo / b.lo)) (D.dn (a.lo / b.hi))) (min (D.dn (a.hi / b.lo)) (D.dn (a.hi / b.hi))),
    max (max (D.up (a.lo / b.lo)) (D.up (a.lo / b.hi))) (max (D.up (a.hi / b.lo)) (D.up (a.hi / b.hi)))⟩⟩
instance : CSqrt (Iv D) :=
  ⟨fun a => if a.lo < 0 then .error .nonFinite else .ok ⟨D.dn (Real.sqrt a.lo), D.up (Real.sqrt a.hi)⟩⟩

end

end Iv

end Lalib
