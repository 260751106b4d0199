import Verif.Spec.IeeeBack

/-! # Conditions under which the tri-diagonal solver cannot fail over IEEE 754 numbers -/

namespace Lalib

open Finset

/-- Weak diagonal dominance by rows, where the part left of the diagonal is strictly smaller than the diagonal. -/
def WeakDom (n : ℕ) (A : ℕ → ℕ → ℝ) : Prop :=
  ∀ i, i < n → ∑ j ∈ (range n).erase i, |A i j| ≤ |A i i| ∧ ∑ j ∈ range i, |A i j| < |A i i|

/-- Twice the diagonal is in range. -/
def HalfRange (F : Fmt) (n : ℕ) (A : ℕ → ℕ → ℝ) : Prop := ∀ i, i < n → 2 * |A i i| < F.top

/-- Positive weights with `|b| + |off-diagonal part| w ≤ |diagonal| w`, with a margin for roundings and underflows. -/
def Majorant (F : Fmt) (n : ℕ) (A : ℕ → ℕ → ℝ) (b w : ℕ → ℝ) : Prop :=
  (∀ i, 0 < w i) ∧ ∀ i, i < n → |b i| + ∑ j ∈ (range n).erase i, |A i j| * w j +
    F.eta * (1 + w i + 4 * |A i i| * (1 + w (i + 1))) ≤ (1 - F.u) ^ 4 * |A i i| * w i

/-- The weights, their products with the diagonal and the quotients of neighbours are in range. -/
def WeightRange (F : Fmt) (n : ℕ) (A : ℕ → ℕ → ℝ) (w : ℕ → ℝ) : Prop :=
  ∀ i, i < n → w i < F.top ∧ |A i i| * w i < F.top ∧ (i + 1 < n → w i < F.top * w (i + 1))

/-- Near solution of a tri-diagonal system: all entries are changed by a relative error of at most `3 gam 4`, and by
underflows. -/
def TriNear (F : Fmt) (n : ℕ) (A : ℕ → ℕ → ℝ) (x b : ℕ → ℝ) : Prop :=
  NearSolves2 n A
    (fun i j => 3 * gam F.u 4 * |A i j| +
      (1 + gam F.u 3) * F.eta * (if i = j then 1 else if i + 1 = j then 2 * |A i i| else 0))
    (fun i => (1 + gam F.u 3) * F.eta * (4 * |A i i| + ∑ j ∈ range i, |A i j| + 1)) x b

end Lalib
