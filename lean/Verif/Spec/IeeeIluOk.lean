import Verif.Spec.IluDom
import Verif.Spec.IeeeBack

/-! # Matrices with a dominating diagonal that are well inside the range of a binary format -/

namespace Lalib

open Finset

/-- Factor for the rounding of the elimination of one row. -/
noncomputable def iluFac (F : Fmt) (n : ℕ) : ℝ := 1 + gam F.u (6 * (n + 1))

/-- What rounding leaves of the weighted gap of row `i`: the rest of the row and all underflows, both enlarged, are taken off
the diagonal entry. -/
noncomputable def ieeeGap (F : Fmt) (n : ℕ) (A : ℕ → ℕ → ℝ) (w : ℕ → ℝ) (i : ℕ) : ℝ :=
  |A i i| * w i - iluFac F n *
    (∑ j ∈ (range n).erase i, |A i j| * w j + 4 * (F.eta * ∑ j ∈ range n, (n + |A j j|) * w j))

/-- Every row keeps a gap, and the entries and quotients are not near overflow. -/
structure IluRange (F : Fmt) (n : ℕ) (A : ℕ → ℕ → ℝ) (w : ℕ → ℝ) : Prop where
  small : gam F.u (6 * (n + 1)) ≤ 1 / 3
  pos : ∀ j, j < n → 0 < w j
  gap : ∀ i, i < n → 0 < ieeeGap F n A w i
  top : ∀ i j, i < n → j < n → 16 * (|A i i| * w i) < F.top * w j
  piv : ∀ i j, j < i → i < n → 16 * (|A i i| * w i) < F.top * ieeeGap F n A w j

/-- `s` times the weights bounds the solution, and numbers of that size are not near overflow. -/
structure IluRhs (F : Fmt) (n : ℕ) (A : ℕ → ℕ → ℝ) (w b : ℕ → ℝ) (s : ℝ) : Prop where
  pos : 0 < s
  rhs : ∀ i, i < n → iluFac F n * (|b i| + 16 * (F.eta * (n + |A i i|))) ≤ s * ieeeGap F n A w i
  mul : ∀ i, i < n → 48 * (s * (|A i i| * w i)) < F.top
  top : ∀ i, i < n → 8 * (s * w i) < F.top

/-- Underflows are small beside the rounding errors. -/
structure IluFine (F : Fmt) (n : ℕ) (A : ℕ → ℕ → ℝ) (w : ℕ → ℝ) (s : ℝ) : Prop where
  row : ∀ i, i < n → 4 * (F.eta * ∑ j ∈ range n, (n + |A j j|) * w j) ≤ F.u * (|A i i| * w i)
  gap : ∀ i, i < n → 16 * (F.eta * (n + |A i i|)) ≤ F.u * (s * ieeeGap F n A w i)

end Lalib
