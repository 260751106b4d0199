import Verif.Spec.Stationary
import Verif.Spec.Float

/-! # Dominating diagonals and rounding errors -/

namespace Lalib

/-- In every row the gap is at least the part `d` of the diagonal entry, and rounding errors are smaller than the square of `d`. -/
structure GapDom (u : ℝ) (n : ℕ) (A : ℕ → ℕ → ℝ) (w : ℕ → ℝ) (d : ℝ) : Prop where
  pos : ∀ j, j < n → 0 < w j
  diag : ∀ i, i < n → A i i ≠ 0
  d0 : 0 < d
  d1 : d ≤ 1
  gap : ∀ i, i < n → d * (|A i i| * w i) ≤ rowGap n A w i
  room : 32 * ((2 * n + 6) * gam u (6 * n + 3)) ≤ d ^ 2

end Lalib
