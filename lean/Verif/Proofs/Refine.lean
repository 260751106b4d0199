import Verif.Spec.Refine
import Verif.Proofs.Forward

/-! # One step of iterative refinement -/

namespace Lalib

open Finset

/-- The error after a step: `e` is that of `x`, `y` that of the corrected vector before it is rounded. -/
theorem refine_err {n : ℕ} {A E : ℕ → ℕ → ℝ} {x z b r d x' : ℕ → ℝ} {u K S c g e Z : ℝ} (hu : 0 ≤ u) (hg : 0 ≤ g)
    (hK : InvBound n A K) (hS : RowLe n A S) (hE : ∀ i, i < n → ∑ j ∈ range n, E i j ≤ c) (hKc : K * c < 1)
    (hz : Solves n A z b) (hr : ∀ i, i < n → |r i - (b i - mulVec n A x i)| ≤ g * (|b i| + ∑ k ∈ range n, |A i k * x k|))
    (hd : NearSolves n A E d r) (hx' : ∀ i, i < n → |x' i - (d i + x i)| ≤ u * |d i + x i|)
    (he : MaxLe n (fun i => x i - z i) e) (hZ : MaxLe n z Z) :
    MaxLe n (fun i => x' i - z i) (refRate u K S c g * e + refRest u K S c g * Z) := by
  intro i hi
  have hn : 0 < n := Nat.zero_lt_of_lt hi
  have hS0 := rowLe_nonneg hS hn
  have hZ0 : 0 ≤ Z := (abs_nonneg _).trans (hZ i hi)
  have he0 : 0 ≤ e := (abs_nonneg _).trans (he i hi)
  have hc0 : 0 ≤ c := (sum_nonneg fun j hj => near_rows (near2_of_near hd) hi (mem_range.mp hj)).trans (hE i hi)
  have p : 0 < 1 - K * c := by linarith
  -- the error of the residual
  have hx : MaxLe n x (Z + e) := fun j hj => by
    have := abs_add_le (z j) (x j - z j)
    rw [show z j + (x j - z j) = x j by ring] at this
    exact this.trans (add_le_add (hZ j hj) (he j hj))
  have hbS : MaxLe n b (S * Z) := fun j hj => by
    rw [← hz j hj]
    exact maxLe_mulVec hS hZ0 hZ j hj
  have hD : ∀ j, j < n → |r j - (b j - mulVec n A x j)| ≤ g * (S * Z + S * (Z + e)) := by
    intro j hj
    refine (hr j hj).trans (mul_le_mul_of_nonneg_left (add_le_add (hbS j hj) ?_) hg)
    calc ∑ k ∈ range n, |A j k * x k| ≤ ∑ k ∈ range n, |A j k| * (Z + e) := sum_le_sum fun k hk => by
          rw [abs_mul]
          exact mul_le_mul_of_nonneg_left (hx k (mem_range.mp hk)) (abs_nonneg _)
      _ = (∑ k ∈ range n, |A j k|) * (Z + e) := by rw [sum_mul]
      _ ≤ S * (Z + e) := mul_le_mul_of_nonneg_right (hS j hj) (by linarith)
  -- the correction
  set y : ℕ → ℝ := fun j => d j - (z j - x j) with hy
  obtain ⟨k, hk, hmax⟩ := exists_max hn y
  have hdY : MaxLe n d (|y k| + e) := fun j hj => by
    have h1 := abs_add_le (y j) (-(x j - z j))
    rw [show y j + -(x j - z j) = d j by rw [hy]; ring, abs_neg] at h1
    exact h1.trans (add_le_add (hmax j hj) (he j hj))
  have hAy : MaxLe n (mulVec n A y) (c * (|y k| + e) + g * (S * Z + S * (Z + e))) := by
    intro j hj
    have e1 : mulVec n A y j = (mulVec n A d j - r j) + (r j - (b j - mulVec n A x j)) := by
      rw [hy, mulVec_sub, mulVec_sub, hz j hj]
      ring
    rw [e1]
    refine (abs_add_le _ _).trans (add_le_add ?_ (hD j hj))
    have := near_resid (near2_of_near hd) hj
    rw [add_zero] at this
    refine this.trans ?_
    calc ∑ q ∈ range n, E j q * |d q| ≤ ∑ q ∈ range n, E j q * (|y k| + e) :=
          sum_le_sum fun q hq => mul_le_mul_of_nonneg_left (hdY q (mem_range.mp hq))
            (near_rows (near2_of_near hd) hj (mem_range.mp hq))
      _ = (∑ q ∈ range n, E j q) * (|y k| + e) := by rw [sum_mul]
      _ ≤ c * (|y k| + e) := mul_le_mul_of_nonneg_right (hE j hj) (by positivity)
  have hY := hK.2 y _ ((abs_nonneg _).trans (hAy k hk)) hAy k hk
  have hY' : |y k| ≤ K * (c * e + g * S * (2 * Z + e)) / (1 - K * c) := by
    rw [le_div_iff₀ p]
    nlinarith
  -- rounding
  have h1 := hx' i hi
  have h2 : |d i + x i| ≤ |y k| + Z := by
    have := abs_add_le (y i) (z i)
    rw [show y i + z i = d i + x i by rw [hy]; ring] at this
    exact this.trans (add_le_add (hmax i hi) (hZ i hi))
  have h3 : |x' i - z i| ≤ |x' i - (d i + x i)| + |y i| := by
    have := abs_add_le (x' i - (d i + x i)) (y i)
    rwa [show x' i - (d i + x i) + y i = x' i - z i by rw [hy]; ring] at this
  have h4 := hmax i hi
  have h5 : u * |d i + x i| ≤ u * (|y k| + Z) := mul_le_mul_of_nonneg_left h2 hu
  have h6 : |x' i - z i| ≤ (1 + u) * |y k| + u * Z := by nlinarith
  refine h6.trans ?_
  have h7 : (1 + u) * |y k| ≤ (1 + u) * (K * (c * e + g * S * (2 * Z + e)) / (1 - K * c)) :=
    mul_le_mul_of_nonneg_left hY' (by linarith)
  refine (add_le_add_left h7 _).trans (le_of_eq ?_)
  unfold refRate refRest
  field_simp
  ring

/-- The errors of all steps. -/
theorem rec_bound {q f e0 : ℝ} (e : ℕ → ℝ) (h0 : e 0 = e0) (hs : ∀ k, e (k + 1) = q * e k + f) (k : ℕ) :
    e k = q ^ k * e0 + f * ∑ j ∈ range k, q ^ j := by
  induction k with
  | zero => simp [h0]
  | succ k ih =>
    rw [hs, ih, sum_range_succ' (fun j => q ^ j)]
    have : ∑ j ∈ range k, q ^ (j + 1) = q * ∑ j ∈ range k, q ^ j := by
      rw [mul_sum]; exact sum_congr rfl fun j _ => by ring
    rw [this]
    ring

end Lalib
