import Verif.Proofs.CholPrefix
import Mathlib.Algebra.BigOperators.Intervals
import Mathlib.Algebra.BigOperators.Field

/-! # Backward substitution with a Cholesky factor of a matrix that is well inside the positive definite ones -/

namespace Lalib

open Finset

/-- A vector whose product with the transposed factor vanishes in the first `i` places. -/
theorem chol_extend {n i : ℕ} {L : ℕ → ℕ → ℝ} (hi : i ≤ n) (hL : ∀ p, p < n → L p p ≠ 0) (x : ℕ → ℝ) :
    ∃ x' : ℕ → ℝ, (∀ k, i ≤ k → x' k = x k) ∧ ∀ j, j < i → ∑ k ∈ range n, low L k j * x' k = 0 := by
  have main : ∀ m, m ≤ i → ∃ x' : ℕ → ℝ, (∀ k, i ≤ k → x' k = x k) ∧
      ∀ j, i ≤ j + m → j < i → ∑ k ∈ range n, low L k j * x' k = 0 := by
    intro m
    induction m with
    | zero => exact fun _ => ⟨x, fun _ _ => rfl, fun j h1 h2 => by omega⟩
    | succ m ih =>
      intro hm
      obtain ⟨x1, h1, h2⟩ := ih (by omega)
      obtain ⟨c, hc⟩ : ∃ c, i = c + (m + 1) := ⟨i - (m + 1), by omega⟩
      have hcn : c < n := by omega
      let v : ℝ := -(∑ k ∈ (range n).erase c, low L k c * x1 k) / L c c
      refine ⟨fun k => if k = c then v else x1 k, fun k hk => ?_, fun j hj hji => ?_⟩
      · beta_reduce; rw [if_neg (by omega)]; exact h1 k hk
      · rcases Nat.lt_or_ge c j with hcj | hjc
        · rw [← h2 j (by omega) hji]
          refine sum_congr rfl fun k _ => ?_
          beta_reduce
          split_ifs with h
          · subst h; rw [show low L k j = 0 from if_neg (by omega)]; ring
          · rfl
        · obtain rfl : j = c := by omega
          beta_reduce
          rw [← add_sum_erase _ _ (mem_range.mpr hcn), if_pos rfl, show low L j j = L j j from if_pos le_rfl]
          rw [sum_congr rfl fun k hk => by rw [if_neg (ne_of_mem_erase hk)]]
          have := hL j hcn
          simp only [v]
          field_simp
          ring
  obtain ⟨x', h1, h2⟩ := main i le_rfl
  exact ⟨x', h1, fun j hj => h2 j (by omega) hj⟩

/-- The last components: the product with the transposed factor is not small. -/
theorem chol_tail {n i : ℕ} {A L : ℕ → ℕ → ℝ} {lam κ : ℝ} (hi : i ≤ n) (hA : ∀ p, p < n → 0 < A p p)
    (hq : ∀ x : ℕ → ℝ, lam * ∑ p ∈ range n, A p p * x p ^ 2 ≤ ∑ p ∈ range n, ∑ q ∈ range n, x p * A p q * x q)
    (hL : ∀ p, p < n → L p p ≠ 0) (hκ : 0 ≤ κ)
    (hE : ∀ p q, p < n → q < n → |∑ m ∈ range n, low L p m * low L q m - A p q| ≤ κ * (Real.sqrt (A p p) * Real.sqrt (A q q)))
    (hlam : n * κ ≤ lam / 2) (x : ℕ → ℝ) :
    lam / 2 * ∑ k ∈ Ico i n, A k k * x k ^ 2 ≤ ∑ j ∈ Ico i n, (∑ k ∈ range n, low L k j * x k) ^ 2 := by
  obtain ⟨z, h1, h2⟩ := chol_extend hi hL x
  set d : ℕ → ℝ := fun p => Real.sqrt (A p p) with hd
  have dd : ∀ p, p < n → d p * d p = A p p := fun p h => Real.mul_self_sqrt (hA p h).le
  set W := ∑ p ∈ range n, A p p * z p ^ 2 with hW
  have W0 : 0 ≤ W := sum_nonneg fun p hp => mul_nonneg (hA p (mem_range.mp hp)).le (sq_nonneg _)
  -- the squares
  have e1 : ∑ j ∈ range n, (∑ k ∈ range n, low L k j * z k) ^ 2 =
      ∑ p ∈ range n, ∑ q ∈ range n, z p * (∑ m ∈ range n, low L p m * low L q m) * z q := by
    have : ∀ j, (∑ k ∈ range n, low L k j * z k) ^ 2 =
        ∑ p ∈ range n, ∑ q ∈ range n, z p * (low L p j * low L q j) * z q := by
      intro j
      rw [pow_two, sum_mul_sum]
      exact sum_congr rfl fun p _ => sum_congr rfl fun q _ => by ring
    simp only [this]
    rw [sum_comm]
    refine sum_congr rfl fun p _ => ?_
    rw [sum_comm]
    exact sum_congr rfl fun q _ => by rw [mul_sum, sum_mul]
  have e2 : ∑ p ∈ range n, ∑ q ∈ range n, z p * A p q * z q - n * κ * W ≤
      ∑ p ∈ range n, ∑ q ∈ range n, z p * (∑ m ∈ range n, low L p m * low L q m) * z q := by
    have cheb : (∑ p ∈ range n, d p * |z p|) ^ 2 ≤ n * W := by
      have := sq_sum_le_card_mul_sum_sq (s := range n) (f := fun p => d p * |z p|)
      rw [card_range] at this
      refine this.trans (le_of_eq ?_)
      refine congrArg _ (sum_congr rfl fun p hp => ?_)
      rw [mul_pow, sq_abs, pow_two (d p), dd p (mem_range.mp hp)]
    have : ∑ p ∈ range n, ∑ q ∈ range n, z p * A p q * z q -
        ∑ p ∈ range n, ∑ q ∈ range n, z p * (∑ m ∈ range n, low L p m * low L q m) * z q ≤
        κ * (∑ p ∈ range n, d p * |z p|) ^ 2 := by
      rw [pow_two, sum_mul_sum, mul_sum, ← sum_sub_distrib]
      refine sum_le_sum fun p hp => ?_
      rw [mul_sum, ← sum_sub_distrib]
      refine sum_le_sum fun q hq => ?_
      have b := hE p q (mem_range.mp hp) (mem_range.mp hq)
      generalize ∑ m ∈ range n, low L p m * low L q m = B at *
      calc z p * A p q * z q - z p * B * z q ≤ |z p * A p q * z q - z p * B * z q| := le_abs_self _
        _ = |B - A p q| * (|z p| * |z q|) := by
          rw [abs_sub_comm B, show z p * A p q * z q - z p * B * z q = z p * (A p q - B) * z q by ring, abs_mul, abs_mul]; ring
        _ ≤ κ * (d p * d q) * (|z p| * |z q|) := mul_le_mul_of_nonneg_right b (mul_nonneg (abs_nonneg _) (abs_nonneg _))
        _ = _ := by ring
    have := mul_le_mul_of_nonneg_left cheb hκ
    linarith
  have e3 : ∑ j ∈ range n, (∑ k ∈ range n, low L k j * z k) ^ 2 = ∑ j ∈ Ico i n, (∑ k ∈ range n, low L k j * x k) ^ 2 := by
    rw [← sum_range_add_sum_Ico _ hi, sum_eq_zero fun j hj => by rw [h2 j (mem_range.mp hj)]; ring, zero_add]
    refine sum_congr rfl fun j hj => ?_
    have hj := (mem_Ico.mp hj).1
    refine congrArg (· ^ 2) (sum_congr rfl fun k _ => ?_)
    rcases Nat.lt_or_ge k j with h | h
    · rw [show low L k j = 0 from if_neg (by omega)]; ring
    · rw [h1 k (by omega)]
  have e4 : ∑ k ∈ Ico i n, A k k * x k ^ 2 ≤ W := by
    rw [hW, ← sum_range_add_sum_Ico _ hi]
    have a : 0 ≤ ∑ k ∈ range i, A k k * z k ^ 2 := sum_nonneg fun p hp =>
      mul_nonneg (hA p (by have := mem_range.mp hp; omega)).le (sq_nonneg _)
    have b : ∑ k ∈ Ico i n, A k k * z k ^ 2 = ∑ k ∈ Ico i n, A k k * x k ^ 2 :=
      sum_congr rfl fun k hk => by rw [h1 k (mem_Ico.mp hk).1]
    linarith
  have e5 := hq z
  rw [← e3, e1]
  have l0 : 0 ≤ lam / 2 := le_trans (mul_nonneg (Nat.cast_nonneg n) hκ) hlam
  have e6 := mul_le_mul_of_nonneg_left e4 l0
  have e7 := mul_le_mul_of_nonneg_right hlam W0
  linarith

/-- Backward substitution with rounding errors and underflows: the last components are bounded. -/
theorem back_real {u : ℝ} (h0 : 0 ≤ u) (h1 : u < 1) {n i K : ℕ} {A L : ℕ → ℕ → ℝ} {x y t : ℕ → ℝ} {lam κ D : ℝ} (hi : i ≤ n)
    (hA : ∀ p, p < n → 0 < A p p)
    (hq : ∀ x : ℕ → ℝ, lam * ∑ p ∈ range n, A p p * x p ^ 2 ≤ ∑ p ∈ range n, ∑ q ∈ range n, x p * A p q * x q)
    (hL : ∀ p, p < n → L p p ≠ 0) (hκ : 0 ≤ κ)
    (hE : ∀ p q, p < n → q < n → |∑ m ∈ range n, low L p m * low L q m - A p q| ≤ κ * (Real.sqrt (A p p) * Real.sqrt (A q q)))
    (hlam : n * κ ≤ lam / 2) (hr : ∀ p, p < n → ∑ m ∈ range n, low L p m * low L p m ≤ 2 * A p p)
    (hγ : 24 * (n * gam u K ^ 2) ≤ lam)
    (he : ∀ j, i ≤ j → j < n → ∃ ρ : ℕ → ℝ, (∀ k, k < n → Fac u K (ρ k)) ∧ y j = ∑ k ∈ range n, low L k j * ρ k * x k + t j)
    (hy : ∑ j ∈ range n, y j * y j ≤ D * D) (ht : ∑ j ∈ Ico i n, t j * t j ≤ D * D / 3) :
    lam * ∑ k ∈ Ico i n, A k k * x k ^ 2 ≤ 16 * (D * D) := by
  have g0 := gam_nonneg h0 h1 (u := u) K
  set W := ∑ k ∈ Ico i n, A k k * x k ^ 2 with hW
  have W0 : 0 ≤ W := sum_nonneg fun p hp => mul_nonneg (hA p (mem_Ico.mp hp).2).le (sq_nonneg _)
  have tail := chol_tail hi hA hq hL hκ hE hlam x
  rw [← hW] at tail
  set s : ℕ → ℝ := fun j => ∑ k ∈ range n, |low L k j * x k| with hs
  have sq : ∀ j, i ≤ j → s j ^ 2 ≤ (∑ k ∈ Ico i n, low L k j ^ 2 / A k k) * W := by
    intro j hj
    have e1 : s j = ∑ k ∈ Ico i n, |low L k j * x k| := by
      rw [hs]; beta_reduce
      rw [← sum_range_add_sum_Ico _ hi, sum_eq_zero fun k hk => ?_, zero_add]
      rw [show low L k j = 0 from if_neg (by have := mem_range.mp hk; omega), zero_mul, abs_zero]
    have cs := sum_mul_sq_le_sq_mul_sq (Ico i n) (fun k => |low L k j| / Real.sqrt (A k k)) (fun k => Real.sqrt (A k k) * |x k|)
    have a1 : ∑ k ∈ Ico i n, |low L k j| / Real.sqrt (A k k) * (Real.sqrt (A k k) * |x k|) = s j := by
      rw [e1]
      refine sum_congr rfl fun k hk => ?_
      have := Real.sqrt_pos.mpr (hA k (mem_Ico.mp hk).2)
      rw [abs_mul]; field_simp
    have a2 : ∑ k ∈ Ico i n, (|low L k j| / Real.sqrt (A k k)) ^ 2 = ∑ k ∈ Ico i n, low L k j ^ 2 / A k k :=
      sum_congr rfl fun k hk => by rw [div_pow, sq_abs, Real.sq_sqrt (hA k (mem_Ico.mp hk).2).le]
    have a3 : ∑ k ∈ Ico i n, (Real.sqrt (A k k) * |x k|) ^ 2 = W :=
      sum_congr rfl fun k hk => by rw [mul_pow, sq_abs, Real.sq_sqrt (hA k (mem_Ico.mp hk).2).le]
    rwa [a1, a2, a3] at cs
  have ssum : ∑ j ∈ Ico i n, s j ^ 2 ≤ 2 * n * W := by
    calc _ ≤ ∑ j ∈ Ico i n, (∑ k ∈ Ico i n, low L k j ^ 2 / A k k) * W := sum_le_sum fun j hj => sq j (mem_Ico.mp hj).1
      _ = (∑ k ∈ Ico i n, ∑ j ∈ Ico i n, low L k j ^ 2 / A k k) * W := by rw [← sum_mul, sum_comm]
      _ ≤ (∑ k ∈ Ico i n, 2) * W := by
        refine mul_le_mul_of_nonneg_right (sum_le_sum fun k hk => ?_) W0
        have hk := (mem_Ico.mp hk).2
        rw [← Finset.sum_div, div_le_iff₀ (hA k hk)]
        refine le_trans ?_ (hr k hk)
        calc _ ≤ ∑ j ∈ range n, low L k j ^ 2 :=
              sum_le_sum_of_subset_of_nonneg (fun j hj => mem_range.mpr (mem_Ico.mp hj).2) fun _ _ _ => sq_nonneg _
          _ = _ := sum_congr rfl fun j _ => by ring
      _ ≤ _ := by
        refine mul_le_mul_of_nonneg_right ?_ W0
        rw [sum_const, Nat.card_Ico, nsmul_eq_mul, mul_comm]
        have : ((n - i : ℕ) : ℝ) ≤ n := by exact_mod_cast Nat.sub_le _ _
        linarith
  have each : ∀ j ∈ Ico i n, (∑ k ∈ range n, low L k j * x k) ^ 2 ≤ 3 * (y j * y j + gam u K ^ 2 * s j ^ 2 + t j * t j) := by
    intro j hj
    obtain ⟨ρ, hρ, e⟩ := he j (mem_Ico.mp hj).1 (mem_Ico.mp hj).2
    have b : |∑ k ∈ range n, low L k j * ρ k * x k - ∑ k ∈ range n, low L k j * x k| ≤ gam u K * s j := by
      rw [← sum_sub_distrib, hs, mul_sum]
      refine (abs_sum_le_sum_abs _ _).trans (sum_le_sum fun k hk => ?_)
      rw [show low L k j * ρ k * x k - low L k j * x k = (ρ k - 1) * (low L k j * x k) by ring, abs_mul]
      exact mul_le_mul_of_nonneg_right ((hρ k (mem_range.mp hk)).sub_one h0 h1) (abs_nonneg _)
    have b2 := sq_le_sq' (abs_le.mp b).1 (abs_le.mp b).2
    generalize ∑ k ∈ range n, low L k j * ρ k * x k = P at *
    generalize ∑ k ∈ range n, low L k j * x k = V at *
    have : P = y j - t j := by linarith
    rw [this, mul_pow] at b2
    nlinarith [sq_nonneg (y j + t j), sq_nonneg (y j + (y j - t j - V)), sq_nonneg (t j - (y j - t j - V))]
  have tot : ∑ j ∈ Ico i n, (∑ k ∈ range n, low L k j * x k) ^ 2 ≤
      3 * (D * D + gam u K ^ 2 * (2 * n * W) + D * D / 3) := by
    refine (sum_le_sum each).trans ?_
    rw [← mul_sum, sum_add_distrib, sum_add_distrib, ← mul_sum]
    have y1 : ∑ j ∈ Ico i n, y j * y j ≤ D * D := le_trans
      (sum_le_sum_of_subset_of_nonneg (fun j hj => mem_range.mpr (mem_Ico.mp hj).2) fun _ _ _ => mul_self_nonneg _) hy
    have := mul_le_mul_of_nonneg_left ssum (sq_nonneg (gam u K))
    linarith
  have := mul_le_mul_of_nonneg_right hγ W0
  linarith

end Lalib
