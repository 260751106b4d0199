import Verif.Spec.Forward
import Verif.Spec.IeeeBack
import Mathlib.Algebra.Order.BigOperators.Ring.Finset
import Mathlib.Algebra.Order.BigOperators.Group.Finset
import Mathlib.Algebra.Order.Chebyshev
import Mathlib.Tactic.Linarith
import Mathlib.Tactic.FieldSimp
import Mathlib.Tactic.Positivity

/-! # From backward to forward errors -/

namespace Lalib

open Finset

theorem mulVec_sub (n : ℕ) (A : ℕ → ℕ → ℝ) (x y : ℕ → ℝ) (i : ℕ) :
    mulVec n A (fun j => x j - y j) i = mulVec n A x i - mulVec n A y i := by
  unfold mulVec
  rw [← sum_sub_distrib]
  exact sum_congr rfl fun j _ => by ring

theorem maxLe_mulVec {n : ℕ} {A : ℕ → ℕ → ℝ} {S : ℝ} (hA : RowLe n A S) {x : ℕ → ℝ} {X : ℝ} (hX : 0 ≤ X) (hx : MaxLe n x X) :
    MaxLe n (mulVec n A x) (S * X) := by
  intro i hi
  unfold mulVec
  calc |∑ j ∈ range n, A i j * x j| ≤ ∑ j ∈ range n, |A i j| * X := by
        refine (abs_sum_le_sum_abs _ _).trans (sum_le_sum fun j hj => ?_)
        rw [abs_mul]
        exact mul_le_mul_of_nonneg_left (hx j (mem_range.mp hj)) (abs_nonneg _)
    _ = (∑ j ∈ range n, |A i j|) * X := by rw [sum_mul]
    _ ≤ S * X := mul_le_mul_of_nonneg_right (hA i hi) hX

/-- A maximum exists. -/
theorem exists_max {n : ℕ} (hn : 0 < n) (x : ℕ → ℝ) : ∃ k, k < n ∧ ∀ i, i < n → |x i| ≤ |x k| := by
  obtain ⟨k, hk, h⟩ := (range n).exists_max_image (fun i => |x i|) ⟨0, mem_range.mpr hn⟩
  exact ⟨k, mem_range.mp hk, fun i hi => h i (mem_range.mpr hi)⟩

theorem rowLe_nonneg {n : ℕ} {A : ℕ → ℕ → ℝ} {S : ℝ} (hA : RowLe n A S) (hn : 0 < n) : 0 ≤ S :=
  (sum_nonneg fun _ _ => abs_nonneg _).trans (hA 0 hn)

theorem invBound_of_dom {n : ℕ} {A : ℕ → ℕ → ℝ} {d : ℝ} (hd : 0 < d) (h : DomBy n A d) : InvBound n A (1 / d) := by
  refine ⟨by positivity, fun x M hM hx i hi => ?_⟩
  obtain ⟨k, hk, hm⟩ := exists_max (Nat.zero_lt_of_lt hi) x
  refine (hm i hi).trans ?_
  have e : mulVec n A x k = A k k * x k + ∑ j ∈ (range n).erase k, A k j * x j := by
    unfold mulVec
    rw [add_comm, sum_erase_add _ _ (mem_range.mpr hk)]
  have h1 : |∑ j ∈ (range n).erase k, A k j * x j| ≤ (∑ j ∈ (range n).erase k, |A k j|) * |x k| := by
    rw [sum_mul]
    refine (abs_sum_le_sum_abs _ _).trans (sum_le_sum fun j hj => ?_)
    rw [abs_mul]
    exact mul_le_mul_of_nonneg_left (hm j (mem_range.mp (mem_of_mem_erase hj))) (abs_nonneg _)
  have h2 : |A k k * x k| ≤ |mulVec n A x k| + |∑ j ∈ (range n).erase k, A k j * x j| := by
    rw [show A k k * x k = mulVec n A x k - ∑ j ∈ (range n).erase k, A k j * x j by rw [e]; ring]
    exact abs_sub _ _
  have h3 := hx k hk
  have h4 := mul_le_mul_of_nonneg_right (h k hk) (abs_nonneg (x k))
  rw [abs_mul] at h2
  have h5 : d * |x k| ≤ M := by nlinarith
  rw [one_div, inv_mul_eq_div, le_div_iff₀ hd, mul_comm]
  exact h5

theorem invBound_of_inv {n : ℕ} {A B : ℕ → ℕ → ℝ} {K : ℝ} (hn : 0 < n) (h : LeftInv n B A) (hB : RowLe n B K) :
    InvBound n A K := by
  refine ⟨rowLe_nonneg hB hn, fun x M hM hx i hi => ?_⟩
  have e : x i = mulVec n B (mulVec n A x) i := by
    unfold mulVec
    simp only [mul_sum]
    rw [sum_comm]
    have : ∀ k ∈ range n, ∑ j ∈ range n, B i j * (A j k * x k) = (if i = k then 1 else 0) * x k := by
      intro k hk
      rw [← h i k hi (mem_range.mp hk), sum_mul]
      exact sum_congr rfl fun j _ => by ring
    rw [sum_congr rfl this]
    simp [hi]
  rw [e]
  exact maxLe_mulVec hB hM hx i hi

/-- The residual of a near solution. -/
theorem near_resid {n : ℕ} {A E : ℕ → ℕ → ℝ} {e x b : ℕ → ℝ} (h : NearSolves2 n A E e x b) {i : ℕ} (hi : i < n) :
    |mulVec n A x i - b i| ≤ ∑ j ∈ range n, E i j * |x j| + e i := by
  obtain ⟨dA, db, hd, he, hs⟩ := h
  have e' : mulVec n A x i - b i = db i - ∑ j ∈ range n, dA i j * x j := by
    have := hs i hi
    have h2 : mulVec n (fun i j => A i j + dA i j) x i = mulVec n A x i + ∑ j ∈ range n, dA i j * x j := by
      unfold mulVec
      rw [← sum_add_distrib]
      exact sum_congr rfl fun j _ => by ring
    rw [h2] at this
    linarith
  rw [e']
  refine (abs_sub _ _).trans ?_
  rw [add_comm]
  refine add_le_add ((abs_sum_le_sum_abs _ _).trans (sum_le_sum fun j hj => ?_)) (he i hi)
  rw [abs_mul]
  exact mul_le_mul_of_nonneg_right (hd i j hi (mem_range.mp hj)) (abs_nonneg _)

theorem near2_of_near {n : ℕ} {A E : ℕ → ℕ → ℝ} {x b : ℕ → ℝ} (h : NearSolves n A E x b) :
    NearSolves2 n A E (fun _ => 0) x b := by
  obtain ⟨dA, hd, hs⟩ := h
  exact ⟨dA, fun _ => 0, hd, fun i _ => by simp, by simpa using hs⟩

/-- Row sums of the change of the matrix are non-negative numbers. -/
theorem near_rows {n : ℕ} {A E : ℕ → ℕ → ℝ} {e x b : ℕ → ℝ} (h : NearSolves2 n A E e x b) {i j : ℕ} (hi : i < n)
    (hj : j < n) : 0 ≤ E i j := by
  obtain ⟨dA, _, hd, _, _⟩ := h
  exact (abs_nonneg _).trans (hd i j hi hj)

/-- Forward error in terms of the computed vector. -/
theorem forward_err {n : ℕ} {A E : ℕ → ℕ → ℝ} {e x s b : ℕ → ℝ} {K c c0 X : ℝ} (h : NearSolves2 n A E e x b)
    (hs : Solves n A s b) (hK : InvBound n A K) (hE : ∀ i, i < n → ∑ j ∈ range n, E i j ≤ c) (he : ∀ i, i < n → e i ≤ c0)
    (hX : 0 ≤ X) (hx : MaxLe n x X) : MaxLe n (fun i => x i - s i) (K * (c * X + c0)) := by
  intro i hi
  have hc : ∀ k, k < n → |mulVec n A x k - b k| ≤ c * X + c0 := by
    intro k hk
    refine (near_resid h hk).trans (add_le_add ?_ (he k hk))
    calc ∑ j ∈ range n, E k j * |x j| ≤ ∑ j ∈ range n, E k j * X :=
          sum_le_sum fun j hj => mul_le_mul_of_nonneg_left (hx j (mem_range.mp hj)) (near_rows h hk (mem_range.mp hj))
      _ = (∑ j ∈ range n, E k j) * X := by rw [sum_mul]
      _ ≤ c * X := mul_le_mul_of_nonneg_right (hE k hk) hX
  refine hK.2 (fun i => x i - s i) _ ((abs_nonneg _).trans (hc i hi)) (fun k hk => ?_) i hi
  rw [mulVec_sub, hs k hk]
  exact hc k hk

/-- Forward error relative to the exact solution. -/
theorem forward_rel {n : ℕ} {A E : ℕ → ℕ → ℝ} {e x s b : ℕ → ℝ} {K c c0 X : ℝ} (h : NearSolves2 n A E e x b)
    (hs : Solves n A s b) (hK : InvBound n A K) (hE : ∀ i, i < n → ∑ j ∈ range n, E i j ≤ c) (he : ∀ i, i < n → e i ≤ c0)
    (hX : MaxLe n s X) (hc : K * c < 1) : MaxLe n (fun i => x i - s i) (K * (c * X + c0) / (1 - K * c)) := by
  intro i hi
  obtain ⟨k, hk, hm⟩ := exists_max (Nat.zero_lt_of_lt hi) x
  have h1 := forward_err h hs hK hE he (abs_nonneg (x k)) hm
  have h2 := h1 k hk
  have h3 := h1 i hi
  have h4 := hX k hk
  have h5 : |x k| ≤ |s k| + |x k - s k| := by
    have := abs_add_le (s k) (x k - s k)
    rwa [show s k + (x k - s k) = x k by ring] at this
  have hc0 : 0 ≤ c := (sum_nonneg fun j hj => near_rows h hk (mem_range.mp hj)).trans (hE k hk)
  have hKc : 0 ≤ K * c := mul_nonneg hK.1 hc0
  have p : 0 < 1 - K * c := by linarith
  simp only at h2 h3 ⊢
  -- (1 - Kc) |x k| ≤ X + K c0
  have h6 : (1 - K * c) * |x k| ≤ X + K * c0 := by nlinarith
  rw [le_div_iff₀ p]
  have h7 : |x i - s i| * (1 - K * c) ≤ K * (c * |x k| + c0) * (1 - K * c) := mul_le_mul_of_nonneg_right h3 p.le
  refine h7.trans ?_
  have h8 : K * c * ((1 - K * c) * |x k|) ≤ K * c * (X + K * c0) := mul_le_mul_of_nonneg_left h6 hKc
  nlinarith

/-- Component by component, with the inverse. -/
theorem forward_comp {n : ℕ} {A B E : ℕ → ℕ → ℝ} {e x s b : ℕ → ℝ} (h : NearSolves2 n A E e x b)
    (hs : Solves n A s b) (hB : LeftInv n B A) {i : ℕ} (hi : i < n) :
    |x i - s i| ≤ ∑ j ∈ range n, |B i j| * (∑ k ∈ range n, E j k * |x k| + e j) := by
  have e1 : x i - s i = ∑ j ∈ range n, B i j * (mulVec n A x j - b j) := by
    have h2 : ∀ j ∈ range n, B i j * (mulVec n A x j - b j) = ∑ k ∈ range n, B i j * (A j k * (x k - s k)) := by
      intro j hj
      rw [← hs j (mem_range.mp hj), ← mulVec_sub]
      unfold mulVec
      rw [mul_sum]
    rw [sum_congr rfl h2, sum_comm]
    have h3 : ∀ k ∈ range n, ∑ j ∈ range n, B i j * (A j k * (x k - s k)) = (if i = k then 1 else 0) * (x k - s k) := by
      intro k hk
      rw [← hB i k hi (mem_range.mp hk), sum_mul]
      exact sum_congr rfl fun j _ => by ring
    rw [sum_congr rfl h3]
    simp [hi]
  rw [e1]
  refine (abs_sum_le_sum_abs _ _).trans (sum_le_sum fun j hj => ?_)
  rw [abs_mul]
  exact mul_le_mul_of_nonneg_left (near_resid h (mem_range.mp hj)) (abs_nonneg _)

/-- Euclidean norm, positive definite matrices. -/
theorem forward_posDef {n : ℕ} {A E : ℕ → ℕ → ℝ} {x s b : ℕ → ℝ} {lam c : ℝ} (h : NearSolves n A E x b)
    (hs : Solves n A s b) (hl : 0 < lam)
    (hq : ∀ y : ℕ → ℝ, lam * ∑ p ∈ range n, y p ^ 2 ≤ ∑ p ∈ range n, ∑ q ∈ range n, y p * A p q * y q)
    (hE : ∀ i j, i < n → j < n → E i j ≤ c) :
    ∑ i ∈ range n, (x i - s i) ^ 2 ≤ (n * c / lam) ^ 2 * ∑ i ∈ range n, x i ^ 2 := by
  set y : ℕ → ℝ := fun i => x i - s i with hy
  set r : ℕ → ℝ := fun i => mulVec n A x i - b i with hr
  have h1 : ∑ p ∈ range n, ∑ q ∈ range n, y p * A p q * y q = ∑ p ∈ range n, y p * r p := by
    refine sum_congr rfl fun p hp => ?_
    have : r p = mulVec n A y p := by
      rw [hr, hy]
      simp only
      rw [mulVec_sub, hs p (mem_range.mp hp)]
    rw [this]
    unfold mulVec
    rw [mul_sum]
    exact sum_congr rfl fun q _ => by ring
  -- |r i|^2 ≤ n c^2 Σ x^2
  have hc2 : ∀ i, i < n → r i ^ 2 ≤ n * c ^ 2 * ∑ j ∈ range n, x j ^ 2 := by
    intro i hi
    have a1 : |r i| ≤ ∑ j ∈ range n, c * |x j| := by
      have := near_resid (near2_of_near h) hi
      rw [add_zero] at this
      exact this.trans (sum_le_sum fun j hj => mul_le_mul_of_nonneg_right (hE i j hi (mem_range.mp hj)) (abs_nonneg _))
    have a2 : (∑ j ∈ range n, c * |x j|) ^ 2 ≤ n * c ^ 2 * ∑ j ∈ range n, x j ^ 2 := by
      have := sq_sum_le_card_mul_sum_sq (s := range n) (f := fun j => c * |x j|)
      rw [card_range] at this
      refine this.trans (le_of_eq ?_)
      rw [mul_assoc]
      congr 1
      rw [mul_sum]
      exact sum_congr rfl fun j _ => by rw [mul_pow, sq_abs]
    calc r i ^ 2 = |r i| ^ 2 := (sq_abs _).symm
      _ ≤ (∑ j ∈ range n, c * |x j|) ^ 2 := pow_le_pow_left₀ (abs_nonneg _) a1 2
      _ ≤ _ := a2
  have hR : ∑ i ∈ range n, r i ^ 2 ≤ (n * c) ^ 2 * ∑ j ∈ range n, x j ^ 2 := by
    calc ∑ i ∈ range n, r i ^ 2 ≤ ∑ _i ∈ range n, n * c ^ 2 * ∑ j ∈ range n, x j ^ 2 :=
          sum_le_sum fun i hi => hc2 i (mem_range.mp hi)
      _ = (n * c) ^ 2 * ∑ j ∈ range n, x j ^ 2 := by rw [sum_const, card_range, nsmul_eq_mul]; ring
  have hcs := sum_mul_sq_le_sq_mul_sq (range n) y r
  have hq' := hq y
  rw [h1] at hq'
  set Y := ∑ p ∈ range n, y p ^ 2
  set Z := ∑ p ∈ range n, y p * r p
  have hY : 0 ≤ Y := sum_nonneg fun _ _ => sq_nonneg _
  set W := ∑ i ∈ range n, r i ^ 2
  have h5 : (lam * Y) ^ 2 ≤ Y * W := (pow_le_pow_left₀ (by positivity) hq' 2).trans hcs
  have h6 : lam ^ 2 * Y ≤ W := by
    rcases hY.eq_or_lt with h0 | h0
    · rw [← h0, mul_zero]; exact sum_nonneg fun _ _ => sq_nonneg _
    · have : Y * (lam ^ 2 * Y) ≤ Y * W := by nlinarith
      exact le_of_mul_le_mul_left this h0
  rw [div_pow, div_mul_eq_mul_div, le_div_iff₀ (by positivity), mul_comm]
  exact h6.trans hR

end Lalib
