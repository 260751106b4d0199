import Verif.Proofs.NoisySolve
import Verif.Proofs.FloatChol

/-! # The Cholesky factor against the matrix, with any accurate arithmetic -/

namespace Lalib

open Finset

namespace Nz

variable {N : Noisy} {n : Nat}

/-- The products of the factor are bounded by the diagonal of the matrix. -/
theorem chol_prod_le {A L : Nat → Nat → Nz N} (h : CholRec n A L) (hd : ∀ i, i < n → (L i i).val ≠ 0) :
    (∀ i, i < n → 0 < mat A i i) ∧ ∀ i j, i < n → j < n → ∑ k ∈ range n, |low (mat L) i k * low (mat L) j k| ≤
      (1 + gam N.u (n + 1)) * (Real.sqrt (mat A i i) * Real.sqrt (mat A j j)) := by
  have h0 := N.u_nonneg
  have h1 := N.u_lt_one
  obtain ⟨hp, ρ, hρ, e⟩ := chol_fac h hd
  set g := 1 + gam N.u (n + 1) with hg
  have g1 : 1 ≤ g := by have := gam_nonneg h0 h1 (n + 1); linarith
  have row : ∀ i, i < n → ∑ k ∈ range n, low (mat L) i k * low (mat L) i k ≤ g * mat A i i := by
    intro i hi
    have := e i i (le_refl _) hi
    show _ ≤ g * (A i i).val
    rw [this, mul_sum]
    refine sum_le_sum fun k _ => ?_
    have p := pow_pos1 h0 h1 (n + 1)
    have eg : g = 1 / (1 - N.u) ^ (n + 1) := by rw [hg, gam]; ring
    have b : 1 ≤ ρ i i k * g := by
      rw [eg, mul_one_div, le_div_iff₀ p, one_mul]; exact (hρ i i k).1
    have sq := mul_self_nonneg (low (mat L) i k)
    show _ ≤ g * (low (mat L) i k * low (mat L) i k * ρ i i k)
    nlinarith
  have pos : ∀ i, i < n → 0 < mat A i i := by
    intro i hi
    have h2 := row i hi
    have h3 : 0 < ∑ k ∈ range n, low (mat L) i k * low (mat L) i k := by
      refine sum_pos' (fun k _ => mul_self_nonneg _) ⟨i, mem_range.mpr hi, ?_⟩
      rw [show low (mat L) i i = (L i i).val from if_pos (le_refl _)]
      exact mul_pos (hp i hi) (hp i hi)
    by_contra hn
    push Not at hn
    nlinarith
  refine ⟨pos, fun i j hi hj => ?_⟩
  have s := Real.mul_self_sqrt (show 0 ≤ g by linarith)
  have key : ∀ i, i < n → ∑ k ∈ range n, low (mat L) i k * low (mat L) i k ≤
      (Real.sqrt g * Real.sqrt (mat A i i)) * (Real.sqrt g * Real.sqrt (mat A i i)) := by
    intro i hi
    have t := Real.mul_self_sqrt (pos i hi).le
    calc _ ≤ _ := row i hi
      _ = (Real.sqrt g * Real.sqrt g) * (Real.sqrt (mat A i i) * Real.sqrt (mat A i i)) := by rw [s, t]
      _ = _ := by ring
  refine (cs_abs (mul_nonneg (Real.sqrt_nonneg _) (Real.sqrt_nonneg _))
    (mul_nonneg (Real.sqrt_nonneg _) (Real.sqrt_nonneg _)) (key i hi) (key j hj)).trans (le_of_eq ?_)
  calc _ = (Real.sqrt g * Real.sqrt g) * (Real.sqrt (mat A i i) * Real.sqrt (mat A j j)) := by ring
    _ = _ := by rw [s]

/-- The product of the factor with its transpose. -/
theorem chol_prod_err {A L : Nat → Nat → Nz N} (hs : Symm n A) (h : CholRec n A L) (hd : ∀ i, i < n → (L i i).val ≠ 0) :
    ∀ i j, i < n → j < n → |∑ k ∈ range n, low (mat L) i k * low (mat L) j k - mat A i j| ≤
      gam N.u (n + 1) * ∑ k ∈ range n, |low (mat L) i k * low (mat L) j k| := by
  have h0 := N.u_nonneg
  have h1 := N.u_lt_one
  obtain ⟨_, ρ, hρ, e⟩ := chol_fac h hd
  have half : ∀ i j, j ≤ i → i < n → |∑ k ∈ range n, low (mat L) i k * low (mat L) j k - mat A i j| ≤
      gam N.u (n + 1) * ∑ k ∈ range n, |low (mat L) i k * low (mat L) j k| := by
    intro i j hj hi
    have ee : mat A i j = ∑ k ∈ range n, low (mat L) i k * low (mat L) j k * ρ i j k := e i j hj hi
    rw [ee, abs_sub_comm]
    exact sum_fac_le h0 h1 fun k _ => hρ i j k
  intro i j hi hj
  rcases Nat.le_total j i with q | q
  · exact half i j q hi
  · have := half j i q hj
    rw [show mat A i j = mat A j i by unfold mat; rw [hs i j hi hj]]
    simpa only [mul_comm] using this

/-- A matrix with a computed factor is almost positive definite. -/
theorem chol_almost {A L : Nat → Nat → Nz N} (hs : Symm n A) (h : CholRec n A L) (hd : ∀ i, i < n → (L i i).val ≠ 0)
    (x : ℕ → ℝ) : -(n * gam N.u (2 * n + 2)) * ∑ p ∈ range n, mat A p p * x p ^ 2 ≤
      ∑ p ∈ range n, ∑ q ∈ range n, x p * mat A p q * x q := by
  have h0 := N.u_nonneg
  have h1 := N.u_lt_one
  obtain ⟨pos, hle⟩ := chol_prod_le h hd
  have herr := chol_prod_err hs h hd
  set G := gam N.u (2 * n + 2) with hG
  have G0 : 0 ≤ G := gam_nonneg h0 h1 _
  set M : ℕ → ℕ → ℝ := fun i j => ∑ k ∈ range n, low (mat L) i k * low (mat L) j k with hM
  have b : ∀ i j, i < n → j < n → |M i j - mat A i j| ≤ G * (Real.sqrt (mat A i i) * Real.sqrt (mat A j j)) := by
    intro i j hi hj
    refine (herr i j hi hj).trans ?_
    refine (mul_le_mul_of_nonneg_left (hle i j hi hj) (gam_nonneg h0 h1 _)).trans ?_
    rw [← mul_assoc]
    refine mul_le_mul_of_nonneg_right ?_ (mul_nonneg (Real.sqrt_nonneg _) (Real.sqrt_nonneg _))
    have := gam_mul_le h0 h1 (n + 1) (n + 1)
    rwa [show n + 1 + (n + 1) = 2 * n + 2 by omega] at this
  have nonneg : 0 ≤ ∑ p ∈ range n, ∑ q ∈ range n, x p * M p q * x q := by
    rw [hM, quad_mul]
    exact sum_nonneg fun k _ => mul_self_nonneg _
  have cheb : (∑ p ∈ range n, Real.sqrt (mat A p p) * |x p|) ^ 2 ≤ n * ∑ p ∈ range n, mat A p p * x p ^ 2 := by
    have := sq_sum_le_card_mul_sum_sq (s := range n) (f := fun p => Real.sqrt (mat A p p) * |x p|)
    rw [card_range] at this
    refine this.trans (le_of_eq ?_)
    refine congrArg _ (sum_congr rfl fun p hp => ?_)
    rw [mul_pow, sq_abs, Real.sq_sqrt (pos p (mem_range.mp hp)).le]
  have total : ∑ p ∈ range n, ∑ q ∈ range n, x p * M p q * x q - ∑ p ∈ range n, ∑ q ∈ range n, x p * mat A p q * x q ≤
      G * (∑ p ∈ range n, Real.sqrt (mat A p p) * |x p|) ^ 2 := by
    rw [← sum_sub_distrib, pow_two, sum_mul_sum, mul_sum]
    refine sum_le_sum fun p hp => ?_
    rw [← sum_sub_distrib, mul_sum]
    refine sum_le_sum fun q hq => ?_
    have := b p q (mem_range.mp hp) (mem_range.mp hq)
    calc x p * M p q * x q - x p * mat A p q * x q = x p * (M p q - mat A p q) * x q := by ring
      _ ≤ |x p * (M p q - mat A p q) * x q| := le_abs_self _
      _ = |M p q - mat A p q| * (|x p| * |x q|) := by rw [abs_mul, abs_mul]; ring
      _ ≤ G * (Real.sqrt (mat A p p) * Real.sqrt (mat A q q)) * (|x p| * |x q|) :=
        mul_le_mul_of_nonneg_right this (mul_nonneg (abs_nonneg _) (abs_nonneg _))
      _ = _ := by ring
  have := mul_le_mul_of_nonneg_left cheb G0
  linarith

end Nz

end Lalib
