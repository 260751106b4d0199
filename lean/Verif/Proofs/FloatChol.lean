import Verif.Proofs.FloatSolve
import Verif.Proofs.LinAlg
import Mathlib.Algebra.Order.Chebyshev
import Mathlib.Tactic.Linarith
import Mathlib.Tactic.NormNum
import Mathlib.Tactic.Positivity

/-! # Rounded Cholesky: the products of the factor in terms of the matrix, and when the decomposition breaks down -/

namespace Lalib

open Finset

theorem cs_abs {s : Finset ℕ} {a b : ℕ → ℝ} {X Y : ℝ} (hX : 0 ≤ X) (hY : 0 ≤ Y) (ha : ∑ k ∈ s, a k * a k ≤ X * X)
    (hb : ∑ k ∈ s, b k * b k ≤ Y * Y) : ∑ k ∈ s, |a k * b k| ≤ X * Y := by
  have h := Real.sum_mul_le_sqrt_mul_sqrt s (fun k => |a k|) (fun k => |b k|)
  simp only [sq_abs] at h
  calc ∑ k ∈ s, |a k * b k| = ∑ k ∈ s, |a k| * |b k| := sum_congr rfl fun k _ => abs_mul _ _
    _ ≤ _ := h
    _ ≤ X * Y := by
      refine mul_le_mul ?_ ?_ (Real.sqrt_nonneg _) hX
      · rw [← Real.sqrt_mul_self hX]
        exact Real.sqrt_le_sqrt (by simpa only [pow_two] using ha)
      · rw [← Real.sqrt_mul_self hY]
        exact Real.sqrt_le_sqrt (by simpa only [pow_two] using hb)

/-- The quadratic form of a vector with two components. -/
theorem two_form {n i j : ℕ} (hi : i < n) (hj : j < n) (A : ℕ → ℕ → ℝ) (t s : ℝ) :
    ∃ x : ℕ → ℝ, ∑ p ∈ range n, ∑ q ∈ range n, x p * A p q * x q =
      t * A i i * t + t * A i j * s + s * A j i * t + s * A j j * s := by
  let x : ℕ → ℝ := fun p => (if p = i then t else 0) + (if p = j then s else 0)
  have key : ∀ f : ℕ → ℝ, ∑ p ∈ range n, x p * f p = t * f i + s * f j := by
    intro f
    simp only [x, add_mul, ite_mul, zero_mul, sum_add_distrib, sum_ite_eq', mem_range, if_pos hi, if_pos hj]
  refine ⟨x, ?_⟩
  have : ∀ p ∈ range n, ∑ q ∈ range n, x p * A p q * x q = x p * (t * A p i + s * A p j) := by
    intro p _
    rw [← key (A p), mul_sum]
    exact sum_congr rfl fun q _ => by ring
  rw [sum_congr rfl this, key]
  ring

/-- If the pivot of row `i` is not positive, the matrix is not well inside the positive definite ones. -/
theorem chol_breakdown {u : ℝ} (h0 : 0 ≤ u) (h1 : u < 1) {n K i : ℕ} {A L : ℕ → ℕ → ℝ} {lam : ℝ} (hi : i < n)
    (hs : Symm n A) (hA : ∀ p, p < n → 0 < A p p) (hlam : 0 ≤ lam)
    (hq : ∀ x : ℕ → ℝ, lam * ∑ p ∈ range n, A p p * x p ^ 2 ≤
      ∑ p ∈ range n, ∑ q ∈ range n, x p * A p q * x q)
    (hp : ∀ r, r < i → 0 < L r r)
    (hf : ∀ r c, c ≤ r → r ≤ i → c < i → ∃ ρ : ℕ → ℝ, (∀ k, k ≤ c → Fac u K (ρ k)) ∧
      A r c = ∑ k ∈ range (c + 1), L r k * L c k * ρ k)
    (hd : ∃ ρ : ℕ → ℝ, (∀ k, k < i → Fac u K (ρ k)) ∧ A i i ≤ ∑ k ∈ range i, L i k * L i k * ρ k) :
    lam ≤ n * gam u (6 * K) := by
  set γ := gam u K with hγ
  have γ0 : 0 ≤ γ := gam_nonneg h0 h1 K
  set g := 1 + γ with hg
  have g1 : 1 ≤ g := by linarith
  have facB : ∀ {ρ : ℝ}, Fac u K ρ → 0 < ρ ∧ ρ ≤ g ∧ 1 ≤ ρ * g ∧ |ρ - 1| ≤ γ := by
    intro ρ h
    have p := pow_pos1 h0 h1 (u := u) K
    have eg : g = 1 / (1 - u) ^ K := by rw [hg, hγ, gam]; ring
    refine ⟨h.pos h0 h1, ?_, ?_, h.sub_one h0 h1⟩
    · rw [eg, le_div_iff₀ p]; exact h.2
    · rw [eg, mul_one_div, le_div_iff₀ p, one_mul]; exact h.1
  set d : ℕ → ℝ := fun p => Real.sqrt (A p p) with hdd
  have d0 : ∀ p, 0 ≤ d p := fun p => Real.sqrt_nonneg _
  have dd : ∀ p, p < n → d p * d p = A p p := fun p h => Real.mul_self_sqrt (hA p h).le
  -- entries are bounded by the diagonal
  have ent : ∀ c, c < i → |A i c| ≤ d i * d c := by
    intro c hc
    have e1 := dd i hi
    have e2 := dd c (by omega)
    have p1 : 0 < d i := Real.sqrt_pos.mpr (hA i hi)
    have p2 : 0 < d c := Real.sqrt_pos.mpr (hA c (by omega))
    have main : ∀ t s : ℝ, 0 ≤ t * A i i * t + t * A i c * s + s * A c i * t + s * A c c * s := by
      intro t s
      obtain ⟨x, hx⟩ := two_form hi (show c < n by omega) A t s
      rw [← hx]
      refine le_trans (mul_nonneg hlam (sum_nonneg fun p hp => ?_)) (hq x)
      exact mul_nonneg (hA p (mem_range.mp hp)).le (sq_nonneg _)
    have m1 := main (d c) (d i)
    have m2 := main (d c) (-d i)
    rw [hs c i (by omega) hi, ← e1, ← e2] at m1 m2
    have pp := mul_pos p1 p2
    rw [abs_le]
    constructor
    · by_contra h; push Not at h
      nlinarith [mul_pos pp (show 0 < -(d i * d c) - A i c by linarith)]
    · by_contra h; push Not at h
      nlinarith [mul_pos pp (show 0 < A i c - d i * d c by linarith)]
  -- rows of the factor
  have row : ∀ p, p < i → ∑ k ∈ range (p + 1), L p k * L p k ≤ (g * d p) * (g * d p) := by
    intro p hpi
    obtain ⟨ρ, hρ, e⟩ := hf p p (le_refl _) hpi.le hpi
    have : ∑ k ∈ range (p + 1), L p k * L p k ≤ g * A p p := by
      rw [e, mul_sum]
      refine sum_le_sum fun k hk => ?_
      have b := (facB (hρ k (by have := mem_range.mp hk; omega))).2.2.1
      nlinarith [mul_self_nonneg (L p k)]
    rw [← dd p (by omega)] at this
    have q := mul_self_nonneg (d p)
    nlinarith
  -- where the sum of squares of row i passes the diagonal element
  have ex : ∃ r, A i i ≤ g * ∑ k ∈ range r, L i k * L i k := by
    obtain ⟨ρ, hρ, e⟩ := hd
    refine ⟨i, e.trans ?_⟩
    rw [mul_sum]
    refine sum_le_sum fun k hk => ?_
    have b := (facB (hρ k (mem_range.mp hk))).2.1
    nlinarith [mul_self_nonneg (L i k)]
  classical
  have hfind := Nat.find_spec ex
  have hmin : ∀ r, r < Nat.find ex → g * ∑ k ∈ range r, L i k * L i k < A i i := fun r hr =>
    not_le.mp (Nat.find_min ex hr)
  have hle : Nat.find ex ≤ i := by
    obtain ⟨ρ, hρ, e⟩ := hd
    refine Nat.find_min' ex (e.trans ?_)
    rw [mul_sum]
    refine sum_le_sum fun k hk => ?_
    have b := (facB (hρ k (mem_range.mp hk))).2.1
    nlinarith [mul_self_nonneg (L i k)]
  have hpos : Nat.find ex ≠ 0 := by
    intro h
    rw [h] at hfind
    simp only [range_zero, sum_empty, mul_zero] at hfind
    exact absurd hfind (not_le.mpr (hA i hi))
  obtain ⟨q, hqe⟩ := Nat.exists_eq_succ_of_ne_zero hpos
  rw [hqe] at hfind hmin hle
  have hqi : q < i := hle
  have hq1 := hmin q (Nat.lt_succ_self q)
  clear hmin hpos hqe
  have rowi : ∀ c, c ≤ q → ∑ k ∈ range c, L i k * L i k ≤ d i * d i := by
    intro c hc
    rw [dd i hi]
    have mono : ∑ k ∈ range c, L i k * L i k ≤ ∑ k ∈ range q, L i k * L i k :=
      sum_le_sum_of_subset_of_nonneg (range_subset_range.mpr hc) fun k _ _ => mul_self_nonneg _
    have : 0 ≤ ∑ k ∈ range q, L i k * L i k := sum_nonneg fun k _ => mul_self_nonneg _
    nlinarith
  set Γ := γ * (3 * g ^ 3) with hΓ
  have Γ0 : 0 ≤ Γ := by positivity
  -- the product of the factor, up to column q
  set M : ℕ → ℕ → ℝ := fun p p' => ∑ k ∈ range (q + 1), low L p k * low L p' k with hM
  have Msymm : ∀ p p', M p p' = M p' p := fun p p' => sum_congr rfl fun k _ => mul_comm _ _
  have Mval : ∀ p p', p' ≤ p → p' ≤ q → M p p' = ∑ k ∈ range (p' + 1), L p k * L p' k := by
    intro p p' h h'
    symm
    refine sum_subset_zero_on_sdiff (range_subset_range.mpr (by omega)) (fun k hk => ?_) fun k hk => ?_
    · rw [mem_sdiff, mem_range, mem_range] at hk
      rw [show low L p' k = 0 from if_neg (by omega), mul_zero]
    · have := mem_range.mp hk
      rw [show low L p' k = L p' k from if_pos (by omega), show low L p k = L p k from if_pos (by omega)]
  have diff : ∀ p p', p' ≤ p → p ≤ i → p' ≤ q →
      |A p p' - M p p'| ≤ γ * ∑ k ∈ range (p' + 1), |L p k * L p' k| := by
    intro p p' h hpi h'
    obtain ⟨ρ, hρ, e⟩ := hf p p' h hpi (by omega)
    rw [Mval p p' h h', e, ← sum_sub_distrib, mul_sum]
    refine (abs_sum_le_sum_abs _ _).trans (sum_le_sum fun k hk => ?_)
    rw [show L p k * L p' k * ρ k - L p k * L p' k = (ρ k - 1) * (L p k * L p' k) by ring, abs_mul]
    exact mul_le_mul_of_nonneg_right (facB (hρ k (by have := mem_range.mp hk; omega))).2.2.2 (abs_nonneg _)
  have g3 : g ≤ g ^ 3 := by nlinarith [mul_self_nonneg g]
  have bnd : ∀ p p', p' ≤ p → (p ≤ q ∨ p = i) → p' ≤ q → |A p p' - M p p'| ≤ Γ * (d p * d p') := by
    intro p p' h hpq h'
    have pd := mul_nonneg (d0 p) (d0 p')
    refine (diff p p' h (by omega) h').trans ?_
    rw [hΓ, mul_assoc]
    refine mul_le_mul_of_nonneg_left ?_ γ0
    rcases hpq with hpq | rfl
    · have b1 : ∑ k ∈ range (p' + 1), L p k * L p k ≤ (g * d p) * (g * d p) := by
        refine le_trans ?_ (row p (by omega))
        exact sum_le_sum_of_subset_of_nonneg (range_subset_range.mpr (by omega)) fun k _ _ => mul_self_nonneg _
      have b2 := row p' (by omega)
      refine (cs_abs (mul_nonneg (by linarith) (d0 p)) (mul_nonneg (by linarith) (d0 p')) b1 b2).trans ?_
      have : g * g ≤ 3 * g ^ 3 := by nlinarith [mul_self_nonneg g]
      nlinarith
    · -- the row of the pivot
      have b1 := cs_abs (d0 p) (mul_nonneg (by linarith) (d0 p')) (rowi p' h') (b := L p') (s := range p')
        (Y := g * d p') (by
          refine le_trans ?_ (row p' (by omega))
          exact sum_le_sum_of_subset_of_nonneg (range_subset_range.mpr (by omega)) fun k _ _ => mul_self_nonneg _)
      obtain ⟨ρ, hρ, e⟩ := hf p p' h (le_refl _) (by omega)
      rw [sum_range_succ] at e
      rw [sum_range_succ]
      have b2 : |L p p' * L p' p'| ≤ g * (d p * d p') + g * (g * (d p * (g * d p'))) := by
        have r := facB (hρ p' (le_refl _))
        have e2 : L p p' * L p' p' * ρ p' = A p p' - ∑ k ∈ range p', L p k * L p' k * ρ k := by linarith
        have e3 : |L p p' * L p' p' * ρ p'| ≤ d p * d p' + g * (d p * (g * d p')) := by
          rw [e2]
          refine (abs_sub _ _).trans (add_le_add (ent p' (by omega)) ?_)
          refine (abs_sum_le_sum_abs _ _).trans ?_
          refine le_trans ?_ (mul_le_mul_of_nonneg_left b1 (by linarith : 0 ≤ g))
          rw [mul_sum]
          refine sum_le_sum fun k hk => ?_
          have rk := facB (hρ k (by have := mem_range.mp hk; omega))
          rw [abs_mul, abs_of_pos rk.1, mul_comm]
          exact mul_le_mul_of_nonneg_right rk.2.1 (abs_nonneg _)
        rw [abs_mul, abs_of_pos r.1] at e3
        have a0 := abs_nonneg (L p p' * L p' p')
        calc |L p p' * L p' p'| = |L p p' * L p' p'| * 1 := (mul_one _).symm
          _ ≤ |L p p' * L p' p'| * (ρ p' * g) := mul_le_mul_of_nonneg_left r.2.2.1 a0
          _ = g * (|L p p' * L p' p'| * ρ p') := by ring
          _ ≤ g * (d p * d p' + g * (d p * (g * d p'))) := mul_le_mul_of_nonneg_left e3 (by linarith)
          _ = _ := by ring
      refine (add_le_add b1 b2).trans ?_
      have : d p * (g * d p') + (g * (d p * d p') + g * (g * (d p * (g * d p')))) =
        (2 * g + g ^ 3) * (d p * d p') := by ring
      rw [this]
      exact mul_le_mul_of_nonneg_right (by linarith) pd
  -- a vector that the product of the factor annihilates
  have hm : minor (fun c r => low L r c) (q + 1) ≠ 0 := by
    have := minor_LU (A := fun c r => low L r c) (k := q + 1) (L := fun c t => if c = t then (1 : ℝ) else 0)
      (U := fun t r => low L r t) (fun i t _ _ h => by rw [if_neg (by omega)])
      (fun t j _ _ h => by rw [low, if_neg (by omega)])
      (fun c r hc _ => by simp [hc])
    rw [this]
    simp only [if_true, Finset.prod_const_one, one_mul]
    rw [Finset.prod_ne_zero_iff]
    intro r hr
    rw [low, if_pos (Nat.le_refl _)]
    exact ne_of_gt (hp r (by have := Finset.mem_range.mp hr; omega))
  obtain ⟨y, hy⟩ := exists_solves hm (fun c => - L i c)
  let x : ℕ → ℝ := fun r => (if r < q + 1 then y r else 0) + (if r = i then 1 else 0)
  have xi : x i = 1 := by simp [x]; omega
  have xo : ∀ r, q < r → r ≠ i → x r = 0 := by
    intro r h h'
    simp only [x]; rw [if_neg (by omega), if_neg h', zero_add]
  have zero : ∑ p ∈ range n, ∑ p' ∈ range n, x p * M p p' * x p' = 0 := by
    rw [hM, quad_mul]
    refine sum_eq_zero fun k hk => ?_
    have hk := mem_range.mp hk
    have : ∑ p ∈ range n, x p * low L p k = 0 := by
      simp only [x, add_mul, ite_mul, zero_mul, one_mul, sum_add_distrib, sum_ite_eq', mem_range, if_pos hi]
      rw [← sum_filter]
      have fe : (range n).filter (fun r => r < q + 1) = range (q + 1) := by
        ext r; simp only [mem_filter, mem_range]; omega
      have := hy k hk
      unfold mulVec at this
      rw [fe, show low L i k = L i k from if_pos (by omega), sum_congr rfl fun r _ => mul_comm (y r) _, this]
      ring
    rw [this, zero_mul]
  -- the difference of the two quadratic forms
  have term : ∀ p ∈ range n, ∀ p' ∈ range n, x p * (A p p' - M p p') * x p' ≤
      Γ * ((d p * |x p|) * (d p' * |x p'|)) := by
    have half : ∀ p p', p < n → p' ≤ p → x p * (A p p' - M p p') * x p' ≤
        Γ * ((d p * |x p|) * (d p' * |x p'|)) := by
      intro p p' hpn hpp
      have nn : 0 ≤ Γ * ((d p * |x p|) * (d p' * |x p'|)) :=
        mul_nonneg Γ0 (mul_nonneg (mul_nonneg (d0 _) (abs_nonneg _)) (mul_nonneg (d0 _) (abs_nonneg _)))
      by_cases hS : p ≤ q ∨ p = i
      · by_cases hS' : p' ≤ q
        · have b := bnd p p' hpp hS hS'
          calc x p * (A p p' - M p p') * x p' ≤ |x p * (A p p' - M p p') * x p'| := le_abs_self _
            _ = |A p p' - M p p'| * (|x p| * |x p'|) := by rw [abs_mul, abs_mul]; ring
            _ ≤ Γ * (d p * d p') * (|x p| * |x p'|) :=
              mul_le_mul_of_nonneg_right b (mul_nonneg (abs_nonneg _) (abs_nonneg _))
            _ = _ := by ring
        · by_cases hpi : p' = i
          · have : p = i := by omega
            subst this; subst hpi
            rw [xi, one_mul, mul_one, abs_one, mul_one, dd p' hi]
            have mii : M p' p' = ∑ k ∈ range (q + 1), L p' k * L p' k := by
              refine sum_congr rfl fun k hk => ?_
              have := mem_range.mp hk
              rw [show low L p' k = L p' k from if_pos (by omega)]
            rw [mii]
            have a0 := hA p' hi
            set S := ∑ k ∈ range (q + 1), L p' k * L p' k
            -- A ≤ g S
            have S1 : A p' p' - S ≤ γ * A p' p' := by
              by_cases hc : A p' p' ≤ S
              · have := mul_nonneg γ0 a0.le; linarith
              · push Not at hc
                have : A p' p' - S ≤ γ * S := by
                  have : A p' p' ≤ g * S := hfind
                  rw [hg] at this; linarith
                nlinarith
            refine S1.trans ?_
            rw [hΓ, mul_assoc]
            refine mul_le_mul_of_nonneg_left ?_ γ0
            nlinarith
          · rw [xo p' (by omega) hpi, mul_zero]; simp
      · push Not at hS
        rw [xo p hS.1 hS.2]; simp
    intro p hp p' hp'
    have hp := mem_range.mp hp
    have hp' := mem_range.mp hp'
    rcases Nat.le_total p' p with h | h
    · exact half p p' hp h
    · have := half p' p hp' h
      rw [hs p p' hp hp', Msymm p p']
      calc x p * (A p' p - M p' p) * x p' = x p' * (A p' p - M p' p) * x p := by ring
        _ ≤ _ := this
        _ = _ := by ring
  have total : ∑ p ∈ range n, ∑ p' ∈ range n, x p * A p p' * x p' ≤
      Γ * (∑ p ∈ range n, d p * |x p|) ^ 2 := by
    have e : ∑ p ∈ range n, ∑ p' ∈ range n, x p * A p p' * x p' =
        ∑ p ∈ range n, ∑ p' ∈ range n, x p * (A p p' - M p p') * x p' := by
      have : ∑ p ∈ range n, ∑ p' ∈ range n, x p * (A p p' - M p p') * x p' =
          ∑ p ∈ range n, ∑ p' ∈ range n, x p * A p p' * x p' -
            ∑ p ∈ range n, ∑ p' ∈ range n, x p * M p p' * x p' := by
        rw [← sum_sub_distrib]
        refine sum_congr rfl fun p _ => ?_
        rw [← sum_sub_distrib]
        exact sum_congr rfl fun p' _ => by ring
      rw [this, zero, sub_zero]
    rw [e, pow_two, sum_mul_sum, mul_sum]
    refine sum_le_sum fun p hp => ?_
    rw [mul_sum]
    exact sum_le_sum fun p' hp' => term p hp p' hp'
  have cheb : (∑ p ∈ range n, d p * |x p|) ^ 2 ≤ n * ∑ p ∈ range n, A p p * x p ^ 2 := by
    have := sq_sum_le_card_mul_sum_sq (s := range n) (f := fun p => d p * |x p|)
    rw [card_range] at this
    refine this.trans (le_of_eq ?_)
    refine congrArg _ (sum_congr rfl fun p hp => ?_)
    rw [mul_pow, sq_abs, pow_two (d p), dd p (mem_range.mp hp)]
  have W0 : 0 < ∑ p ∈ range n, A p p * x p ^ 2 := by
    refine sum_pos' (fun p hp => mul_nonneg (hA p (mem_range.mp hp)).le (sq_nonneg _))
      ⟨i, mem_range.mpr hi, ?_⟩
    rw [xi]; have := hA i hi; linarith
  set W := ∑ p ∈ range n, A p p * x p ^ 2
  have fin : lam * W ≤ n * Γ * W := by
    calc lam * W ≤ _ := hq x
      _ ≤ _ := total
      _ ≤ Γ * (n * W) := mul_le_mul_of_nonneg_left cheb Γ0
      _ = n * Γ * W := by ring
  have fin := le_of_mul_le_mul_right fin W0
  refine fin.trans (mul_le_mul_of_nonneg_left ?_ (Nat.cast_nonneg n))
  -- the constant
  have a1 := gam_add h0 h1 (u := u) K K
  have a2 := gam_add h0 h1 (u := u) (K + K) K
  have a3 := gam_add h0 h1 (u := u) (K + K + K) (K + K + K)
  rw [show K + K + K + (K + K + K) = 6 * K by omega] at a3
  rw [a1] at a2
  rw [a2] at a3
  rw [← hγ, ← hg] at a3
  have : Γ = γ * (3 * g ^ 3) := hΓ
  rw [this]
  have : gam u (6 * K) = g ^ 6 - 1 := by linarith [show g * g * g * (g * g * g) = g ^ 6 by ring]
  rw [this]
  have : γ = g - 1 := by rw [hg]; ring
  rw [this]
  -- g^6 - 1 ≥ (g^3 - 1) g^3 ≥ 3 (g-1) g^3
  have c1 : 3 * (g - 1) ≤ g ^ 3 - 1 := by nlinarith [sq_nonneg (g - 1), mul_nonneg (show 0 ≤ g - 1 by linarith) (sq_nonneg (g - 1))]
  have c2 : 1 ≤ g ^ 3 := by linarith
  nlinarith

theorem gam_mul_le {u : ℝ} (h0 : 0 ≤ u) (h1 : u < 1) (k l : ℕ) : gam u k * (1 + gam u l) ≤ gam u (k + l) := by
  have := gam_add h0 h1 (u := u) k l
  have := gam_nonneg h0 h1 (u := u) l
  nlinarith

namespace Fl

variable {R : Rounding} {n : Nat}

/-- The products of the factor are bounded by the diagonal of the matrix. -/
theorem chol_prod_le {A L : Nat → Nat → Fl R} (h : CholRec n A L) (hd : ∀ i, i < n → L i i ≠ 0) :
    (∀ i, i < n → 0 < mat A i i) ∧ ∀ i j, i < n → j < n → ∑ k ∈ range n, |low (mat L) i k * low (mat L) j k| ≤
      (1 + gam R.u (n + 1)) * (Real.sqrt (mat A i i) * Real.sqrt (mat A j j)) := by
  have h0 := R.u_nonneg
  have h1 := R.u_lt_one
  obtain ⟨hp, ρ, hρ, e⟩ := chol_fac h hd
  set g := 1 + gam R.u (n + 1) with hg
  have g1 : 1 ≤ g := by have := gam_nonneg h0 h1 (n + 1); linarith
  have row : ∀ i, i < n → ∑ k ∈ range n, low (mat L) i k * low (mat L) i k ≤ g * mat A i i := by
    intro i hi
    have := e i i (le_refl _) hi
    show _ ≤ g * (A i i).val
    rw [this, mul_sum]
    refine sum_le_sum fun k _ => ?_
    have p := pow_pos1 h0 h1 (n + 1)
    have eg : g = 1 / (1 - R.u) ^ (n + 1) := by rw [hg, gam]; ring
    have b : 1 ≤ ρ i i k * g := by
      rw [eg, mul_one_div, le_div_iff₀ p, one_mul]; exact (hρ i i k).1
    have sq := mul_self_nonneg (low (mat L) i k)
    show _ ≤ g * (low (mat L) i k * low (mat L) i k * ρ i i k)
    nlinarith
  have pos : ∀ i, i < n → 0 < mat A i i := by
    intro i hi
    have h2 := row i hi
    have h3 : 0 < ∑ k ∈ range n, low (mat L) i k * low (mat L) i k := by
      refine sum_pos' (fun k _ => mul_self_nonneg _) ⟨i, mem_range.mpr hi, ?_⟩
      rw [show low (mat L) i i = (L i i).val from if_pos (le_refl _)]
      exact mul_pos (hp i hi) (hp i hi)
    by_contra hn
    push Not at hn
    nlinarith
  refine ⟨pos, fun i j hi hj => ?_⟩
  have s := Real.mul_self_sqrt (show 0 ≤ g by linarith)
  have key : ∀ i, i < n → ∑ k ∈ range n, low (mat L) i k * low (mat L) i k ≤
      (Real.sqrt g * Real.sqrt (mat A i i)) * (Real.sqrt g * Real.sqrt (mat A i i)) := by
    intro i hi
    have t := Real.mul_self_sqrt (pos i hi).le
    calc _ ≤ _ := row i hi
      _ = (Real.sqrt g * Real.sqrt g) * (Real.sqrt (mat A i i) * Real.sqrt (mat A i i)) := by rw [s, t]
      _ = _ := by ring
  refine (cs_abs (mul_nonneg (Real.sqrt_nonneg _) (Real.sqrt_nonneg _))
    (mul_nonneg (Real.sqrt_nonneg _) (Real.sqrt_nonneg _)) (key i hi) (key j hj)).trans (le_of_eq ?_)
  calc _ = (Real.sqrt g * Real.sqrt g) * (Real.sqrt (mat A i i) * Real.sqrt (mat A j j)) := by ring
    _ = _ := by rw [s]

/-- The product of the factor with its transpose. -/
theorem chol_prod_err {A L : Nat → Nat → Fl R} (hs : Symm n A) (h : CholRec n A L) (hd : ∀ i, i < n → L i i ≠ 0) :
    ∀ i j, i < n → j < n → |∑ k ∈ range n, low (mat L) i k * low (mat L) j k - mat A i j| ≤
      gam R.u (n + 1) * ∑ k ∈ range n, |low (mat L) i k * low (mat L) j k| := by
  have h0 := R.u_nonneg
  have h1 := R.u_lt_one
  obtain ⟨_, ρ, hρ, e⟩ := chol_fac h hd
  have half : ∀ i j, j ≤ i → i < n → |∑ k ∈ range n, low (mat L) i k * low (mat L) j k - mat A i j| ≤
      gam R.u (n + 1) * ∑ k ∈ range n, |low (mat L) i k * low (mat L) j k| := by
    intro i j hj hi
    have ee : mat A i j = ∑ k ∈ range n, low (mat L) i k * low (mat L) j k * ρ i j k := e i j hj hi
    rw [ee, abs_sub_comm]
    exact sum_fac_le h0 h1 fun k _ => hρ i j k
  intro i j hi hj
  rcases Nat.le_total j i with q | q
  · exact half i j q hi
  · have := half j i q hj
    rw [show mat A i j = mat A j i by unfold mat; rw [hs i j hi hj]]
    simpa only [mul_comm] using this

/-- A matrix with a computed factor is almost positive definite. -/
theorem chol_almost {A L : Nat → Nat → Fl R} (hs : Symm n A) (h : CholRec n A L) (hd : ∀ i, i < n → L i i ≠ 0)
    (x : ℕ → ℝ) : -(n * gam R.u (2 * n + 2)) * ∑ p ∈ range n, mat A p p * x p ^ 2 ≤
      ∑ p ∈ range n, ∑ q ∈ range n, x p * mat A p q * x q := by
  have h0 := R.u_nonneg
  have h1 := R.u_lt_one
  obtain ⟨pos, hle⟩ := chol_prod_le h hd
  have herr := chol_prod_err hs h hd
  set G := gam R.u (2 * n + 2) with hG
  have G0 : 0 ≤ G := gam_nonneg h0 h1 _
  set M : ℕ → ℕ → ℝ := fun i j => ∑ k ∈ range n, low (mat L) i k * low (mat L) j k with hM
  have b : ∀ i j, i < n → j < n → |M i j - mat A i j| ≤ G * (Real.sqrt (mat A i i) * Real.sqrt (mat A j j)) := by
    intro i j hi hj
    refine (herr i j hi hj).trans ?_
    refine (mul_le_mul_of_nonneg_left (hle i j hi hj) (gam_nonneg h0 h1 _)).trans ?_
    rw [← mul_assoc]
    refine mul_le_mul_of_nonneg_right ?_ (mul_nonneg (Real.sqrt_nonneg _) (Real.sqrt_nonneg _))
    have := gam_mul_le h0 h1 (n + 1) (n + 1)
    rwa [show n + 1 + (n + 1) = 2 * n + 2 by omega] at this
  have nonneg : 0 ≤ ∑ p ∈ range n, ∑ q ∈ range n, x p * M p q * x q := by
    rw [hM, quad_mul]
    exact sum_nonneg fun k _ => mul_self_nonneg _
  have cheb : (∑ p ∈ range n, Real.sqrt (mat A p p) * |x p|) ^ 2 ≤ n * ∑ p ∈ range n, mat A p p * x p ^ 2 := by
    have := sq_sum_le_card_mul_sum_sq (s := range n) (f := fun p => Real.sqrt (mat A p p) * |x p|)
    rw [card_range] at this
    refine this.trans (le_of_eq ?_)
    refine congrArg _ (sum_congr rfl fun p hp => ?_)
    rw [mul_pow, sq_abs, Real.sq_sqrt (pos p (mem_range.mp hp)).le]
  have total : ∑ p ∈ range n, ∑ q ∈ range n, x p * M p q * x q - ∑ p ∈ range n, ∑ q ∈ range n, x p * mat A p q * x q ≤
      G * (∑ p ∈ range n, Real.sqrt (mat A p p) * |x p|) ^ 2 := by
    rw [← sum_sub_distrib, pow_two, sum_mul_sum, mul_sum]
    refine sum_le_sum fun p hp => ?_
    rw [← sum_sub_distrib, mul_sum]
    refine sum_le_sum fun q hq => ?_
    have := b p q (mem_range.mp hp) (mem_range.mp hq)
    calc x p * M p q * x q - x p * mat A p q * x q = x p * (M p q - mat A p q) * x q := by ring
      _ ≤ |x p * (M p q - mat A p q) * x q| := le_abs_self _
      _ = |M p q - mat A p q| * (|x p| * |x q|) := by rw [abs_mul, abs_mul]; ring
      _ ≤ G * (Real.sqrt (mat A p p) * Real.sqrt (mat A q q)) * (|x p| * |x q|) :=
        mul_le_mul_of_nonneg_right this (mul_nonneg (abs_nonneg _) (abs_nonneg _))
      _ = _ := by ring
  have := mul_le_mul_of_nonneg_left cheb G0
  linarith

end Fl

end Lalib
