import Verif.Proofs.FloatChol

/-! # Rows of a Cholesky factor of a matrix that is well inside the positive definite ones -/

namespace Lalib

open Finset

theorem gam_fac {u : ℝ} (h0 : 0 ≤ u) (h1 : u < 1) (k : ℕ) : Fac u k (1 + gam u k) := by
  have p := pow_pos1 h0 h1 (u := u) k
  have q : (1 - u) ^ k ≤ 1 := pow_le_one₀ (by linarith) (by linarith)
  have e : 1 + gam u k = 1 / (1 - u) ^ k := by rw [gam]; ring
  constructor
  · have := gam_nonneg h0 h1 (u := u) k
    linarith
  · rw [e, div_mul_cancel₀ _ p.ne']

/-- Sums over permuted indices. -/
theorem sum_swap {n c i : ℕ} (hc : c < n) (hi : i < n) (f : ℕ → ℝ) :
    ∑ p ∈ range n, f (Equiv.swap c i p) = ∑ p ∈ range n, f p := by
  refine sum_equiv (Equiv.swap c i) (fun p => ?_) (fun p _ => rfl)
  simp only [mem_range]
  rcases eq_or_ne p c with rfl | h1
  · rw [Equiv.swap_apply_left]; exact iff_of_true hc hi
  · rcases eq_or_ne p i with rfl | h2
    · rw [Equiv.swap_apply_right]; exact iff_of_true hi hc
    · rw [Equiv.swap_apply_of_ne_of_ne h1 h2]

/-- Entries are bounded by the diagonal. -/
theorem form_ent {n : ℕ} {A : ℕ → ℕ → ℝ} {lam : ℝ} (hs : Symm n A) (hA : ∀ p, p < n → 0 < A p p) (hlam : 0 ≤ lam)
    (hq : ∀ x : ℕ → ℝ, lam * ∑ p ∈ range n, A p p * x p ^ 2 ≤ ∑ p ∈ range n, ∑ q ∈ range n, x p * A p q * x q)
    {i c : ℕ} (hi : i < n) (hc : c < n) : |A i c| ≤ Real.sqrt (A i i) * Real.sqrt (A c c) := by
  have e1 := Real.mul_self_sqrt (hA i hi).le
  have e2 := Real.mul_self_sqrt (hA c hc).le
  have p1 := Real.sqrt_pos.mpr (hA i hi)
  have p2 := Real.sqrt_pos.mpr (hA c hc)
  have main : ∀ t s : ℝ, 0 ≤ t * A i i * t + t * A i c * s + s * A c i * t + s * A c c * s := by
    intro t s
    obtain ⟨x, hx⟩ := two_form hi hc A t s
    rw [← hx]
    refine le_trans (mul_nonneg hlam (sum_nonneg fun p hp => ?_)) (hq x)
    exact mul_nonneg (hA p (mem_range.mp hp)).le (sq_nonneg _)
  generalize Real.sqrt (A i i) = di at *
  generalize Real.sqrt (A c c) = dc at *
  have m1 := main dc di
  have m2 := main dc (-di)
  rw [hs c i hc hi, ← e1, ← e2] at m1 m2
  have pp := mul_pos p1 p2
  rw [abs_le]
  constructor
  · by_contra h; push Not at h
    nlinarith [mul_pos pp (show 0 < -(di * dc) - A i c by linarith)]
  · by_contra h; push Not at h
    nlinarith [mul_pos pp (show 0 < A i c - di * dc by linarith)]

/-- The constant of the quadratic form is at most one. -/
theorem form_le_one {n : ℕ} {A : ℕ → ℕ → ℝ} {lam : ℝ} (hA : ∀ p, p < n → 0 < A p p)
    (hq : ∀ x : ℕ → ℝ, lam * ∑ p ∈ range n, A p p * x p ^ 2 ≤ ∑ p ∈ range n, ∑ q ∈ range n, x p * A p q * x q)
    (hn : 0 < n) : lam ≤ 1 := by
  have := hq fun p => if p = 0 then 1 else 0
  simp only [ite_pow, one_pow, ne_eq, OfNat.ofNat_ne_zero, not_false_eq_true, zero_pow, mul_ite, mul_one, mul_zero, ite_mul,
    one_mul, zero_mul, sum_ite_eq', mem_range, hn, if_true] at this
  have a := hA 0 hn
  nlinarith

/-- The first `c` numbers of row `i` of the factor, computed with rounding errors and underflows: the sum of their squares stays
below the diagonal element. -/
theorem chol_prefix {u τ : ℝ} (h0 : 0 ≤ u) (h1 : u < 1) (hτ : 0 ≤ τ) {n K i c : ℕ} {A L t : ℕ → ℕ → ℝ} {lam : ℝ}
    (hi : i < n) (hc : c ≤ i) (hs : Symm n A) (hA : ∀ p, p < n → 0 < A p p)
    (hq : ∀ x : ℕ → ℝ, lam * ∑ p ∈ range n, A p p * x p ^ 2 ≤ ∑ p ∈ range n, ∑ q ∈ range n, x p * A p q * x q)
    (hlam : n * gam u (6 * K) * (1 + τ) + n * τ < lam)
    (hp : ∀ r, r < c → 0 < L r r)
    (hf : ∀ r k, k ≤ r → k < c → (r < c ∨ r = i) → ∃ ρ : ℕ → ℝ, (∀ m, m ≤ k → Fac u K (ρ m)) ∧
      A r k = ∑ m ∈ range (k + 1), L r m * L k m * ρ m + t r k)
    (ht : ∀ r k, k ≤ r → k < c → (r < c ∨ r = i) → |t r k| ≤ τ * (Real.sqrt (A r r) * Real.sqrt (A k k))) :
    (1 + gam u K) * ∑ k ∈ range c, L i k * L i k < (1 - τ) * A i i := by
  by_contra hneg
  push Not at hneg
  have hcn : c < n := by omega
  have n0 : (0 : ℝ) < n := by exact_mod_cast (by omega : 0 < n)
  have n1 : (1 : ℝ) ≤ n := by exact_mod_cast (by omega : 1 ≤ n)
  have G0 := gam_nonneg h0 h1 (u := u) (6 * K)
  have lam1 := form_le_one hA hq (by omega)
  have nG : 0 ≤ n * gam u (6 * K) := mul_nonneg n0.le G0
  have nGt : 0 ≤ n * gam u (6 * K) * (1 + τ) := mul_nonneg nG (by linarith)
  have τ1 : τ < 1 := by nlinarith
  set d : ℕ → ℝ := fun p => Real.sqrt (A p p) with hd
  have d0 : ∀ p, 0 ≤ d p := fun p => Real.sqrt_nonneg _
  have dd : ∀ p, p < n → d p * d p = A p p := fun p h => Real.mul_self_sqrt (hA p h).le
  -- the perturbation, symmetric
  let T1 : ℕ → ℕ → ℝ := fun r k => if r = i ∧ k = i then τ * A i i else if k < c ∧ (r < c ∨ r = i) then t r k else 0
  let T : ℕ → ℕ → ℝ := fun p q => T1 (max p q) (min p q)
  have Ts : ∀ p q, T p q = T q p := fun p q => by simp only [T]; rw [max_comm, min_comm]
  have T1b : ∀ r k, k ≤ r → r < n → |T1 r k| ≤ τ * (d r * d k) := by
    intro r k hk hr
    simp only [T1]
    have nn : 0 ≤ τ * (d r * d k) := mul_nonneg hτ (mul_nonneg (d0 _) (d0 _))
    split_ifs with h2 h3
    · rw [h2.1, h2.2, dd i hi, abs_of_nonneg (mul_nonneg hτ (hA i hi).le)]
    · exact ht r k hk h3.1 h3.2
    · simpa using nn
  have Tb : ∀ p q, p < n → q < n → |T p q| ≤ τ * (d p * d q) := by
    intro p q hp hq
    simp only [T]
    rcases le_total p q with h | h
    · rw [max_eq_right h, min_eq_left h]
      have := T1b q p h hq
      linarith [mul_comm (d p) (d q)]
    · rw [max_eq_left h, min_eq_right h]
      exact T1b p q h hp
  let B : ℕ → ℕ → ℝ := fun p q => A p q - T p q
  have Bd : ∀ p, p < n → 0 < B p p ∧ B p p ≤ (1 + τ) * A p p := by
    intro p hp
    have := abs_le.mp (Tb p p hp hp)
    rw [dd p hp] at this
    have a := hA p hp
    simp only [B]
    constructor
    · nlinarith
    · linarith
  have Bs : Symm n B := fun p q hp hq => by simp only [B]; rw [hs p q hp hq, Ts]
  -- its quadratic form
  have Bq : ∀ x : ℕ → ℝ, (lam - n * τ) / (1 + τ) * ∑ p ∈ range n, B p p * x p ^ 2 ≤
      ∑ p ∈ range n, ∑ q ∈ range n, x p * B p q * x q := by
    intro x
    set W := ∑ p ∈ range n, A p p * x p ^ 2 with hW
    have b1 : ∑ p ∈ range n, ∑ q ∈ range n, x p * T p q * x q ≤ n * τ * W := by
      have cheb : (∑ p ∈ range n, d p * |x p|) ^ 2 ≤ n * W := by
        have := sq_sum_le_card_mul_sum_sq (s := range n) (f := fun p => d p * |x p|)
        rw [card_range] at this
        refine this.trans (le_of_eq ?_)
        refine congrArg _ (sum_congr rfl fun p hp => ?_)
        rw [mul_pow, sq_abs, pow_two (d p), dd p (mem_range.mp hp)]
      have : ∑ p ∈ range n, ∑ q ∈ range n, x p * T p q * x q ≤ τ * (∑ p ∈ range n, d p * |x p|) ^ 2 := by
        rw [pow_two, sum_mul_sum, mul_sum]
        refine sum_le_sum fun p hp => ?_
        rw [mul_sum]
        refine sum_le_sum fun q hq => ?_
        have b := Tb p q (mem_range.mp hp) (mem_range.mp hq)
        calc x p * T p q * x q ≤ |x p * T p q * x q| := le_abs_self _
          _ = |T p q| * (|x p| * |x q|) := by rw [abs_mul, abs_mul]; ring
          _ ≤ τ * (d p * d q) * (|x p| * |x q|) := mul_le_mul_of_nonneg_right b (mul_nonneg (abs_nonneg _) (abs_nonneg _))
          _ = _ := by ring
      calc _ ≤ _ := this
        _ ≤ τ * (n * W) := mul_le_mul_of_nonneg_left cheb hτ
        _ = _ := by ring
    have b2 : ∑ p ∈ range n, ∑ q ∈ range n, x p * B p q * x q =
        ∑ p ∈ range n, ∑ q ∈ range n, x p * A p q * x q - ∑ p ∈ range n, ∑ q ∈ range n, x p * T p q * x q := by
      rw [← sum_sub_distrib]
      refine sum_congr rfl fun p _ => ?_
      rw [← sum_sub_distrib]
      exact sum_congr rfl fun q _ => by simp only [B]; ring
    have b3 : ∑ p ∈ range n, B p p * x p ^ 2 ≤ (1 + τ) * W := by
      rw [hW, mul_sum]
      refine sum_le_sum fun p hp => ?_
      have := mul_le_mul_of_nonneg_right (Bd p (mem_range.mp hp)).2 (sq_nonneg (x p))
      linarith
    have b4 := hq x
    rw [b2]
    have b5 : (lam - n * τ) / (1 + τ) * ∑ p ∈ range n, B p p * x p ^ 2 ≤ (lam - n * τ) / (1 + τ) * ((1 + τ) * W) :=
      mul_le_mul_of_nonneg_left b3 (div_nonneg (by linarith) (by linarith))
    have b6 : (lam - n * τ) / (1 + τ) * ((1 + τ) * W) = lam * W - n * τ * W := by
      have : (1 + τ) ≠ 0 := by linarith
      field_simp
    linarith
  -- rows `0 … c-1` and `i`
  let π := Equiv.swap c i
  have πc : π c = i := Equiv.swap_apply_left c i
  have πlt : ∀ r, r < c → π r = r := fun r hr => Equiv.swap_apply_of_ne_of_ne (by omega) (by omega)
  have πn : ∀ p, p < n → π p < n := by
    intro p hp
    rcases eq_or_ne p c with rfl | h
    · rw [πc]; exact hi
    · rcases eq_or_ne p i with rfl | h2
      · rw [show π p = c from Equiv.swap_apply_right c p]; exact hcn
      · rw [show π p = p from Equiv.swap_apply_of_ne_of_ne h h2]; exact hp
  let L3 : ℕ → ℕ → ℝ := fun r k => if r = c then L i k else L r k
  have main := chol_breakdown h0 h1 (n := n) (K := K) (i := c) (A := fun p q => B (π p) (π q)) (L := L3)
    (lam := (lam - n * τ) / (1 + τ)) hcn (fun p q hp hq => Bs _ _ (πn p hp) (πn q hq)) (fun p hp => (Bd _ (πn p hp)).1)
    (div_nonneg (by linarith) (by linarith)) (fun x => by
      have := Bq (fun p => x (π p))
      have e1 := sum_swap hcn hi (fun p => B p p * x (π p) ^ 2)
      have e2 := sum_swap hcn hi (fun p => ∑ q ∈ range n, x (π p) * B p q * x (π q))
      have pp : ∀ p, π (π p) = p := fun p => Equiv.swap_apply_self c i p
      have e3 : ∀ p, ∑ q ∈ range n, x p * B (π p) (π q) * x q = ∑ q ∈ range n, x (π (π p)) * B (π p) q * x (π q) := by
        intro p
        rw [← sum_swap hcn hi (fun q => x (π (π p)) * B (π p) q * x (π q))]
        refine sum_congr rfl fun q _ => ?_
        show _ = x (π (π p)) * B (π p) (π q) * x (π (π q))
        rw [pp, pp]
      rw [← e1, ← e2] at this
      refine le_of_eq_of_le ?_ (this.trans (le_of_eq ?_))
      · refine congrArg _ (sum_congr rfl fun p _ => ?_)
        show _ = B (π p) (π p) * x (π (π p)) ^ 2
        rw [pp]
      · exact sum_congr rfl fun p _ => (e3 p).symm)
    (fun r hr => by simp only [L3]; rw [if_neg (by omega)]; exact hp r hr)
    (fun r k hk hr hkc => by
      have hk3 : ∀ m, L3 k m = L k m := fun m => by simp only [L3]; rw [if_neg (by omega)]
      rcases Nat.lt_or_eq_of_le hr with hrc | rfl
      · obtain ⟨ρ, hρ, e⟩ := hf r k hk hkc (.inl hrc)
        refine ⟨ρ, hρ, ?_⟩
        have : T r k = t r k := by
          simp only [T, T1]
          rw [max_eq_left hk, min_eq_right hk, if_neg (by omega), if_pos ⟨hkc, .inl hrc⟩]
        rw [πlt r hrc, πlt k hkc]
        simp only [B]
        rw [this, e, add_sub_cancel_right]
        refine sum_congr rfl fun m _ => ?_
        rw [hk3, show L3 r m = L r m by simp only [L3]; rw [if_neg (by omega)]]
      · obtain ⟨ρ, hρ, e⟩ := hf i k (by omega) hkc (.inr rfl)
        refine ⟨ρ, hρ, ?_⟩
        have : T i k = t i k := by
          simp only [T, T1]
          rw [max_eq_left (by omega), min_eq_right (by omega), if_neg (by omega), if_pos ⟨hkc, .inr rfl⟩]
        rw [πc, πlt k hkc]
        simp only [B]
        rw [this, e, add_sub_cancel_right]
        refine sum_congr rfl fun m _ => ?_
        rw [hk3, show L3 r m = L i m from if_pos rfl])
    ⟨fun _ => 1 + gam u K, fun _ _ => gam_fac h0 h1 K, by
      beta_reduce
      rw [πc]
      have : T i i = τ * A i i := by
        simp only [T, T1]
        rw [max_self, min_self, if_pos ⟨rfl, rfl⟩]
      simp only [B, L3, if_true]
      rw [this, ← sum_mul]
      linarith⟩
  rw [div_le_iff₀ (by linarith)] at main
  linarith

end Lalib
