import Verif.Proofs.CholPrefix
import Verif.Proofs.IeeeTdmaOk
import Verif.Proofs.IeeeBack

/-! # Cholesky factorisation over IEEE 754 numbers: matrices for which it cannot fail -/

namespace Lalib

open Finset

namespace Fp
variable {F : Fmt}

/-- Differences of products that stay in range. -/
theorem sums_ok {f h : Nat → Fp F} {a : Fp F} {lo c n : Nat} {M : ℝ} (hcn : c ≤ n) (ha : a.IsFin)
    (hf : ∀ k, k < c → (f (lo + k)).IsFin) (hh : ∀ k, k < c → (h (lo + k)).IsFin) (hM : |a.val| ≤ M)
    (hs : ∑ k ∈ range c, |(f (lo + k)).val * (h (lo + k)).val| ≤ M) (hg : gam F.u (n + 1) ≤ 1 / 3)
    (he : (1 + gam F.u (n + 1)) * F.eta * n ≤ M / 3) (ht : 16 * M < F.top) :
    ∀ j, j ≤ c → (subUp (fun k => f k * h k) lo (lo + j) a).IsFin ∧ |(subUp (fun k => f k * h k) lo (lo + j) a).val| ≤ 4 * M := by
  have h0 := F.u_nonneg
  have h1 := F.u_lt_one
  have M0 : 0 ≤ M := (abs_nonneg _).trans hM
  have hu : F.u ≤ 1 / 3 := (u_le_gam h0 h1 (show 1 ≤ n + 1 by omega)).trans hg
  have hη := F.eta_pos
  intro j
  induction j with
  | zero => intro _; rw [Nat.add_zero, subUp_ge _ (le_refl _)]; exact ⟨ha, by linarith⟩
  | succ j ih =>
    intro hj
    obtain ⟨i1, i2⟩ := ih (by omega)
    have n1 : (1 : ℝ) ≤ n := by exact_mod_cast (by omega : 1 ≤ n)
    have η1 : F.eta ≤ M / 3 := by
      have := gam_nonneg h0 h1 (n + 1)
      have p : 0 ≤ gam F.u (n + 1) * F.eta * n := by positivity
      nlinarith
    have t1 : |(f (lo + j)).val * (h (lo + j)).val| ≤ M :=
      (single_le_sum (f := fun k => |(f (lo + k)).val * (h (lo + k)).val|) (fun _ _ => abs_nonneg _)
        (mem_range.mpr (show j < c by omega))).trans hs
    have r1 := F.rnd_le ((f (lo + j)).val * (h (lo + j)).val)
    have r2 : |F.rnd ((f (lo + j)).val * (h (lo + j)).val)| ≤ 2 * M := by nlinarith [abs_nonneg ((f (lo + j)).val * (h (lo + j)).val)]
    obtain ⟨m1, m2⟩ := mul_ok (hf j (by omega)) (hh j (by omega)) (by linarith)
    have d1 : |(subUp (fun k => f k * h k) lo (lo + j) a).val - (f (lo + j) * h (lo + j)).val| ≤ 6 * M := by
      have := abs_sub (subUp (fun k => f k * h k) lo (lo + j) a).val (f (lo + j) * h (lo + j)).val
      rw [m2] at this ⊢
      linarith
    have r3 := F.rnd_le ((subUp (fun k => f k * h k) lo (lo + j) a).val - (f (lo + j) * h (lo + j)).val)
    obtain ⟨s1, _⟩ := sub_ok i1 m1 (by nlinarith [abs_nonneg ((subUp (fun k => f k * h k) lo (lo + j) a).val - (f (lo + j) * h (lo + j)).val)])
    have fin : (subUp (fun k => f k * h k) lo (lo + (j + 1)) a).IsFin := by
      rw [← Nat.add_assoc]
      rw [show lo + j + 1 = lo + (j + 1) by omega, subUp_succ]
      exact s1
    refine ⟨fin, ?_⟩
    obtain ⟨σ, ρ, r, hσ, hρ, hr, e⟩ := sub_prods fin
    have σ0 := hσ.pos h0 h1
    have G := gam_nonneg h0 h1 (n + 1)
    have q1 : |∑ k ∈ range (j + 1), (f (lo + k)).val * (h (lo + k)).val * ρ k| ≤ 4 / 3 * M := by
      refine (abs_sum_le_sum_abs _ _).trans ?_
      have : ∑ k ∈ range (j + 1), |(f (lo + k)).val * (h (lo + k)).val| ≤ M :=
        (sum_le_sum_of_subset_of_nonneg (range_subset_range.mpr hj) fun _ _ _ => abs_nonneg _).trans hs
      calc _ ≤ ∑ k ∈ range (j + 1), 4 / 3 * |(f (lo + k)).val * (h (lo + k)).val| := by
            refine sum_le_sum fun k hk => ?_
            have hk := mem_range.mp hk
            rw [abs_mul, mul_comm]
            refine mul_le_mul_of_nonneg_right ?_ (abs_nonneg _)
            have := ((hρ k).mono h0 h1 (show k + 1 ≤ n + 1 by omega)).abs_le h0 h1
            linarith
        _ = 4 / 3 * ∑ k ∈ range (j + 1), |(f (lo + k)).val * (h (lo + k)).val| := by rw [mul_sum]
        _ ≤ _ := by linarith
    have q2 : |r| ≤ M / 3 := by
      refine hr.trans (le_trans ?_ he)
      refine mul_le_mul (mul_le_mul_of_nonneg_right ?_ hη.le) (by exact_mod_cast (by omega : j + 1 ≤ n)) (Nat.cast_nonneg _)
        (mul_nonneg (by linarith) hη.le)
      have := gam_mono h0 h1 (show j + 1 ≤ n + 1 by omega)
      linarith
    have q3 : |(subUp (fun k => f k * h k) lo (lo + (j + 1)) a).val| * σ ≤ 8 / 3 * M := by
      have e' : (subUp (fun k => f k * h k) lo (lo + (j + 1)) a).val * σ =
          a.val - ∑ k ∈ range (j + 1), (f (lo + k)).val * (h (lo + k)).val * ρ k - r := by rw [e]; ring
      rw [← abs_of_pos σ0, ← abs_mul, e']
      refine (abs_sub _ _).trans ?_
      have := abs_sub a.val (∑ k ∈ range (j + 1), (f (lo + k)).val * (h (lo + k)).val * ρ k)
      linarith
    have q4 : 3 / 4 ≤ σ := by
      have := ((hσ.mono h0 h1 (show j + 1 ≤ n + 1 by omega)).inv h0 h1).abs_le h0 h1
      rw [abs_of_pos (by positivity), div_le_iff₀ σ0] at this
      nlinarith
    nlinarith [abs_nonneg (subUp (fun k => f k * h k) lo (lo + (j + 1)) a).val]

/-- The quotient, before it is known to be in range. -/
theorem cell_real {f h : Nat → Fp F} {a d : Fp F} {c : Nat} (hS : (subUp (fun k => f k * h k) 0 c a).IsFin) (hd : 0 < d.val) :
    ∃ (ρ : ℕ → ℝ) (t : ℝ), (∀ k, k ≤ c → Fac F.u (c + 1) (ρ k)) ∧ |t| ≤ (1 + gam F.u (c + 1)) * F.eta * (c + d.val) ∧
      a.val = ∑ k ∈ range c, (f k).val * (h k).val * ρ k +
        F.rnd ((subUp (fun k => f k * h k) 0 c a).val / d.val) * d.val * ρ c + t := by
  have h0 := F.u_nonneg
  have h1 := F.u_lt_one
  obtain ⟨σ, ρ, r, hσ, hρ, hr, e⟩ := pivot_cell hS
  obtain ⟨φ, ε, hφ, hε, _, ed⟩ := F.rnd_fac ((subUp (fun k => f k * h k) 0 c a).val / d.val)
  have hφ0 := hφ.pos h0 h1
  refine ⟨fun k => if k < c then ρ k else σ / φ, r - ε * d.val * (σ / φ), fun k hk => ?_, ?_, ?_⟩
  · beta_reduce
    split_ifs with q
    · exact (hρ k).mono h0 h1 (by omega)
    · exact hσ.div h0 h1 hφ
  · have b1 := (hσ.div h0 h1 hφ).abs_le h0 h1
    have b2 : |ε * d.val * (σ / φ)| ≤ F.eta * d.val * (1 + gam F.u (c + 1)) := by
      rw [abs_mul, abs_mul, abs_of_pos hd]
      exact mul_le_mul (mul_le_mul_of_nonneg_right hε hd.le) b1 (abs_nonneg _) (mul_nonneg F.eta_pos.le hd.le)
    have b3 : (1 + gam F.u c) * F.eta * c ≤ (1 + gam F.u (c + 1)) * F.eta * c := by
      refine mul_le_mul_of_nonneg_right (mul_le_mul_of_nonneg_right ?_ F.eta_pos.le) (Nat.cast_nonneg _)
      have := gam_mono h0 h1 (show c ≤ c + 1 by omega)
      linarith
    calc _ ≤ _ := abs_sub r (ε * d.val * (σ / φ))
      _ ≤ _ := add_le_add (hr.trans b3) b2
      _ = _ := by ring
  · beta_reduce
    rw [if_neg (lt_irrefl c), sum_congr rfl fun k hk => by rw [if_pos (mem_range.mp hk)], ed, e]
    field_simp
    ring

/-- A row of the factor, or a right-hand side under forward substitution: `D` is (the square root of) its diagonal element. -/
theorem row_ok {L : Nat → Nat → Fp F} {f a : Nat → Fp F} {d : ℕ → ℝ} {i n : Nat} {D τ : ℝ} (hin : i ≤ n) (hD : 0 < D)
    (hd : ∀ k, k < i → 0 < d k) (ha : ∀ k, k < i → (a k).IsFin) (hab : ∀ k, k < i → |(a k).val| ≤ D * d k)
    (hL : ∀ k m, m ≤ k → k < i → (L k m).IsFin) (hp : ∀ k, k < i → 0 < (L k k).val) (hp2 : ∀ k, k < i → (L k k).val ≤ 2 * d k)
    (hrow : ∀ k, k < i → ∑ m ∈ range k, (L k m).val * (L k m).val ≤ d k * d k) (hτ : τ ≤ 1 / 3)
    (hg : gam F.u (n + 1) ≤ 1 / 3) (he : ∀ k, k < i → (1 + gam F.u (n + 1)) * F.eta * (n + 2 * d k) ≤ τ * (D * d k))
    (hDt : D < F.top) (ht : ∀ k, k < i → 16 * (D * d k) < F.top)
    (hcell : ∀ k, k < i → f k = subUp (fun m => f m * L k m) 0 k (a k) / L k k)
    (hPB : ∀ c, c ≤ i → ∀ (z t : ℕ → ℝ), (∀ k, k < c → ∃ ρ : ℕ → ℝ, (∀ m, m ≤ k → Fac F.u (n + 1) (ρ m)) ∧
      (a k).val = ∑ m ∈ range k, z m * (L k m).val * ρ m + z k * (L k k).val * ρ k + t k) →
      (∀ k, k < c → |t k| ≤ τ * (D * d k)) → ∑ k ∈ range c, z k * z k ≤ D * D) :
    (∀ k, k < i → (f k).IsFin ∧ |(f k).val| ≤ D) ∧ ∃ t : ℕ → ℝ, (∀ k, k < i → |t k| ≤ τ * (D * d k)) ∧
      ∀ k, k < i → ∃ ρ : ℕ → ℝ, (∀ m, m ≤ k → Fac F.u (n + 1) (ρ m)) ∧
      (a k).val = ∑ m ∈ range k, (f m).val * (L k m).val * ρ m + (f k).val * (L k k).val * ρ k + t k := by
  have h0 := F.u_nonneg
  have h1 := F.u_lt_one
  have hη := F.eta_pos
  have G := gam_nonneg h0 h1 (n + 1)
  have main : ∀ c, c ≤ i → (∀ k, k < c → (f k).IsFin ∧ |(f k).val| ≤ D) ∧ ∃ t : ℕ → ℝ, (∀ k, k < c → |t k| ≤ τ * (D * d k)) ∧
      ∀ k, k < c → ∃ ρ : ℕ → ℝ, (∀ m, m ≤ k → Fac F.u (n + 1) (ρ m)) ∧
      (a k).val = ∑ m ∈ range k, (f m).val * (L k m).val * ρ m + (f k).val * (L k k).val * ρ k + t k := by
    intro c
    induction c with
    | zero => exact fun _ => ⟨fun k hk => by omega, fun _ => 0, fun k hk => by omega, fun k hk => by omega⟩
    | succ c ih =>
      intro hc
      obtain ⟨i1, t, i2, i3⟩ := ih (by omega)
      have hc' : c < i := by omega
      have dc := hd c hc'
      have P := hPB c (by omega) (fun k => (f k).val) t i3 i2
      have M0 : 0 < D * d c := mul_pos hD dc
      have ec : (1 + gam F.u (n + 1)) * F.eta * n ≤ D * d c / 3 := by
        have p : 0 ≤ (1 + gam F.u (n + 1)) * F.eta * (2 * d c) := by positivity
        have := he c hc'
        nlinarith
      obtain ⟨S1, S2⟩ := sums_ok (f := f) (h := L c) (a := a c) (lo := 0) (c := c) (n := n) (M := D * d c) (by omega) (ha c hc')
        (fun k hk => by rw [Nat.zero_add]; exact (i1 k hk).1) (fun k hk => by rw [Nat.zero_add]; exact hL c k (by omega) hc')
        (hab c hc') (by simpa only [Nat.zero_add] using cs_abs hD.le dc.le P (hrow c hc')) hg ec (ht c hc') c le_rfl
      rw [Nat.zero_add] at S1 S2
      obtain ⟨ρ, s, hρ, hs, e⟩ := cell_real S1 (hp c hc')
      set q := F.rnd ((subUp (fun k => f k * L c k) 0 c (a c)).val / (L c c).val) with hq
      have hs' : |s| ≤ τ * (D * d c) := by
        refine hs.trans (le_trans ?_ (he c hc'))
        have g1 := gam_mono h0 h1 (show c + 1 ≤ n + 1 by omega)
        have cn : (c : ℝ) ≤ n := by exact_mod_cast (by omega : c ≤ n)
        have := hp2 c hc'
        exact mul_le_mul (mul_le_mul_of_nonneg_right (by linarith) hη.le) (by linarith)
          (add_nonneg (Nat.cast_nonneg _) (hp c hc').le) (mul_nonneg (by linarith) hη.le)
      have P2 := hPB (c + 1) hc (fun k => if k < c then (f k).val else q) (fun k => if k < c then t k else s)
        (fun k hk => by
          rcases Nat.lt_or_eq_of_le (Nat.lt_succ_iff.mp hk) with hlt | rfl
          · obtain ⟨ρ', h1', h2'⟩ := i3 k hlt
            refine ⟨ρ', h1', ?_⟩
            rw [if_pos hlt, if_pos hlt, h2']
            exact congrArg₂ _ (congrArg₂ _ (sum_congr rfl fun m hm => by rw [if_pos ((mem_range.mp hm).trans hlt)]) rfl) rfl
          · refine ⟨ρ, fun m hm => (hρ m hm).mono h0 h1 (by omega), ?_⟩
            rw [if_neg (lt_irrefl k), if_neg (lt_irrefl k), e]
            exact congrArg₂ _ (congrArg₂ _ (sum_congr rfl fun m hm => by rw [if_pos (mem_range.mp hm)]) rfl) rfl)
        (fun k hk => by
          rcases Nat.lt_or_eq_of_le (Nat.lt_succ_iff.mp hk) with hlt | rfl
          · rw [if_pos hlt]; exact i2 k hlt
          · rw [if_neg (lt_irrefl k)]; exact hs')
      have qD : |q| ≤ D := by
        refine abs_le_of_sq_le_sq ?_ hD.le
        have := single_le_sum (f := fun k => (if k < c then (f k).val else q) * (if k < c then (f k).val else q))
          (fun k _ => mul_self_nonneg _) (mem_range.mpr (Nat.lt_succ_self c))
        beta_reduce at this
        rw [if_neg (lt_irrefl c)] at this
        rw [pow_two, pow_two]
        exact this.trans P2
      obtain ⟨v1, v2⟩ := div_ok S1 (hL c c le_rfl hc') (hp c hc').ne' (qD.trans_lt hDt)
      rw [← hcell c hc'] at v1 v2
      rw [← hq] at v2
      refine ⟨fun k hk => ?_, fun k => if k < c then t k else s, fun k hk => ?_, fun k hk => ?_⟩
      · rcases Nat.lt_or_eq_of_le (Nat.lt_succ_iff.mp hk) with hlt | rfl
        · exact i1 k hlt
        · exact ⟨v1, by rw [v2]; exact qD⟩
      · beta_reduce
        rcases Nat.lt_or_eq_of_le (Nat.lt_succ_iff.mp hk) with hlt | rfl
        · rw [if_pos hlt]; exact i2 k hlt
        · rw [if_neg (lt_irrefl k)]; exact hs'
      · beta_reduce
        rcases Nat.lt_or_eq_of_le (Nat.lt_succ_iff.mp hk) with hlt | rfl
        · rw [if_pos hlt]; exact i3 k hlt
        · refine ⟨ρ, fun m hm => (hρ m hm).mono h0 h1 (by omega), ?_⟩
          rw [if_neg (lt_irrefl k), v2, e]
  exact main i le_rfl

/-- The hypotheses on the constants, in the form used below. -/
theorem chol_const {n : Nat} {lam : ℝ} (hn : 0 < n) (h1 : lam ≤ 1) (h : 3 * (n * gam F.u (6 * (n + 1))) < lam) :
    gam F.u (6 * (n + 1)) ≤ 1 / 3 ∧ gam F.u (n + 1) ≤ 1 / 3 ∧
      n * gam F.u (6 * (n + 1)) * (1 + gam F.u (6 * (n + 1))) + n * gam F.u (6 * (n + 1)) < lam := by
  have u0 := F.u_nonneg
  have u1 := F.u_lt_one
  have G := gam_nonneg u0 u1 (6 * (n + 1))
  have m := gam_mono u0 u1 (show n + 1 ≤ 6 * (n + 1) by omega)
  have n1 : (1 : ℝ) ≤ n := by exact_mod_cast hn
  have a : gam F.u (6 * (n + 1)) ≤ n * gam F.u (6 * (n + 1)) := le_mul_of_one_le_left G n1
  have b : gam F.u (6 * (n + 1)) ≤ 1 / 3 := by linarith
  refine ⟨b, by linarith, ?_⟩
  have : n * gam F.u (6 * (n + 1)) * (1 + gam F.u (6 * (n + 1))) ≤ n * gam F.u (6 * (n + 1)) * 2 :=
    mul_le_mul_of_nonneg_left (by linarith) (by linarith)
  linarith

/-- Underflows are no larger than rounding errors. -/
theorem chol_under {n : Nat} {d D : ℝ} (hd : 0 ≤ d) (hD : 0 ≤ D) (h : F.eta * (n + 2 * d) ≤ F.u * (D * d)) :
    (1 + gam F.u (n + 1)) * F.eta * (n + 2 * d) ≤ gam F.u (6 * (n + 1)) * (D * d) := by
  have u0 := F.u_nonneg
  have u1 := F.u_lt_one
  have G := gam_nonneg u0 u1 (n + 1)
  have a : gam F.u 1 * (1 + gam F.u (n + 1)) ≤ gam F.u (6 * (n + 1)) :=
    (gam_mul_le u0 u1 1 (n + 1)).trans (gam_mono u0 u1 (by omega))
  have b := u_le_gam u0 u1 (show 1 ≤ 1 by omega)
  calc _ = (1 + gam F.u (n + 1)) * (F.eta * (n + 2 * d)) := by ring
    _ ≤ (1 + gam F.u (n + 1)) * (F.u * (D * d)) := mul_le_mul_of_nonneg_left h (by linarith)
    _ = F.u * (1 + gam F.u (n + 1)) * (D * d) := by ring
    _ ≤ gam F.u (6 * (n + 1)) * (D * d) := by
      refine mul_le_mul_of_nonneg_right (le_trans ?_ a) (mul_nonneg hD hd)
      exact mul_le_mul_of_nonneg_right b (by linarith)

theorem sqrt_lt_top {x : ℝ} (h : 16 * x < F.top) : Real.sqrt x < F.top := by
  rcases le_total x 1 with h1 | h1
  · refine lt_of_le_of_lt ?_ F.isMag_one.2.2
    rw [Real.sqrt_le_left (by norm_num)]; linarith
  · refine lt_of_le_of_lt ?_ (show x < F.top by linarith)
    rw [Real.sqrt_le_left (by linarith)]
    nlinarith

theorem sqrt_prod_top {x y : ℝ} (hx : 0 ≤ x) (hy : 0 ≤ y) (h : 16 * x < F.top) (h' : 16 * y < F.top) :
    16 * (Real.sqrt x * Real.sqrt y) < F.top := by
  have a := Real.mul_self_sqrt hx
  have b := Real.mul_self_sqrt hy
  nlinarith [sq_nonneg (Real.sqrt x - Real.sqrt y)]

/-- `chol_prefix` with the underflows as part of each entry. -/
theorem chol_prefix' {n i c : ℕ} {A L : ℕ → ℕ → ℝ} {lam : ℝ} (hi : i < n) (hc : c ≤ i) (hs : Symm n A)
    (hA : ∀ p, p < n → 0 < A p p)
    (hq : ∀ x : ℕ → ℝ, lam * ∑ p ∈ range n, A p p * x p ^ 2 ≤ ∑ p ∈ range n, ∑ q ∈ range n, x p * A p q * x q)
    {K : ℕ} {τ : ℝ} (hτ : 0 ≤ τ) (hlam : n * gam F.u (6 * K) * (1 + τ) + n * τ < lam) (hp : ∀ r, r < c → 0 < L r r)
    (hf : ∀ r k, k ≤ r → k < c → (r < c ∨ r = i) → ∃ (ρ : ℕ → ℝ) (t : ℝ), (∀ m, m ≤ k → Fac F.u K (ρ m)) ∧
      |t| ≤ τ * (Real.sqrt (A r r) * Real.sqrt (A k k)) ∧
      A r k = ∑ m ∈ range k, L r m * L k m * ρ m + L r k * L k k * ρ k + t) :
    (1 + gam F.u K) * ∑ k ∈ range c, L i k * L i k < (1 - τ) * A i i := by
  have : ∀ r k, ∃ (ρ : ℕ → ℝ) (t : ℝ), k ≤ r → k < c → (r < c ∨ r = i) → (∀ m, m ≤ k → Fac F.u K (ρ m)) ∧
      |t| ≤ τ * (Real.sqrt (A r r) * Real.sqrt (A k k)) ∧
      A r k = ∑ m ∈ range k, L r m * L k m * ρ m + L r k * L k k * ρ k + t := by
    intro r k
    by_cases h : k ≤ r ∧ k < c ∧ (r < c ∨ r = i)
    · obtain ⟨ρ, t, e⟩ := hf r k h.1 h.2.1 h.2.2
      exact ⟨ρ, t, fun _ _ _ => e⟩
    · exact ⟨fun _ => 0, 0, fun a b c => absurd ⟨a, b, c⟩ h⟩
  choose ρ t e using this
  refine chol_prefix F.u_nonneg F.u_lt_one hτ (t := t) hi hc hs hA hq hlam hp (fun r k h1 h2 h3 => ?_) fun r k h1 h2 h3 => ?_
  · exact ⟨ρ r k, (e r k h1 h2 h3).1, by rw [sum_range_succ]; exact (e r k h1 h2 h3).2.2⟩
  · exact (e r k h1 h2 h3).2.1

variable {n : Nat} {A L : Nat → Nat → Fp F} {lam : ℝ}

/-- Row `r` of the factor: in range, and the pivot is positive. -/
theorem chol_row_ok (hAf : ∀ i j, j ≤ i → i < n → (A i j).IsFin) (hs : Symm n (mat A)) (hp : ∀ p, p < n → 0 < (A p p).val)
    (hq : ∀ x : ℕ → ℝ, lam * ∑ p ∈ range n, (A p p).val * x p ^ 2 ≤ ∑ p ∈ range n, ∑ q ∈ range n, x p * (A p q).val * x q)
    (hlam : 3 * (n * gam F.u (6 * (n + 1))) < lam)
    (he : ∀ i j, i < n → j < n → F.eta * (n + 2 * Real.sqrt (A j j).val) ≤ F.u * (Real.sqrt (A i i).val * Real.sqrt (A j j).val))
    (ht : ∀ p, p < n → 16 * (A p p).val < F.top) {i : Nat} (hi : i < n) (hU : Chol.Upto A L i) :
    ∀ r, r ≤ i → (∀ c, c < r → (L r c).IsFin) ∧ ∑ c ∈ range r, (L r c).val * (L r c).val ≤ (A r r).val ∧
      (subUp (fun k => L r k * L r k) 0 r (A r r)).IsFin ∧ 0 < (subUp (fun k => L r k * L r k) 0 r (A r r)).val ∧
      (L r r = Sqrt.sqrt (subUp (fun k => L r k * L r k) 0 r (A r r)) →
        (L r r).IsFin ∧ 0 < (L r r).val ∧ (L r r).val ≤ 2 * Real.sqrt (A r r).val) := by
  have u0 := F.u_nonneg
  have u1 := F.u_lt_one
  have hη := F.eta_pos
  have G := gam_nonneg u0 u1 (n + 1)
  have T := gam_nonneg u0 u1 (6 * (n + 1))
  have l1 := form_le_one (A := mat A) hp hq (by omega)
  obtain ⟨τ1, g1, hl⟩ := chol_const (F := F) (by omega) l1 hlam
  have l0 : 0 ≤ lam := by
    have : 0 ≤ (n : ℝ) * gam F.u (6 * (n + 1)) := by positivity
    linarith
  set d : ℕ → ℝ := fun p => Real.sqrt (A p p).val with hd
  have d0 : ∀ p, p < n → 0 < d p := fun p h => Real.sqrt_pos.mpr (hp p h)
  have dd : ∀ p, p < n → d p * d p = (A p p).val := fun p h => Real.mul_self_sqrt (hp p h).le
  have he' : ∀ i j, i < n → j < n → (1 + gam F.u (n + 1)) * F.eta * (n + 2 * d j) ≤ gam F.u (6 * (n + 1)) * (d i * d j) :=
    fun i j hi hj => chol_under (d0 j hj).le (d0 i hi).le (he i j hi hj)
  intro r
  induction r using Nat.strong_induction_on with
  | _ r ih =>
  intro hr
  have hrn : r < n := by omega
  have row : ∀ k, k < r → (∀ m, m ≤ k → (L k m).IsFin) ∧ 0 < (L k k).val ∧ (L k k).val ≤ 2 * d k ∧
      ∑ m ∈ range k, (L k m).val * (L k m).val ≤ d k * d k := by
    intro k hk
    obtain ⟨a, b, _, _, e⟩ := ih k hk (by omega)
    obtain ⟨e1, e2, e3⟩ := e (hU.diag k (by omega))
    refine ⟨fun m hm => ?_, e2, e3, by rw [dd k (by omega)]; exact b⟩
    rcases Nat.lt_or_eq_of_le hm with h | rfl
    · exact a m h
    · exact e1
  -- the entries of the rows above
  have ent : ∀ s k, k ≤ s → s < r → ∃ (ρ : ℕ → ℝ) (t : ℝ), (∀ m, m ≤ k → Fac F.u (n + 1) (ρ m)) ∧
      |t| ≤ gam F.u (6 * (n + 1)) * (d s * d k) ∧
      (A s k).val = ∑ m ∈ range k, (L s m).val * (L k m).val * ρ m + (L s k).val * (L k k).val * ρ k + t := by
    intro s k hk hsr
    have kn : k < n := by omega
    have small : ∀ (j : ℕ) (x y : ℝ), 0 ≤ x → j ≤ n + 1 → x ≤ n + 2 * d k → y = (1 + gam F.u j) * F.eta * x →
        y ≤ gam F.u (6 * (n + 1)) * (d s * d k) := by
      intro j x y hx hj hxy hy
      rw [hy]
      refine le_trans ?_ (he' s k (by omega) kn)
      have := gam_mono u0 u1 hj
      exact mul_le_mul (mul_le_mul_of_nonneg_right (by linarith) hη.le) hxy hx (mul_nonneg (by linarith) hη.le)
    have kr : (k : ℝ) ≤ n := by exact_mod_cast kn.le
    rcases Nat.lt_or_eq_of_le hk with hlt | rfl
    · obtain ⟨r1, r2, r3, _⟩ := row k (by omega)
      obtain ⟨ρ, t, h1, h2, h3⟩ := chol_cell (hU.off s k hlt (by omega)) ((row s hsr).1 k hk) (r1 k le_rfl)
      refine ⟨ρ, t, fun m hm => (h1 m hm).mono u0 u1 (by omega), h2.trans ?_, h3⟩
      rw [abs_of_pos r2]
      exact small (k + 1) (k + (L k k).val) _ (by positivity) (by omega) (by linarith) rfl
    · obtain ⟨r1, r2, r3, _⟩ := row k hsr
      obtain ⟨ρ, t, h1, _, h2, h3⟩ := chol_diag (r1 k le_rfl) (fun hz => r2.ne' ((isZ_iff _).mp hz).2) (hU.diag k (by omega))
      refine ⟨ρ, t, fun m hm => (h1 m hm).mono u0 u1 (by omega), h2.trans ?_, h3⟩
      exact small k k _ (by positivity) (by omega) (by have := d0 k kn; linarith) rfl
  -- the first numbers of this row
  have PB : ∀ c, c ≤ r → ∀ (z t : ℕ → ℝ), (∀ k, k < c → ∃ ρ : ℕ → ℝ, (∀ m, m ≤ k → Fac F.u (n + 1) (ρ m)) ∧
      (A r k).val = ∑ m ∈ range k, z m * (L k m).val * ρ m + z k * (L k k).val * ρ k + t k) →
      (∀ k, k < c → |t k| ≤ gam F.u (6 * (n + 1)) * (d r * d k)) →
      (1 + gam F.u (n + 1)) * ∑ k ∈ range c, z k * z k < (1 - gam F.u (6 * (n + 1))) * (A r r).val := by
    intro c hc z t hz htz
    have key := chol_prefix' (F := F) (n := n) (i := r) (c := c) (A := mat A) (L := fun s k => if s = r then z k else (L s k).val)
      hrn hc hs hp hq T hl
      (fun s hsc => by rw [if_neg (by omega)]; exact (row s (by omega)).2.1)
      (fun s k hks hkc hsc => by
        rw [if_neg (show k ≠ r by omega)]
        simp only [if_neg (show k ≠ r by omega)]
        rcases hsc with hsc | rfl
        · rw [if_neg (show s ≠ r by omega)]
          simp only [if_neg (show s ≠ r by omega)]
          exact ent s k hks (by omega)
        · rw [if_pos rfl]
          simp only [if_true]
          obtain ⟨ρ, h1, h2⟩ := hz k hkc
          exact ⟨ρ, t k, h1, htz k hkc, h2⟩)
    simp only [if_true] at key
    exact key
  have weak : ∀ S : ℝ, 0 ≤ S → (1 + gam F.u (n + 1)) * S < (1 - gam F.u (6 * (n + 1))) * (A r r).val → S ≤ d r * d r := by
    intro S hS h
    rw [dd r hrn]
    have := hp r hrn
    nlinarith [mul_nonneg G hS, mul_nonneg T this.le]
  obtain ⟨fin, t, ht1, ht2⟩ := row_ok (L := L) (f := L r) (a := A r) (d := d) (i := r) (n := n) (D := d r)
    (τ := gam F.u (6 * (n + 1))) hrn.le (d0 r hrn) (fun k hk => d0 k (by omega)) (fun k hk => hAf r k hk.le hrn)
    (fun k hk => form_ent (A := mat A) hs hp l0 hq hrn (by omega)) (fun k m hm hk => (row k hk).1 m hm)
    (fun k hk => (row k hk).2.1) (fun k hk => (row k hk).2.2.1) (fun k hk => (row k hk).2.2.2) τ1 g1
    (fun k hk => he' r k hrn (by omega)) (sqrt_lt_top (ht r hrn))
    (fun k hk => sqrt_prod_top (hp r hrn).le (hp k (by omega)).le (ht r hrn) (ht k (by omega)))
    (fun k hk => hU.off r k hk hr)
    (fun c hc z t hz htz => weak _ (sum_nonneg fun _ _ => mul_self_nonneg _) (PB c hc z t hz htz))
  have pre := PB r le_rfl (fun k => (L r k).val) t ht2 ht1
  have pre' := weak _ (sum_nonneg fun _ _ => mul_self_nonneg _) pre
  have eη : (1 + gam F.u (n + 1)) * F.eta * n ≤ gam F.u (6 * (n + 1)) * (d r * d r) := by
    refine le_trans ?_ (he' r r hrn hrn)
    exact mul_le_mul_of_nonneg_left (by have := d0 r hrn; linarith) (mul_nonneg (by linarith) hη.le)
  have Ar := hp r hrn
  obtain ⟨S1, S2⟩ := sums_ok (f := L r) (h := L r) (a := A r r) (lo := 0) (c := r) (n := n) (M := d r * d r) hrn.le
    (hAf r r le_rfl hrn) (fun k hk => by rw [Nat.zero_add]; exact (fin k hk).1)
    (fun k hk => by rw [Nat.zero_add]; exact (fin k hk).1) (by rw [dd r hrn, abs_of_pos Ar])
    (by simpa only [Nat.zero_add, abs_mul_self] using pre') g1
    (eη.trans (by rw [dd r hrn]; nlinarith)) (by rw [dd r hrn]; exact ht r hrn) r le_rfl
  rw [Nat.zero_add] at S1 S2
  obtain ⟨σ, ρ, w, hσ, hρ, hw, e⟩ := pivot_cell S1
  have wb : |w| ≤ gam F.u (6 * (n + 1)) * (A r r).val := by
    rw [← dd r hrn]
    refine hw.trans (le_trans ?_ eη)
    have := gam_mono u0 u1 (show r ≤ n + 1 by omega)
    exact mul_le_mul (mul_le_mul_of_nonneg_right (by linarith) hη.le) (by exact_mod_cast hrn.le) (Nat.cast_nonneg _)
      (mul_nonneg (by linarith) hη.le)
  have sb : ∑ k ∈ range r, (L r k).val * (L r k).val * ρ k ≤ (1 + gam F.u (n + 1)) * ∑ k ∈ range r, (L r k).val * (L r k).val := by
    rw [mul_sum]
    refine sum_le_sum fun k hk => ?_
    have hk := mem_range.mp hk
    rw [mul_comm]
    refine mul_le_mul_of_nonneg_right ?_ (mul_self_nonneg _)
    exact (le_abs_self _).trans (((hρ k).mono u0 u1 (show k + 1 ≤ n + 1 by omega)).abs_le u0 u1)
  have σ0 := hσ.pos u0 u1
  have Sp : 0 < (subUp (fun k => L r k * L r k) 0 r (A r r)).val := by
    have : 0 < (subUp (fun k => L r k * L r k) 0 r (A r r)).val * σ := by
      have := abs_le.mp wb
      linarith
    exact pos_of_mul_pos_left this σ0.le
  refine ⟨fun c hc => (fin c hc).1, by rw [← dd r hrn]; exact pre', S1, Sp, fun eL => ?_⟩
  have f1 : (L r r).IsFin := by rw [eL]; exact (isFin_sqrt _).mpr ⟨S1, Sp.le⟩
  have z1 : ¬ IsZ (L r r) := by
    rw [eL]; exact sqrt_nz fun hz => Sp.ne' ((isZ_iff _).mp hz).2
  obtain ⟨ρ', w', hρ', hpos, hw', e'⟩ := chol_diag f1 z1 eL
  refine ⟨f1, hpos, ?_⟩
  have w2 : |w'| ≤ gam F.u (6 * (n + 1)) * (A r r).val := by
    rw [← dd r hrn]
    refine hw'.trans (le_trans ?_ eη)
    have := gam_mono u0 u1 (show r ≤ n + 1 by omega)
    exact mul_le_mul (mul_le_mul_of_nonneg_right (by linarith) hη.le) (by exact_mod_cast hrn.le) (Nat.cast_nonneg _)
      (mul_nonneg (by linarith) hη.le)
  have s2 : 0 ≤ ∑ k ∈ range r, (L r k).val * (L r k).val * ρ' k :=
    sum_nonneg fun k hk => mul_nonneg (mul_self_nonneg _) ((hρ' k (mem_range.mp hk).le).pos u0 u1).le
  have q4 : 3 / 4 ≤ ρ' r := by
    have p := (hρ' r le_rfl).pos u0 u1
    have := (((hρ' r le_rfl).mono u0 u1 (show r + 2 ≤ n + 1 by omega)).inv u0 u1).abs_le u0 u1
    rw [abs_of_pos (by positivity), div_le_iff₀ p] at this
    nlinarith
  refine le_of_sq_le_sq ?_ (by have := d0 r hrn; linarith)
  rw [mul_pow, pow_two (d r), dd r hrn, pow_two]
  have := abs_le.mp w2
  nlinarith [mul_self_nonneg (L r r).val]

end Fp

end Lalib
