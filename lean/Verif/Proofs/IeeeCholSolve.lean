import Verif.Proofs.CholBack
import Verif.Proofs.IeeeCholOk

/-! # Solving with a Cholesky factor over IEEE 754 numbers: systems for which it cannot fail -/

namespace Lalib

open Finset

theorem quad_nonneg {P Q z s : ℝ} (hP : 0 ≤ P) (hQ : 0 ≤ Q) (h : z ^ 2 ≤ P * Q) : 0 ≤ P - 2 * (s * z) + Q * s ^ 2 := by
  rcases hP.eq_or_lt with rfl | hP
  · have : z = 0 := by nlinarith
    subst this
    nlinarith [mul_nonneg hQ (sq_nonneg s)]
  · have : 0 ≤ P * (P - 2 * (s * z) + Q * s ^ 2) := by
      nlinarith [sq_nonneg (P - s * z), mul_nonneg (sq_nonneg s) (sub_nonneg.mpr h)]
    exact nonneg_of_mul_nonneg_right this hP

/-- The matrix with the right-hand side as one more row and column. -/
noncomputable def augment (n : ℕ) (A : ℕ → ℕ → ℝ) (b : ℕ → ℝ) (D : ℝ) (p q : ℕ) : ℝ :=
  if p = n then if q = n then D * D else b q else if q = n then b p else A p q

/-- Its quadratic form. -/
theorem augment_form {n : ℕ} {A : ℕ → ℕ → ℝ} {b : ℕ → ℝ} {lam D : ℝ} (hA : ∀ p, p < n → 0 < A p p) (l0 : 0 ≤ lam) (l1 : lam ≤ 1)
    (hq : ∀ x : ℕ → ℝ, lam * ∑ p ∈ range n, A p p * x p ^ 2 ≤ ∑ p ∈ range n, ∑ q ∈ range n, x p * A p q * x q)
    (hb : 4 * ∑ p ∈ range n, b p ^ 2 / A p p ≤ lam * (D * D)) (x : ℕ → ℝ) :
    lam / 2 * ∑ p ∈ range (n + 1), augment n A b D p p * x p ^ 2 ≤
      ∑ p ∈ range (n + 1), ∑ q ∈ range (n + 1), x p * augment n A b D p q * x q := by
  have ne : ∀ p ∈ range n, p ≠ n := fun p hp => (mem_range.mp hp).ne
  have e1 : ∑ p ∈ range (n + 1), augment n A b D p p * x p ^ 2 = ∑ p ∈ range n, A p p * x p ^ 2 + D * D * x n ^ 2 := by
    rw [sum_range_succ]
    refine congrArg₂ _ (sum_congr rfl fun p hp => ?_) ?_
    · rw [augment, if_neg (ne p hp), if_neg (ne p hp)]
    · rw [augment, if_pos rfl, if_pos rfl]
  have e2 : ∑ p ∈ range (n + 1), ∑ q ∈ range (n + 1), x p * augment n A b D p q * x q =
      ∑ p ∈ range n, ∑ q ∈ range n, x p * A p q * x q + 2 * (x n * ∑ p ∈ range n, b p * x p) + D * D * x n ^ 2 := by
    rw [sum_range_succ]
    have r1 : ∑ q ∈ range (n + 1), x n * augment n A b D n q * x q = x n * ∑ p ∈ range n, b p * x p + D * D * x n ^ 2 := by
      rw [sum_range_succ, mul_sum]
      refine congrArg₂ _ (sum_congr rfl fun q hq => ?_) ?_
      · rw [augment, if_pos rfl, if_neg (ne q hq)]; ring
      · rw [augment, if_pos rfl, if_pos rfl]; ring
    have r2 : ∑ p ∈ range n, ∑ q ∈ range (n + 1), x p * augment n A b D p q * x q =
        ∑ p ∈ range n, ∑ q ∈ range n, x p * A p q * x q + x n * ∑ p ∈ range n, b p * x p := by
      rw [mul_sum, ← sum_add_distrib]
      refine sum_congr rfl fun p hp => ?_
      rw [sum_range_succ]
      refine congrArg₂ _ (sum_congr rfl fun q hq => ?_) ?_
      · rw [augment, if_neg (ne p hp), if_neg (ne q hq)]
      · rw [augment, if_neg (ne p hp), if_pos rfl]; ring
    rw [r1, r2]; ring
  rw [e1, e2]
  set W := ∑ p ∈ range n, A p p * x p ^ 2 with hW
  have W0 : 0 ≤ W := sum_nonneg fun p hp => mul_nonneg (hA p (mem_range.mp hp)).le (sq_nonneg _)
  set z := ∑ p ∈ range n, b p * x p with hz
  have cs : z ^ 2 ≤ (∑ p ∈ range n, b p ^ 2 / A p p) * W := by
    have cs := sum_mul_sq_le_sq_mul_sq (range n) (fun k => b k / Real.sqrt (A k k)) (fun k => Real.sqrt (A k k) * x k)
    have a1 : ∑ k ∈ range n, b k / Real.sqrt (A k k) * (Real.sqrt (A k k) * x k) = z := by
      refine sum_congr rfl fun k hk => ?_
      have := Real.sqrt_pos.mpr (hA k (mem_range.mp hk))
      field_simp
    have a2 : ∑ k ∈ range n, (b k / Real.sqrt (A k k)) ^ 2 = ∑ k ∈ range n, b k ^ 2 / A k k :=
      sum_congr rfl fun k hk => by rw [div_pow, Real.sq_sqrt (hA k (mem_range.mp hk)).le]
    have a3 : ∑ k ∈ range n, (Real.sqrt (A k k) * x k) ^ 2 = W :=
      sum_congr rfl fun k hk => by rw [mul_pow, Real.sq_sqrt (hA k (mem_range.mp hk)).le]
    rwa [a1, a2, a3] at cs
  have D0 := mul_self_nonneg D
  have key := quad_nonneg (P := lam / 2 * W) (Q := D * D / 2) (z := -z) (s := x n) (mul_nonneg (by linarith) W0) (by linarith) (by
    have := mul_le_mul_of_nonneg_right hb W0
    rw [neg_sq]
    linarith)
  have h1 := hq x
  have h2 : 0 ≤ (1 - lam) / 2 * (D * D * x n ^ 2) := by have := mul_nonneg D0 (sq_nonneg (x n)); nlinarith
  nlinarith

namespace Fp
variable {F : Fmt} {n : Nat} {A L : Nat → Nat → Fp F} {lam : ℝ}

/-- What is known about a factor. -/
structure CholFit (n : Nat) (A L : Nat → Nat → Fp F) : Prop where
  fin : ∀ r m, m ≤ r → r < n → (L r m).IsFin
  pos : ∀ r, r < n → 0 < (L r r).val
  diag : ∀ r, r < n → (L r r).val ≤ 2 * Real.sqrt (A r r).val
  row : ∀ r, r < n → ∑ m ∈ range r, (L r m).val * (L r m).val ≤ Real.sqrt (A r r).val * Real.sqrt (A r r).val
  ent : ∀ s k, k ≤ s → s < n → ∃ (ρ : ℕ → ℝ) (t : ℝ), (∀ m, m ≤ k → Fac F.u (n + 1) (ρ m)) ∧
    |t| ≤ gam F.u (6 * (n + 1)) * (Real.sqrt (A s s).val * Real.sqrt (A k k).val) ∧
    (A s k).val = ∑ m ∈ range k, (L s m).val * (L k m).val * ρ m + (L s k).val * (L k k).val * ρ k + t

theorem chol_fit (hAf : ∀ i j, j ≤ i → i < n → (A i j).IsFin) (hs : Symm n (mat A)) (hp : ∀ p, p < n → 0 < (A p p).val)
    (hq : ∀ x : ℕ → ℝ, lam * ∑ p ∈ range n, (A p p).val * x p ^ 2 ≤ ∑ p ∈ range n, ∑ q ∈ range n, x p * (A p q).val * x q)
    (hlam : 3 * (n * gam F.u (6 * (n + 1))) < lam)
    (he : ∀ i j, i < n → j < n → F.eta * (n + 2 * Real.sqrt (A j j).val) ≤ F.u * (Real.sqrt (A i i).val * Real.sqrt (A j j).val))
    (ht : ∀ p, p < n → 16 * (A p p).val < F.top) (hr : CholRec n A L) : CholFit n A L := by
  have u0 := F.u_nonneg
  have u1 := F.u_lt_one
  have hη := F.eta_pos
  have G := gam_nonneg u0 u1 (n + 1)
  have up : ∀ i, i < n → Chol.Upto A L i := fun i hi =>
    ⟨fun r c hc hr' => (hr r (by omega)).1 c hc, fun r hr' => (hr r (by omega)).2⟩
  have row : ∀ r, r < n → (∀ m, m ≤ r → (L r m).IsFin) ∧ 0 < (L r r).val ∧ (L r r).val ≤ 2 * Real.sqrt (A r r).val ∧
      ∑ m ∈ range r, (L r m).val * (L r m).val ≤ Real.sqrt (A r r).val * Real.sqrt (A r r).val := by
    intro r hr'
    obtain ⟨a, b, _, _, e⟩ := chol_row_ok hAf hs hp hq hlam he ht hr' (up r hr') r le_rfl
    obtain ⟨e1, e2, e3⟩ := e (hr r hr').2
    refine ⟨fun m hm => ?_, e2, e3, by rw [Real.mul_self_sqrt (hp r hr').le]; exact b⟩
    rcases Nat.lt_or_eq_of_le hm with h | rfl
    · exact a m h
    · exact e1
  refine ⟨fun r m hm h => (row r h).1 m hm, fun r h => (row r h).2.1, fun r h => (row r h).2.2.1, fun r h => (row r h).2.2.2, ?_⟩
  intro s k hk hsn
  have kn : k < n := by omega
  have small : ∀ (j : ℕ) (x y : ℝ), 0 ≤ x → j ≤ n + 1 → x ≤ n + 2 * Real.sqrt (A k k).val → y = (1 + gam F.u j) * F.eta * x →
      y ≤ gam F.u (6 * (n + 1)) * (Real.sqrt (A s s).val * Real.sqrt (A k k).val) := by
    intro j x y hx hj hxy hy
    rw [hy]
    refine le_trans ?_ (chol_under (Real.sqrt_nonneg _) (Real.sqrt_nonneg _) (he s k hsn kn))
    have := gam_mono u0 u1 hj
    exact mul_le_mul (mul_le_mul_of_nonneg_right (by linarith) hη.le) hxy hx (mul_nonneg (by linarith) hη.le)
  have kr : (k : ℝ) ≤ n := by exact_mod_cast kn.le
  obtain ⟨r1, r2, r3, _⟩ := row k kn
  rcases Nat.lt_or_eq_of_le hk with hlt | rfl
  · obtain ⟨ρ, t, h1, h2, h3⟩ := chol_cell ((hr s hsn).1 k hlt) ((row s hsn).1 k hk) (r1 k le_rfl)
    refine ⟨ρ, t, fun m hm => (h1 m hm).mono u0 u1 (by omega), h2.trans ?_, h3⟩
    rw [abs_of_pos r2]
    exact small (k + 1) (k + (L k k).val) _ (by positivity) (by omega) (by linarith) rfl
  · obtain ⟨ρ, t, h1, _, h2, h3⟩ := chol_diag (r1 k le_rfl) (fun hz => r2.ne' ((isZ_iff _).mp hz).2) (hr k hsn).2
    refine ⟨ρ, t, fun m hm => (h1 m hm).mono u0 u1 (by omega), h2.trans ?_, h3⟩
    exact small k k _ (by positivity) (by omega) (by have := Real.sqrt_nonneg (A k k).val; linarith) rfl

/-- Forward substitution. -/
theorem fwd_ok (hs : Symm n (mat A)) (hp : ∀ p, p < n → 0 < (A p p).val)
    (hq : ∀ x : ℕ → ℝ, lam * ∑ p ∈ range n, (A p p).val * x p ^ 2 ≤ ∑ p ∈ range n, ∑ q ∈ range n, x p * (A p q).val * x q)
    (hlam : 6 * ((n + 1) * gam F.u (6 * (n + 1))) < lam) (hn : 0 < n) (hL : CholFit n A L) {b y : Nat → Fp F} {D : ℝ} (hD : 0 < D)
    (hb : ∀ i, i < n → (b i).IsFin) (hbD : 4 * ∑ p ∈ range n, (b p).val ^ 2 / (A p p).val ≤ lam * (D * D))
    (he : ∀ j, j < n → F.eta * (n + 2 * Real.sqrt (A j j).val) ≤ F.u * (D * Real.sqrt (A j j).val))
    (hDt : D < F.top) (ht : ∀ p, p < n → 16 * (D * Real.sqrt (A p p).val) < F.top) (h : FwdSubRec n L b y) :
    (∀ k, k < n → (y k).IsFin) ∧ ∑ k ∈ range n, (y k).val * (y k).val ≤ D * D := by
  have u0 := F.u_nonneg
  have u1 := F.u_lt_one
  have T := gam_nonneg u0 u1 (6 * (n + 1))
  have G := gam_nonneg u0 u1 (n + 1)
  have nT : 0 ≤ ((n : ℝ) + 1) * gam F.u (6 * (n + 1)) := by positivity
  have nT' : (n : ℝ) * gam F.u (6 * (n + 1)) ≤ (n + 1) * gam F.u (6 * (n + 1)) := by linarith
  have l1 := form_le_one (A := mat A) hp hq hn
  obtain ⟨τ1, g1, _⟩ := chol_const (F := F) (lam := lam) hn l1 (by linarith)
  have hl : ((n + 1 : ℕ) : ℝ) * gam F.u (6 * (n + 1)) * (1 + gam F.u (6 * (n + 1))) + ((n + 1 : ℕ) : ℝ) * gam F.u (6 * (n + 1)) < lam / 2 := by
    push_cast
    nlinarith
  have hA' : ∀ p, p < n + 1 → 0 < augment n (mat A) (fun i => (b i).val) D p p := by
    intro p hp'
    unfold augment
    split_ifs with h'
    · exact mul_pos hD hD
    · exact hp p (by omega)
  have hs' : Symm (n + 1) (augment n (mat A) (fun i => (b i).val) D) := by
    intro p q hp' hq'
    unfold augment
    split_ifs with h1 h2 h2
    · rfl
    · rfl
    · rfl
    · exact hs p q (by omega) (by omega)
  have PB : ∀ c, c ≤ n → ∀ (z t : ℕ → ℝ), (∀ k, k < c → ∃ ρ : ℕ → ℝ, (∀ m, m ≤ k → Fac F.u (n + 1) (ρ m)) ∧
      (b k).val = ∑ m ∈ range k, z m * (L k m).val * ρ m + z k * (L k k).val * ρ k + t k) →
      (∀ k, k < c → |t k| ≤ gam F.u (6 * (n + 1)) * (D * Real.sqrt (A k k).val)) → ∑ k ∈ range c, z k * z k ≤ D * D := by
    intro c hc z t hz htz
    have key := chol_prefix' (F := F) (n := n + 1) (i := n) (c := c) (A := augment n (mat A) (fun i => (b i).val) D)
      (L := fun s k => if s = n then z k else (L s k).val) (by omega) hc hs' hA'
      (augment_form hp (by linarith) l1 hq hbD) T hl
      (fun s hsc => by rw [if_neg (by omega)]; exact hL.pos s (by omega))
      (fun s k hks hkc hsc => by
        have kn : k ≠ n := by omega
        have ak : augment n (mat A) (fun i => (b i).val) D k k = (A k k).val := by
          unfold augment; rw [if_neg kn, if_neg kn]; rfl
        simp only [if_neg kn, ak]
        rcases hsc with hsc | rfl
        · have sn : s ≠ n := by omega
          have as : augment n (mat A) (fun i => (b i).val) D s s = (A s s).val := by
            unfold augment; rw [if_neg sn, if_neg sn]; rfl
          have ask : augment n (mat A) (fun i => (b i).val) D s k = (A s k).val := by
            unfold augment; rw [if_neg sn, if_neg kn]; rfl
          simp only [if_neg sn, as, ask]
          exact hL.ent s k hks (by omega)
        · have as : augment s (mat A) (fun i => (b i).val) D s s = D * D := by
            unfold augment; rw [if_pos rfl, if_pos rfl]
          have ask : augment s (mat A) (fun i => (b i).val) D s k = (b k).val := by
            unfold augment; rw [if_pos rfl, if_neg kn]
          simp only [if_true, as, ask, Real.sqrt_mul_self hD.le]
          obtain ⟨ρ, h1, h2⟩ := hz k hkc
          exact ⟨ρ, t k, h1, htz k hkc, h2⟩)
    have as : augment n (mat A) (fun i => (b i).val) D n n = D * D := by
      unfold augment; rw [if_pos rfl, if_pos rfl]
    simp only [if_true, as] at key
    have S0 : 0 ≤ ∑ k ∈ range c, z k * z k := sum_nonneg fun _ _ => mul_self_nonneg _
    nlinarith [mul_nonneg G S0, mul_nonneg T (mul_self_nonneg D)]
  have hab : ∀ k, k < n → |(b k).val| ≤ D * Real.sqrt (A k k).val := by
    intro k hk
    have ap := hp k hk
    have s := single_le_sum (f := fun p => (b p).val ^ 2 / (A p p).val)
      (fun p hp' => div_nonneg (sq_nonneg _) (hp p (mem_range.mp hp')).le) (mem_range.mpr hk)
    beta_reduce at s
    have s2 : (b k).val ^ 2 / (A k k).val ≤ D * D := by nlinarith [mul_self_nonneg D]
    rw [div_le_iff₀ ap] at s2
    refine abs_le_of_sq_le_sq ?_ (mul_nonneg hD.le (Real.sqrt_nonneg _))
    rw [mul_pow, Real.sq_sqrt ap.le]
    linarith
  obtain ⟨fin, t, t1, t2⟩ := row_ok (L := L) (f := y) (a := b) (d := fun p => Real.sqrt (A p p).val) (i := n) (n := n) (D := D)
    (τ := gam F.u (6 * (n + 1))) le_rfl hD (fun k hk => Real.sqrt_pos.mpr (hp k hk)) hb hab (fun k m hm hk => hL.fin k m hm hk)
    hL.pos hL.diag hL.row τ1 g1 (fun k hk => chol_under (Real.sqrt_nonneg _) hD.le (he k hk)) hDt ht
    (fun k hk => by
      rw [h k hk]
      refine congrArg (· / L k k) (subUp_congr (fun m _ _ => ?_) _)
      exact Fp.mul_comm _ _) PB
  exact ⟨fun k hk => (fin k hk).1, PB n le_rfl (fun k => (y k).val) t t2 t1⟩

/-- The rows of the factor. -/
theorem CholFit.sq (hL : CholFit n A L) (hp : ∀ p, p < n → 0 < (A p p).val) (hg : gam F.u (6 * (n + 1)) ≤ 1 / 3) (hg' : gam F.u (n + 1) ≤ 1 / 3) :
    ∀ p, p < n → ∑ m ∈ range n, low (mat L) p m * low (mat L) p m ≤ 2 * (A p p).val := by
  have u0 := F.u_nonneg
  have u1 := F.u_lt_one
  intro p hpn
  obtain ⟨ρ, t, h1, h2, h3⟩ := hL.ent p p le_rfl hpn
  have e : ∑ m ∈ range n, low (mat L) p m * low (mat L) p m = ∑ m ∈ range (p + 1), (L p m).val * (L p m).val := by
    symm
    refine sum_subset_zero_on_sdiff (range_subset_range.mpr hpn) (fun j hj => ?_) fun j hj => ?_
    · rw [mem_sdiff, mem_range, mem_range] at hj
      rw [show low (mat L) p j = 0 from if_neg (by omega), zero_mul]
    · rw [show low (mat L) p j = mat L p j from if_pos (by have := mem_range.mp hj; omega)]; rfl
  have ge : 3 / 4 * ∑ m ∈ range (p + 1), (L p m).val * (L p m).val ≤ ∑ m ∈ range (p + 1), (L p m).val * (L p m).val * ρ m := by
    rw [mul_sum]
    refine sum_le_sum fun m hm => ?_
    have hm := mem_range.mp hm
    have pp := (h1 m (by omega)).pos u0 u1
    have := ((h1 m (by omega)).inv u0 u1).abs_le u0 u1
    rw [abs_of_pos (by positivity), div_le_iff₀ pp] at this
    rw [mul_comm]
    exact mul_le_mul_of_nonneg_left (by nlinarith) (mul_self_nonneg _)
  rw [e]
  rw [Real.mul_self_sqrt (hp p hpn).le] at h2
  have := abs_le.mp h2
  have ap := hp p hpn
  rw [sum_range_succ (fun m => (L p m).val * (L p m).val * ρ m)] at ge
  nlinarith

/-- The product of the factor with its transpose. -/
theorem CholFit.prod (hL : CholFit n A L) (hs : Symm n (mat A)) (hp : ∀ p, p < n → 0 < (A p p).val)
    (hg : gam F.u (6 * (n + 1)) ≤ 1 / 3) (hg' : gam F.u (n + 1) ≤ 1 / 3) :
    ∀ p q, p < n → q < n → |∑ m ∈ range n, low (mat L) p m * low (mat L) q m - (A p q).val| ≤
      3 * gam F.u (6 * (n + 1)) * (Real.sqrt (A p p).val * Real.sqrt (A q q).val) := by
  have u0 := F.u_nonneg
  have u1 := F.u_lt_one
  have main : ∀ p q, q ≤ p → p < n → |∑ m ∈ range n, low (mat L) p m * low (mat L) q m - (A p q).val| ≤
      3 * gam F.u (6 * (n + 1)) * (Real.sqrt (A p p).val * Real.sqrt (A q q).val) := by
    intro p q hqp hpn
    have hqn : q < n := by omega
    obtain ⟨ρ, t, h1, h2, h3⟩ := hL.ent p q hqp hpn
    have e : ∑ m ∈ range n, low (mat L) p m * low (mat L) q m = ∑ m ∈ range (q + 1), (L p m).val * (L q m).val := by
      symm
      refine sum_subset_zero_on_sdiff (range_subset_range.mpr hqn) (fun j hj => ?_) fun j hj => ?_
      · rw [mem_sdiff, mem_range, mem_range] at hj
        rw [show low (mat L) q j = 0 from if_neg (by omega), mul_zero]
      · have := mem_range.mp hj
        rw [show low (mat L) p j = mat L p j from if_pos (by omega), show low (mat L) q j = mat L q j from if_pos (by omega)]; rfl
    rw [← sum_range_succ (fun m => (L p m).val * (L q m).val * ρ m)] at h3
    have ab : ∑ m ∈ range (q + 1), |(L p m).val * (L q m).val| ≤ 2 * (Real.sqrt (A p p).val * Real.sqrt (A q q).val) := by
      have c2 := Real.mul_self_sqrt (show (0 : ℝ) ≤ 2 by norm_num)
      have part : ∀ r, r < n → q ≤ r → ∑ m ∈ range (q + 1), (L r m).val * (L r m).val ≤
          (Real.sqrt 2 * Real.sqrt (A r r).val) * (Real.sqrt 2 * Real.sqrt (A r r).val) := by
        intro r hr hqr
        have a := hL.sq hp hg hg' r hr
        have b := Real.mul_self_sqrt (hp r hr).le
        have : ∑ m ∈ range (q + 1), (L r m).val * (L r m).val ≤ ∑ m ∈ range n, low (mat L) r m * low (mat L) r m := by
          calc _ = ∑ m ∈ range (q + 1), low (mat L) r m * low (mat L) r m := sum_congr rfl fun m hm => by
                rw [show low (mat L) r m = mat L r m from if_pos (by have := mem_range.mp hm; omega)]; rfl
            _ ≤ _ := sum_le_sum_of_subset_of_nonneg (range_subset_range.mpr hqn) fun _ _ _ => mul_self_nonneg _
        calc _ ≤ _ := this.trans a
          _ = (Real.sqrt 2 * Real.sqrt 2) * (Real.sqrt (A r r).val * Real.sqrt (A r r).val) := by rw [c2, b]
          _ = _ := by ring
      refine (cs_abs (by positivity) (by positivity) (part p hpn hqp) (part q hqn le_rfl)).trans (le_of_eq ?_)
      calc _ = (Real.sqrt 2 * Real.sqrt 2) * (Real.sqrt (A p p).val * Real.sqrt (A q q).val) := by ring
        _ = _ := by rw [c2]
    rw [e, h3, abs_sub_comm, add_sub_right_comm]
    refine (abs_add_le _ _).trans ?_
    have f := sum_fac_le u0 u1 (s := range (q + 1)) (a := fun m => (L p m).val * (L q m).val) (ρ := ρ) (K := n + 1)
      fun m hm => h1 m (by have := mem_range.mp hm; omega)
    have g := gam_mono u0 u1 (show n + 1 ≤ 6 * (n + 1) by omega)
    have g0 := gam_nonneg u0 u1 (n + 1)
    have M0 : 0 ≤ Real.sqrt (A p p).val * Real.sqrt (A q q).val := mul_nonneg (Real.sqrt_nonneg _) (Real.sqrt_nonneg _)
    have f2 := mul_le_mul g ab (sum_nonneg fun _ _ => abs_nonneg _) (g0.trans g)
    linarith
  intro p q hpn hqn
  rcases le_total q p with h | h
  · exact main p q h hpn
  · have := main q p h hqn
    rw [show (A p q).val = (A q p).val from hs p q hpn hqn, sum_congr rfl fun m _ => mul_comm (low (mat L) p m) (low (mat L) q m),
      mul_comm (Real.sqrt (A p p).val)]
    exact this

/-- Backward substitution. -/
theorem back_ok (hs : Symm n (mat A)) (hp : ∀ p, p < n → 0 < (A p p).val)
    (hq : ∀ x : ℕ → ℝ, lam * ∑ p ∈ range n, (A p p).val * x p ^ 2 ≤ ∑ p ∈ range n, ∑ q ∈ range n, x p * (A p q).val * x q)
    (hlam : 6 * ((n + 1) * gam F.u (6 * (n + 1))) < lam) (hn : 0 < n) (hL : CholFit n A L) {y x : Nat → Fp F} {D X : ℝ} (hD : 0 < D)
    (hX : 0 < X) (hDX : 16 * (D * D) = lam * (X * X))
    (hyf : ∀ k, k < n → (y k).IsFin) (hy : ∑ k ∈ range n, (y k).val * (y k).val ≤ D * D)
    (he : ∀ j, j < n → F.eta * (n + 2 * Real.sqrt (A j j).val) ≤ F.u * D)
    (ht : 32 * ((n + 1) * X) < F.top) (htx : ∀ p, p < n → X < Real.sqrt (A p p).val * F.top)
    (h : BackSubRec n (fun i j => L j i) y x) :
    (∀ k, k < n → (x k).IsFin) ∧ ∑ k ∈ range n, (A k k).val * (x k).val ^ 2 ≤ X * X := by
  have u0 := F.u_nonneg
  have u1 := F.u_lt_one
  have hη := F.eta_pos
  have T := gam_nonneg u0 u1 (6 * (n + 1))
  have G := gam_nonneg u0 u1 (n + 1)
  have GT := gam_mono u0 u1 (show n + 1 ≤ 6 * (n + 1) by omega)
  have n1 : (1 : ℝ) ≤ n := by exact_mod_cast hn
  have nT : 0 ≤ ((n : ℝ) + 1) * gam F.u (6 * (n + 1)) := by positivity
  have nT' : (n : ℝ) * gam F.u (6 * (n + 1)) ≤ (n + 1) * gam F.u (6 * (n + 1)) := by linarith
  have l1 := form_le_one (A := mat A) hp hq hn
  obtain ⟨τ1, g1, _⟩ := chol_const (F := F) (lam := lam) hn l1 (by linarith)
  have T12 : gam F.u (6 * (n + 1)) ≤ 1 / 12 := by nlinarith
  have lpos : 0 < lam := by linarith
  set d : ℕ → ℝ := fun p => Real.sqrt (A p p).val with hd
  have d0 : ∀ p, p < n → 0 < d p := fun p h => Real.sqrt_pos.mpr (hp p h)
  have dd : ∀ p, p < n → d p * d p = (A p p).val := fun p h => Real.mul_self_sqrt (hp p h).le
  have hDX' : D ≤ X := by
    refine abs_le_of_sq_le_sq' ?_ hX.le |>.2
    rw [pow_two, pow_two]
    nlinarith [mul_pos hX hX]
  have sqr := hL.sq hp τ1 g1
  have prd := hL.prod hs hp τ1 g1
  have he' : ∀ j, j < n → (1 + gam F.u (n + 1)) * F.eta * (n + 2 * d j) ≤ gam F.u (6 * (n + 1)) * D := by
    intro j hj
    have := chol_under (F := F) (n := n) (d := 1) (D := D) zero_le_one hD.le
    have e := he j hj
    have a : gam F.u 1 * (1 + gam F.u (n + 1)) ≤ gam F.u (6 * (n + 1)) :=
      (gam_mul_le u0 u1 1 (n + 1)).trans (gam_mono u0 u1 (by omega))
    have b := u_le_gam u0 u1 (show 1 ≤ 1 by omega)
    calc _ = (1 + gam F.u (n + 1)) * (F.eta * (n + 2 * d j)) := by ring
      _ ≤ (1 + gam F.u (n + 1)) * (F.u * D) := mul_le_mul_of_nonneg_left e (by linarith)
      _ = F.u * (1 + gam F.u (n + 1)) * D := by ring
      _ ≤ _ := by
        refine mul_le_mul_of_nonneg_right (le_trans ?_ a) hD.le
        exact mul_le_mul_of_nonneg_right b (by linarith)
  -- the bound on the last components
  have BR : ∀ i, i ≤ n → ∀ (z t : ℕ → ℝ), (∀ j, i ≤ j → j < n → ∃ ρ : ℕ → ℝ, (∀ k, k < n → Fac F.u (n + 1) (ρ k)) ∧
      (y j).val = ∑ k ∈ range n, low (mat L) k j * ρ k * z k + t j) →
      (∀ j, i ≤ j → j < n → |t j| ≤ gam F.u (6 * (n + 1)) * D) → ∑ k ∈ Ico i n, (A k k).val * z k ^ 2 ≤ X * X := by
    intro i hi z t hz htz
    have := back_real u0 u1 (A := mat A) (L := mat L) (x := z) (y := fun j => (y j).val) (t := t) (lam := lam)
      (κ := 3 * gam F.u (6 * (n + 1))) (D := D) (K := n + 1) hi hp hq (fun p hp' => (hL.pos p hp').ne') (by linarith) prd
      (by linarith) sqr
      (by
        have a : n * gam F.u (n + 1) ^ 2 ≤ n * gam F.u (6 * (n + 1)) * (1 / 12) := by
          rw [pow_two, ← mul_assoc]
          exact mul_le_mul (mul_le_mul_of_nonneg_left GT (by linarith)) (GT.trans T12) G (by positivity)
        linarith)
      hz hy
      (by
        have a : ∀ j ∈ Ico i n, t j * t j ≤ (gam F.u (6 * (n + 1)) * D) * (gam F.u (6 * (n + 1)) * D) := by
          intro j hj
          have b := htz j (mem_Ico.mp hj).1 (mem_Ico.mp hj).2
          rw [← abs_mul_abs_self (t j)]
          exact mul_le_mul b b (abs_nonneg _) (mul_nonneg T hD.le)
        refine (sum_le_sum a).trans ?_
        rw [sum_const, Nat.card_Ico, nsmul_eq_mul]
        have b : ((n - i : ℕ) : ℝ) ≤ n := by exact_mod_cast Nat.sub_le _ _
        have c : ((n - i : ℕ) : ℝ) * (gam F.u (6 * (n + 1)) * D * (gam F.u (6 * (n + 1)) * D)) ≤
            n * (gam F.u (6 * (n + 1)) * D * (gam F.u (6 * (n + 1)) * D)) :=
          mul_le_mul_of_nonneg_right b (mul_self_nonneg _)
        have e : n * (gam F.u (6 * (n + 1)) * D * (gam F.u (6 * (n + 1)) * D)) =
            (n * gam F.u (6 * (n + 1))) * gam F.u (6 * (n + 1)) * (D * D) := by ring
        have f : (n * gam F.u (6 * (n + 1))) * gam F.u (6 * (n + 1)) ≤ 1 / 3 := by nlinarith
        have := mul_le_mul_of_nonneg_right f (mul_self_nonneg D)
        linarith)
    rw [hDX] at this
    exact le_of_mul_le_mul_left this lpos
  have single : ∀ (z : ℕ → ℝ) (i k : ℕ), i ≤ k → k < n → ∑ k ∈ Ico i n, (A k k).val * z k ^ 2 ≤ X * X → d k * |z k| ≤ X := by
    intro z i k hik hk hS
    have s := single_le_sum (f := fun k => (A k k).val * z k ^ 2) (fun p hp' => mul_nonneg (hp p (mem_Ico.mp hp').2).le (sq_nonneg _))
      (mem_Ico.mpr ⟨hik, hk⟩)
    beta_reduce at s
    refine abs_le_of_sq_le_sq' ?_ hX.le |>.2
    rw [mul_pow, sq_abs, pow_two (d k), dd k hk, pow_two X]
    exact s.trans hS
  have lowk : ∀ k j, k < n → j ≤ k → |(L k j).val| ≤ 2 * d k := by
    intro k j hk hj
    refine abs_le_of_sq_le_sq ?_ (by have := d0 k hk; linarith)
    have s := single_le_sum (f := fun m => low (mat L) k m * low (mat L) k m) (fun _ _ => mul_self_nonneg _)
      (mem_range.mpr (show j < n by omega))
    beta_reduce at s
    rw [show low (mat L) k j = (L k j).val from if_pos hj] at s
    have := sqr k hk
    have := hp k hk
    rw [mul_pow, pow_two (d k), dd k hk]
    nlinarith
  have main : ∀ m, m ≤ n → (∀ k, n ≤ k + m → k < n → (x k).IsFin) ∧ ∃ t : ℕ → ℝ,
      (∀ j, n ≤ j + m → j < n → |t j| ≤ gam F.u (6 * (n + 1)) * D) ∧
      ∀ j, n ≤ j + m → j < n → ∃ ρ : ℕ → ℝ, (∀ k, k < n → Fac F.u (n + 1) (ρ k)) ∧
        (y j).val = ∑ k ∈ range n, low (mat L) k j * ρ k * (x k).val + t j := by
    intro m
    induction m with
    | zero => exact fun _ => ⟨fun k h1 h2 => by omega, fun _ => 0, fun k h1 h2 => by omega, fun k h1 h2 => by omega⟩
    | succ m ih =>
      intro hm
      obtain ⟨i1, t, i2, i3⟩ := ih (by omega)
      obtain ⟨c, hc⟩ : ∃ c, n = c + 1 + m := ⟨n - (m + 1), by omega⟩
      have hcn : c < n := by omega
      have W := BR (c + 1) (by omega) (fun k => (x k).val) t (fun j h1 h2 => i3 j (by omega) h2) (fun j h1 h2 => i2 j (by omega) h2)
      have yb : |(y c).val| ≤ D := by
        refine abs_le_of_sq_le_sq ?_ hD.le
        have s := single_le_sum (f := fun k => (y k).val * (y k).val) (fun _ _ => mul_self_nonneg _) (mem_range.mpr hcn)
        rw [pow_two, pow_two]; exact s.trans hy
      have XX : X ≤ 2 * ((n + 1) * X) := by nlinarith
      obtain ⟨S1, _⟩ := sums_ok (f := fun j => L j c) (h := x) (a := y c) (lo := c + 1) (c := m) (n := n) (M := 2 * ((n + 1) * X))
        (by omega) (hyf c hcn) (fun k hk => hL.fin (c + 1 + k) c (by omega) (by omega)) (fun k hk => i1 (c + 1 + k) (by omega) (by omega))
        (by linarith)
        (by
          have each : ∀ k ∈ range m, |(L (c + 1 + k) c).val * (x (c + 1 + k)).val| ≤ 2 * X := by
            intro k hk
            have hk := mem_range.mp hk
            have a := lowk (c + 1 + k) c (by omega) (by omega)
            have b := single (fun k => (x k).val) (c + 1) (c + 1 + k) (by omega) (by omega) W
            rw [abs_mul]
            have := mul_le_mul_of_nonneg_right a (abs_nonneg (x (c + 1 + k)).val)
            linarith
          refine (sum_le_sum each).trans ?_
          rw [sum_const, card_range, nsmul_eq_mul]
          have : (m : ℝ) ≤ n + 1 := by exact_mod_cast (by omega : m ≤ n + 1)
          nlinarith) g1
        (by
          have a := he' c hcn
          have p : 0 ≤ (1 + gam F.u (n + 1)) * F.eta * (2 * d c) := by have := d0 c hcn; positivity
          nlinarith) (by linarith) m le_rfl
      have ecell := h c hcn
      rw [show n = c + 1 + m from hc] at ecell
      -- the quotient, before it is known to be in range
      obtain ⟨σ, ρ, r, hσ, hρ, hr, e⟩ := sub_prods S1
      obtain ⟨φ, ε, hφ, hε, _, ed⟩ := F.rnd_fac ((subUp (fun k => L k c * x k) (c + 1) (c + 1 + m) (y c)).val / (L c c).val)
      have hφ0 := hφ.pos u0 u1
      have Lc := hL.pos c hcn
      have Lc2 : (L c c).val ≤ 2 * d c := hL.diag c hcn
      set q := F.rnd ((subUp (fun k => L k c * x k) (c + 1) (c + 1 + m) (y c)).val / (L c c).val) with hqd
      set s := r - ε * (L c c).val * (σ / φ) with hsd
      have hs' : |s| ≤ gam F.u (6 * (n + 1)) * D := by
        refine le_trans ?_ (he' c hcn)
        have b1 := ((hσ.div u0 u1 hφ).mono u0 u1 (show m + 1 ≤ n + 1 by omega)).abs_le u0 u1
        have b2 : |ε * (L c c).val * (σ / φ)| ≤ F.eta * (L c c).val * (1 + gam F.u (n + 1)) := by
          rw [abs_mul, abs_mul, abs_of_pos Lc]
          exact mul_le_mul (mul_le_mul_of_nonneg_right hε Lc.le) b1 (abs_nonneg _) (mul_nonneg hη.le Lc.le)
        have b3 : (1 + gam F.u m) * F.eta * m ≤ (1 + gam F.u (n + 1)) * F.eta * n := by
          have := gam_mono u0 u1 (show m ≤ n + 1 by omega)
          exact mul_le_mul (mul_le_mul_of_nonneg_right (by linarith) hη.le) (by exact_mod_cast (by omega : m ≤ n)) (Nat.cast_nonneg _)
            (mul_nonneg (by linarith) hη.le)
        have b4 := abs_sub r (ε * (L c c).val * (σ / φ))
        have b5 : F.eta * (L c c).val * (1 + gam F.u (n + 1)) ≤ F.eta * (2 * d c) * (1 + gam F.u (n + 1)) :=
          mul_le_mul_of_nonneg_right (mul_le_mul_of_nonneg_left Lc2 hη.le) (by linarith)
        linarith
      let ρ' : ℕ → ℝ := fun k => if k ≤ c then σ / φ else if k < n then ρ (k - (c + 1)) else 1
      have hρ' : ∀ k, k < n → Fac F.u (n + 1) (ρ' k) := by
        intro k hk
        simp only [ρ']
        split_ifs with q1
        · exact (hσ.div u0 u1 hφ).mono u0 u1 (by omega)
        · exact (hρ _).mono u0 u1 (by omega)
      have conv : ∀ z : ℕ → ℝ, (∀ k, c < k → z k = (x k).val) → z c = q →
          (y c).val = ∑ k ∈ range n, low (mat L) k c * ρ' k * z k + s := by
        intro z hz hzc
        have t1 : ∑ k ∈ range n, low (mat L) k c * ρ' k * z k = ∑ k ∈ Ico c n, (L k c).val * ρ' k * z k := by
          symm
          refine sum_subset_zero_on_sdiff (fun j hj => mem_range.mpr (mem_Ico.mp hj).2) (fun j hj => ?_) fun j hj => ?_
          · rw [mem_sdiff, mem_range, mem_Ico] at hj
            rw [show low (mat L) j c = 0 from if_neg (by omega)]; ring
          · rw [show low (mat L) j c = mat L j c from if_pos (mem_Ico.mp hj).1]; rfl
        rw [t1, sum_eq_sum_Ico_succ_bot hcn, sum_Ico_eq_sum_range, show n - (c + 1) = m by omega, hzc]
        have t2 : ∑ k ∈ range m, (L (c + 1 + k) c).val * ρ' (c + 1 + k) * z (c + 1 + k) =
            ∑ k ∈ range m, (L (c + 1 + k) c).val * (x (c + 1 + k)).val * ρ k := by
          refine sum_congr rfl fun k hk => ?_
          have hk := mem_range.mp hk
          simp only [ρ']
          rw [if_neg (by omega), if_pos (by omega), Nat.add_sub_cancel_left, hz _ (by omega)]; ring
        rw [t2, show ρ' c = σ / φ from if_pos le_rfl, e, hsd, ed]
        field_simp
        ring
      have P2 := BR c hcn.le (fun k => if k = c then q else (x k).val) (fun k => if k = c then s else t k)
        (fun j h1 h2 => by
          rcases Nat.lt_or_eq_of_le h1 with hlt | rfl
          · obtain ⟨ρ1, a1, a2⟩ := i3 j (by omega) h2
            refine ⟨ρ1, a1, ?_⟩
            rw [if_neg (by omega), a2]
            refine congrArg₂ _ (sum_congr rfl fun k _ => ?_) rfl
            split_ifs with hk
            · subst hk; rw [show low (mat L) k j = 0 from if_neg (by omega)]; ring
            · rfl
          · refine ⟨ρ', hρ', ?_⟩
            rw [if_pos rfl]
            exact conv _ (fun k hk => if_neg (by omega)) (if_pos rfl))
        (fun j h1 h2 => by
          rcases Nat.lt_or_eq_of_le h1 with hlt | rfl
          · rw [if_neg (by omega)]; exact i2 j (by omega) h2
          · rw [if_pos rfl]; exact hs')
      have qb := single _ c c le_rfl hcn P2
      rw [if_pos rfl] at qb
      have qt : |q| < F.top := by
        have := htx c hcn
        have d1 := d0 c hcn
        by_contra hh
        push Not at hh
        have := mul_le_mul_of_nonneg_left hh d1.le
        linarith
      obtain ⟨v1, v2⟩ := div_ok S1 (hL.fin c c le_rfl hcn) Lc.ne' qt
      rw [← ecell] at v1 v2
      rw [← hqd] at v2
      refine ⟨fun k h1 h2 => ?_, fun k => if k = c then s else t k, fun k h1 h2 => ?_, fun k h1 h2 => ?_⟩
      · rcases Nat.lt_or_eq_of_le (show c ≤ k by omega) with hlt | rfl
        · exact i1 k (by omega) h2
        · exact v1
      · beta_reduce
        rcases Nat.lt_or_eq_of_le (show c ≤ k by omega) with hlt | rfl
        · rw [if_neg (by omega)]; exact i2 k (by omega) h2
        · rw [if_pos rfl]; exact hs'
      · beta_reduce
        rcases Nat.lt_or_eq_of_le (show c ≤ k by omega) with hlt | rfl
        · rw [if_neg (by omega)]; exact i3 k (by omega) h2
        · rw [if_pos rfl]
          exact ⟨ρ', hρ', conv _ (fun k _ => rfl) v2⟩
  obtain ⟨f, t, t1, t2⟩ := main n le_rfl
  refine ⟨fun k hk => f k (by omega) hk, ?_⟩
  have := BR 0 (by omega) (fun k => (x k).val) t (fun j _ h2 => t2 j (by omega) h2) (fun j _ h2 => t1 j (by omega) h2)
  rwa [← range_eq_Ico] at this

end Fp

end Lalib
