import Verif.Proofs.Stationary
import Verif.Proofs.GmresSteps

/-! # GMRES for matrices with a dominating diagonal -/

namespace Lalib

open Finset

section
variable {T : Type} [Field T] [LinearOrder T] [IsStrictOrderedRing T] {n : ℕ} {A F : ℕ → ℕ → T} {w : ℕ → T}

/-- The bound of the rate by the diagonal of the matrix is one by the pivots. -/
theorem pivot_rate (hw : WeightDom n A w) (hI : IsIlu n A F) {rho : T}
    (hr : ∀ i, i < n → 2 * |A i i| * w i * (1 - rho) ≤ rowGap n A w i) {i : ℕ} (hi : i < n) :
    |F i i| * w i * (1 - rho) ≤ rowGap n A w i := by
  have h1 := (dom_rows hw le_rfl (isIlu_iff.mp hI) i hi).2
  have h2 : |F i i| ≤ 2 * |A i i| := by
    have := abs_sub (A i i) (A i i - F i i)
    rw [sub_sub_cancel] at this
    linarith
  rcases le_total rho 1 with h | h
  · refine le_trans ?_ (hr i hi)
    exact mul_le_mul_of_nonneg_right (mul_le_mul_of_nonneg_right h2 (hw.pos i hi).le) (by linarith)
  · exact (mul_nonpos_of_nonneg_of_nonpos (mul_nonneg (abs_nonneg _) (hw.pos i hi).le) (by linarith)).trans (hw.gap i hi).le

theorem MMatrix.gap_eq (hm : MMatrix n A w) {i : ℕ} (hi : i < n) : rowGap n A w i = ∑ j ∈ range n, A i j * w j := by
  rw [rowGap, ← add_sum_erase _ _ (mem_range.mpr hi), abs_of_pos (hm.diag i hi), sub_eq_add_neg, ← sum_neg_distrib]
  congr 1
  refine sum_congr rfl fun j hj => ?_
  have hj := mem_erase.mp hj
  rw [abs_of_nonpos (hm.off i j hi (mem_range.mp hj.2) (Ne.symm hj.1)), neg_mul, neg_neg]

theorem pivot_rate_m (hm : MMatrix n A w) (hI : IsIlu n A F) (hp : ∀ i, i < n → 0 < F i i) {rho : T}
    (hr : ∀ i, i < n → A i i * w i * (1 - rho) ≤ ∑ j ∈ range n, A i j * w j) {i : ℕ} (hi : i < n) :
    |F i i| * w i * (1 - rho) ≤ rowGap n A w i := by
  have hs := m_signs hp hm.off (isIlu_iff.mp hI)
  rw [abs_of_pos (hp i hi)]
  rcases le_total rho 1 with h | h
  · rw [hm.gap_eq hi]
    refine le_trans ?_ (hr i hi)
    exact mul_le_mul_of_nonneg_right (mul_le_mul_of_nonneg_right (m_pivot hm hI hs hi) (hm.pos i hi).le) (by linarith)
  · exact (mul_nonpos_of_nonneg_of_nonpos (mul_nonneg (hp i hi).le (hm.pos i hi).le) (by linarith)).trans (hm.dom.gap i hi).le

/-- `P⁻¹ (P - A)` shrinks the weighted maximum. -/
theorem drop_shrinks (hw : WeightDom n A w) (hI : IsIlu n A F) (hd : ∀ i, i < n → F i i ≠ 0) {rho : T}
    (hr : ∀ i, i < n → |F i i| * w i * (1 - rho) ≤ rowGap n A w i) {e e' : ℕ → T} {s : T} (hs : 0 ≤ s)
    (he : ∀ i, i < n → |e i| ≤ s * w i) (h : Solves n (luProd n F) e' (mulVec n (fun i j => luProd n F i j - A i j) e)) :
    ∀ i, i < n → |e' i| ≤ s * rho * w i := by
  intro i hi
  refine le_of_mul_le_mul_left ((drop_error hw hI.pat hs he h i hi).trans ?_) (abs_pos.mpr (hd i hi))
  have := mul_le_mul_of_nonneg_left (hr i hi) hs
  linarith

/-- The right-hand side bounds the solution with the factors. -/
theorem pre_bound (hw : WeightDom n A w) (hI : IsIlu n A F) (hd : ∀ i, i < n → F i i ≠ 0) {b u : ℕ → T} {t : T} (ht : 0 ≤ t)
    (hb : ∀ i, i < n → |b i| ≤ t * rowGap n A w i) (hu : Solves n (luProd n F) u b) : ∀ i, i < n → |u i| ≤ t * w i := by
  intro i hi
  have h := drop_error_plus hw hI.pat (e := fun _ => 0) (e' := u) (r := b) le_rfl ht (fun j _ => by simp) hb
    (fun j hj => by rw [hu j hj]; simp [mulVec]) i hi
  refine le_of_mul_le_mul_left (h.trans ?_) (abs_pos.mpr (hd i hi))
  linarith

/-- Richardson's iteration in the weighted maximum. -/
theorem richardson_weight {b : ℕ → T} {u : ℕ → ℕ → T} (hw : WeightDom n A w) (hI : IsIlu n A F) (hd : ∀ i, i < n → F i i ≠ 0) {rho t : T}
    (r0 : 0 ≤ rho) (t0 : 0 ≤ t) (hr : ∀ i, i < n → |F i i| * w i * (1 - rho) ≤ rowGap n A w i)
    (hu : IsKrylov n (luProd n F) A b u) (h0 : ∀ i, i < n → |u 0 i| ≤ t * w i) (m : ℕ) :
    ∃ y z, Comb n m u y ∧ Comb n (m + 1) u z ∧ PResid n (luProd n F) A b y z ∧ ∀ i, i < n → |z i| ≤ t * rho ^ m * w i := by
  have hP := Gmres.minor_luProd hd
  induction m with
  | zero => exact ⟨fun _ => 0, u 0, ⟨fun _ => 0, by simp⟩, ⟨fun _ => 1, by simp⟩, Gmres.presid_zero hu, by simpa using h0⟩
  | succ m ih =>
    obtain ⟨y, z, hy, hz, hres, hn⟩ := ih
    obtain ⟨v, hv⟩ := exists_solves hP (mulVec n A z)
    refine ⟨_, _, Gmres.comb_axpy (Gmres.comb_mono hy (Nat.le_succ m)) hz 1, ?_, Gmres.presid_axpy hres hv 1, ?_⟩
    · have := Gmres.comb_axpy (Gmres.comb_mono hz (Nat.le_succ _)) (Gmres.comb_step hP hu hz hv) (-1)
      simp only [neg_mul, ← sub_eq_add_neg] at this
      exact this
    · have h1 := drop_shrinks hw hI hd hr (mul_nonneg t0 (pow_nonneg r0 m)) hn (e' := fun i => z i - 1 * v i) (fun i hi => by
        have := hv i hi
        simp only [mulVec, one_mul, mul_sub, sub_mul, sum_sub_distrib] at this ⊢
        rw [this])
      intro i hi
      rw [pow_succ, ← mul_assoc]
      exact h1 i hi

theorem norm_weight {z : ℕ → T} {s : T} (h : ∀ i, i < n → |z i| ≤ s * w i) : normSq n z ≤ s ^ 2 * normSq n w := by
  unfold normSq
  rw [mul_sum]
  refine sum_le_sum fun i hi => ?_
  rw [← mul_pow, ← sq_abs]
  exact pow_le_pow_left₀ (abs_nonneg _) (h i (mem_range.mp hi)) 2

/-- The preconditioned residual bounds the error. -/
theorem resid_error (hw : WeightDom n A w) (hI : IsIlu n A F) (hd : ∀ i, i < n → F i i ≠ 0) {rho : T} (r1 : rho < 1)
    (hr : ∀ i, i < n → |F i i| * w i * (1 - rho) ≤ rowGap n A w i) {b x s z : ℕ → T} (hs : Solves n A s b)
    (hz : PResid n (luProd n F) A b x z) {q : T} (hq : ∀ i, i < n → |z i| ≤ q * w i) :
    ∀ i, i < n → (1 - rho) * |s i - x i| ≤ q * w i := by
  rcases Nat.eq_zero_or_pos n with hn | hn
  · intro i hi; omega
  obtain ⟨i0, hi0, hmax⟩ := exists_max_image (range n) (fun i => |s i - x i| / w i) ⟨0, mem_range.mpr hn⟩
  have hi0 := mem_range.mp hi0
  have w0 := hw.pos i0 hi0
  set M := |s i0 - x i0| / w i0 with hM
  have M0 : 0 ≤ M := div_nonneg (abs_nonneg _) w0.le
  have le : ∀ i, i < n → |s i - x i| ≤ M * w i := fun i hi => by
    rw [← div_le_iff₀ (hw.pos i hi)]; exact hmax i (mem_range.mpr hi)
  have eq : |s i0 - x i0| = M * w i0 := by rw [hM, div_mul_cancel₀ _ w0.ne']
  have h1 := drop_shrinks hw hI hd hr M0 le (e' := fun i => s i - x i - z i) (fun i hi => by
    have e1 := hz i hi
    have e2 := hs i hi
    simp only [resid, mulVec, mul_sub, sub_mul, sum_sub_distrib] at e1 e2 ⊢
    rw [e1, e2]
    ring) i0 hi0
  have h2 := abs_add_le (s i0 - x i0 - z i0) (z i0)
  rw [sub_add_cancel, eq] at h2
  have h3 : (1 - rho) * M ≤ q := by
    refine le_of_mul_le_mul_right ?_ w0
    linarith [hq i0 hi0]
  intro i hi
  have h4 := mul_le_mul_of_nonneg_left (le i hi) (show 0 ≤ 1 - rho by linarith)
  have h5 := mul_le_mul_of_nonneg_right h3 (hw.pos i hi).le
  linarith

/-- A component is not larger than the norm. -/
theorem comp_lt {z : ℕ → T} {tol : T} (t0 : 0 < tol) (h : normSq n z < tol ^ 2) {i : ℕ} (hi : i < n) : |z i| ≤ tol := by
  refine abs_le_of_sq_le_sq ?_ t0.le
  exact (single_le_sum (f := fun i => z i ^ 2) (fun j _ => sq_nonneg _) (mem_range.mpr hi)).trans h.le

end

end Lalib
