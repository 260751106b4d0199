import Verif.Props.Forward
import Verif.Props.IeeeBack
import Verif.Proofs.Certify

/-! # Property C111: computed certificates

One product with an approximate inverse, computed with the library, shows that a matrix is regular and bounds the error of any
approximate solution; one Cholesky factorisation shows that a matrix is positive definite. -/

namespace Lalib.Props

open Lalib Finset

private theorem ident_val {T : Type} [Zero T] [One T] {n : Nat} {l : List T} (h : DMat.identity n = .ok ⟨n, n, l⟩) :
    l.length = n * n ∧ ∀ i j, i < n → j < n → entry n l i j = if i = j then 1 else 0 := by
  unfold DMat.identity at h
  rw [diagConst_eq] at h
  injection h with h
  injection h with _ _ h
  rw [← h]
  exact ⟨by simp, fun i j hi hj => by rw [entry_matOf _ hi hj]⟩

private theorem defect_row {n : ℕ} {X A W t : ℕ → ℕ → ℝ} {q : ℝ}
    (h : ∀ i j, i < n → j < n → |W i j - ((if i = j then 1 else 0) - ∑ k ∈ range n, X i k * A k j)| ≤ t i j)
    (hq : ∀ i, i < n → ∑ j ∈ range n, (|W i j| + t i j) ≤ q) : RowLe n (leftDefect n X A) q := by
  intro i hi
  refine (sum_le_sum fun j hj => ?_).trans (hq i hi)
  have h1 := h i j hi (mem_range.mp hj)
  have h2 := abs_sub_abs_le_abs_sub (leftDefect n X A i j) (W i j)
  rw [abs_sub_comm] at h2
  unfold leftDefect at h2 ⊢
  linarith

/-- What the certificate says about the matrix `A`, given an approximate inverse `X` whose rows add up to at most `K`. -/
def Certified (n : ℕ) (A X : ℕ → ℕ → ℝ) (q K : ℝ) : Prop :=
  minor A n ≠ 0 ∧ InvBound n A (K / (1 - q)) ∧
    ∀ b z Y, Solves n A z b → MaxLe n (mulVec n X b) Y → MaxLe n (fun i => z i - mulVec n X b i) (q * Y / (1 - q))

private theorem certified {n : ℕ} {X A : ℕ → ℕ → ℝ} {q K : ℝ} (hH : RowLe n (leftDefect n X A) q) (hq : q < 1) (hK : 0 ≤ K)
    (hX : RowLe n X K) : Certified n A X q K :=
  have h := invBound_of_defect hH hq hK hX
  ⟨minor_of_invBound h, h, fun _ _ _ hz hY => defect_apply hH hq hz hY⟩

section
variable {R : Rounding}

/-- The product `c := identity - x * a` in rounded arithmetic, computed with `mul(-1, x, a, 1, c)` for any matrix `x` (for instance the
result of `solve_linear` with the right-hand side `identity(n)`): if the absolute row sums of `c`, plus the bounds for the rounding
errors, stay below 1, then `a` is regular, and its inverse is bounded and close to `x`. -/
theorem C111_regular_rounded (nd : Bool) (n : Nat) (x a c : MatRef) (s : Mem (Fl R)) (hx : x.Wf s) (ha : a.Wf s) (hxn : x.n = n)
    (hxm : x.m = n) (han : a.n = n) (ham : a.m = n) (hcn : c.n = n) (hcm : c.m = n) (hI : DMat.identity n = .ok ⟨n, n, s c.buf⟩)
    (q K : ℝ) (hq : q < 1) (h0 : 0 ≤ K) (hK : RowLe n (Fl.mat (entry n (s x.buf))) K) :
    ∃ s', gemmDDD nd (-1) x a 1 c s = .ok s' ∧ s'.len c.buf = n * n ∧ (∀ p, p ≠ c.buf → s' p = s p) ∧
      ((∀ i, i < n → ∑ j ∈ range n, (|(entry n (s' c.buf) i j).val| + gam R.u (n + 2) * ((if i = j then 1 else 0) +
        ∑ k ∈ range n, |(entry n (s x.buf) i k).val * (entry n (s a.buf) k j).val|)) ≤ q) →
        Certified n (Fl.mat (entry n (s a.buf))) (Fl.mat (entry n (s x.buf))) q K) := by
  obtain ⟨hlen, hid⟩ := ident_val hI
  obtain ⟨s', e1, -, -, -, -, -, -, h1, h2, h3⟩ := C57_gemm nd (-1) 1 x a c s hx ha (by rw [MatRef.Wf, hcn, hcm]; exact hlen)
    (by omega) (by omega) (by omega)
  rw [hcn, hcm] at h1 h3
  rw [hxm] at h3
  refine ⟨s', e1, h1, h2, fun hS => certified (defect_row (W := fun i j => (entry n (s' c.buf) i j).val) (fun i j hi hj => ?_) hS) hq h0 hK⟩
  have := h3 i j hi hj
  rw [hid i j hi hj] at this
  have e : ((if i = j then 1 else 0 : Fl R)).val = if i = j then 1 else 0 := by split <;> rfl
  have e' : |(if i = j then 1 else 0 : ℝ)| = if i = j then 1 else 0 := by split <;> simp
  simp only [Fl.val_one, Fl.val_neg, one_mul, neg_mul, abs_neg, sum_neg_distrib, e, e'] at this
  rw [← sub_eq_add_neg] at this
  exact this

end

section
variable {F : Fmt}

/-- The same with IEEE 754 numbers: overflow and underflow are covered, the computed entries only have to be finite. -/
theorem C111_regular_ieee (nd : Bool) (n : Nat) (x a c : MatRef) (s : Mem (Fp F)) (hx : x.Wf s) (ha : a.Wf s) (hxn : x.n = n)
    (hxm : x.m = n) (han : a.n = n) (ham : a.m = n) (hcn : c.n = n) (hcm : c.m = n) (hI : DMat.identity n = .ok ⟨n, n, s c.buf⟩)
    (q K : ℝ) (hq : q < 1) (h0 : 0 ≤ K) (hK : RowLe n (Fp.mat (entry n (s x.buf))) K) :
    ∃ s', gemmDDD nd (-1) x a 1 c s = .ok s' ∧ s'.len c.buf = n * n ∧ (∀ p, p ≠ c.buf → s' p = s p) ∧
      ((∀ i j, i < n → j < n → (entry n (s' c.buf) i j).IsFin) →
      (∀ i, i < n → ∑ j ∈ range n, (|(entry n (s' c.buf) i j).val| + (gam F.u (n + 2) * ((if i = j then 1 else 0) +
        ∑ k ∈ range n, |(entry n (s x.buf) i k).val * (entry n (s a.buf) k j).val|) +
        (1 + gam F.u n) * (F.eta + ∑ k ∈ range n, F.eta * (1 + (1 + gam F.u 1) * |(entry n (s a.buf) k j).val|)))) ≤ q) →
        Certified n (Fp.mat (entry n (s a.buf))) (Fp.mat (entry n (s x.buf))) q K) := by
  obtain ⟨hlen, hid⟩ := ident_val hI
  obtain ⟨s', e1, -, -, -, -, -, -, h1, h2, h3⟩ := C66_gemm nd (-1) 1 x a c s hx ha (by rw [MatRef.Wf, hcn, hcm]; exact hlen)
    (by omega) (by omega) (by omega)
  rw [hcn, hcm] at h1 h3
  rw [hxm] at h3
  refine ⟨s', e1, h1, h2, fun hf hS =>
    certified (defect_row (W := fun i j => (entry n (s' c.buf) i j).val) (fun i j hi hj => ?_) hS) hq h0 hK⟩
  have := (h3 i j hi hj).1 (hf i j hi hj)
  rw [hid i j hi hj] at this
  have e : ((if i = j then 1 else 0 : Fp F)).val = if i = j then 1 else 0 := by split <;> simp
  have e' : |(if i = j then 1 else 0 : ℝ)| = if i = j then 1 else 0 := by split <;> simp
  simp only [Fp.val_one, Fp.val_neg, one_mul, neg_mul, abs_neg, sum_neg_distrib, e, e'] at this
  rw [← sub_eq_add_neg] at this
  exact this

/-- Two products certify an approximate solution: after the certificate for the matrix, the residual `y := y - a * v`, computed with
`mul(-1, a, v, 1, y)`, bounds the distance of `v` from the one and only exact solution. -/
theorem C111_solution_ieee (nd : Bool) (n : Nat) (a : MatRef) (v y : Nat) (s : Mem (Fp F)) (ha : a.Wf s) (han : a.n = n) (ham : a.m = n)
    (hv : s.len v = n) (hy : s.len y = n) (hay : a.buf ≠ y) (X : ℕ → ℕ → ℝ) (q K M : ℝ)
    (hc : Certified n (Fp.mat (entry n (s a.buf))) X q K) :
    ∃ s' z, gemvDD nd (-1) a v 1 y s = .ok s' ∧ s'.len y = n ∧ (∀ p, p ≠ y → s' p = s p) ∧
      Solves n (Fp.mat (entry n (s a.buf))) z (fun i => (s.val y i).val) ∧
      ((∀ i, i < n → (s'.val y i).IsFin) →
      (∀ i, i < n → |(s'.val y i).val| + (gam F.u (n + 2) * (|(s.val y i).val| +
          ∑ k ∈ range n, |(entry n (s a.buf) i k).val * (s.val v k).val|) +
          (1 + gam F.u n) * (F.eta + ∑ k ∈ range n, F.eta * (1 + (1 + gam F.u 1) * |(s.val v k).val|))) ≤ M) →
        MaxLe n (fun i => (s.val v i).val - z i) (K / (1 - q) * M)) := by
  obtain ⟨z, hz⟩ := exists_solves hc.1 fun i => (s.val y i).val
  obtain ⟨s', e1, -, -, h1, h2, h3⟩ := C91_residual_ieee nd a n v y s ha han ham hv hy hay (K / (1 - q)) M hc.2.1 z hz
  exact ⟨s', z, e1, h1, h2, hz, h3⟩

end

section
variable {R : Rounding}

/-- A completed Cholesky factorisation in rounded arithmetic: if the stored matrix `B` differs from `A - s I` by at most `G`, and `eps`
bounds the row sums of `G` and of the rounding errors, then every eigenvalue of `A` exceeds `s - eps`; for `eps ≤ s` the matrix `A`
itself is positive definite. -/
theorem C111_posdef_rounded (mt : MemType) (n : Nat) (l L : List (Fl R)) (B : Nat → Nat → Fl R) (hl : Lower mt n l B) (hB : Symm n B)
    (hb : 0 < (B 0 0).val) (e : Chol.new mt n l = .ok L) (A G : Nat → Nat → ℝ) (s eps : ℝ) (hG : Symm n G)
    (hA : ∀ i j, i < n → j < n → |(B i j).val - shiftBy A s i j| ≤ G i j)
    (he : ∀ i, i < n → ∑ j ∈ range n, (G i j + gam R.u (n + 1) * ∑ k ∈ range n,
      |low (Fl.mat (held mt n L)) i k * low (Fl.mat (held mt n L)) j k|) ≤ eps) :
    PosDef n (shiftBy A (s - eps)) ∧ (eps ≤ s → PosDef n A) := by
  obtain ⟨hd, h⟩ := C59_factor mt n l L B hl hB hb e
  have p : PosDef n (shiftBy A (s - eps)) := posDef_of_near (L := Fl.mat (held mt n L)) hd (fun i j hi hj => by
    rw [hG i j hi hj]; simp only [mul_comm (low _ i _)]) (fun i j hi hj => by
      have := (abs_sub_le _ (B i j).val _).trans (add_le_add (h i j hi hj).1 (hA i j hi hj))
      rw [add_comm] at this
      exact this) he
  refine ⟨p, fun hs x hx => (p x hx).trans_le (sum_le_sum fun i hi => ?_)⟩
  refine sum_le_sum fun j hj => ?_
  unfold shiftBy
  by_cases hij : i = j
  · subst hij
    rw [if_pos rfl]
    nlinarith [mul_nonneg (sub_nonneg.mpr hs) (sq_nonneg (x i))]
  · rw [if_neg hij, sub_zero]

end

section
variable {F : Fmt}

private theorem chol_err {mt : MemType} {n : Nat} {l L : List (Fp F)} {B : Nat → Nat → Fp F} (hl : Lower mt n l B) (hB : Symm n B)
    (hb : 0 < n → 0 < (B 0 0).val) (e : Chol.new mt n l = .ok L) (hf : ∀ i j, j ≤ i → i < n → (held mt n L i j).IsFin) :
    ∀ i j, i < n → j < n → |∑ k ∈ range n, low (Fp.mat (held mt n L)) i k * low (Fp.mat (held mt n L)) j k - (B i j).val| ≤
      gam F.u (n + 1) * ∑ k ∈ range n, |low (Fp.mat (held mt n L)) i k * low (Fp.mat (held mt n L)) j k| +
        (1 + gam F.u (n + 1)) * F.eta * (n + |Fp.mat (held mt n L) (min i j) (min i j)|) := by
  have h := (C71_chol_factor mt n l L B hl hb e hf).2
  intro i j hi hj
  rcases Nat.le_total j i with q | q
  · rw [min_eq_right q]
    exact h i j q hi
  · rw [min_eq_left q, hB i j hi hj]
    have := h j i q hj
    simpa only [mul_comm] using this

/-- The same with IEEE 754 numbers, for a factor with finite entries. -/
theorem C111_posdef_ieee (mt : MemType) (n : Nat) (l L : List (Fp F)) (B : Nat → Nat → Fp F) (hl : Lower mt n l B) (hB : Symm n B)
    (hb : 0 < n → 0 < (B 0 0).val) (e : Chol.new mt n l = .ok L) (hf : ∀ i j, j ≤ i → i < n → (held mt n L i j).IsFin)
    (A G : Nat → Nat → ℝ) (s eps : ℝ) (hG : Symm n G) (hA : ∀ i j, i < n → j < n → |(B i j).val - shiftBy A s i j| ≤ G i j)
    (he : ∀ i, i < n → ∑ j ∈ range n, (G i j + (gam F.u (n + 1) * ∑ k ∈ range n,
      |low (Fp.mat (held mt n L)) i k * low (Fp.mat (held mt n L)) j k| +
        (1 + gam F.u (n + 1)) * F.eta * (n + |Fp.mat (held mt n L) (min i j) (min i j)|))) ≤ eps) :
    PosDef n (shiftBy A (s - eps)) ∧ (eps ≤ s → PosDef n A) := by
  have hd := (C71_chol_factor mt n l L B hl hb e hf).1
  have p : PosDef n (shiftBy A (s - eps)) := posDef_of_near (L := Fp.mat (held mt n L)) hd (fun i j hi hj => by
    rw [hG i j hi hj, min_comm i j]; simp only [mul_comm (low _ i _)]) (fun i j hi hj => by
      have := (abs_sub_le _ (B i j).val _).trans (add_le_add (chol_err hl hB hb e hf i j hi hj) (hA i j hi hj))
      rw [add_comm] at this
      exact this) he
  refine ⟨p, fun hs x hx => (p x hx).trans_le (sum_le_sum fun i hi => ?_)⟩
  refine sum_le_sum fun j hj => ?_
  unfold shiftBy
  by_cases hij : i = j
  · subst hij
    rw [if_pos rfl]
    nlinarith [mul_nonneg (sub_nonneg.mpr hs) (sq_nonneg (x i))]
  · rw [if_neg hij, sub_zero]

end

/-! ## Cases in which the certificates apply -/

/-- The certificate for the matrix `(1)` with the approximate inverse `(1)`, in every arithmetic with roundoff at most 1/100. -/
example {R : Rounding} (hu : R.u ≤ 1 / 100) : ∃ s', gemmDDD false (-1) ⟨0, 1, 1⟩ ⟨0, 1, 1⟩ 1 ⟨1, 1, 1⟩ (Mem.ofList [[(1 : Fl R)], [1]]) = .ok s' ∧
    Certified 1 (Fl.mat (entry 1 [(1 : Fl R)])) (Fl.mat (entry 1 [(1 : Fl R)])) (1 / 2) 1 := by
  obtain ⟨s', e, -, -, h⟩ := C111_regular_rounded false 1 ⟨0, 1, 1⟩ ⟨0, 1, 1⟩ ⟨1, 1, 1⟩ (Mem.ofList [[(1 : Fl R)], [1]]) rfl rfl rfl rfl rfl rfl
    rfl rfl rfl (1 / 2) 1 (by norm_num) zero_le_one (fun i hi => by
      obtain rfl : i = 0 := by omega
      simp [Fl.mat, entry, Mem.ofList, val0])
  refine ⟨s', e, h fun i hi => ?_⟩
  obtain rfl : i = 0 := by omega
  obtain ⟨s'', e', -, -, -, -, -, -, -, -, h3⟩ := C57_gemm false (-1) 1 ⟨0, 1, 1⟩ ⟨0, 1, 1⟩ ⟨1, 1, 1⟩ (Mem.ofList [[(1 : Fl R)], [1]]) rfl rfl rfl rfl
    rfl rfl
  rw [e] at e'
  injection e' with e'
  subst e'
  have h3 := h3 0 0 (by simp) (by simp)
  simp [entry, Mem.ofList, val0] at h3 ⊢
  have g : gam R.u 3 ≤ 1 / 10 := by
    have h1 : (97 : ℝ) / 100 ≤ (1 - R.u) ^ 3 := by
      have := pow_le_pow_left₀ (by norm_num : (0 : ℝ) ≤ 99 / 100) (by linarith : 99 / 100 ≤ 1 - R.u) 3
      norm_num at this ⊢
      linarith
    unfold gam
    rw [sub_le_iff_le_add, div_le_iff₀ (by linarith)]
    linarith
  norm_num at h3 ⊢
  linarith

/-- A matrix whose factorisation of `A - I` completes is found to be positive definite: here the matrix `(2)`. -/
example {R : Rounding} (hu : R.u ≤ 1 / 100) : ∃ L, Chol.new .square 1 [(1 : Fl R)] = .ok L ∧ PosDef 1 (fun _ _ => (2 : ℝ)) := by
  have g0 : 0 ≤ gam R.u 2 := gam_nonneg R.u_nonneg R.u_lt_one 2
  have g : gam R.u 12 ≤ 1 / 3 := by
    have h1 : (3 : ℝ) / 4 ≤ (1 - R.u) ^ 12 :=
      le_trans (by norm_num) (pow_le_pow_left₀ (by norm_num : (0 : ℝ) ≤ 99 / 100) (by linarith : 99 / 100 ≤ 1 - R.u) 12)
    unfold gam
    rw [sub_le_iff_le_add, div_le_iff₀ (by linarith)]
    linarith
  have g2 : gam R.u 2 ≤ gam R.u 12 := gam_mono R.u_nonneg R.u_lt_one (by norm_num)
  have hl : Lower .square 1 [(1 : Fl R)] (fun _ _ => 1) := ⟨rfl, by
    intro i j hj hi
    interval_cases i
    interval_cases j
    rfl⟩
  have hs : Symm 1 (fun _ _ => (1 : Fl R)) := fun _ _ _ _ => rfl
  obtain ⟨L, e⟩ := C59_accepts .square 1 [(1 : Fl R)] (fun _ _ => 1) hl hs (fun _ _ => by simp) 1 (by norm_num; linarith) (fun x => by
    simp; nlinarith)
  obtain ⟨-, h⟩ := C59_factor .square 1 [(1 : Fl R)] L (fun _ _ => 1) hl hs (by simp) e
  have h := (h 0 0 one_pos one_pos).1
  refine ⟨L, e, (C111_posdef_rounded .square 1 _ L _ hl hs (by simp) e (fun _ _ => 2) (fun _ _ => 0) 1 1 (fun _ _ _ _ => rfl) ?_ ?_).2 le_rfl⟩
  · intro i j hi hj
    obtain rfl : i = 0 := by omega
    obtain rfl : j = 0 := by omega
    norm_num [shiftBy]
  · intro i hi
    obtain rfl : i = 0 := by omega
    simp only [sum_range_one, Fl.val_one, zero_add] at h ⊢
    generalize low (Fl.mat (held .square 1 L)) 0 0 = t at h ⊢
    rw [abs_of_nonneg (mul_self_nonneg t)] at h ⊢
    have := (abs_le.mp h).2
    nlinarith [mul_self_nonneg t]

/-- No certificate exists for a singular matrix. -/
example (X : ℕ → ℕ → ℝ) (q K : ℝ) : ¬ Certified 1 (fun _ _ => 0) X q K := fun h => h.1 (by simp [minor])

private theorem gam64 {k : ℕ} (hk : k ≤ 3) : gam binary64.u k ≤ 1 / 10 := by
  have u1 : binary64.u ≤ 1 / 100 := by
    have : binary64.u = (1 / 2 : ℝ) ^ 53 := rfl
    rw [this]; norm_num
  refine (gam_mono binary64.u_nonneg binary64.u_lt_one hk).trans ?_
  have h1 : (97 : ℝ) / 100 ≤ (1 - binary64.u) ^ 3 :=
    le_trans (by norm_num) (pow_le_pow_left₀ (by norm_num : (0 : ℝ) ≤ 99 / 100) (by linarith : 99 / 100 ≤ 1 - binary64.u) 3)
  unfold gam
  rw [sub_le_iff_le_add, div_le_iff₀ (by linarith)]
  linarith

private theorem eta64 : binary64.eta ≤ 1 / 100 := by
  have : binary64.eta = (2 : ℝ) ^ (-1074 : ℤ) / 2 := rfl
  rw [this]
  have : (2 : ℝ) ^ (-1074 : ℤ) ≤ 2 ^ (-10 : ℤ) := zpow_le_zpow_right₀ (by norm_num) (by norm_num)
  rw [show (2 : ℝ) ^ (-10 : ℤ) = 1 / 1024 by norm_num] at this
  generalize (2 : ℝ) ^ (-1074 : ℤ) = z at this
  linarith

private theorem top64 : (100 : ℝ) < binary64.top := by
  have : binary64.top = (2 : ℝ) ^ (1024 : ℤ) := rfl
  rw [this]
  have : (2 : ℝ) ^ (7 : ℤ) ≤ 2 ^ (1024 : ℤ) := zpow_le_zpow_right₀ (by norm_num) (by norm_num)
  rw [show (2 : ℝ) ^ (7 : ℤ) = 128 by norm_num] at this
  exact lt_of_lt_of_le (by norm_num) this

/-- Both certificates with doubles, for the equation `1 * z = 1`: the matrix is found regular, and `v = (1)` within 1 of the solution. -/
example : ∃ s' s'' z, gemmDDD false (-1) ⟨0, 1, 1⟩ ⟨0, 1, 1⟩ 1 ⟨1, 1, 1⟩ (Mem.ofList [[(1 : Fp binary64)], [1]]) = .ok s' ∧
    Certified 1 (Fp.mat (entry 1 [(1 : Fp binary64)])) (Fp.mat (entry 1 [(1 : Fp binary64)])) (3 / 4) 1 ∧
    gemvDD false (-1) ⟨0, 1, 1⟩ 0 1 1 (Mem.ofList [[(1 : Fp binary64)], [1]]) = .ok s'' ∧
    Solves 1 (Fp.mat (entry 1 [(1 : Fp binary64)])) z (fun _ => 1) := by
  have g1 := gam64 (k := 1) (by norm_num)
  have g2 := gam64 (k := 2) (by norm_num)
  have g3 := gam64 (k := 3) (by norm_num)
  have p1 := gam_nonneg binary64.u_nonneg binary64.u_lt_one 1
  have p2 := gam_nonneg binary64.u_nonneg binary64.u_lt_one 2
  have p3 := gam_nonneg binary64.u_nonneg binary64.u_lt_one 3
  have he := eta64
  have ht := top64
  have e0 := binary64.eta_pos.le
  obtain ⟨s', e, -, -, h⟩ := C111_regular_ieee false 1 ⟨0, 1, 1⟩ ⟨0, 1, 1⟩ ⟨1, 1, 1⟩ (Mem.ofList [[(1 : Fp binary64)], [1]]) rfl rfl rfl rfl
    rfl rfl rfl rfl rfl (3 / 4) 1 (by norm_num) zero_le_one (fun i hi => by
      obtain rfl : i = 0 := by omega
      simp [Fp.mat, entry, Mem.ofList, val0])
  obtain ⟨t, e', -, -, -, -, -, -, -, -, h3⟩ := C66_gemm false (-1) 1 ⟨0, 1, 1⟩ ⟨0, 1, 1⟩ ⟨1, 1, 1⟩ (Mem.ofList [[(1 : Fp binary64)], [1]]) rfl
    rfl rfl rfl rfl rfl
  rw [e] at e'
  injection e' with e'
  subst e'
  obtain ⟨k1, k2⟩ := h3 0 0 (by simp) (by simp)
  have k2 := k2 ((Fp.isFin_neg _).mpr Fp.isFin_one) Fp.isFin_one Fp.isFin_one (fun k hk => by
    simp only at hk
    obtain rfl : k = 0 := by omega
    exact ⟨Fp.isFin_one, Fp.isFin_one⟩) (fun k hk => by
      simp only at hk
      obtain rfl : k = 0 := by omega
      simp [entry, Mem.ofList, val0]
      nlinarith) (by
      simp [entry, Mem.ofList, val0]
      nlinarith [mul_nonneg p1 e0, mul_nonneg p2 e0])
  have k1 := k1 k2
  have hc := h (fun i j hi hj => by
    obtain rfl : i = 0 := by omega
    obtain rfl : j = 0 := by omega
    exact k2) (fun i hi => by
    obtain rfl : i = 0 := by omega
    simp [entry, Mem.ofList, val0] at k1 ⊢
    have m : (1 + gam binary64.u 1) * (binary64.eta + binary64.eta * (1 + (1 + gam binary64.u 1))) ≤ 1 / 20 := by nlinarith [mul_nonneg p1 e0]
    norm_num at k1 m ⊢
    linarith)
  obtain ⟨s'', z, q1, -, -, q2, -⟩ := C111_solution_ieee false 1 ⟨0, 1, 1⟩ 0 1 (Mem.ofList [[(1 : Fp binary64)], [1]]) rfl rfl rfl rfl rfl
    (by decide) _ _ _ 1 hc
  refine ⟨s', s'', z, e, hc, q1, fun i hi => ?_⟩
  obtain rfl : i = 0 := by omega
  simpa [Mem.val, Mem.ofList, val0] using q2 0 hi

end Lalib.Props
