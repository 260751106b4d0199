import Verif.Proofs.Forward
import Verif.Props.Float
import Verif.Props.FloatSolve
import Verif.Props.IeeeBound

/-! # Property C91: how far a computed solution is from the exact one

Backward errors times the condition number; and what a residual, itself computed by the library, says about a vector that
came from anywhere. -/

namespace Lalib.Props

open Lalib Finset

variable {R : Rounding} {F : Fmt}

/-! ## Conditioning -/

/-- Two ways to know `InvBound`: a dominating diagonal, or the inverse. -/
theorem C91_inverse (n : ℕ) (A : ℕ → ℕ → ℝ) :
    (∀ d, 0 < d → DomBy n A d → InvBound n A (1 / d)) ∧
    (∀ B K, 0 < n → LeftInv n B A → RowLe n B K → InvBound n A K) :=
  ⟨fun _ hd h => invBound_of_dom hd h, fun _ _ hn h hB => invBound_of_inv hn h hB⟩

/-- A near solution `x` and the exact solution `s`: in terms of `x`, in terms of `s`, and component by component. -/
theorem C91_forward (n : ℕ) (A E : ℕ → ℕ → ℝ) (e x s b : ℕ → ℝ) (h : NearSolves2 n A E e x b) (hs : Solves n A s b)
    (K c c0 X : ℝ) (hE : ∀ i, i < n → ∑ j ∈ range n, E i j ≤ c) (he : ∀ i, i < n → e i ≤ c0) :
    (InvBound n A K → 0 ≤ X → MaxLe n x X → MaxLe n (fun i => x i - s i) (K * (c * X + c0))) ∧
    (InvBound n A K → MaxLe n s X → K * c < 1 → MaxLe n (fun i => x i - s i) (K * (c * X + c0) / (1 - K * c))) ∧
    (∀ B, LeftInv n B A → ∀ i, i < n →
      |x i - s i| ≤ ∑ j ∈ range n, |B i j| * (∑ k ∈ range n, E j k * |x k| + e j)) :=
  ⟨fun hK hX hx => forward_err h hs hK hE he hX hx, fun hK hX hc => forward_rel h hs hK hE he hX hc,
    fun _ hB _ hi => forward_comp h hs hB hi⟩

private theorem rows {n : ℕ} {A : ℕ → ℕ → ℝ} {S : ℝ} (g : ℝ) (hg : 0 ≤ g) (hS : RowLe n A S) :
    ∀ i, i < n → ∑ j ∈ range n, g * |A i j| ≤ g * S := fun i hi => by
  rw [← mul_sum]
  exact mul_le_mul_of_nonneg_left (hS i hi) hg

/-! ## The solvers -/

/-- Back substitution: relative error at most `q / (1 - q)` with `q = K S gam n`. -/
theorem C91_back_sub (a : UTri (Fl R)) (U : Nat → Nat → Fl R) (y : List (Fl R)) (hy : y.length = a.n)
    (hU : ∀ i j, i < a.n → j < a.n → a.get i j = .ok (U i j)) (hd : ∀ i, i < a.n → U i i ≠ 0) (K S : ℝ)
    (hK : InvBound a.n (Fl.mat U) K) (hS : RowLe a.n (Fl.mat U) S) (hq : K * (gam R.u a.n * S) < 1) (z : ℕ → ℝ)
    (hz : Solves a.n (Fl.mat U) z (fun i => (val0 y i).val)) (Z : ℝ) (hZ : MaxLe a.n z Z) :
    ∃ x, a.backSub y = .ok x ∧ x.length = a.n ∧ MaxLe a.n (fun i => (val0 x i).val - z i)
      (K * (gam R.u a.n * S) / (1 - K * (gam R.u a.n * S)) * Z) := by
  obtain ⟨x, e, hl, h⟩ := C58_back_sub a U y hy hU hd
  refine ⟨x, e, hl, ?_⟩
  have := forward_rel (c0 := 0) (near2_of_near h) hz hK (rows _ (gam_nonneg R.u_nonneg R.u_lt_one _) hS) (fun _ _ => le_rfl) hZ hq
  intro i hi
  refine (this i hi).trans (le_of_eq ?_)
  ring

/-- Tri-diagonal systems whose diagonal dominates by `d` (and by two roundings): no condition number is needed. -/
theorem C91_tdma (nd : Bool) (a : TriDiag (Fl R)) (n : Nat) (hw : TriWf a n) (hn : 2 ≤ n) (b x : Nat)
    (m : Mem (Fl R)) (hb : m.len b = n) (hx : m.len x = n)
    (hd : ∀ i, i < n → ∑ j ∈ (range n).erase i, |Fl.mat (triFull a) i j| <
      (1 - R.u) ^ 2 * |Fl.mat (triFull a) i i|) (d S : ℝ) (h0 : 0 < d) (hD : DomBy n (Fl.mat (triFull a)) d)
    (hS : RowLe n (Fl.mat (triFull a)) S) (hq : 3 * gam R.u 5 * S < d) (z : ℕ → ℝ)
    (hz : Solves n (Fl.mat (triFull a)) z (fun i => (m.val b i).val)) (Z : ℝ) (hZ : MaxLe n z Z) :
    ∃ l m', Tdma.solveVec nd a b x m = .ok m' ∧ Stores m m' x l ∧ l.length = n ∧
      MaxLe n (fun i => (val0 l i).val - z i) (3 * gam R.u 5 * S / (d - 3 * gam R.u 5 * S) * Z) := by
  obtain ⟨l, m', e, hl, hl2, h⟩ := C60_dominant nd a n hw hn b x m hb hx hd
  refine ⟨l, m', e, hl, hl2, ?_⟩
  have g0 := gam_nonneg R.u_nonneg R.u_lt_one 5
  have hq' : 1 / d * (3 * gam R.u 5 * S) < 1 := by
    rw [one_div, inv_mul_eq_div, div_lt_one h0]; exact hq
  have := forward_rel (c0 := 0) (near2_of_near h) hz (invBound_of_dom h0 hD) (rows _ (by positivity) hS) (fun _ _ => le_rfl) hZ hq'
  intro i hi
  refine (this i hi).trans (le_of_eq ?_)
  have h1 : d - 3 * gam R.u 5 * S ≠ 0 := by linarith
  have h2 : (1 - 1 / d * (3 * gam R.u 5 * S)) ≠ 0 := by linarith
  field_simp
  ring

/-- Cholesky, Euclidean norm: `lam` is below all eigenvalues of `A`, `amax` above its diagonal. -/
theorem C91_chol (nd : Bool) (mt : MemType) (n : Nat) (l L : List (Fl R)) (A : Nat → Nat → Fl R)
    (hl : Lower mt n l A) (hs : Symm n A) (h0 : 0 < (A 0 0).val) (e : Chol.new mt n l = .ok L) (m : Mem (Fl R))
    (b r : Nat) (hb : m.len b = n) (hr : r ≠ b) (lam amax : ℝ) (hlam : 0 < lam)
    (hq : ∀ y : ℕ → ℝ, lam * ∑ p ∈ range n, y p ^ 2 ≤ ∑ p ∈ range n, ∑ q ∈ range n, y p * (A p q).val * y q)
    (ha : ∀ i, i < n → (A i i).val ≤ amax) (z : ℕ → ℝ) (hz : Solves n (Fl.mat A) z (fun i => (m.val b i).val)) :
    ∃ x, x.length = n ∧ Chol.solveMutVec nd false mt n L b m = .ok (m.setBuf b x) ∧
      Chol.solveVecAt nd false mt n L b r m = .ok (m.setBuf r x) ∧
      ∑ i ∈ range n, ((val0 x i).val - z i) ^ 2 ≤
        (n * (gam R.u (4 * n + 2) * amax) / lam) ^ 2 * ∑ i ∈ range n, (val0 x i).val ^ 2 := by
  obtain ⟨x, hx, e1, e2, h⟩ := C59_solve_vec nd mt n l L A hl hs h0 e m b r hb hr
  refine ⟨x, hx, e1, e2, forward_posDef h hz hlam hq fun i j hi hj => ?_⟩
  refine mul_le_mul_of_nonneg_left ?_ (gam_nonneg R.u_nonneg R.u_lt_one _)
  have hi' := Real.sqrt_le_sqrt (ha i hi)
  have hj' := Real.sqrt_le_sqrt (ha j hj)
  have hp : 0 ≤ amax := by
    have := ha 0 (by omega)
    linarith
  calc Real.sqrt (A i i).val * Real.sqrt (A j j).val ≤ Real.sqrt amax * Real.sqrt amax :=
        mul_le_mul hi' hj' (Real.sqrt_nonneg _) (Real.sqrt_nonneg _)
    _ = amax := Real.mul_self_sqrt hp

section
variable {M : Type} {ops : MatOps M (Fl R)} {ok : M → Prop}

/-- Incomplete LU of a matrix without fill-in: backward and forward error of the solution of `A x = b`. -/
theorem C91_ilu (hst : Storage ops ok) (n : Nat) (a f : M) (A : Nat → Nat → Fl R) (hok : ok a) (hA : Shows ops n a A)
    (hf : NoFill n A) (e : Ilu.new ops a = .ok f) :
    ∃ G, ok f ∧ Shows ops n f G ∧ ((∀ i, i < n → G i i ≠ 0) → ∀ b : List (Fl R), b.length = n →
      ∃ x, Ilu.solve ops f b = .ok x ∧ x.length = n ∧
      NearSolves n (Fl.mat A)
        (fun i j => gam R.u (3 * n) * ∑ k ∈ range n, |unitLow (Fl.mat G) i k * upper (Fl.mat G) k j|)
        (fun i => (val0 x i).val) (fun i => (val0 b i).val) ∧
      ∀ K c z Z, InvBound n (Fl.mat A) K →
        (∀ i, i < n → ∑ j ∈ range n, ∑ k ∈ range n, |unitLow (Fl.mat G) i k * upper (Fl.mat G) k j| ≤ c) →
        Solves n (Fl.mat A) z (fun i => (val0 b i).val) → MaxLe n z Z → K * (gam R.u (3 * n) * c) < 1 →
        MaxLe n (fun i => (val0 x i).val - z i) (K * (gam R.u (3 * n) * c) / (1 - K * (gam R.u (3 * n) * c)) * Z)) := by
  obtain ⟨G, hok', hG, hc⟩ := C61_factor hst n a f A hok hA e
  refine ⟨G, hok', hG, fun hd b hb => ?_⟩
  obtain ⟨x, ex, hx, dA, hdA, hs⟩ := C61_solve hst n f G hok' hG hd b hb
  have u0 := R.u_nonneg
  have u1 := R.u_lt_one
  have key : ∀ i j, i < n → j < n → |luProd n (Fl.mat G) i j - Fl.mat A i j| ≤
      gam R.u n * ∑ k ∈ range n, |unitLow (Fl.mat G) i k * upper (Fl.mat G) k j| := by
    intro i j hi hj
    by_cases h0 : A i j = 0
    · have z1 : luProd n (Fl.mat G) i j = 0 := by
        unfold luProd
        refine sum_eq_zero fun k hk => ?_
        have hk' := mem_range.mp hk
        unfold unitLow upper Fl.mat
        have hG0 : G i j = 0 := (hc i j hi hj).1 h0
        by_cases c1 : k < i
        · rw [if_pos c1]
          by_cases c2 : k ≤ j
          · rw [if_pos c2]
            rcases c2.lt_or_eq with c3 | c3
            · by_cases a1 : A i k = 0
              · rw [(hc i k hi hk').1 a1]; simp
              · by_cases a2 : A k j = 0
                · rw [(hc k j hk' hj).1 a2]; simp
                · exact absurd h0 (hf i j k hi hj c1 c3 a1 a2)
            · subst c3; rw [hG0]; simp
          · rw [if_neg c2, mul_zero]
        · rw [if_neg c1]
          by_cases c2 : k = i
          · subst c2
            rw [if_pos rfl]
            by_cases c3 : k ≤ j
            · rw [if_pos c3, hG0]; simp
            · rw [if_neg c3, mul_zero]
          · rw [if_neg c2, zero_mul]
      rw [z1, Fl.mat, h0]
      simp only [Fl.val_zero, sub_zero, abs_zero]
      exact mul_nonneg (gam_nonneg u0 u1 _) (sum_nonneg fun _ _ => abs_nonneg _)
    · exact (hc i j hi hj).2 h0
  have near : NearSolves n (Fl.mat A)
      (fun i j => gam R.u (3 * n) * ∑ k ∈ range n, |unitLow (Fl.mat G) i k * upper (Fl.mat G) k j|)
      (fun i => (val0 x i).val) (fun i => (val0 b i).val) := by
    refine ⟨fun i j => dA i j + (luProd n (Fl.mat G) i j - Fl.mat A i j), fun i j hi hj => ?_, ?_⟩
    · refine (abs_add_le _ _).trans ((add_le_add (hdA i j hi hj) (key i j hi hj)).trans ?_)
      rw [← add_mul]
      refine mul_le_mul_of_nonneg_right ?_ (sum_nonneg fun _ _ => abs_nonneg _)
      have := gam_add_le u0 u1 (2 * n) n
      rwa [show 2 * n + n = 3 * n by ring] at this
    · intro i hi
      rw [← hs i hi]
      unfold mulVec
      exact sum_congr rfl fun j _ => by ring
  refine ⟨x, ex, hx, near, fun K c z Z hK hcc hz hZ hq => ?_⟩
  have := forward_rel (c := gam R.u (3 * n) * c) (c0 := 0) (near2_of_near near) hz hK (fun i hi => by
    rw [← mul_sum]
    exact mul_le_mul_of_nonneg_left (hcc i hi) (gam_nonneg u0 u1 _)) (fun _ _ => le_rfl) hZ hq
  intro i hi
  refine (this i hi).trans (le_of_eq ?_)
  ring

end

/-! ## Computed residuals -/

private theorem certify {n : ℕ} {A : ℕ → ℕ → ℝ} {x b r z : ℕ → ℝ} {K M : ℝ} {t : ℕ → ℝ} (hK : InvBound n A K)
    (hz : Solves n A z b) (hr : ∀ i, i < n → |r i - (b i - mulVec n A x i)| ≤ t i)
    (hM : ∀ i, i < n → |r i| + t i ≤ M) : MaxLe n (fun i => x i - z i) (K * M) := by
  intro i hi
  have hb : ∀ k, k < n → |mulVec n A (fun j => x j - z j) k| ≤ M := by
    intro k hk
    rw [mulVec_sub, hz k hk]
    have h1 := hr k hk
    have h2 := hM k hk
    have h3 : |mulVec n A x k - b k| ≤ |r k| + |r k - (b k - mulVec n A x k)| := by
      have := abs_sub (r k - (b k - mulVec n A x k)) (r k)
      rw [show r k - (b k - mulVec n A x k) - r k = mulVec n A x k - b k by ring] at this
      linarith
    linarith
  exact hK.2 (fun j => x j - z j) M ((abs_nonneg _).trans (hb i hi)) hb i hi

/-- `y` holds `b`; `mul(-1, A, x, 1, y)` replaces it by the residual.  Whatever `x` is, its distance from the solution is at
most `K` times the largest computed residual plus the bound of its own rounding error. -/
theorem C91_residual (nd : Bool) (a : MatRef) (n x y : Nat) (s : Mem (Fl R)) (ha : a.Wf s) (hn : a.n = n) (hm : a.m = n)
    (hx : s.len x = n) (hy : s.len y = n) (hay : a.buf ≠ y) (K M : ℝ)
    (hK : InvBound n (Fl.mat (entry n (s a.buf))) K) (z : ℕ → ℝ)
    (hz : Solves n (Fl.mat (entry n (s a.buf))) z (fun i => (s.val y i).val)) :
    ∃ s', gemvDD nd (-1) a x 1 y s = .ok s' ∧ gemvSD nd (-1) a x 1 y s = .ok s' ∧ gemvSS (-1) a x 1 y s = .ok s' ∧
      s'.len y = n ∧ (∀ q, q ≠ y → s' q = s q) ∧
      ((∀ i, i < n → |(s'.val y i).val| + gam R.u (n + 2) * (|(s.val y i).val| +
          ∑ k ∈ range n, |(entry n (s a.buf) i k).val * (s.val x k).val|) ≤ M) →
        MaxLe n (fun i => (s.val x i).val - z i) (K * M)) := by
  obtain ⟨s', e1, e2, e3, h1, h2, h3⟩ := C57_gemv nd (-1) 1 a x y s ha (by omega) (by omega) hay
  rw [hn] at h1 h3
  rw [hm] at h3
  refine ⟨s', e1, e2, e3, h1, h2, fun hM => certify hK hz (r := fun i => (s'.val y i).val) (fun i hi => ?_) hM⟩
  have := h3 i hi
  simp only [Fl.val_one, Fl.val_neg, one_mul, neg_mul, abs_neg, sum_neg_distrib] at this
  rw [← sub_eq_add_neg] at this
  exact this

/-- The same with a compressed matrix. -/
theorem C91_residual_sparse (nd : Bool) (a : Csr (Fl R)) (hw : a.Wf) (hd : a.Distinct) (n x y : Nat) (s : Mem (Fl R))
    (hn : a.nrows = n) (A : Nat → Nat → Fl R) (hsh : a.shape = .ok (n, n))
    (hA : ∀ i j, i < n → j < n → a.get i j = .ok (A i j)) (hx : s.len x = n) (hy : s.len y = n) (hxy : x ≠ y) (K M : ℝ)
    (hK : InvBound n (Fl.mat A) K) (z : ℕ → ℝ) (hz : Solves n (Fl.mat A) z (fun i => (s.val y i).val)) :
    ∃ s', Csr.mul nd (-1) a x 1 y s = .ok s' ∧ s'.len y = n ∧ (∀ q, q ≠ y → s' q = s q) ∧
      ((∀ i, i < n → |(s'.val y i).val| + gam R.u (a.rowPtr.getD (i + 1) 0 - a.rowPtr.getD i 0 + 2) * (|(s.val y i).val| +
          ∑ k ∈ range n, |(A i k).val * (s.val x k).val|) ≤ M) →
        MaxLe n (fun i => (s.val x i).val - z i) (K * M)) := by
  subst hn
  obtain ⟨s', e1, h1, h2, h3⟩ := C57_spmv nd (-1) 1 a hw hd A a.nrows x y s hsh hA hx hy hxy
  refine ⟨s', e1, h1, h2, fun hM => certify hK hz (r := fun i => (s'.val y i).val) (fun i hi => ?_) hM⟩
  have := h3 i hi
  simp only [Fl.val_one, Fl.val_neg, one_mul, neg_mul, abs_neg, sum_neg_distrib] at this
  rw [← sub_eq_add_neg] at this
  exact this

/-- Over IEEE 754 numbers: the residual has to be finite, and there are underflow terms. -/
theorem C91_residual_ieee (nd : Bool) (a : MatRef) (n x y : Nat) (s : Mem (Fp F)) (ha : a.Wf s) (hn : a.n = n)
    (hm : a.m = n) (hx : s.len x = n) (hy : s.len y = n) (hay : a.buf ≠ y) (K M : ℝ)
    (hK : InvBound n (Fp.mat (entry n (s a.buf))) K) (z : ℕ → ℝ)
    (hz : Solves n (Fp.mat (entry n (s a.buf))) z (fun i => (s.val y i).val)) :
    ∃ s', gemvDD nd (-1) a x 1 y s = .ok s' ∧ gemvSD nd (-1) a x 1 y s = .ok s' ∧ gemvSS (-1) a x 1 y s = .ok s' ∧
      s'.len y = n ∧ (∀ q, q ≠ y → s' q = s q) ∧
      ((∀ i, i < n → (s'.val y i).IsFin) →
      (∀ i, i < n → |(s'.val y i).val| + (gam F.u (n + 2) * (|(s.val y i).val| +
          ∑ k ∈ range n, |(entry n (s a.buf) i k).val * (s.val x k).val|) +
          (1 + gam F.u n) * (F.eta + ∑ k ∈ range n, F.eta * (1 + (1 + gam F.u 1) * |(s.val x k).val|))) ≤ M) →
        MaxLe n (fun i => (s.val x i).val - z i) (K * M)) := by
  obtain ⟨s', e1, e2, e3, h1, h2, h3⟩ := C66_gemv nd (-1) 1 a x y s ha (by omega) (by omega) hay
  rw [hn] at h1 h3
  rw [hm] at h3
  refine ⟨s', e1, e2, e3, h1, h2, fun hf hM => certify hK hz (r := fun i => (s'.val y i).val) (fun i hi => ?_) hM⟩
  have := (h3 i hi).1 (hf i hi)
  simp only [Fp.val_one, Fp.val_neg, one_mul, neg_mul, abs_neg, sum_neg_distrib] at this
  rw [← sub_eq_add_neg] at this
  exact this

/-! ## Examples -/

-- rows `(3, 1)` and `(-1, 2)`: `max |x| ≤ max |A x|`
example : InvBound 2 (fun i j => if i = 0 then (if j = 0 then 3 else 1) else (if j = 0 then -1 else 2)) 1 := by
  have h := (C91_inverse 2 fun i j => if i = 0 then (if j = 0 then 3 else 1) else (if j = 0 then -1 else 2)).1 1 one_pos
    fun i hi => by
      rcases (by omega : i = 0 ∨ i = 1) with rfl | rfl
      · rw [show (range 2).erase 0 = {1} by decide]; norm_num
      · rw [show (range 2).erase 1 = {0} by decide]; norm_num
  rwa [div_one] at h

-- a singular matrix has no such bound
example (K : ℝ) : ¬ InvBound 2 (fun _ _ => 1) K := by
  intro h
  have := h.2 (fun i => if i = 0 then 1 else -1) 0 le_rfl (fun i _ => by simp [mulVec, sum_range_succ]) 0 (by norm_num)
  norm_num at this

end Lalib.Props
