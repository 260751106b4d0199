import Verif.Spec.Inertia
import Verif.Proofs.LinAlg
import Mathlib.Analysis.Matrix.Spectrum
import Mathlib.LinearAlgebra.FiniteDimensional.Lemmas

/-! # The index of a form that is a sum of squares with signs -/

namespace Lalib

open Finset Module

variable {T : Type}

section
variable [Field T] [LinearOrder T] [IsStrictOrderedRing T] {n : Nat}

/-- A space on which a sum of squares is negative is no larger than the number of negative coefficients. -/
theorem neg_le {ι : Type} [Fintype ι] {V : Type} [AddCommGroup V] [Module T V] (q : V → T) (f : V →ₗ[T] (ι → T)) (c : ι → T)
    (hq : ∀ x, ∑ k, c k * f x k ^ 2 ≤ q x) (W : Submodule T V) [FiniteDimensional T W] (hW : ∀ x ∈ W, x ≠ 0 → q x < 0) :
    finrank T W ≤ (univ.filter fun k => c k < 0).card := by
  classical
  let g : W →ₗ[T] ({k // c k < 0} → T) := (LinearMap.funLeft T T (fun k : {k // c k < 0} => k.1)).comp (f.comp W.subtype)
  have hg : Function.Injective g := by
    rw [← LinearMap.ker_eq_bot, LinearMap.ker_eq_bot']
    intro x hx
    by_contra hne
    have h1 := hW x x.2 (fun h => hne (Subtype.ext h))
    refine absurd ((hq x).trans_lt h1) (not_lt.mpr (sum_nonneg fun k _ => ?_))
    by_cases hk : c k < 0
    · have : f x k = 0 := congrFun hx ⟨k, hk⟩
      rw [this]; simp
    · exact mul_nonneg (not_lt.mp hk) (sq_nonneg _)
  have := LinearMap.finrank_le_finrank_of_injective hg
  rwa [finrank_fintype_fun_eq_card, Fintype.card_subtype] at this

/-- ... and there is one of that size. -/
theorem neg_ex {ι : Type} [Fintype ι] {V : Type} [AddCommGroup V] [Module T V] (q : V → T) (f : V →ₗ[T] (ι → T)) (c : ι → T)
    (hf : Function.Surjective f) (hq : ∀ x, q x ≤ ∑ k, c k * f x k ^ 2) :
    ∃ W : Submodule T V, finrank T W = (univ.filter fun k => c k < 0).card ∧ ∀ x ∈ W, x ≠ 0 → q x < 0 := by
  classical
  obtain ⟨r, hr⟩ := LinearMap.exists_rightInverse_of_surjective f (LinearMap.range_eq_top.mpr hf)
  have hr' : ∀ y, f (r y) = y := fun y => LinearMap.congr_fun hr y
  let e : ({k // c k < 0} → T) →ₗ[T] (ι → T) := Function.ExtendByZero.linearMap T (fun k : {k // c k < 0} => k.1)
  have e1 : ∀ y k (hk : c k < 0), e y k = y ⟨k, hk⟩ := fun y k hk => by
    have := Subtype.val_injective.extend_apply y (0 : ι → T) ⟨k, hk⟩
    exact this
  have e2 : ∀ y k, ¬ c k < 0 → e y k = 0 := fun y k hk => by
    refine (Function.extend_apply' _ _ _ ?_)
    rintro ⟨a, ha⟩
    exact hk (ha ▸ a.2)
  have hinj : Function.Injective (r.comp e) := by
    intro y z h
    have h2 : e y = e z := by
      have := congrArg f h
      simpa only [LinearMap.comp_apply, hr'] using this
    funext k
    have := congrFun h2 k.1
    rwa [e1 _ _ k.2, e1 _ _ k.2] at this
  refine ⟨LinearMap.range (r.comp e), ?_, ?_⟩
  · rw [LinearMap.finrank_range_of_inj hinj, finrank_fintype_fun_eq_card, Fintype.card_subtype]
  · rintro x ⟨y, rfl⟩ hx
    refine (hq _).trans_lt ?_
    simp only [LinearMap.comp_apply, hr']
    have hy : ∃ k, y k ≠ 0 := by
      by_contra hc
      push Not at hc
      exact hx (by rw [show y = 0 from funext hc, map_zero])
    obtain ⟨k, hk⟩ := hy
    refine sum_neg' (fun i _ => ?_) ⟨k.1, mem_univ _, ?_⟩
    · by_cases hi : c i < 0
      · exact mul_nonpos_of_nonpos_of_nonneg hi.le (sq_nonneg _)
      · rw [e2 _ _ hi]; simp
    · rw [e1 _ _ k.2]
      exact mul_neg_of_neg_of_pos k.2 (by positivity)

omit [IsStrictOrderedRing T] in
theorem NegIndex.unique {A : Nat → Nat → T} {k k' : Nat} (h : NegIndex n A k) (h' : NegIndex n A k') : k = k' := by
  obtain ⟨⟨W, e, hW⟩, h2⟩ := h
  obtain ⟨⟨W', e', hW'⟩, h2'⟩ := h'
  have := h2 W' hW'
  have := h2' W hW
  omega

theorem negIndex_of_squares {A : Nat → Nat → T} (f : (Fin n → T) →ₗ[T] (Fin n → T)) (hf : Function.Surjective f) (c : Fin n → T)
    (hq : ∀ x, form n A x = ∑ k, c k * f x k ^ 2) : NegIndex n A (univ.filter fun k => c k < 0).card :=
  ⟨neg_ex _ f c hf fun x => (hq x).le, fun W hW => neg_le _ f c (fun x => (hq x).ge) W hW⟩

omit [IsStrictOrderedRing T] in
theorem negCount_fin (n : Nat) (d : Nat → T) : (univ.filter fun k : Fin n => d k < 0).card = negCount n d := by
  unfold negCount
  rw [card_filter, card_filter, Finset.sum_range]

omit [LinearOrder T] [IsStrictOrderedRing T] in
/-- `A = L D⁻¹ Lᵀ` as a sum of squares. -/
theorem form_ldl {A L : Nat → Nat → T}
    (h : ∀ i j, i < n → j < n → ∑ k ∈ range n, low L i k * low L j k / L k k = A i j) (x : Fin n → T) :
    form n A x = ∑ k : Fin n, (L k k)⁻¹ * (Matrix.of fun k i : Fin n => low L i k).mulVec x k ^ 2 := by
  have e : ∀ i j : Fin n, A i j = ∑ k : Fin n, low L i k * low L j k / L k k := fun i j => by
    rw [← h i j i.2 j.2, Finset.sum_range]
  unfold form Matrix.mulVec dotProduct
  simp only [e, Matrix.of_apply, sq, mul_sum, sum_mul]
  rw [sum_comm]
  simp only [fun j : Fin n => sum_comm (s := (univ : Finset (Fin n))) (t := (univ : Finset (Fin n)))
    (f := fun i k => x i * (low L i k * low L j k / L k k) * x j)]
  rw [sum_comm]
  refine sum_congr rfl fun k _ => sum_congr rfl fun j _ => sum_congr rfl fun i _ => ?_
  ring

omit [LinearOrder T] [IsStrictOrderedRing T] in
theorem low_surj {L : Nat → Nat → T} (hd : ∀ i, i < n → L i i ≠ 0) :
    Function.Surjective (Matrix.mulVecLin (Matrix.of fun k i : Fin n => low L i k)) := by
  have hdet : (Matrix.of fun k i : Fin n => low L i k).det ≠ 0 := by
    rw [Matrix.det_of_isUpperTriangular]
    · refine prod_ne_zero_iff.mpr fun i _ => ?_
      simpa [low] using hd i i.2
    · intro i j hij
      exact if_neg (not_le.mpr hij)
  have := Matrix.mulVec_surjective_iff_isUnit.mpr ((Matrix.isUnit_iff_isUnit_det _).mpr (isUnit_iff_ne_zero.mpr hdet))
  exact this

/-- Sylvester's law for a factorisation `L D⁻¹ Lᵀ`. -/
theorem negIndex_ldl {A L : Nat → Nat → T} (hd : ∀ i, i < n → L i i ≠ 0)
    (h : ∀ i j, i < n → j < n → ∑ k ∈ range n, low L i k * low L j k / L k k = A i j) :
    NegIndex n A (negCount n fun i => L i i) ∧ NegIndex n (fun i j => -A i j) (posCount n fun i => L i i) := by
  constructor
  · have := negIndex_of_squares _ (low_surj hd) (fun k => (L k k)⁻¹) (form_ldl h)
    simp only [inv_lt_zero] at this
    rwa [negCount_fin n fun i => L i i] at this
  · have := negIndex_of_squares (A := fun i j => -A i j) _ (low_surj hd) (fun k => -(L k k)⁻¹) (fun x => by
      have := form_ldl h x
      simp only [Matrix.mulVecLin_apply, neg_mul, sum_neg_distrib, ← this]
      simp [form])
    simp only [neg_lt_zero, inv_pos] at this
    have e : posCount n (fun i => L i i) = negCount n fun i => -L i i := by simp [posCount, negCount]
    rw [e, ← negCount_fin]
    simpa using this

omit [IsStrictOrderedRing T] in
theorem counts_add (n : Nat) (d : Nat → T) (hd : ∀ i, i < n → d i ≠ 0) : negCount n d + posCount n d = n := by
  unfold negCount posCount
  rw [← card_union_of_disjoint, ← filter_or]
  · rw [filter_true_of_mem (fun i hi => lt_or_gt_of_ne (hd i (mem_range.mp hi))), card_range]
  · exact disjoint_filter.mpr fun i _ h1 h2 => absurd h1 (not_lt.mpr h2.le)

end

/-! ## Eigenvalues -/

section
variable {n : Nat}

/-- The form of a symmetric matrix in the coordinates of an orthonormal basis of eigenvectors. -/
theorem spectral {A : Nat → Nat → ℝ} (hs : Symm n A) :
    ∃ (f : (Fin n → ℝ) →ₗ[ℝ] (Fin n → ℝ)) (lam : Fin n → ℝ), Function.Surjective f ∧ eigs n A = univ.val.map lam ∧
      ∀ x, form n A x = ∑ k, lam k * f x k ^ 2 ∧ ∑ i, x i ^ 2 = ∑ k, f x k ^ 2 := by
  have hA : (Matrix.of fun i j : Fin n => A i j).IsHermitian := by
    ext i j
    simpa using hs j i j.2 i.2
  let U : Matrix (Fin n) (Fin n) ℝ := hA.eigenvectorUnitary
  have hU : U * U.transpose = 1 := by
    have := Unitary.coe_mul_star_self hA.eigenvectorUnitary
    rwa [Unitary.coe_star, Matrix.star_eq_conjTranspose, Matrix.conjTranspose_eq_transpose_of_trivial] at this
  have hU' : U.transpose * U = 1 := mul_eq_one_comm.mp hU
  have e : (Matrix.of fun i j : Fin n => A i j) = U * Matrix.diagonal hA.eigenvalues * U.transpose := by
    have := hA.spectral_theorem
    rw [Unitary.conjStarAlgAut_apply, Matrix.star_eq_conjTranspose,
      Matrix.conjTranspose_eq_transpose_of_trivial] at this
    exact this
  generalize hlam : hA.eigenvalues = lam at e
  refine ⟨U.transpose.mulVecLin, lam, fun y => ⟨U.mulVec y, ?_⟩, ?_, fun x => ⟨?_, ?_⟩⟩
  · rw [Matrix.mulVecLin_apply, Matrix.mulVec_mulVec, hU', Matrix.one_mulVec]
  · rw [← hlam]; exact hA.roots_charpoly_eq_eigenvalues
  · have e1 : form n A x = dotProduct x ((Matrix.of fun i j : Fin n => A i j).mulVec x) := by
      simp only [form, dotProduct, Matrix.mulVec, mul_sum, Matrix.of_apply, mul_assoc]
    rw [e1, e, ← Matrix.mulVec_mulVec, ← Matrix.mulVec_mulVec, Matrix.dotProduct_mulVec, ← Matrix.mulVec_transpose]
    simp only [dotProduct, Matrix.mulVec_diagonal, Matrix.mulVecLin_apply]
    exact sum_congr rfl fun k _ => by ring
  · have : dotProduct (U.transpose.mulVec x) (U.transpose.mulVec x) = dotProduct x x := by
      rw [Matrix.dotProduct_mulVec, ← Matrix.mulVec_transpose, Matrix.transpose_transpose, Matrix.mulVec_mulVec, hU,
        Matrix.one_mulVec]
    simp only [dotProduct] at this
    simp only [sq, Matrix.mulVecLin_apply, this]

theorem countP_map_univ {ι : Type} [Fintype ι] (lam : ι → ℝ) (s : ℝ) :
    ((univ : Finset ι).val.map lam).countP (· < s) = (univ.filter fun k => lam k < s).card := by
  rw [Multiset.countP_map]
  rfl

theorem form_shiftBy (A : Nat → Nat → ℝ) (s : ℝ) (x : Fin n → ℝ) : form n (shiftBy A s) x = form n A x - s * ∑ i, x i ^ 2 := by
  unfold form shiftBy
  simp only [mul_sub, sub_mul, sum_sub_distrib]
  congr 1
  rw [mul_sum]
  refine sum_congr rfl fun i _ => ?_
  rw [sum_eq_single i]
  · simp; ring
  · intro j _ hj
    rw [if_neg (fun h => hj (Fin.ext h.symm))]; ring
  · simp

/-- A form that differs from that of `A - s I` by at most `e |x|²`: its index is between the numbers of eigenvalues of `A`
below `s - e` and below `s + e`. -/
theorem negIndex_eigs {A B : Nat → Nat → ℝ} (hs : Symm n A) {s e : ℝ} {k : Nat} (hB : NegIndex n B k)
    (h : ∀ x : Fin n → ℝ, |form n B x - form n (shiftBy A s) x| ≤ e * ∑ i, x i ^ 2) :
    (eigs n A).countP (· < s - e) ≤ k ∧ k ≤ (eigs n A).countP (· < s + e) := by
  obtain ⟨f, lam, hf, el, hx⟩ := spectral hs
  obtain ⟨⟨W, eW, hW⟩, hB2⟩ := hB
  rw [el, countP_map_univ, countP_map_univ]
  constructor
  · obtain ⟨W', e', h'⟩ := neg_ex (form n B) f (fun k => lam k - s + e) hf fun x => by
      have := (abs_le.mp (h x)).2
      rw [form_shiftBy, (hx x).1, (hx x).2] at this
      simp only [add_mul, sub_mul, sum_add_distrib, sum_sub_distrib, ← mul_sum]
      linarith
    have := hB2 W' h'
    rw [e'] at this
    refine le_trans (le_of_eq ?_) this
    congr 1
    exact filter_congr fun k _ => by constructor <;> intro h <;> linarith
  · have := neg_le (form n B) f (fun k => lam k - s - e) (fun x => by
      have := (abs_le.mp (h x)).1
      rw [form_shiftBy, (hx x).1, (hx x).2] at this
      simp only [sub_mul, sum_sub_distrib, ← mul_sum]
      linarith) W hW
    rw [eW] at this
    refine this.trans (le_of_eq ?_)
    congr 1
    exact filter_congr fun k _ => by constructor <;> intro h <;> linarith

/-- Entries that differ by at most `H`, a symmetric matrix with row sums at most `e`. -/
theorem form_near {A B H : Nat → Nat → ℝ} {e : ℝ} (hH : Symm n H) (h : ∀ i j, i < n → j < n → |B i j - A i j| ≤ H i j)
    (he : ∀ i, i < n → ∑ j ∈ range n, H i j ≤ e) (x : Fin n → ℝ) : |form n B x - form n A x| ≤ e * ∑ i, x i ^ 2 := by
  have h1 : form n B x - form n A x = ∑ i : Fin n, ∑ j : Fin n, x i * (B i j - A i j) * x j := by
    unfold form
    simp only [mul_sub, sub_mul, sum_sub_distrib]
  have h2 : ∀ i j : Fin n, |x i * (B i j - A i j) * x j| ≤ H i j * x i ^ 2 / 2 + H j i * x j ^ 2 / 2 := fun i j => by
    rw [hH j i j.2 i.2, abs_mul, abs_mul]
    have a := h i j i.2 j.2
    have b := (abs_nonneg (B i j - A i j)).trans a
    have c : |x i| * |x j| ≤ x i ^ 2 / 2 + x j ^ 2 / 2 := by
      have := sq_nonneg (|x i| - |x j|)
      have := sq_abs (x i)
      have := sq_abs (x j)
      nlinarith
    calc |x i| * |B i j - A i j| * |x j| = |B i j - A i j| * (|x i| * |x j|) := by ring
      _ ≤ H i j * (|x i| * |x j|) := mul_le_mul_of_nonneg_right a (by positivity)
      _ ≤ H i j * (x i ^ 2 / 2 + x j ^ 2 / 2) := mul_le_mul_of_nonneg_left c b
      _ = _ := by ring
  rw [h1]
  calc |∑ i : Fin n, ∑ j : Fin n, x i * (B i j - A i j) * x j| ≤ ∑ i : Fin n, ∑ j : Fin n, |x i * (B i j - A i j) * x j| :=
        (abs_sum_le_sum_abs _ _).trans (sum_le_sum fun i _ => abs_sum_le_sum_abs _ _)
    _ ≤ ∑ i : Fin n, ∑ j : Fin n, (H i j * x i ^ 2 / 2 + H j i * x j ^ 2 / 2) := sum_le_sum fun i _ => sum_le_sum fun j _ => h2 i j
    _ = ∑ i : Fin n, (∑ j : Fin n, H i j) * x i ^ 2 := by
        simp only [sum_add_distrib]
        rw [sum_comm (f := fun i j : Fin n => H j i * x j ^ 2 / 2), ← sum_add_distrib]
        refine sum_congr rfl fun i _ => ?_
        rw [← sum_add_distrib, sum_mul]
        exact sum_congr rfl fun j _ => by ring
    _ ≤ ∑ i : Fin n, e * x i ^ 2 := sum_le_sum fun i _ => mul_le_mul_of_nonneg_right (by
        have := he i i.2
        rwa [Finset.sum_range] at this) (sq_nonneg _)
    _ = e * ∑ i, x i ^ 2 := by rw [mul_sum]

end

end Lalib
