import Verif.Spec.LinAlg
import Mathlib.LinearAlgebra.Matrix.Block
import Mathlib.LinearAlgebra.Matrix.NonsingularInverse
import Mathlib.LinearAlgebra.Matrix.ToLinearEquiv
import Mathlib.Algebra.Order.BigOperators.Ring.Finset
import Mathlib.Algebra.Order.Field.Basic
import Mathlib.Tactic.LinearCombination
import Mathlib.Tactic.FieldSimp

/-! # Determinants of products of triangular matrices -/

namespace Lalib

variable {T : Type}

theorem minor_LU [CommRing T] {A L U : Nat → Nat → T} {k : Nat}
    (hL : ∀ i t, i < k → t < k → i < t → L i t = 0) (hU : ∀ t j, t < k → j < k → j < t → U t j = 0)
    (h : ∀ i j, i < k → j < k → A i j = ∑ t ∈ Finset.range k, L i t * U t j) :
    minor A k = (∏ i ∈ Finset.range k, L i i) * ∏ i ∈ Finset.range k, U i i := by
  have e : (Matrix.of fun i j : Fin k => A i j) =
      (Matrix.of fun i j : Fin k => L i j) * (Matrix.of fun i j : Fin k => U i j) := by
    ext i j
    rw [Matrix.mul_apply, Matrix.of_apply, h i j i.2 j.2, Finset.sum_range]
    rfl
  unfold minor
  rw [e, Matrix.det_mul, Matrix.det_of_isLowerTriangular, Matrix.det_of_isUpperTriangular]
  · simp only [Matrix.of_apply]
    rw [Finset.prod_range, Finset.prod_range]
  · intro i j hij
    exact hU i j i.2 j.2 hij
  · intro i j hij
    exact hL i j i.2 j.2 hij

/-- The leading minors do not vanish iff the pivots do not, when they are related by an elimination. -/
theorem regular_iff_pivots [Field T] {A : Nat → Nat → T} {D : Nat → T} {n : Nat}
    (h : ∀ k, k < n → (∀ i, i < k → D i ≠ 0) → minor A (k + 1) = ∏ i ∈ Finset.range (k + 1), D i) :
    Regular A n ↔ ∀ i, i < n → D i ≠ 0 := by
  constructor
  · intro hr i
    induction i using Nat.strong_induction_on with
    | _ i ih =>
      intro hi h0
      apply hr i hi
      rw [h i hi (fun j hj => ih j hj (by omega)), Finset.prod_range_succ, h0, mul_zero]
  · intro hD k hk
    rw [h k hk (fun i hi => hD i (by omega)), Finset.prod_ne_zero_iff]
    intro i hi
    exact hD i (by have := Finset.mem_range.mp hi; omega)

/-- A system with non-zero determinant has a solution. -/
theorem exists_solves [Field T] {A : Nat → Nat → T} {k : Nat} (h : minor A k ≠ 0) (b : Nat → T) :
    ∃ y : Nat → T, Solves k A y b := by
  have hu : IsUnit (Matrix.of fun i j : Fin k => A i j).det := isUnit_iff_ne_zero.mpr h
  let M := Matrix.of fun i j : Fin k => A i j
  let y := M⁻¹.mulVec (fun i : Fin k => b i)
  have hy : M.mulVec y = fun i : Fin k => b i := by
    show M.mulVec (M⁻¹.mulVec _) = _
    rw [Matrix.mulVec_mulVec, Matrix.mul_nonsing_inv _ hu, Matrix.one_mulVec]
  refine ⟨fun i => if hi : i < k then y ⟨i, hi⟩ else 0, fun i hi => ?_⟩
  have := congrFun hy ⟨i, hi⟩
  simp only at this
  rw [← this]
  unfold mulVec
  rw [Finset.sum_range]
  simp only [Fin.is_lt, dif_pos]
  rfl

/-- A zero determinant gives a non-trivial solution of the homogeneous system. -/
theorem exists_kernel [Field T] {A : Nat → Nat → T} {k : Nat} (h : minor A k = 0) :
    ∃ y : Nat → T, (∃ i, i < k ∧ y i ≠ 0) ∧ (∀ i, k ≤ i → y i = 0) ∧ Solves k A y (fun _ => 0) := by
  obtain ⟨v, hv, h0⟩ := Matrix.exists_mulVec_eq_zero_iff.mpr h
  obtain ⟨j, hj⟩ : ∃ j, v j ≠ 0 := by
    by_contra hc
    push Not at hc
    exact hv (funext hc)
  refine ⟨fun i => if hi : i < k then v ⟨i, hi⟩ else 0, ⟨j, j.2, by simpa using hj⟩,
    fun i hi => by simp [Nat.not_lt.mpr hi], fun i hi => ?_⟩
  have := congrFun h0 ⟨i, hi⟩
  simp only [Pi.zero_apply] at this
  rw [← this]
  unfold mulVec
  rw [Finset.sum_range]
  simp only [Fin.is_lt, dif_pos]
  rfl

/-- A sum over the columns of two lower-triangular rows stops at the shorter one. -/
theorem low_sum [CommRing T] (L M : Nat → Nat → T) {n i j : Nat} (hj : j ≤ i) (hi : i < n) :
    ∑ k ∈ Finset.range n, low L i k * low M j k = ∑ k ∈ Finset.range (j + 1), L i k * M j k := by
  rw [← Finset.sum_subset (Finset.range_subset_range.mpr (show j + 1 ≤ n by omega))]
  · apply Finset.sum_congr rfl
    intro k hk
    have := Finset.mem_range.mp hk
    rw [low, low, if_pos (by omega), if_pos (by omega)]
  · intro k _ hk
    have : ¬ k ≤ j := by simpa using hk
    rw [low, low, if_neg this, mul_zero]

/-- The factor relation only has to be checked on the lower part. -/
theorem low_full [CommRing T] {L A : Nat → Nat → T} {n : Nat} (hs : Symm n A)
    (h : ∀ i j, j ≤ i → i < n → ∑ k ∈ Finset.range (j + 1), L i k * L j k = A i j) :
    ∀ i j, i < n → j < n → ∑ k ∈ Finset.range n, low L i k * low L j k = A i j := by
  intro i j hi hj
  rcases Nat.le_total j i with hji | hij
  · rw [low_sum L L hji hi, h i j hji hi]
  · rw [hs i j hi hj, ← h j i hij hj, ← low_sum L L hij hj]
    exact Finset.sum_congr rfl fun k _ => mul_comm _ _

/-- Quadratic form of a product `L Mᵀ`. -/
theorem quad_mul [CommRing T] {L M : Nat → Nat → T} {n p : Nat} (x : Nat → T) :
    ∑ i ∈ Finset.range n, ∑ j ∈ Finset.range n, x i * (∑ k ∈ Finset.range p, L i k * M j k) * x j =
      ∑ k ∈ Finset.range p, (∑ i ∈ Finset.range n, x i * L i k) * (∑ j ∈ Finset.range n, x j * M j k) := by
  simp only [Finset.mul_sum, Finset.sum_mul]
  conv_rhs => rw [Finset.sum_comm]
  conv_rhs => enter [2, j]; rw [Finset.sum_comm]
  conv_rhs => rw [Finset.sum_comm]
  refine Finset.sum_congr rfl fun i _ => Finset.sum_congr rfl fun j _ => Finset.sum_congr rfl fun k _ => ?_
  ring

section ordered
variable [Field T] [LinearOrder T] [IsStrictOrderedRing T]

/-- A matrix with a Cholesky factor is positive definite. -/
theorem IsChol.posDef {L A : Nat → Nat → T} {n : Nat} (h : IsChol n L A) : PosDef n A := by
  obtain ⟨hp, hf⟩ := h
  rintro x ⟨i0, hi0, hx0⟩
  have e : ∑ i ∈ Finset.range n, ∑ j ∈ Finset.range n, x i * A i j * x j =
      ∑ k ∈ Finset.range n, (∑ i ∈ Finset.range n, x i * low L i k) *
        (∑ j ∈ Finset.range n, x j * low L j k) := by
    rw [← quad_mul]
    refine Finset.sum_congr rfl fun i hi => Finset.sum_congr rfl fun j hj => ?_
    rw [hf i j (Finset.mem_range.mp hi) (Finset.mem_range.mp hj)]
  rw [e]
  -- the last index with a non-zero component
  have hne : ((Finset.range n).filter fun i => x i ≠ 0).Nonempty := ⟨i0, by simp [hi0, hx0]⟩
  obtain ⟨m, hm, hmax⟩ := Finset.exists_max_image _ id hne
  simp only [Finset.mem_filter, Finset.mem_range, id_eq] at hm hmax
  refine Finset.sum_pos' (fun k _ => mul_self_nonneg _) ⟨m, Finset.mem_range.mpr hm.1, ?_⟩
  have : ∑ i ∈ Finset.range n, x i * low L i m = x m * L m m := by
    rw [Finset.sum_eq_single m]
    · rw [low, if_pos (Nat.le_refl _)]
    · intro i hi hne
      rcases Nat.lt_or_gt_of_ne hne with h | h
      · rw [low, if_neg (by omega), mul_zero]
      · have : x i = 0 := by
          by_contra h0
          have := hmax i ⟨Finset.mem_range.mp hi, h0⟩
          omega
        rw [this, zero_mul]
    · intro h; exact absurd (Finset.mem_range.mpr hm.1) h
  rw [this]
  exact mul_self_pos.mpr (mul_ne_zero hm.2 (ne_of_gt (hp m hm.1)))

/-- A pivot that is not positive shows that the matrix is not positive definite. -/
theorem not_posDef {L A : Nat → Nat → T} {n i : Nat} (hi : i < n) (hs : Symm n A)
    (hp : ∀ r, r < i → 0 < L r r)
    (hf : ∀ r c, c ≤ r → c < i → r ≤ i → ∑ k ∈ Finset.range (c + 1), L r k * L c k = A r c)
    (hd : A i i - ∑ k ∈ Finset.range i, L i k * L i k ≤ 0) : ¬ PosDef n A := by
  intro hpd
  -- solve for the combination of the first rows that cancels row i
  have hm : minor (fun c r => low L r c) i ≠ 0 := by
    have := minor_LU (A := fun c r => low L r c) (k := i) (L := fun c t => if c = t then (1 : T) else 0)
      (U := fun t r => low L r t) (fun i t _ _ h => by rw [if_neg (by omega)])
      (fun t j _ _ h => by rw [low, if_neg (by omega)])
      (fun c r hc _ => by simp [hc])
    rw [this]
    simp only [if_true, Finset.prod_const_one, one_mul]
    rw [Finset.prod_ne_zero_iff]
    intro r hr
    rw [low, if_pos (Nat.le_refl _)]
    exact ne_of_gt (hp r (Finset.mem_range.mp hr))
  obtain ⟨y, hy⟩ := exists_solves hm (fun c => - L i c)
  let x : Nat → T := fun r => if r < i then y r else if r = i then 1 else 0
  have hpos := hpd x ⟨i, hi, by simp [x]⟩
  -- the factor rows, without the diagonal element of row i
  let K : Nat → Nat → T := fun r k => if r = i then (if k < i then L i k else 0) else low L r k
  have hA : ∀ r c, r ≤ i → c ≤ i →
      A r c = ∑ k ∈ Finset.range i, K r k * K c k +
        (if r = i ∧ c = i then A i i - ∑ k ∈ Finset.range i, L i k * L i k else 0) := by
    have lower : ∀ r c, c ≤ r → r ≤ i →
      A r c = ∑ k ∈ Finset.range i, K r k * K c k +
        (if r = i ∧ c = i then A i i - ∑ k ∈ Finset.range i, L i k * L i k else 0) := by
      intro r c hcr hri
      by_cases hci : c = i
      · subst hci
        have : r = c := by omega
        subst this
        rw [if_pos ⟨rfl, rfl⟩]
        have : ∑ k ∈ Finset.range r, K r k * K r k = ∑ k ∈ Finset.range r, L r k * L r k := by
          apply Finset.sum_congr rfl
          intro k hk
          simp only [K, if_true, if_pos (Finset.mem_range.mp hk)]
        rw [this]; ring
      · rw [if_neg (fun h => hci h.2), add_zero, ← hf r c hcr (by omega) hri]
        rw [← Finset.sum_subset (Finset.range_subset_range.mpr (show c + 1 ≤ i by omega))]
        · apply Finset.sum_congr rfl
          intro k hk
          have hk := Finset.mem_range.mp hk
          simp only [K, if_neg hci, low, if_pos (show k ≤ c by omega), if_pos (show k < i by omega),
            if_pos (show k ≤ r by omega)]
          by_cases hr : r = i
          · simp [hr]
          · simp [hr]
        · intro k _ hk
          have : ¬ k ≤ c := by simpa using hk
          simp only [K, if_neg hci, low, if_neg this, mul_zero]
    intro r c hr hc
    rcases Nat.le_total c r with h | h
    · exact lower r c h hr
    · rw [hs r c (by omega) (by omega), lower c r h hc]
      congr 1
      · exact Finset.sum_congr rfl fun k _ => mul_comm _ _
      · by_cases h1 : c = i ∧ r = i
        · rw [if_pos h1, if_pos h1.symm]
        · rw [if_neg h1, if_neg (fun h => h1 h.symm)]
  have hcut : ∀ f : Nat → T, (∀ j, i < j → f j = 0) →
      ∑ j ∈ Finset.range n, f j = ∑ j ∈ Finset.range (i + 1), f j := by
    intro f hf0
    symm
    apply Finset.sum_subset (Finset.range_subset_range.mpr (by omega))
    intro j _ hj
    exact hf0 j (by simpa using hj)
  have hx0 : ∀ j, i < j → x j = 0 := by
    intro j hj
    simp only [x, if_neg (show ¬ j < i by omega), if_neg (show j ≠ i by omega)]
  rw [hcut _ (fun r hr => by simp [hx0 r hr])] at hpos
  rw [Finset.sum_congr rfl (fun r _ => hcut _ (fun c hc => by simp [hx0 c hc]))] at hpos
  have e : ∑ r ∈ Finset.range (i + 1), ∑ c ∈ Finset.range (i + 1), x r * A r c * x c =
      ∑ r ∈ Finset.range (i + 1), ∑ c ∈ Finset.range (i + 1),
        x r * (∑ k ∈ Finset.range i, K r k * K c k) * x c +
      (A i i - ∑ k ∈ Finset.range i, L i k * L i k) := by
    have : ∀ r ∈ Finset.range (i + 1), ∑ c ∈ Finset.range (i + 1), x r * A r c * x c =
        ∑ c ∈ Finset.range (i + 1), x r * (∑ k ∈ Finset.range i, K r k * K c k) * x c +
        (if r = i then A i i - ∑ k ∈ Finset.range i, L i k * L i k else 0) := by
      intro r hr
      have hr := Finset.mem_range.mp hr
      have hstep : ∀ c ∈ Finset.range (i + 1), x r * A r c * x c =
          x r * (∑ k ∈ Finset.range i, K r k * K c k) * x c +
          (if c = i then (if r = i then A i i - ∑ k ∈ Finset.range i, L i k * L i k else 0) else 0) := by
        intro c hc
        have hc := Finset.mem_range.mp hc
        rw [hA r c (by omega) (by omega)]
        by_cases h1 : r = i
        · by_cases h2 : c = i
          · rw [if_pos ⟨h1, h2⟩, if_pos h2, if_pos h1]
            have e1 : x r = 1 := by simp [x, h1]
            have e2 : x c = 1 := by simp [x, h2]
            rw [e1, e2]; ring
          · rw [if_neg (fun h => h2 h.2), if_neg h2, add_zero, add_zero]
        · rw [if_neg (fun h => h1 h.1), if_neg h1]
          simp
      rw [Finset.sum_congr rfl hstep, Finset.sum_add_distrib, Finset.sum_ite_eq']
      simp
    rw [Finset.sum_congr rfl this, Finset.sum_add_distrib, Finset.sum_ite_eq']
    simp
  rw [e, quad_mul] at hpos
  have hzero : ∀ k ∈ Finset.range i, (∑ r ∈ Finset.range (i + 1), x r * K r k) *
      (∑ r ∈ Finset.range (i + 1), x r * K r k) = 0 := by
    intro k hk
    have hk' := Finset.mem_range.mp hk
    have : ∑ r ∈ Finset.range (i + 1), x r * K r k = 0 := by
      rw [Finset.sum_range_succ]
      have h1 : x i * K i k = L i k := by simp [x, K, hk']
      have h2 : ∑ r ∈ Finset.range i, x r * K r k = - L i k := by
        have := hy k hk'
        unfold mulVec at this
        refine Eq.trans ?_ this
        apply Finset.sum_congr rfl
        intro r hr
        have hr := Finset.mem_range.mp hr
        simp only [x, K, if_pos hr, if_neg (show r ≠ i by omega)]
        ring
      rw [h1, h2]; ring
    rw [this, mul_zero]
  rw [Finset.sum_eq_zero hzero, zero_add] at hpos
  exact absurd hpos (not_lt.mpr hd)

omit [IsStrictOrderedRing T] in
/-- A positive-definite matrix has no vanishing leading principal minor. -/
theorem PosDef.regular {A : Nat → Nat → T} {n : Nat} (h : PosDef n A) : Regular A n := by
  intro k hk h0
  obtain ⟨y, ⟨i, hi, hyi⟩, hz, hsol⟩ := exists_kernel h0
  have := h y ⟨i, by omega, hyi⟩
  apply absurd this
  rw [not_lt]
  apply le_of_eq
  apply Finset.sum_eq_zero
  intro i hi
  by_cases hik : i < k + 1
  · have := hsol i hik
    unfold mulVec at this
    have e : ∑ j ∈ Finset.range n, y i * A i j * y j = y i * ∑ j ∈ Finset.range (k + 1), A i j * y j := by
      rw [Finset.mul_sum]
      symm
      calc _ = ∑ j ∈ Finset.range (k + 1), y i * A i j * y j :=
            Finset.sum_congr rfl fun j _ => by ring
        _ = _ := by
            apply Finset.sum_subset (Finset.range_subset_range.mpr (by omega))
            intro j _ hj
            rw [hz j (by simpa using hj), mul_zero]
    rw [e, this, mul_zero]
  · apply Finset.sum_eq_zero
    intro j _
    rw [hz i (by omega)]; ring

/-- The Cholesky factor is unique. -/
theorem IsChol.unique {L M A : Nat → Nat → T} {n : Nat} (hL : IsChol n L A) (hM : IsChol n M A) :
    ∀ i j, j ≤ i → i < n → L i j = M i j := by
  have hl : ∀ i j, j ≤ i → i < n → ∑ k ∈ Finset.range (j + 1), L i k * L j k =
      ∑ k ∈ Finset.range (j + 1), M i k * M j k := by
    intro i j h1 h2
    rw [← low_sum L L h1 h2, ← low_sum M M h1 h2, hL.2 i j h2 (by omega), hM.2 i j h2 (by omega)]
  intro i
  induction i using Nat.strong_induction_on with
  | _ i ihi =>
    intro j
    induction j using Nat.strong_induction_on with
    | _ j ihj =>
      intro hji hin
      have h := hl i j hji hin
      rw [Finset.sum_range_succ, Finset.sum_range_succ] at h
      by_cases hij : j = i
      · subst hij
        have e : ∑ k ∈ Finset.range j, L j k * L j k = ∑ k ∈ Finset.range j, M j k * M j k := by
          apply Finset.sum_congr rfl
          intro k hk
          have hk := Finset.mem_range.mp hk
          rw [ihj k hk (by omega) hin]
        rw [e] at h
        have h2 : L j j * L j j = M j j * M j j := by linear_combination h
        have p1 := hL.1 j hin
        have p2 := hM.1 j hin
        rcases mul_self_eq_mul_self_iff.mp h2 with h3 | h3
        · exact h3
        · exfalso
          rw [h3] at p1
          exact absurd p2 (not_lt.mpr (le_of_lt (neg_pos.mp p1)))
      · have e : ∑ k ∈ Finset.range j, L i k * L j k = ∑ k ∈ Finset.range j, M i k * M j k := by
          apply Finset.sum_congr rfl
          intro k hk
          have hk := Finset.mem_range.mp hk
          rw [ihj k hk (by omega) hin, ihi j (by omega) k (by omega) (by omega)]
        have hd := ihi j (by omega) j (Nat.le_refl _) (by omega)
        rw [e, hd] at h
        have h2 : (L i j - M i j) * M j j = 0 := by linear_combination h
        rcases mul_eq_zero.mp h2 with h3 | h3
        · exact sub_eq_zero.mp h3
        · exact absurd h3 (ne_of_gt (hM.1 j (by omega)))

end ordered

theorem Regular.det {T : Type} [Field T] {A : Nat → Nat → T} {n : Nat} (h : Regular A n) : minor A n ≠ 0 := by
  cases n with
  | zero => simp [minor]
  | succ n => exact h n (Nat.lt_succ_self n)

theorem solves_unique {T : Type} [Field T] {A : Nat → Nat → T} {x y b : Nat → T} {n : Nat} (h : minor A n ≠ 0)
    (hx : Solves n A x b) (hy : Solves n A y b) : ∀ i, i < n → x i = y i := by
  have h0 : (Matrix.of fun i j : Fin n => A i j).mulVec (fun i : Fin n => x i - y i) = 0 := by
    ext i
    have e1 := hx i i.2
    have e2 := hy i i.2
    simp only [mulVec, Finset.sum_range] at e1 e2
    simp only [Matrix.mulVec, dotProduct, Matrix.of_apply, mul_sub, Finset.sum_sub_distrib, e1, e2, sub_self,
      Pi.zero_apply]
  intro i hi
  have := congrFun (Matrix.eq_zero_of_mulVec_eq_zero h h0) ⟨i, hi⟩
  exact sub_eq_zero.mp this

end Lalib
