import Verif.Props.Struct
import Verif.Props.Vec
import Verif.Proofs.Eval
import Mathlib.Analysis.SpecialFunctions.Pow.Complex
import Mathlib.Analysis.Complex.Basic

/-! # Property C79: complex element types

The functions of the model run on `ℂ`.  `std::sqrt` of a complex number is any function that returns a root in the
closed right half plane (`PrincipalRoot`); on the negative real axis both roots qualify, since the library picks one by
the sign of a zero imaginary part and `ℂ` has only one zero. -/

namespace Lalib.Props

open Lalib Finset

/-- `std::sqrt(std::complex)`: a root in the closed right half plane. -/
def PrincipalRoot [CSqrt ℂ] : Prop := ∀ z : ℂ, ∃ r : ℂ, sqrtC z = .ok r ∧ r * r = z ∧ 0 ≤ r.re

/-- The principal branch. -/
@[instance_reducible]
noncomputable def principal : CSqrt ℂ := ⟨fun z => .ok (z ^ (2⁻¹ : ℂ))⟩

/-- The principal branch is such a function. -/
theorem C79_principal : @PrincipalRoot principal := by
  intro z
  refine ⟨z ^ (2⁻¹ : ℂ), rfl, ?_, ?_⟩
  · rw [← pow_two]
    exact_mod_cast Complex.cpow_nat_inv_pow z (n := 2) two_ne_zero
  · by_cases h : z = 0
    · subst h; simp
    · rw [Complex.cpow_def_of_ne_zero h, Complex.exp_re]
      refine mul_nonneg (Real.exp_pos _).le (Real.cos_nonneg_of_mem_Icc ?_)
      have e : (Complex.log z * 2⁻¹).im = z.arg / 2 := by
        rw [show (2⁻¹ : ℂ) = ((2⁻¹ : ℝ) : ℂ) by push_cast; rfl, Complex.im_mul_ofReal, Complex.log_im]
        rfl
      rw [e]
      have h1 := Complex.neg_pi_lt_arg z
      have h2 := Complex.arg_le_pi z
      constructor <;> linarith

theorem addUp_eq_sum (g : ℕ → ℂ) (n : ℕ) (t : ℂ) : addUp g 0 n t = t + ∑ i ∈ range n, g i := by
  induction n with
  | zero => simp [addUp]
  | succ n ih =>
    rw [sum_range_succ, ← add_assoc, ← ih]
    simp [addUp, List.range'_concat]

section norm
variable [CSqrt ℂ]

/-- `norm2` of a complex vector is a root of the sum of the squares (not of the squared absolute values), in the right
half plane, and not larger than the Euclidean norm. -/
theorem C79_norm2 (hs : PrincipalRoot) (m : Mem ℂ) (x : Nat) :
    ∃ r, vecNorm2 m x = .ok r ∧ r * r = ∑ i ∈ range (m.len x), m.val x i * m.val x i ∧ 0 ≤ r.re ∧
      ‖r‖ ≤ √(∑ i ∈ range (m.len x), ‖m.val x i‖ ^ 2) := by
  obtain ⟨r, hr, h2, h0⟩ := hs (addUp (fun i => m.val x i * m.val x i) 0 (m.len x) 0)
  rw [addUp_eq_sum, zero_add] at h2
  refine ⟨r, ?_, h2, h0, ?_⟩
  · unfold vecNorm2
    rw [norm2Core_raw (le_refl _), hr]; rfl
  · refine Real.le_sqrt_of_sq_le ?_
    rw [pow_two, ← norm_mul, h2]
    refine (norm_sum_le _ _).trans (le_of_eq (sum_congr rfl fun i _ => ?_))
    rw [norm_mul, pow_two]

/-- It is the Euclidean norm exactly if every component is real. -/
theorem C79_norm2_euclid (hs : PrincipalRoot) (m : Mem ℂ) (x : Nat) :
    vecNorm2 m x = .ok (√(∑ i ∈ range (m.len x), ‖m.val x i‖ ^ 2) : ℝ) ↔
      ∀ i, i < m.len x → (m.val x i).im = 0 := by
  obtain ⟨r, hr, h2, h0, -⟩ := C79_norm2 hs m x
  have hn : 0 ≤ ∑ i ∈ range (m.len x), ‖m.val x i‖ ^ 2 := sum_nonneg fun i _ => sq_nonneg _
  have hsq : ∀ z : ℂ, ‖z‖ ^ 2 = (z * z).re + 2 * z.im ^ 2 := by
    intro z
    rw [← Complex.normSq_eq_norm_sq, Complex.normSq_apply, Complex.mul_re]; ring
  rw [hr]
  constructor
  · intro h
    injection h with h
    have hz : ∑ i ∈ range (m.len x), 2 * (m.val x i).im ^ 2 = 0 := by
      have e := congrArg Complex.re h2
      rw [h, ← Complex.ofReal_mul, Real.mul_self_sqrt hn, Complex.ofReal_re, Complex.re_sum] at e
      simp only [hsq, sum_add_distrib] at e
      linarith
    intro i hi
    have := (sum_eq_zero_iff_of_nonneg fun i _ => by positivity).mp hz i (mem_range.mpr hi)
    simpa using this
  · intro h
    have e : r * r = ((√(∑ i ∈ range (m.len x), ‖m.val x i‖ ^ 2) : ℝ) : ℂ) *
        ((√(∑ i ∈ range (m.len x), ‖m.val x i‖ ^ 2) : ℝ) : ℂ) := by
      rw [← Complex.ofReal_mul, Real.mul_self_sqrt hn, h2, Complex.ofReal_sum]
      refine sum_congr rfl fun i hi => ?_
      have hi := h i (mem_range.mp hi)
      apply Complex.ext
      · rw [Complex.ofReal_re, hsq, hi]; simp
      · rw [Complex.ofReal_im, Complex.mul_im, hi]; simp
    rcases mul_self_eq_mul_self_iff.mp e with e | e
    · rw [e]
    · have : √(∑ i ∈ range (m.len x), ‖m.val x i‖ ^ 2) = 0 := by
        have h1 := Real.sqrt_nonneg (∑ i ∈ range (m.len x), ‖m.val x i‖ ^ 2)
        rw [e] at h0
        simp only [Complex.neg_re, Complex.ofReal_re] at h0
        linarith
      rw [e, this]; simp

/-- It is zero exactly if the squares add up to zero, which happens for vectors other than zero in every dimension
from two on. -/
theorem C79_norm2_zero (hs : PrincipalRoot) (m : Mem ℂ) (x : Nat) :
    vecNorm2 m x = .ok 0 ↔ ∑ i ∈ range (m.len x), m.val x i * m.val x i = 0 := by
  obtain ⟨r, hr, h2, -, -⟩ := C79_norm2 hs m x
  rw [hr, ← h2, mul_self_eq_zero]
  constructor
  · intro h; injection h
  · rintro rfl; rfl

theorem C79_norm2_isotropic (hs : PrincipalRoot) (n : Nat) (hn : 2 ≤ n) :
    ∃ l : List ℂ, l.length = n ∧ (∃ z ∈ l, z ≠ 0) ∧ vecNorm2 (Mem.ofList [l]) 0 = .ok 0 := by
  refine ⟨1 :: Complex.I :: List.replicate (n - 2) 0, by simp; omega, ⟨1, by simp, one_ne_zero⟩, ?_⟩
  rw [C79_norm2_zero hs]
  have hl : (Mem.ofList [1 :: Complex.I :: List.replicate (n - 2) 0] : Mem ℂ).len 0 = n - 2 + 1 + 1 := by
    simp [Mem.len, Mem.ofList]
  rw [hl, sum_range_succ', sum_range_succ']
  have h0 : ∀ i ∈ range (n - 2), (Mem.ofList [1 :: Complex.I :: List.replicate (n - 2) 0] : Mem ℂ).val 0 (i + 1 + 1) *
      (Mem.ofList [1 :: Complex.I :: List.replicate (n - 2) 0] : Mem ℂ).val 0 (i + 1 + 1) = 0 := by
    intro i hi
    have := mem_range.mp hi
    simp [Mem.val, Mem.ofList, val0, this]
  rw [sum_eq_zero h0]
  simp [Mem.val, Mem.ofList, val0]

/-- Multiplying a vector by a number multiplies the result by the number or by its negative. -/
theorem C79_norm2_scale (hs : PrincipalRoot) (m : Mem ℂ) (x y : Nat) (a : ℂ)
    (hy : m y = (m x).map (fun v => a * v)) :
    ∃ r s, vecNorm2 m x = .ok r ∧ vecNorm2 m y = .ok s ∧ (s = a * r ∨ s = -(a * r)) := by
  obtain ⟨r, hr, r2, -, -⟩ := C79_norm2 hs m x
  obtain ⟨s, h, s2, -, -⟩ := C79_norm2 hs m y
  refine ⟨r, s, hr, h, mul_self_eq_mul_self_iff.mp ?_⟩
  have hl : m.len y = m.len x := by simp [Mem.len, hy]
  rw [s2, show a * r * (a * r) = a * a * (r * r) by ring, r2, hl, mul_sum]
  refine sum_congr rfl fun i hi => ?_
  have hi := mem_range.mp hi
  have e : m.val y i = a * m.val x i := by
    have hi' : i < (m x).length := hi
    simp [Mem.val, hy, val0, hi']
  rw [e]; ring

/-- Any shape of the SIMD reduction gives the same number. -/
theorem C79_norm2_order (hs : PrincipalRoot) (m : Mem ℂ) (x : Nat) (t : RedTree)
    (ht : t.leaves.Perm (List.range (m.len x))) : norm2CoreTree t m x = vecNorm2 m x := by
  have hl : ∀ i ∈ t.leaves, i < m.len x ∧ i < m.len x := by
    intro i hi
    have := List.mem_range.mp (ht.mem_iff.mp hi)
    exact ⟨this, this⟩
  have e : ((List.range (m.len x)).map fun i => m.val x i * m.val x i).sum =
      ∑ i ∈ range (m.len x), m.val x i * m.val x i := by
    rw [list_sum_eq_range]
    simp only [List.length_map, List.length_range]
    refine sum_congr rfl fun i hi => ?_
    have hi := mem_range.mp hi
    simp [val0, hi]
  obtain ⟨r, hr, -⟩ := hs (∑ i ∈ range (m.len x), m.val x i * m.val x i)
  unfold norm2CoreTree vecNorm2
  rw [t.eval_eq hl, ok_bind, (ht.map _).sum_eq, e, zero_add, norm2Core_raw (le_refl _), addUp_eq_sum, zero_add, hr]
  rfl

end norm

/-! ## Hermitian matrices -/

theorem packIdx_surj (n p : Nat) (hp : p < n * (n + 1) / 2) : ∃ i j, i < n ∧ j ≤ i ∧ packIdx i j = p := by
  rw [← uOff_eq] at hp
  induction n with
  | zero => simp [uOff] at hp
  | succ n ih =>
    by_cases h : p < uOff n
    · obtain ⟨i, j, hi, hj, e⟩ := ih h
      exact ⟨i, j, by omega, hj, e⟩
    · rw [uOff_succ] at hp
      refine ⟨n, p - uOff n, by omega, by omega, ?_⟩
      rw [packIdx_ge (by omega)]; omega

/-- The matrix read through `operator()` is its own conjugate transpose exactly if every stored element is real. -/
theorem C79_hermite_iff (a : Herm ℂ) (hl : a.l.length = a.n * (a.n + 1) / 2) :
    (∀ i j, i < a.n → j < a.n → ∀ v w, a.get i j = .ok v → a.get j i = .ok w → w = (starRingEnd ℂ) v) ↔
      ∀ v ∈ a.l, v.im = 0 := by
  constructor
  · intro h v hv
    obtain ⟨p, hp, rfl⟩ := List.getElem_of_mem hv
    obtain ⟨i, j, hi, hj, e⟩ := packIdx_surj a.n p (hl ▸ hp)
    have h1 : a.get i j = .ok a.l[p] := by unfold Herm.get; rw [e]; exact lrd_ok hp
    have h2 : a.get j i = .ok a.l[p] := by unfold Herm.get; rw [packIdx_comm, e]; exact lrd_ok hp
    exact Complex.conj_eq_iff_im.mp (h i j hi (by omega) _ _ h1 h2).symm
  · intro h i j hi hj v w hv hw
    have hx : packIdx i j < a.l.length := by rw [hl]; exact packIdx_lt hi hj
    have e1 : a.get i j = .ok a.l[packIdx i j] := lrd_ok hx
    have e2 : a.get j i = .ok a.l[packIdx i j] := by unfold Herm.get; rw [packIdx_comm j i]; exact lrd_ok hx
    rw [e1] at hv
    rw [e2] at hw
    injection hv with hv
    injection hw with hw
    rw [← hv, ← hw]
    exact (Complex.conj_eq_iff_im.mpr (h _ (List.getElem_mem hx))).symm

/-- Writing the two mirrored elements of a conjugate-symmetric matrix one after the other leaves the second value in
both places; the first one survives only if it is real. -/
theorem C79_hermite_write (a : Herm ℂ) (hl : a.l.length = a.n * (a.n + 1) / 2) (i j : Nat) (hi : i < a.n)
    (hj : j < a.n) (v : ℂ) :
    ∃ b c, a.set i j v = .ok b ∧ b.set j i ((starRingEnd ℂ) v) = .ok c ∧
      c.get j i = .ok ((starRingEnd ℂ) v) ∧ (c.get i j = .ok v ↔ v.im = 0) := by
  obtain ⟨-, b, hb, bn, bl, -⟩ := C23_hermite_pairs a hl i j hi hj v
  obtain ⟨-, c, hc, -, -, c1, c2, -⟩ :=
    C23_hermite_pairs b (by rw [bl, hl, bn]) j i (bn ▸ hj) (bn ▸ hi) ((starRingEnd ℂ) v)
  refine ⟨b, c, hb, hc, c1, ?_⟩
  rw [c2, ← Complex.conj_eq_iff_im]
  constructor
  · intro h; injection h
  · intro h; rw [h]

/-- Non-vacuity: the root function exists, and a vector with components that are not real. -/
example : ∃ r, @vecNorm2 ℂ _ _ _ principal (Mem.ofList [[3, 4 * Complex.I]]) 0 = .ok r ∧ r * r = -7 := by
  let _ := principal
  obtain ⟨r, hr, h2, -⟩ := C79_norm2 C79_principal (Mem.ofList [[3, 4 * Complex.I]]) 0
  refine ⟨r, hr, h2.trans ?_⟩
  simp [Mem.len, Mem.ofList, Mem.val, val0, sum_range_succ]
  ring_nf
  simp
  norm_num

end Lalib.Props
