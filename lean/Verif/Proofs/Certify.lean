import Verif.Spec.Forward
import Verif.Proofs.Inertia
import Verif.Proofs.LinAlg

/-! # What an approximate inverse or factor says about the matrix -/

namespace Lalib

open Finset

variable {n : ℕ} {A X : ℕ → ℕ → ℝ} {q K : ℝ}

/-- `I - X A`. -/
def leftDefect (n : ℕ) (X A : ℕ → ℕ → ℝ) (i j : ℕ) : ℝ := (if i = j then 1 else 0) - ∑ k ∈ range n, X i k * A k j

/-- `x = X (A x) + (I - X A) x`. -/
theorem defect_split (x : ℕ → ℝ) {i : ℕ} (hi : i < n) :
    x i = mulVec n X (mulVec n A x) i + mulVec n (leftDefect n X A) x i := by
  have e1 : mulVec n (leftDefect n X A) x i = x i - ∑ j ∈ range n, (∑ k ∈ range n, X i k * A k j) * x j := by
    unfold mulVec leftDefect
    simp only [sub_mul, sum_sub_distrib]
    congr 1
    rw [sum_eq_single i (fun j _ h => by rw [if_neg (Ne.symm h), zero_mul]) (fun h => absurd (mem_range.mpr hi) h), if_pos rfl, one_mul]
  have e2 : mulVec n X (mulVec n A x) i = ∑ j ∈ range n, (∑ k ∈ range n, X i k * A k j) * x j := by
    unfold mulVec
    simp only [mul_sum, sum_mul]
    rw [sum_comm]
    exact sum_congr rfl fun j _ => sum_congr rfl fun k _ => by ring
  rw [e1, e2]
  ring

theorem exists_top (x : ℕ → ℝ) (hn : 0 < n) : ∃ i, i < n ∧ MaxLe n x |x i| := by
  obtain ⟨i, hi, h⟩ := exists_max_image (range n) (fun i => |x i|) ⟨0, mem_range.mpr hn⟩
  exact ⟨i, mem_range.mp hi, fun j hj => h j (mem_range.mpr hj)⟩

theorem mulVec_le {B : ℕ → ℕ → ℝ} {S Y : ℝ} (hB : RowLe n B S) {y : ℕ → ℝ} (hy : MaxLe n y Y) (hY : 0 ≤ Y) :
    MaxLe n (mulVec n B y) (S * Y) := by
  intro i hi
  unfold mulVec
  refine (abs_sum_le_sum_abs _ _).trans ?_
  refine (sum_le_sum fun j hj => ?_).trans ((sum_mul _ _ _).ge.trans (mul_le_mul_of_nonneg_right (hB i hi) hY))
  rw [abs_mul]
  exact mul_le_mul_of_nonneg_left (hy j (mem_range.mp hj)) (abs_nonneg _)

/-- The bound for the inverse. -/
theorem invBound_of_defect (hH : RowLe n (leftDefect n X A) q) (hq : q < 1) (hK : 0 ≤ K) (hX : RowLe n X K) :
    InvBound n A (K / (1 - q)) := by
  have q1 : 0 < 1 - q := by linarith
  refine ⟨div_nonneg hK q1.le, fun x M hM hx i hi => ?_⟩
  obtain ⟨t, ht, hmax⟩ := exists_top x (by omega : 0 < n)
  refine (hmax i hi).trans ?_
  have h1 := mulVec_le hX hx hM t ht
  have h2 := mulVec_le hH hmax (abs_nonneg _) t ht
  have h3 : |x t| ≤ K * M + q * |x t| := by
    conv_lhs => rw [defect_split (X := X) (A := A) x ht]
    exact (abs_add_le _ _).trans (add_le_add h1 h2)
  rw [div_mul_eq_mul_div, le_div_iff₀ q1]
  linarith

theorem minor_of_invBound {K : ℝ} (h : InvBound n A K) : minor A n ≠ 0 := by
  intro h0
  obtain ⟨v, hv, e⟩ := Matrix.exists_mulVec_eq_zero_iff.mpr h0
  apply hv
  funext i
  have := h.2 (fun k => if hk : k < n then v ⟨k, hk⟩ else 0) 0 le_rfl (fun j hj => by
    have := congrFun e ⟨j, hj⟩
    simp only [Matrix.mulVec, dotProduct, Matrix.of_apply, Pi.zero_apply] at this
    unfold mulVec
    rw [Finset.sum_range]
    simp only [Fin.is_lt, dif_pos, Fin.eta]
    rw [this, abs_zero]) i i.2
  simp only [Fin.is_lt, dif_pos, Fin.eta, mul_zero] at this
  exact abs_nonpos_iff.mp this

/-- The exact solution lies close to `X b`. -/
theorem defect_apply (hH : RowLe n (leftDefect n X A) q) (hq : q < 1) {z b : ℕ → ℝ} (hz : Solves n A z b) {Y : ℝ}
    (hY : MaxLe n (mulVec n X b) Y) : MaxLe n (fun i => z i - mulVec n X b i) (q * Y / (1 - q)) := by
  have q1 : 0 < 1 - q := by linarith
  intro i hi
  obtain ⟨t, ht, hmax⟩ := exists_top z (by omega : 0 < n)
  have q0 : 0 ≤ q := (sum_nonneg fun j _ => abs_nonneg (leftDefect n X A i j)).trans (hH i hi)
  have e : ∀ j, j < n → z j - mulVec n X b j = mulVec n (leftDefect n X A) z j := fun j hj => by
    have h := defect_split (X := X) (A := A) z hj
    have e2 : mulVec n X (mulVec n A z) j = mulVec n X b j := by
      unfold mulVec
      exact sum_congr rfl fun k hk => by rw [← hz k (mem_range.mp hk)]; rfl
    rw [e2] at h
    linarith
  have h2 : ∀ j, j < n → |z j - mulVec n X b j| ≤ q * |z t| := fun j hj => by
    rw [e j hj]; exact mulVec_le hH hmax (abs_nonneg _) j hj
  have h3 : |z t| * (1 - q) ≤ Y := by
    have := abs_sub_abs_le_abs_sub (z t) (mulVec n X b t)
    have := h2 t ht
    have := hY t ht
    linarith
  refine (h2 i hi).trans ?_
  rw [le_div_iff₀ q1, mul_assoc]
  exact mul_le_mul_of_nonneg_left h3 q0

/-- A factor with positive diagonal whose product is close to `A - s I`. -/
theorem posDef_of_near {L H : ℕ → ℕ → ℝ} {s e : ℝ} (hd : ∀ i, i < n → 0 < L i i) (hH : Symm n H)
    (h : ∀ i j, i < n → j < n → |∑ k ∈ range n, low L i k * low L j k - shiftBy A s i j| ≤ H i j)
    (he : ∀ i, i < n → ∑ j ∈ range n, H i j ≤ e) : PosDef n (shiftBy A (s - e)) := by
  intro x hx
  have hp : PosDef n fun i j => ∑ k ∈ range n, low L i k * low L j k := IsChol.posDef (L := L) ⟨hd, fun _ _ _ _ => rfl⟩
  have p := hp x hx
  have hn := form_near (A := shiftBy A s) (B := fun i j => ∑ k ∈ range n, low L i k * low L j k) hH h he fun i : Fin n => x i
  have conv : ∀ B : ℕ → ℕ → ℝ, ∑ i ∈ range n, ∑ j ∈ range n, x i * B i j * x j = form n B fun i : Fin n => x i := fun B => by
    unfold form
    rw [Finset.sum_range]
    exact sum_congr rfl fun i _ => Finset.sum_range _
  rw [conv] at p ⊢
  have hs := form_shiftBy A s fun i : Fin n => x i
  have hs' := form_shiftBy A (s - e) fun i : Fin n => x i
  have := (abs_le.mp hn).2
  rw [hs']
  rw [hs] at this
  linarith

end Lalib
