import Verif.Proofs.IeeeTdmaOk
import Verif.Spec.IeeeTdmaOk
import Verif.Props.IeeeBack

/-! # Property C84: tri-diagonal systems for which the solver cannot fail over IEEE 754 numbers

C71 tells what a finite solution is worth.  Here the conditions are on the matrix and the right-hand side only. -/

namespace Lalib

open Finset

namespace Fp
variable {F : Fmt}

/-- The neighbours of the diagonal are among the terms of a row. -/
theorem near_le_sum {g : ℕ → ℝ} (hg : ∀ j, 0 ≤ g j) {n i : ℕ} (hi : i < n) :
    (if 0 < i then g (i - 1) else 0) + (if i + 1 < n then g (i + 1) else 0) ≤ ∑ j ∈ (range n).erase i, g j := by
  have e : (if 0 < i then g (i - 1) else 0) + (if i + 1 < n then g (i + 1) else 0) =
      ∑ j ∈ (range n).erase i, ((if j = i - 1 then (if 0 < i then g (i - 1) else 0) else 0) +
        (if j = i + 1 then g (i + 1) else 0)) := by
    rw [sum_add_distrib, sum_ite_eq', sum_ite_eq']
    congr 1
    · by_cases h : 0 < i
      · rw [if_pos (mem_erase.mpr ⟨by omega, mem_range.mpr (by omega)⟩)]
      · rw [if_neg h]; split_ifs <;> rfl
    · by_cases h : i + 1 < n
      · rw [if_pos h, if_pos (mem_erase.mpr ⟨by omega, mem_range.mpr h⟩)]
      · rw [if_neg h, if_neg (by simp; omega)]
  rw [e]
  refine sum_le_sum fun j hj => ?_
  have hne := (mem_erase.mp hj).1
  by_cases h1 : j = i - 1
  · by_cases h0 : 0 < i
    · rw [if_pos h1, if_pos h0, if_neg (by omega), add_zero, h1]
    · omega
  · rw [if_neg h1, zero_add]
    split_ifs with h2
    · rw [h2]
    · exact hg j

section tri
variable {n : ℕ} (a : TriDiag (Fp F))

theorem tri_diag (i : ℕ) : mat (triFull a) i i = (val0 a.d i).val := by simp [mat, triFull]
theorem tri_up (i : ℕ) : mat (triFull a) i (i + 1) = (val0 a.du i).val := by simp [mat, triFull]
theorem tri_low {i : ℕ} (h : 0 < i) : mat (triFull a) i (i - 1) = (val0 a.dl (i - 1)).val := by
  unfold mat triFull
  rw [if_neg (by omega), if_neg (by omega), if_pos (by omega)]

variable {a}

theorem tri_fin (h : ∀ i j, i < n → j < n → (triFull a i j).IsFin) : (∀ i, i < n → (val0 a.d i).IsFin) ∧
    (∀ i, i + 1 < n → (val0 a.dl i).IsFin) ∧ ∀ i, i + 1 < n → (val0 a.du i).IsFin := by
  refine ⟨fun i hi => ?_, fun i hi => ?_, fun i hi => ?_⟩
  · have := h i i hi hi
    simpa [triFull] using this
  · have := h (i + 1) i hi (by omega)
    unfold triFull at this
    rwa [if_neg (by omega), if_neg (by omega), if_pos rfl] at this
  · have := h i (i + 1) (by omega) hi
    simpa [triFull] using this

theorem tri_sum (w : ℕ → ℝ) (hw : ∀ i, 0 ≤ w i) {i : ℕ} (hi : i < n) :
    (if 0 < i then |(val0 a.dl (i - 1)).val| * w (i - 1) else 0) +
      (if i + 1 < n then |(val0 a.du i).val| * w (i + 1) else 0) ≤
      ∑ j ∈ (range n).erase i, |mat (triFull a) i j| * w j := by
  refine le_of_eq_of_le ?_ (near_le_sum (g := fun j => |mat (triFull a) i j| * w j)
    (fun j => mul_nonneg (abs_nonneg _) (hw j)) hi)
  rw [tri_up]
  congr 1
  split_ifs with h
  · rw [tri_low a h]
  · rfl

theorem tri_left {i : ℕ} : (if 0 < i then |(val0 a.dl (i - 1)).val| else 0) ≤ ∑ j ∈ range i, |mat (triFull a) i j| := by
  split_ifs with h
  · rw [← tri_low a h]
    exact single_le_sum (f := fun j => |mat (triFull a) i j|) (fun _ _ => abs_nonneg _) (mem_range.mpr (by omega))
  · exact sum_nonneg fun _ _ => abs_nonneg _

/-- The bounds of C71 in terms of the matrix. -/
theorem tri_near {b x D P : ℕ → Fp F} (h : Props.TdmaNear n a b x D P)
    (hD : ∀ i, i < n → |(D i).val| ≤ 2 * |(val0 a.d i).val| ∧
      (0 < i → |(val0 a.dl (i - 1)).val * (P (i - 1)).val| ≤ |(val0 a.d i).val|)) :
    TriNear F n (mat (triFull a)) (fun i => (x i).val) (fun i => (b i).val) := by
  have u0 := F.u_nonneg
  have u1 := F.u_lt_one
  have hη := F.eta_pos.le
  have g4 := gam_nonneg u0 u1 4
  have g3 := gam_nonneg u0 u1 3
  have k3 : 0 ≤ (1 + gam F.u 3) * F.eta := mul_nonneg (by linarith) hη
  have k3' : F.eta ≤ (1 + gam F.u 3) * F.eta := le_mul_of_one_le_left hη (by linarith)
  refine NearSolves2.mono h (fun i j hi hj => ?_) (fun i hi => ?_)
  · obtain ⟨d1, d2⟩ := hD i hi
    by_cases hij : i = j
    · subst hij
      simp only [if_true]
      rw [tri_diag, mul_one]
      have d2' : (if 0 < i then |(val0 a.dl (i - 1)).val * (P (i - 1)).val| else 0) ≤ |(val0 a.d i).val| := by
        split_ifs with h0
        · exact d2 h0
        · exact abs_nonneg _
      refine add_le_add ?_ k3'
      calc _ ≤ gam F.u 4 * (2 * |(val0 a.d i).val| + |(val0 a.d i).val|) := mul_le_mul_of_nonneg_left (add_le_add d1 d2') g4
        _ = _ := by ring
    · simp only [if_neg hij]
      refine add_le_add ?_ ?_
      · have := mul_nonneg g4 (abs_nonneg (mat (triFull a) i j))
        linarith
      · split_ifs with h1
        · rw [tri_diag]
          exact mul_le_mul_of_nonneg_left d1 k3
        · rw [mul_zero]
  · obtain ⟨d1, _⟩ := hD i hi
    rw [tri_diag]
    refine mul_le_mul_of_nonneg_left ?_ k3
    have := tri_left (a := a) (i := i)
    linarith

end tri

/-- Weighted maximum principle. -/
theorem max_principle {n : ℕ} {A : ℕ → ℕ → ℝ} {w z : ℕ → ℝ} {ε : ℝ} (w0 : ∀ i, 0 < w i)
    (gap : ∀ i, i < n → ∑ j ∈ (range n).erase i, |A i j| * w j < |A i i| * w i)
    (h : ∀ i, i < n → |mulVec n A z i| ≤ ε * (|A i i| * w i - ∑ j ∈ (range n).erase i, |A i j| * w j)) :
    ∀ i, i < n → |z i| ≤ ε * w i := by
  intro k hk
  obtain ⟨i, hi, hmax⟩ := exists_max_image (range n) (fun i => |z i| / w i) ⟨k, mem_range.mpr hk⟩
  have hi' := mem_range.mp hi
  set t := |z i| / w i with ht
  have zi : |z i| = t * w i := by rw [ht]; field_simp [(w0 i).ne']
  have zj : ∀ j, j < n → |z j| ≤ t * w j := fun j hj => (div_le_iff₀ (w0 j)).mp (hmax j (mem_range.mpr hj))
  have e : A i i * z i = mulVec n A z i - ∑ j ∈ (range n).erase i, A i j * z j := by
    unfold mulVec
    rw [← add_sum_erase _ _ hi]; ring
  have b1 : |∑ j ∈ (range n).erase i, A i j * z j| ≤ t * ∑ j ∈ (range n).erase i, |A i j| * w j := by
    refine (abs_sum_le_sum_abs _ _).trans ?_
    rw [mul_sum]
    refine sum_le_sum fun j hj => ?_
    have := mul_le_mul_of_nonneg_left (zj j (mem_range.mp (mem_erase.mp hj).2)) (abs_nonneg (A i j))
    rw [abs_mul]
    linarith
  have b2 : |A i i| * (t * w i) ≤ ε * (|A i i| * w i - ∑ j ∈ (range n).erase i, |A i j| * w j) +
      t * ∑ j ∈ (range n).erase i, |A i j| * w j := by
    rw [← zi, ← abs_mul, e]
    exact (abs_sub _ _).trans (add_le_add (h i hi') b1)
  have g := gap i hi'
  have b3 : t ≤ ε := by
    refine le_of_mul_le_mul_right (a := |A i i| * w i - ∑ j ∈ (range n).erase i, |A i j| * w j) ?_ (by linarith)
    linarith
  exact (zj k hk).trans (mul_le_mul_of_nonneg_right b3 (w0 k).le)

end Fp

namespace Props

variable {F : Fmt}

/-- What the weak dominance gives for one right-hand side. -/
private theorem dom_col {n : ℕ} {a : TriDiag (Fp F)} {b x D P Q : ℕ → Fp F}
    (hf : ∀ i j, i < n → j < n → (triFull a i j).IsFin) (hd : WeakDom n (Fp.mat (triFull a)))
    (hr : HalfRange F n (Fp.mat (triFull a))) (h : TdmaEq n a b x D P Q) :
    ∀ i, i < n → (D i).IsFin ∧ (D i).val ≠ 0 ∧ |(D i).val| ≤ 2 * |(val0 a.d i).val| ∧
      (i + 1 < n → |(val0 a.du i).val| ≤ |(D i).val| ∧ (P i).IsFin ∧ |(P i).val| ≤ 1) ∧
      (0 < i → |(val0 a.dl (i - 1)).val * (P (i - 1)).val| ≤ |(val0 a.d i).val|) := by
  obtain ⟨f1, f2, f3⟩ := Fp.tri_fin hf
  refine Fp.dom_ok h f1 f2 f3 (fun i hi => by have := hr i hi; rwa [Fp.tri_diag] at this) (fun i hi => ?_) (fun i hi => ?_)
  · have h1 := (hd i hi).1
    have h2 := Fp.tri_sum (a := a) (fun _ => 1) (fun _ => zero_le_one) hi
    simp only [mul_one] at h2
    rw [Fp.tri_diag] at h1
    exact h2.trans h1
  · have h1 := (hd i hi).2
    rw [Fp.tri_diag] at h1
    exact Fp.tri_left.trans_lt h1

private theorem bound_col {n : ℕ} {a : TriDiag (Fp F)} {b x D P Q : ℕ → Fp F}
    (hf : ∀ i j, i < n → j < n → (triFull a i j).IsFin) (hb : ∀ i, i < n → (b i).IsFin) {w : ℕ → ℝ}
    (hr : HalfRange F n (Fp.mat (triFull a))) (hm : Majorant F n (Fp.mat (triFull a)) (fun i => (b i).val) w)
    (hw : WeightRange F n (Fp.mat (triFull a)) w) (h : TdmaEq n a b x D P Q) :
    (∀ i, i < n → (x i).IsFin ∧ |(x i).val| ≤ w i) ∧
      TriNear F n (Fp.mat (triFull a)) (fun i => (x i).val) (fun i => (b i).val) := by
  obtain ⟨f1, f2, f3⟩ := Fp.tri_fin hf
  obtain ⟨hD, hx⟩ := Fp.bounded_ok h f1 f2 f3 hb hm.1 (fun i hi => (hw i hi).1) (fun i hi => (hw i (by omega)).2.2 hi)
    (fun i hi => by have := (hw i hi).2.1; rwa [Fp.tri_diag] at this)
    (fun i hi => by have := hr i hi; rwa [Fp.tri_diag] at this) (fun i hi => by
      have h1 := hm.2 i hi
      have h2 := Fp.tri_sum (a := a) w (fun i => (hm.1 i).le) hi
      rw [Fp.tri_diag] at h1
      linarith)
  exact ⟨hx, Fp.tri_near (Fp.tdma_near h (fun i hi => (hx i hi).1) fun i hi => (hD i hi).1)
    fun i hi => ⟨(hD i hi).2.2.1, (hD i hi).2.2.2⟩⟩

/-- Weak dominance is enough for the pivots: all are finite, none is zero or smaller than the entry beside it; a finite first
component makes the whole solution finite and a near solution, in terms of the matrix alone. -/
theorem C84_dominant (nd : Bool) (a : TriDiag (Fp F)) (n : Nat) (hw : TriWf a n) (hn : 2 ≤ n) (b x : Nat)
    (m : Mem (Fp F)) (hb : m.len b = n) (hx : m.len x = n)
    (hf : ∀ i j, i < n → j < n → (triFull a i j).IsFin) (hd : WeakDom n (Fp.mat (triFull a)))
    (hr : HalfRange F n (Fp.mat (triFull a))) :
    ∃ l m' D P Q, Tdma.solveVec nd a b x m = .ok m' ∧ Stores m m' x l ∧ l.length = n ∧
      TdmaEq n a (val0 (m b)) (val0 l) D P Q ∧
      (∀ i, i < n → (D i).IsFin ∧ ¬ IsZ (D i) ∧ (i + 1 < n → (P i).IsFin ∧ |(P i).val| ≤ 1)) ∧
      ((val0 l 0).IsFin → (∀ i, i < n → (val0 l i).IsFin) ∧
        TriNear F n (Fp.mat (triFull a)) (fun i => (val0 l i).val) (fun i => (m.val b i).val)) := by
  obtain ⟨l, m', D, P, Q, e, hs, hl, hq, hnr⟩ := C71_tdma_vec nd a n hw hn b x m hb hx
  have hD := dom_col hf hd hr hq
  refine ⟨l, m', D, P, Q, e, hs, hl, hq, fun i hi => ⟨(hD i hi).1, fun hz => (hD i hi).2.1 ((Fp.isZ_iff _).mp hz).2,
    fun h => ((hD i hi).2.2.2.1 h).2⟩, fun h0 => ⟨fun i hi => ((hq.fin (by omega) h0).2 i (Nat.zero_le _) hi).1, ?_⟩⟩
  exact Fp.tri_near (hnr h0 fun i hi => (hD i hi).1) fun i hi => ⟨(hD i hi).2.2.1, (hD i hi).2.2.2.2⟩

/-- Several right-hand sides. -/
theorem C84_dominant_mat (nd : Bool) (a : TriDiag (Fp F)) (n : Nat) (hw : TriWf a n) (hn : 2 ≤ n) (b x : MatRef)
    (m : Mem (Fp F)) (hbw : b.Wf m) (hxw : x.Wf m) (hbn : b.n = n) (hxn : x.n = n) (hxm : x.m = b.m)
    (hf : ∀ i j, i < n → j < n → (triFull a i j).IsFin) (hd : WeakDom n (Fp.mat (triFull a)))
    (hr : HalfRange F n (Fp.mat (triFull a))) :
    ∃ l m', Tdma.solveMat nd a b x m = .ok m' ∧ Stores m m' x.buf l ∧ l.length = n * b.m ∧
      ∀ k, k < b.m → (entry b.m l 0 k).IsFin → (∀ i, i < n → (entry b.m l i k).IsFin) ∧
        TriNear F n (Fp.mat (triFull a)) (fun i => (entry b.m l i k).val) (fun i => (entry b.m (m b.buf) i k).val) := by
  obtain ⟨l, m', D, P, e, hs, hl, hq⟩ := C71_tdma_mat nd a n hw hn b x m hbw hxw hbn hxn hxm
  refine ⟨l, m', e, hs, hl, fun k hk h0 => ?_⟩
  obtain ⟨⟨Q, hq⟩, hnr⟩ := hq k hk
  have hD := dom_col hf hd hr hq
  refine ⟨fun i hi => ((hq.fin (show 0 < n by omega) h0).2 i (Nat.zero_le _) hi).1, ?_⟩
  exact Fp.tri_near (hnr h0 fun i hi => (hD i hi).1) fun i hi => ⟨(hD i hi).2.2.1, (hD i hi).2.2.2.2⟩

/-- Weights which majorise the system: every component of the computed solution is finite and bounded by its weight, and the
solution is a near solution. -/
theorem C84_bounded (nd : Bool) (a : TriDiag (Fp F)) (n : Nat) (hw : TriWf a n) (hn : 2 ≤ n) (b x : Nat)
    (m : Mem (Fp F)) (hb : m.len b = n) (hx : m.len x = n)
    (hf : ∀ i j, i < n → j < n → (triFull a i j).IsFin) (hbf : ∀ i, i < n → (m.val b i).IsFin) (w : ℕ → ℝ)
    (hr : HalfRange F n (Fp.mat (triFull a))) (hm : Majorant F n (Fp.mat (triFull a)) (fun i => (m.val b i).val) w)
    (hwr : WeightRange F n (Fp.mat (triFull a)) w) :
    ∃ l m', Tdma.solveVec nd a b x m = .ok m' ∧ Stores m m' x l ∧ l.length = n ∧
      (∀ i, i < n → (val0 l i).IsFin ∧ |(val0 l i).val| ≤ w i) ∧
      TriNear F n (Fp.mat (triFull a)) (fun i => (val0 l i).val) (fun i => (m.val b i).val) := by
  obtain ⟨l, m', D, P, Q, e, hs, hl, hq, _⟩ := C71_tdma_vec nd a n hw hn b x m hb hx
  exact ⟨l, m', e, hs, hl, bound_col hf hbf hr hm hwr hq⟩

/-- Several right-hand sides, each with its own weights; the others may be anything. -/
theorem C84_bounded_mat (nd : Bool) (a : TriDiag (Fp F)) (n : Nat) (hw : TriWf a n) (hn : 2 ≤ n) (b x : MatRef)
    (m : Mem (Fp F)) (hbw : b.Wf m) (hxw : x.Wf m) (hbn : b.n = n) (hxn : x.n = n) (hxm : x.m = b.m)
    (hf : ∀ i j, i < n → j < n → (triFull a i j).IsFin) (hr : HalfRange F n (Fp.mat (triFull a))) :
    ∃ l m', Tdma.solveMat nd a b x m = .ok m' ∧ Stores m m' x.buf l ∧ l.length = n * b.m ∧
      ∀ k w, k < b.m → (∀ i, i < n → (entry b.m (m b.buf) i k).IsFin) →
        Majorant F n (Fp.mat (triFull a)) (fun i => (entry b.m (m b.buf) i k).val) w →
        WeightRange F n (Fp.mat (triFull a)) w →
        (∀ i, i < n → (entry b.m l i k).IsFin ∧ |(entry b.m l i k).val| ≤ w i) ∧
          TriNear F n (Fp.mat (triFull a)) (fun i => (entry b.m l i k).val) (fun i => (entry b.m (m b.buf) i k).val) := by
  obtain ⟨l, m', D, P, e, hs, hl, hq⟩ := C71_tdma_mat nd a n hw hn b x m hbw hxw hbn hxn hxm
  refine ⟨l, m', e, hs, hl, fun k w hk hbf hm hwr => ?_⟩
  obtain ⟨⟨Q, hq⟩, _⟩ := hq k hk
  exact bound_col hf hbf hr hm hwr hq

/-- A bounded near solution is close to the exact one, if the dominance has a margin `g` and underflows are negligible. -/
theorem C84_error (n : ℕ) (A : ℕ → ℕ → ℝ) (x b y w : ℕ → ℝ) (g : ℝ) (hg : 0 < g) (w0 : ∀ i, 0 < w i)
    (hx : ∀ i, i < n → |x i| ≤ w i) (hnear : TriNear F n A x b) (hy : Solves n A y b)
    (hA : ∀ i, i < n → A i i ≠ 0)
    (gap : ∀ i, i < n → ∑ j ∈ (range n).erase i, |A i j| * w j ≤ (1 - g) * (|A i i| * w i))
    (und : ∀ i, i < n → (1 + gam F.u 3) * F.eta * (w i + 2 * |A i i| * w (i + 1) + 4 * |A i i| +
      ∑ j ∈ range i, |A i j| + 1) ≤ gam F.u 4 * (|A i i| * w i)) :
    ∀ i, i < n → |x i - y i| ≤ 7 * gam F.u 4 / g * w i := by
  have u0 := F.u_nonneg
  have u1 := F.u_lt_one
  have hη := F.eta_pos.le
  have g4 := gam_nonneg u0 u1 4
  have g3 := gam_nonneg u0 u1 3
  have k3 : 0 ≤ (1 + gam F.u 3) * F.eta := mul_nonneg (by linarith) hη
  refine Fp.max_principle (A := A) (z := fun i => x i - y i) w0 (fun i hi => ?_) (fun i hi => ?_)
  · have : 0 < g * (|A i i| * w i) := mul_pos hg (mul_pos (abs_pos.mpr (hA i hi)) (w0 i))
    have := gap i hi
    linarith
  · have e : mulVec n A (fun i => x i - y i) i = mulVec n A x i - b i := by
      rw [← hy i hi]
      unfold mulVec
      rw [← sum_sub_distrib]
      exact sum_congr rfl fun j _ => by ring
    have res := C71_residual n A _ _ x b hnear i hi
    rw [← e] at res
    set dw := |A i i| * w i with hdw
    have dw0 : 0 ≤ dw := mul_nonneg (abs_nonneg _) (w0 i).le
    have s0 : ∑ j ∈ range n, |A i j| * |x j| ≤ 2 * dw := by
      calc _ ≤ ∑ j ∈ range n, |A i j| * w j :=
            sum_le_sum fun j hj => mul_le_mul_of_nonneg_left (hx j (mem_range.mp hj)) (abs_nonneg _)
        _ = dw + ∑ j ∈ (range n).erase i, |A i j| * w j := (add_sum_erase _ _ (mem_range.mpr hi)).symm
        _ ≤ 2 * dw := by have := gap i hi; have : 0 ≤ g * dw := mul_nonneg hg.le dw0; linarith
    have s1 : ∑ j ∈ range n, (if i = j then 1 else if i + 1 = j then 2 * |A i i| else 0) * |x j| ≤
        w i + 2 * |A i i| * w (i + 1) := by
      have t : ∀ j ∈ range n, (if i = j then 1 else if i + 1 = j then 2 * |A i i| else 0) * |x j| ≤
          (if j = i then w i else 0) + (if j = i + 1 then 2 * |A i i| * w (i + 1) else 0) := by
        intro j hj
        have hxj := hx j (mem_range.mp hj)
        by_cases h1 : i = j
        · subst h1
          simp only [if_true, one_mul]
          rw [if_neg (by omega)]; linarith
        · rw [if_neg h1, if_neg (Ne.symm h1)]
          by_cases h2 : i + 1 = j
          · subst h2
            simp only [if_true, zero_add]
            exact mul_le_mul_of_nonneg_left hxj (by positivity)
          · rw [if_neg h2, if_neg (Ne.symm h2)]; simp
      refine (sum_le_sum t).trans ?_
      rw [sum_add_distrib, sum_ite_eq', sum_ite_eq']
      have p1 := w0 i
      have p2 : 0 ≤ 2 * |A i i| * w (i + 1) := mul_nonneg (by positivity) (w0 _).le
      split_ifs <;> linarith
    have s2 : ∑ j ∈ range n, (3 * gam F.u 4 * |A i j| + (1 + gam F.u 3) * F.eta *
        (if i = j then 1 else if i + 1 = j then 2 * |A i i| else 0)) * |x j| ≤
        3 * gam F.u 4 * (2 * dw) + (1 + gam F.u 3) * F.eta * (w i + 2 * |A i i| * w (i + 1)) := by
      have e : ∑ j ∈ range n, (3 * gam F.u 4 * |A i j| + (1 + gam F.u 3) * F.eta *
          (if i = j then 1 else if i + 1 = j then 2 * |A i i| else 0)) * |x j| =
          3 * gam F.u 4 * (∑ j ∈ range n, |A i j| * |x j|) + (1 + gam F.u 3) * F.eta *
          (∑ j ∈ range n, (if i = j then 1 else if i + 1 = j then 2 * |A i i| else 0) * |x j|) := by
        rw [mul_sum, mul_sum, ← sum_add_distrib]
        exact sum_congr rfl fun j _ => by ring
      rw [e]
      exact add_le_add (mul_le_mul_of_nonneg_left s0 (by positivity)) (mul_le_mul_of_nonneg_left s1 k3)
    have hu := und i hi
    have tot : |mulVec n A (fun i => x i - y i) i| ≤ 7 * gam F.u 4 * dw := by
      refine res.trans ?_
      have e2 : (1 + gam F.u 3) * F.eta * (w i + 2 * |A i i| * w (i + 1) + 4 * |A i i| + ∑ j ∈ range i, |A i j| + 1) =
        (1 + gam F.u 3) * F.eta * (w i + 2 * |A i i| * w (i + 1)) +
        (1 + gam F.u 3) * F.eta * (4 * |A i i| + ∑ j ∈ range i, |A i j| + 1) := by ring
      linarith
    have gp : g * dw ≤ dw - ∑ j ∈ (range n).erase i, |A i j| * w j := by have := gap i hi; linarith
    calc _ ≤ 7 * gam F.u 4 * dw := tot
      _ = 7 * gam F.u 4 / g * (g * dw) := by field_simp
      _ ≤ _ := mul_le_mul_of_nonneg_left gp (by positivity)

/-! ## Examples -/

/-- A power of two as a `double`, with a sign. -/
private noncomputable def two (s : Bool) (e : ℤ) (h1 : binary64.emin ≤ e := by decide) (h2 : e < binary64.emax := by decide) :
    Fp binary64 := .fin s (2 ^ e) (binary64.isMag_pow h1 h2)

private theorem val_two (s : Bool) (e : ℤ) (h1 : binary64.emin ≤ e) (h2 : e < binary64.emax) :
    (two s e h1 h2).val = if s then -2 ^ e else 2 ^ e := rfl

/-- The tri-diagonal matrix with `c` on and `-1` beside the diagonal. -/
private noncomputable def lap (n : ℕ) (c : Fp binary64) : TriDiag (Fp binary64) :=
  ⟨List.replicate (n - 1) (two true 0), List.replicate n c, List.replicate (n - 1) (two true 0)⟩

private theorem lap_wf {n : ℕ} (hn : 2 ≤ n) (hn' : n < 2 ^ 64) (c : Fp binary64) : TriWf (lap n c) n :=
  ⟨by simp [lap], by simp [lap]; omega, by simp [lap]; omega, hn'⟩

private theorem val0_rep {n i : ℕ} (c : Fp binary64) (hi : i < n) : val0 (List.replicate n c) i = c := by
  simp [val0, hi]

private theorem lap_fin {n : ℕ} {c : Fp binary64} (hc : c.IsFin) (i j : ℕ) (hi : i < n) (hj : j < n) :
    (triFull (lap n c) i j).IsFin := by
  unfold triFull lap
  split_ifs
  · rw [val0_rep c hi]; exact hc
  · rw [val0_rep _ (by omega)]; trivial
  · rw [val0_rep _ (by omega)]; trivial
  · trivial

private theorem lap_mat {n i j : ℕ} (c : Fp binary64) (hi : i < n) (hj : j < n) : |Fp.mat (triFull (lap n c)) i j| =
    if i = j then |c.val| else if j = i + 1 then 1 else if j + 1 = i then 1 else 0 := by
  unfold Fp.mat triFull lap
  by_cases h1 : i = j
  · rw [if_pos h1, if_pos h1, val0_rep c hi]
  · rw [if_neg h1, if_neg h1]
    by_cases h2 : i + 1 = j
    · rw [if_pos h2, if_pos h2.symm, val0_rep _ (by omega), val_two]; simp
    · rw [if_neg h2, if_neg (Ne.symm h2)]
      by_cases h3 : i = j + 1
      · rw [if_pos h3, if_pos h3.symm, val0_rep _ (by omega), val_two]; simp
      · rw [if_neg h3, if_neg (Ne.symm h3)]; simp

/-- Off-diagonal sums of these matrices. -/
private theorem lap_sum {n i : ℕ} (c : Fp binary64) (hi : i < n) :
    ∑ j ∈ (range n).erase i, |Fp.mat (triFull (lap n c)) i j| ≤ 2 ∧
    ∑ j ∈ range i, |Fp.mat (triFull (lap n c)) i j| ≤ 1 := by
  constructor
  · calc _ ≤ ∑ j ∈ (range n).erase i, ((if j = i + 1 then (1 : ℝ) else 0) + (if j = i - 1 then 1 else 0)) := by
          refine sum_le_sum fun j hj => ?_
          obtain ⟨h1, h2⟩ := mem_erase.mp hj
          rw [lap_mat c hi (mem_range.mp h2), if_neg (Ne.symm h1)]
          by_cases h3 : j = i + 1
          · rw [if_pos h3, if_pos h3]; split_ifs <;> norm_num
          · rw [if_neg h3, if_neg h3]
            by_cases h4 : j + 1 = i
            · rw [if_pos h4, if_pos (by omega)]; norm_num
            · rw [if_neg h4]; split_ifs <;> norm_num
      _ ≤ 2 := by
          rw [sum_add_distrib, sum_ite_eq', sum_ite_eq']
          split_ifs <;> norm_num
  · calc _ ≤ ∑ j ∈ range i, (if j = i - 1 then (1 : ℝ) else 0) := by
          refine sum_le_sum fun j hj => ?_
          have := mem_range.mp hj
          rw [lap_mat c hi (by omega), if_neg (by omega), if_neg (by omega)]
          by_cases h4 : j + 1 = i
          · rw [if_pos h4, if_pos (by omega)]
          · rw [if_neg h4]; split_ifs <;> norm_num
      _ ≤ 1 := by rw [sum_ite_eq']; split_ifs <;> norm_num

private theorem top64 : (1024 : ℝ) < binary64.top := by
  have : binary64.top = (2 : ℝ) ^ (1024 : ℤ) := rfl
  rw [this, show (1024 : ℝ) = 2 ^ (10 : ℤ) by norm_num]
  exact zpow_lt_zpow_right₀ (by norm_num) (by norm_num)

private theorem u64 : binary64.u ≤ 1 / 1024 := by
  have : binary64.u = (1 / 2 : ℝ) ^ 53 := rfl
  rw [this]; norm_num

private theorem eta64 : binary64.eta ≤ 1 / 2 ^ 100 := by
  have : binary64.eta = (2 : ℝ) ^ (-1074 : ℤ) / 2 := rfl
  rw [this]
  have : (2 : ℝ) ^ (-1074 : ℤ) ≤ 2 ^ (-100 : ℤ) := zpow_le_zpow_right₀ (by norm_num) (by norm_num)
  have e : (2 : ℝ) ^ (-100 : ℤ) = 1 / 2 ^ 100 := by norm_num
  have h0 : 0 < (2 : ℝ) ^ (-1074 : ℤ) := by positivity
  rw [e] at this
  generalize (2 : ℝ) ^ (-1074 : ℤ) = z at this h0
  linarith

-- the second difference `-1 2 -1` of any order, which is only weakly dominant
example (n : ℕ) : WeakDom n (Fp.mat (triFull (lap n (two false 1)))) ∧
    HalfRange binary64 n (Fp.mat (triFull (lap n (two false 1)))) := by
  have c : |(two false 1).val| = 2 := by rw [val_two]; norm_num
  refine ⟨fun i hi => ?_, fun i hi => ?_⟩
  · have := lap_sum (two false 1) hi
    rw [lap_mat _ hi hi, if_pos rfl, c]
    exact ⟨this.1, by linarith [this.2]⟩
  · rw [lap_mat _ hi hi, if_pos rfl, c]; linarith [top64]

-- the part left of the diagonal has to be strictly smaller: for `1 1; 1 1` nothing is finite
example : ∃ l m', Tdma.solveVec true (⟨[1], [1, 1], [1]⟩ : TriDiag (Fp F)) 0 0 (Mem.ofList [[1, 0]]) = .ok m' ∧
    Stores (Mem.ofList [[1, 0]]) m' 0 l ∧ l.length = 2 ∧ ∀ i, i < 2 → ¬ (val0 l i).IsFin := by
  obtain ⟨l, m', D, P, Q, e, hs, hl, hq, _⟩ := C71_tdma_vec true (⟨[1], [1, 1], [1]⟩ : TriDiag (Fp F)) 2
    ⟨rfl, rfl, rfl, by decide⟩ (by omega) 0 0 (Mem.ofList [[1, 0]]) rfl rfl
  refine ⟨l, m', e, hs, hl, fun i hi hf => ?_⟩
  have one : F.rnd 1 = 1 := F.isMag_one.2.1
  have t := F.isMag_one.2.2
  have d0 : D 0 = 1 := hq.d0
  obtain ⟨p1, p2⟩ : (P 0).IsFin ∧ (P 0).val = -1 := by
    have e : P 0 = -1 / 1 := by rw [hq.p 0 (by omega), d0]; rfl
    have := Fp.div_ok (F := F) (a := -1) (b := 1) (by simp) (by simp) (by simp) (by simpa [F.rnd_neg, one] using t)
    rw [e]
    exact ⟨this.1, by rw [this.2]; simp [F.rnd_neg, one]⟩
  obtain ⟨m1, m2⟩ : ((1 : Fp F) * P 0).IsFin ∧ ((1 : Fp F) * P 0).val = -1 := by
    rw [Fp.one_mul]; exact ⟨p1, p2⟩
  have d1 : D 1 = 1 + 1 * P 0 := hq.d 0 (by omega)
  obtain ⟨s1, s2⟩ := Fp.add_ok (F := F) (a := 1) (b := 1 * P 0) (by simp) m1 (by
    simpa [m2, F.rnd_zero] using F.top_pos)
  refine ((hq.fin hi hf).1 1 (by omega)).2.2.1 ?_
  rw [d1, Fp.isZ_iff]
  exact ⟨s1, by rw [s2, m2]; simp [F.rnd_zero]⟩

private theorem lap4_maj (n : ℕ) (b : ℕ → ℝ) (hb : ∀ i, i < n → |b i| ≤ 1) :
    Majorant binary64 n (Fp.mat (triFull (lap n (two false 2)))) b (fun _ => 1) := by
  have c : |(two false 2).val| = 4 := by rw [val_two]; norm_num
  refine ⟨fun _ => one_pos, fun i hi => ?_⟩
  have h1 := hb i hi
  have h2 := (lap_sum (two false 2) hi).1
  rw [lap_mat _ hi hi, if_pos rfl, c]
  simp only [mul_one]
  have h3 := eta64
  have h4 := binary64.u_nonneg
  have h5 : (1 - 1 / 1024) ^ 4 ≤ (1 - binary64.u) ^ 4 := pow_le_pow_left₀ (by norm_num) (by linarith [u64]) 4
  norm_num at h3 h5 ⊢
  linarith

private theorem lap4_range (n : ℕ) : HalfRange binary64 n (Fp.mat (triFull (lap n (two false 2)))) ∧
    WeightRange binary64 n (Fp.mat (triFull (lap n (two false 2)))) (fun _ => 1) := by
  have c : |(two false 2).val| = 4 := by rw [val_two]; norm_num
  have t := top64
  refine ⟨fun i hi => ?_, fun i hi => ?_⟩ <;> rw [lap_mat _ hi hi, if_pos rfl, c]
  · linarith
  · exact ⟨by linarith, by linarith, fun _ => by linarith⟩

-- `-1 4 -1` of any order with any right-hand side between -1 and 1: the solution is finite, between -1 and 1, and differs
-- from the exact one by less than `14 gam 4`
example (nd : Bool) (n : ℕ) (hn : 2 ≤ n) (hn' : n < 2 ^ 64) (l : List (Fp binary64)) (hl : l.length = n)
    (hf : ∀ i, i < n → (val0 l i).IsFin ∧ |(val0 l i).val| ≤ 1) (y : ℕ → ℝ)
    (hy : Solves n (Fp.mat (triFull (lap n (two false 2)))) y (fun i => (val0 l i).val)) :
    ∃ x m', Tdma.solveVec nd (lap n (two false 2)) 0 0 (Mem.ofList [l]) = .ok m' ∧ Stores (Mem.ofList [l]) m' 0 x ∧
      ∀ i, i < n → (val0 x i).IsFin ∧ |(val0 x i).val| ≤ 1 ∧ |(val0 x i).val - y i| ≤ 14 * gam binary64.u 4 := by
  have c : |(two false 2).val| = 4 := by rw [val_two]; norm_num
  have len : (Mem.ofList [l]).len 0 = n := hl
  obtain ⟨x, m', e, hs, _, hx, hnear⟩ := C84_bounded nd (lap n (two false 2)) n (lap_wf hn hn' _) hn 0 0 (Mem.ofList [l]) len len
    (lap_fin trivial) (fun i hi => (hf i hi).1) (fun _ => 1) (lap4_range n).1 (lap4_maj n _ fun i hi => (hf i hi).2)
    (lap4_range n).2
  have u0 := binary64.u_nonneg
  have u1 := binary64.u_lt_one
  have err := C84_error n _ (fun i => (val0 x i).val) (fun i => (val0 l i).val) y (fun _ => 1) (1 / 2) (by norm_num)
    (fun _ => one_pos) (fun i hi => (hx i hi).2) hnear hy
    (fun i hi h0 => by have := lap_mat (two false 2) hi hi; rw [h0, if_pos rfl, c] at this; norm_num at this)
    (fun i hi => by
      have := (lap_sum (two false 2) hi).1
      rw [lap_mat _ hi hi, if_pos rfl, c]
      simp only [mul_one]; linarith)
    (fun i hi => by
      have h2 := (lap_sum (two false 2) hi).2
      rw [lap_mat _ hi hi, if_pos rfl, c]
      have h3 : 1 + gam binary64.u 3 ≤ 2 := by
        have k : (1 - 1 / 1024) ^ 3 ≤ (1 - binary64.u) ^ 3 := pow_le_pow_left₀ (by norm_num) (by linarith [u64]) 3
        have k2 : (1 / 2 : ℝ) ≤ (1 - binary64.u) ^ 3 := by norm_num at k ⊢; linarith
        have : 1 / (1 - binary64.u) ^ 3 ≤ 2 := by
          rw [div_le_iff₀ (by linarith)]; linarith
        unfold gam; linarith
      have h4 : binary64.u ≤ gam binary64.u 4 := by
        have k1 : (1 - binary64.u) ^ 4 ≤ 1 - binary64.u := by
          have := pow_le_pow_of_le_one (a := 1 - binary64.u) (by linarith) (by linarith) (show 1 ≤ 4 by omega)
          simpa using this
        have k0 : 0 < (1 - binary64.u) ^ 4 := pow_pos (by linarith) 4
        unfold gam
        have : 1 + binary64.u ≤ 1 / (1 - binary64.u) ^ 4 := by
          rw [le_div_iff₀ k0]
          nlinarith
        linarith
      have h5 : (1 : ℝ) / 2 ^ 53 = binary64.u := by
        have : binary64.u = (1 / 2 : ℝ) ^ 53 := rfl
        rw [this]; norm_num
      have h6 := binary64.eta_pos
      have h7 := eta64
      simp only [mul_one]
      calc _ ≤ 2 * binary64.eta * 32 := by
            refine mul_le_mul (mul_le_mul_of_nonneg_right h3 h6.le) (by linarith) ?_ (by linarith)
            have : 0 ≤ ∑ j ∈ range i, |Fp.mat (triFull (lap n (two false 2))) i j| := sum_nonneg fun _ _ => abs_nonneg _
            linarith
        _ ≤ 1 / 2 ^ 53 := by norm_num at h7 ⊢; linarith
        _ ≤ _ := by rw [h5]; linarith)
  refine ⟨x, m', e, hs, fun i hi => ⟨(hx i hi).1, (hx i hi).2, ?_⟩⟩
  have := err i hi
  rw [mul_one] at this
  linarith [show 7 * gam binary64.u 4 / (1 / 2) = 14 * gam binary64.u 4 by ring]

/-- The second difference `-1 2 -1` satisfies the hypotheses of `C84_dominant`. -/
theorem second_difference (n : ℕ) (hn : 2 ≤ n) (hn' : n < 2 ^ 64) : ∃ a : TriDiag (Fp binary64), TriWf a n ∧
    (∀ i j, i < n → j < n → (triFull a i j).IsFin) ∧ WeakDom n (Fp.mat (triFull a)) ∧
    HalfRange binary64 n (Fp.mat (triFull a)) ∧ (∀ i, i < n → (val0 a.d i).val = 2) ∧
    (∀ i, i + 1 < n → (val0 a.dl i).val = -1) ∧ ∀ i, i + 1 < n → (val0 a.du i).val = -1 := by
  have c : |(two false 1).val| = 2 := by rw [val_two]; norm_num
  refine ⟨lap n (two false 1), lap_wf hn hn' _, lap_fin trivial, fun i hi => ?_, fun i hi => ?_, fun i hi => ?_, fun i hi => ?_,
    fun i hi => ?_⟩
  · have := lap_sum (two false 1) hi
    rw [lap_mat _ hi hi, if_pos rfl, c]
    exact ⟨this.1, by linarith [this.2]⟩
  · rw [lap_mat _ hi hi, if_pos rfl, c]; linarith [top64]
  · show (val0 (List.replicate n (two false 1)) i).val = 2
    rw [val0_rep _ hi, val_two]; norm_num
  · show (val0 (List.replicate (n - 1) (two true 0)) i).val = -1
    rw [val0_rep _ (by omega), val_two]; norm_num
  · show (val0 (List.replicate (n - 1) (two true 0)) i).val = -1
    rw [val0_rep _ (by omega), val_two]; norm_num

end Props

end Lalib
