import Verif.Proofs.IeeeTdma
import Verif.Proofs.IeeeMono

/-! # The tri-diagonal solver over IEEE 754 numbers: matrices for which it cannot fail -/

namespace Lalib

open Finset

namespace Fmt
variable (F : Fmt)

theorem rnd_abs (x : ℝ) : F.rnd |x| = |F.rnd x| := by
  rcases le_total 0 x with h | h
  · rw [abs_of_nonneg h, abs_of_nonneg (F.rnd_nonneg h)]
  · rw [abs_of_nonpos h, F.rnd_neg, abs_of_nonpos]
    have := F.rnd_nonneg (x := -x) (by linarith)
    rw [F.rnd_neg] at this
    linarith

theorem rnd_le (x : ℝ) : |F.rnd x| ≤ (1 + F.u) * |x| + F.eta := by
  have h0 := F.u_nonneg
  have h1 := F.eta_pos
  have h2 := abs_add_le (F.rnd x - x) x
  rw [sub_add_cancel] at h2
  have h3 := abs_nonneg x
  have h4 := mul_nonneg h0 h3
  rcases F.rnd_err x with h | h <;> linarith

theorem rnd_le_grid {x : ℝ} (h : F.IsGrid x) : |F.rnd x| ≤ (1 + F.u) * |x| := by
  have h2 := abs_add_le (F.rnd x - x) x
  rw [sub_add_cancel] at h2
  have := F.rnd_err_grid h
  linarith

theorem le_rnd_grid {x : ℝ} (h : F.IsGrid x) : (1 - F.u) * |x| ≤ |F.rnd x| := by
  have h2 := abs_sub (F.rnd x) (F.rnd x - x)
  rw [sub_sub_cancel] at h2
  have := F.rnd_err_grid h
  linarith

/-- Twice a number of the format is one. -/
theorem rnd_two {x : ℝ} (h : F.rnd x = x) : F.rnd (2 * x) = 2 * x := by
  have e : x = nearestEven (x / 2 ^ F.uexp x) * 2 ^ F.uexp x := h.symm
  have e2 : 2 * x = nearestEven (x / 2 ^ F.uexp x) * 2 ^ (F.uexp x + 1) := by
    rw [zpow_add_one₀ (by norm_num)]
    linear_combination 2 * e
  have h2 := F.rnd_fix (nearestEven (x / 2 ^ F.uexp x)) (F.uexp x + 1) (F.sig_le x)
    (by have : F.emin ≤ F.uexp x := le_max_right _ _; omega)
  rwa [← e2] at h2

/-- A result below a number of the format stays below it. -/
theorem rnd_le_of {x y : ℝ} (hy : F.rnd y = y) (h : |x| ≤ y) : |F.rnd x| ≤ y := by
  rw [← F.rnd_abs, ← hy]; exact F.rnd_mono h

theorem le_rnd_of {x y : ℝ} (hy : F.rnd y = y) (h : y ≤ |x|) : y ≤ |F.rnd x| := by
  rw [← F.rnd_abs, ← hy]; exact F.rnd_mono h

end Fmt

namespace Fp
variable {F : Fmt}

theorem add_ok {a b : Fp F} (ha : a.IsFin) (hb : b.IsFin) (h : |F.rnd (a.val + b.val)| < F.top) :
    (a + b).IsFin ∧ (a + b).val = F.rnd (a.val + b.val) := by
  have h1 : (a + b).IsFin := (isFin_add a b).mpr ⟨ha, hb, by rwa [F.rnd_abs]⟩
  exact ⟨h1, val_add h1⟩

theorem sub_ok {a b : Fp F} (ha : a.IsFin) (hb : b.IsFin) (h : |F.rnd (a.val - b.val)| < F.top) :
    (a - b).IsFin ∧ (a - b).val = F.rnd (a.val - b.val) := by
  have h1 : (a - b).IsFin := (isFin_sub a b).mpr ⟨ha, hb, by rwa [F.rnd_abs]⟩
  exact ⟨h1, val_sub h1⟩

theorem mul_ok {a b : Fp F} (ha : a.IsFin) (hb : b.IsFin) (h : |F.rnd (a.val * b.val)| < F.top) :
    (a * b).IsFin ∧ (a * b).val = F.rnd (a.val * b.val) := by
  have h1 : (a * b).IsFin := (isFin_mul a b).mpr ⟨ha, hb, by rwa [F.rnd_abs]⟩
  exact ⟨h1, val_mul h1⟩

theorem div_ok {a b : Fp F} (ha : a.IsFin) (hb : b.IsFin) (h0 : b.val ≠ 0) (h : |F.rnd (a.val / b.val)| < F.top) :
    (a / b).IsFin ∧ (a / b).val = F.rnd (a.val / b.val) := by
  have h1 : (a / b).IsFin := (isFin_div a b).mpr ⟨ha, fun e => by rw [e] at hb; exact hb,
    fun hz => h0 ((isZ_iff b).mp hz).2, fun _ => by rwa [F.rnd_abs]⟩
  exact ⟨h1, val_div h1 hb⟩

variable {n : Nat} {a : TriDiag (Fp F)} {b x D P Q : Nat → Fp F}

/-- A pivot: the diagonal entry changed by a product that is not greater. -/
theorem pivot_ok {d l p : Fp F} (hd : d.IsFin) (hl : l.IsFin) (hp : p.IsFin) (h2 : 2 * |d.val| < F.top)
    (h : |l.val * p.val| ≤ |d.val|) : (l * p).IsFin ∧ (l * p).val = F.rnd (l.val * p.val) ∧ (d + l * p).IsFin ∧
      (d + l * p).val = F.rnd (d.val + (l * p).val) ∧ |(d + l * p).val| ≤ 2 * |d.val| := by
  have q1 := F.rnd_le_of (rnd_abs_val d) h
  obtain ⟨m1, m2⟩ := mul_ok hl hp (q1.trans_lt (abs_val_lt d))
  have q2 : |d.val + (l * p).val| ≤ 2 * |d.val| := by
    have := abs_add_le d.val (l * p).val
    rw [m2] at this ⊢
    linarith
  have q3 := F.rnd_le_of (F.rnd_two (rnd_abs_val d)) q2
  obtain ⟨s1, s2⟩ := add_ok hd m1 (q3.trans_lt h2)
  exact ⟨m1, m2, s1, s2, by rw [s2]; exact q3⟩

/-- Weak dominance: no pivot is zero, and no pivot is smaller than the entry beside it. -/
theorem dom_ok (h : TdmaEq n a b x D P Q) (hd : ∀ i, i < n → (val0 a.d i).IsFin)
    (hl : ∀ i, i + 1 < n → (val0 a.dl i).IsFin) (hu : ∀ i, i + 1 < n → (val0 a.du i).IsFin)
    (h2 : ∀ i, i < n → 2 * |(val0 a.d i).val| < F.top)
    (hw : ∀ i, i < n → (if 0 < i then |(val0 a.dl (i - 1)).val| else 0) +
      (if i + 1 < n then |(val0 a.du i).val| else 0) ≤ |(val0 a.d i).val|)
    (hs : ∀ i, i < n → (if 0 < i then |(val0 a.dl (i - 1)).val| else 0) < |(val0 a.d i).val|) :
    ∀ i, i < n → (D i).IsFin ∧ (D i).val ≠ 0 ∧ |(D i).val| ≤ 2 * |(val0 a.d i).val| ∧
      (i + 1 < n → |(val0 a.du i).val| ≤ |(D i).val| ∧ (P i).IsFin ∧ |(P i).val| ≤ 1) ∧
      (0 < i → |(val0 a.dl (i - 1)).val * (P (i - 1)).val| ≤ |(val0 a.d i).val|) := by
  have one : F.rnd 1 = 1 := F.isMag_one.2.1
  -- the quotient
  have quot : ∀ i, i + 1 < n → (D i).IsFin → (D i).val ≠ 0 → |(val0 a.du i).val| ≤ |(D i).val| →
      (P i).IsFin ∧ |(P i).val| ≤ 1 := by
    intro i hi hf h0 hle
    have q : |F.rnd ((-val0 a.du i).val / (D i).val)| ≤ 1 := by
      refine F.rnd_le_of one ?_
      rw [val_neg, abs_div, abs_neg]
      exact (div_le_one (abs_pos.mpr h0)).mpr hle
    obtain ⟨q1, q2⟩ := div_ok ((isFin_neg _).mpr (hu i hi)) hf h0 (q.trans_lt F.isMag_one.2.2)
    rw [h.p i hi]
    exact ⟨q1, by rw [q2]; exact q⟩
  intro i
  induction i with
  | zero =>
    intro hi
    have w := hw 0 hi
    have s := hs 0 hi
    simp only [lt_irrefl, if_false, zero_add] at w s
    have h0 : (val0 a.d 0).val ≠ 0 := abs_pos.mp s
    have hD := h.d0
    rw [hD]
    refine ⟨hd 0 hi, h0, by linarith, fun h1 => ?_, fun h => absurd h (lt_irrefl 0)⟩
    rw [if_pos h1] at w
    exact ⟨w, quot 0 h1 (hD ▸ hd 0 hi) (hD ▸ h0) (hD ▸ w)⟩
  | succ i ih =>
    intro hi
    obtain ⟨p0, p1⟩ := ((ih (by omega)).2.2.2.1 hi).2
    have w := hw (i + 1) hi
    have s := hs (i + 1) hi
    simp only [Nat.succ_pos, if_true, Nat.add_sub_cancel] at w s
    have lp : |(val0 a.dl i).val * (P i).val| ≤ |(val0 a.dl i).val| := by
      rw [abs_mul]; exact mul_le_of_le_one_right (abs_nonneg _) p1
    obtain ⟨_, m2, d1, d2, d3⟩ := pivot_ok (hd (i + 1) hi) (hl i hi) p0 (h2 (i + 1) hi) (lp.trans s.le)
    rw [← h.d i hi] at d1 d2 d3
    have m3 : |(val0 a.dl i * P i).val| ≤ |(val0 a.dl i).val| := by
      rw [m2]; exact F.rnd_le_of (rnd_abs_val _) lp
    have low : |(val0 a.d (i + 1)).val| - |(val0 a.dl i).val| ≤
        |(val0 a.d (i + 1)).val + (val0 a.dl i * P i).val| := by
      have := abs_sub ((val0 a.d (i + 1)).val + (val0 a.dl i * P i).val) (val0 a.dl i * P i).val
      rw [add_sub_cancel_right] at this
      linarith
    have hnz : (D (i + 1)).val ≠ 0 := by
      rw [d2, ← abs_pos]
      have g := F.le_rnd_grid ((isGrid_val (val0 a.d (i + 1))).add (isGrid_val (val0 a.dl i * P i)))
      have : 0 < (1 - F.u) * |(val0 a.d (i + 1)).val + (val0 a.dl i * P i).val| :=
        mul_pos (by linarith [F.u_lt_one]) (by linarith)
      linarith
    refine ⟨d1, hnz, d3, fun h1 => ?_, fun _ => lp.trans s.le⟩
    rw [if_pos h1] at w
    have hle : |(val0 a.du (i + 1)).val| ≤ |(D (i + 1)).val| := by
      rw [d2]; exact F.le_rnd_of (rnd_abs_val _) (by linarith)
    exact ⟨hle, quot (i + 1) h1 d1 hnz hle⟩

/-- The numbers of one step of the forward sweep, bounded by weights. -/
theorem step_real {v η d L U β w wm wp S q D N Qn Pn : ℝ} (v0 : 0 ≤ v) (v1 : v < 1) (hη : 0 < η)
    (hd : 0 < d) (hL : 0 ≤ L) (hU : 0 ≤ U) (hβ : 0 ≤ β) (hw : 0 < w) (hwm : 0 ≤ wm) (hwp : 0 ≤ wp) (hS : 0 ≤ S) (hq : 0 ≤ q)
    (inv : L * q + (1 + v) * S * w ≤ (1 - v) * L * wm)
    (row : β + L * wm + U * wp + η * (1 + w + 4 * d * (1 + wp)) ≤ (1 - v) ^ 4 * d * w)
    (hD : (1 - v) * (d - ((1 + v) * S + η)) ≤ D) (hD2 : D ≤ 2 * d)
    (hN : N ≤ (1 + v) * (β + ((1 + v) * (L * q) + η)))
    (hQ : Qn ≤ (1 + v) * (N / D) + η) (hP : Pn ≤ (1 + v) * (U / D) + η) :
    S ≤ d ∧ 0 < D ∧ (1 + v) * (β + ((1 + v) * (L * q) + η)) ≤ d * w ∧ (1 + v) * (L * q) + η ≤ d * w ∧
      Qn + (1 + v) * Pn * wp + η ≤ (1 - v) * w := by
  have w1 : 0 < 1 - v := by linarith
  have w2 : 1 - v ≤ 1 := by linarith
  have k2 : (1 + v) * (1 - v) ≤ 1 := by nlinarith
  have k2' : 0 ≤ (1 + v) * (1 - v) := mul_nonneg (by linarith) w1.le
  have k4 : (1 + v) ^ 2 * (1 - v) ^ 4 ≤ (1 - v) ^ 2 := by
    have : ((1 + v) * (1 - v)) ^ 2 ≤ 1 := pow_le_one₀ k2' k2
    calc (1 + v) ^ 2 * (1 - v) ^ 4 = ((1 + v) * (1 - v)) ^ 2 * (1 - v) ^ 2 := by ring
      _ ≤ 1 * (1 - v) ^ 2 := mul_le_mul_of_nonneg_right this (by positivity)
      _ = _ := one_mul _
  have k5 : (1 - v) ^ 2 ≤ 1 := pow_le_one₀ w1.le w2
  have dw : 0 < d * w := mul_pos hd hw
  have p1 : 0 ≤ L * wm := mul_nonneg hL hwm
  have p2 : 0 ≤ U * wp := mul_nonneg hU hwp
  have p3 : 0 ≤ L * q := mul_nonneg hL hq
  have p4 : 0 ≤ S * w := mul_nonneg hS hw.le
  have p5 : 0 ≤ v * (S * w) := mul_nonneg v0 p4
  have p6 : 0 ≤ η * w := by positivity
  have p7 : 0 ≤ η * (4 * d * (1 + wp)) := by positivity
  -- the row, multiplied by the factors of the roundings
  have row2 : (1 + v) ^ 2 * (β + L * wm + U * wp + η * (1 + w + 4 * d * (1 + wp))) ≤ (1 - v) ^ 2 * (d * w) := by
    calc _ ≤ (1 + v) ^ 2 * ((1 - v) ^ 4 * d * w) := mul_le_mul_of_nonneg_left row (by positivity)
      _ = (1 + v) ^ 2 * (1 - v) ^ 4 * (d * w) := by ring
      _ ≤ _ := mul_le_mul_of_nonneg_right k4 dw.le
  have inv1 : L * q ≤ (1 - v) * (L * wm) - (1 + v) * (S * w) := by linarith
  have lw : (1 - v) * (L * wm) ≤ L * wm := mul_le_of_le_one_left p1 w2
  have c2 : 1 ≤ (1 + v) ^ 2 := one_le_pow₀ (by linarith)
  have rw1 : β + L * wm + U * wp + η * (1 + w + 4 * d * (1 + wp)) ≤ (1 - v) ^ 2 * (d * w) := by
    refine le_trans ?_ row2
    have : 0 ≤ β + L * wm + U * wp + η * (1 + w + 4 * d * (1 + wp)) := by positivity
    exact le_mul_of_one_le_left this c2
  have e1 : η * (1 + w + 4 * d * (1 + wp)) = η + η * w + η * (4 * d * (1 + wp)) := by ring
  have rw2 : (1 - v) ^ 2 * (d * w) ≤ d * w := mul_le_of_le_one_left dw.le k5
  -- the product in the pivot
  have sd : ((1 + v) * S + η) * w < (1 - v) ^ 2 * (d * w) := by
    have : 0 < η * (4 * d * (1 + wp)) := by positivity
    have e : ((1 + v) * S + η) * w = (1 + v) * (S * w) + η * w := by ring
    rw [e]
    linarith
  have sd' : (1 + v) * S + η < d := by
    have : ((1 + v) * S + η) * w < d * w := by linarith
    exact lt_of_mul_lt_mul_right this hw.le
  have hS1 : S ≤ d := by
    have := mul_nonneg v0 hS
    linarith
  have Dpos : 0 < D := lt_of_lt_of_le (mul_pos w1 (by linarith)) hD
  have lq : (1 + v) * (L * q) ≤ L * wm := by
    have h1 : L * q ≤ (1 - v) * (L * wm) := by linarith
    calc (1 + v) * (L * q) ≤ (1 + v) * ((1 - v) * (L * wm)) := mul_le_mul_of_nonneg_left h1 (by linarith)
      _ = (1 + v) * (1 - v) * (L * wm) := by ring
      _ ≤ 1 * (L * wm) := mul_le_mul_of_nonneg_right k2 p1
      _ = _ := one_mul _
  have nb : (1 + v) * (β + ((1 + v) * (L * q) + η)) ≤ (1 - v) ^ 2 * (d * w) := by
    refine le_trans ?_ row2
    have h1 : β + ((1 + v) * (L * q) + η) ≤ β + L * wm + U * wp + η * (1 + w + 4 * d * (1 + wp)) := by linarith
    have h2 : 0 ≤ β + ((1 + v) * (L * q) + η) := by positivity
    calc _ ≤ (1 + v) ^ 2 * (β + ((1 + v) * (L * q) + η)) := by
          refine mul_le_mul_of_nonneg_right ?_ h2
          nlinarith
      _ ≤ _ := mul_le_mul_of_nonneg_left h1 (by positivity)
  refine ⟨hS1, Dpos, nb.trans rw2, by linarith, ?_⟩
  -- the step, multiplied by the pivot
  have t1 : D * Qn ≤ (1 + v) ^ 2 * (β + ((1 + v) * (L * q) + η)) + η * D := by
    have h1 : D * Qn ≤ D * ((1 + v) * (N / D) + η) := mul_le_mul_of_nonneg_left hQ Dpos.le
    have h2 : D * ((1 + v) * (N / D) + η) = (1 + v) * N + η * D := by field_simp
    have h3 : (1 + v) * N ≤ (1 + v) * ((1 + v) * (β + ((1 + v) * (L * q) + η))) :=
      mul_le_mul_of_nonneg_left hN (by linarith)
    have h4 : (1 + v) * ((1 + v) * (β + ((1 + v) * (L * q) + η))) = (1 + v) ^ 2 * (β + ((1 + v) * (L * q) + η)) := by ring
    linarith
  have t2 : D * ((1 + v) * Pn * wp) ≤ (1 + v) ^ 2 * (U * wp) + (1 + v) * (η * D * wp) := by
    have h1 : D * Pn ≤ D * ((1 + v) * (U / D) + η) := mul_le_mul_of_nonneg_left hP Dpos.le
    have h2 : D * ((1 + v) * (U / D) + η) = (1 + v) * U + η * D := by field_simp
    rw [h2] at h1
    calc D * ((1 + v) * Pn * wp) = (1 + v) * wp * (D * Pn) := by ring
      _ ≤ (1 + v) * wp * ((1 + v) * U + η * D) := mul_le_mul_of_nonneg_left h1 (by positivity)
      _ = _ := by ring
  have t3 : η * D ≤ η * (2 * d) := mul_le_mul_of_nonneg_left hD2 hη.le
  have t3' : η * D * wp ≤ η * (2 * d) * wp := mul_le_mul_of_nonneg_right t3 hwp
  have t4 : (1 + v) * (η * D * wp) ≤ 2 * (η * (2 * d) * wp) := by
    have h1 : 0 ≤ η * D * wp := by positivity
    have h2 : (1 + v) * (η * D * wp) ≤ 2 * (η * D * wp) := mul_le_mul_of_nonneg_right (by linarith) h1
    linarith
  have t5 : (1 - v) * w * ((1 - v) * (d - ((1 + v) * S + η))) ≤ (1 - v) * w * D :=
    mul_le_mul_of_nonneg_left hD (by positivity)
  have t6 : (1 + v) ^ 3 * (L * q) ≤ (1 + v) ^ 2 * (L * wm) - (1 + v) ^ 4 * (S * w) := by
    have h1 := mul_le_mul_of_nonneg_left inv1 (show (0 : ℝ) ≤ (1 + v) ^ 3 by positivity)
    have h2 : (1 + v) ^ 3 * ((1 - v) * (L * wm)) ≤ (1 + v) ^ 2 * (L * wm) := by
      calc _ = (1 + v) * (1 - v) * ((1 + v) ^ 2 * (L * wm)) := by ring
        _ ≤ 1 * ((1 + v) ^ 2 * (L * wm)) := mul_le_mul_of_nonneg_right k2 (by positivity)
        _ = _ := one_mul _
    have h3 : (1 + v) ^ 3 * ((1 - v) * (L * wm) - (1 + v) * (S * w)) =
      (1 + v) ^ 3 * ((1 - v) * (L * wm)) - (1 + v) ^ 4 * (S * w) := by ring
    linarith
  have t7 : (1 - v) ^ 2 * ((1 + v) * (S * w)) ≤ (1 + v) ^ 4 * (S * w) := by
    have : (1 - v) ^ 2 * (1 + v) ≤ (1 + v) ^ 4 := by
      have h1 : 1 ≤ (1 + v) ^ 3 := one_le_pow₀ (by linarith)
      calc (1 - v) ^ 2 * (1 + v) ≤ 1 * (1 + v) := mul_le_mul_of_nonneg_right k5 (by linarith)
        _ ≤ (1 + v) ^ 3 * (1 + v) := mul_le_mul_of_nonneg_right h1 (by linarith)
        _ = _ := by ring
    calc _ = (1 - v) ^ 2 * (1 + v) * (S * w) := by ring
      _ ≤ _ := mul_le_mul_of_nonneg_right this p4
  have t8 : (1 - v) ^ 2 * (η * w) ≤ (1 + v) ^ 2 * (η * w) := mul_le_mul_of_nonneg_right (by linarith) p6
  have t9 : η * (4 * d * (1 + wp)) ≤ (1 + v) ^ 2 * (η * (4 * d * (1 + wp))) := le_mul_of_one_le_left p7 c2
  have fin : D * (Qn + (1 + v) * Pn * wp + η) ≤ D * ((1 - v) * w) := by
    have e2 : (1 + v) ^ 2 * (β + ((1 + v) * (L * q) + η)) = (1 + v) ^ 2 * β + (1 + v) ^ 3 * (L * q) + (1 + v) ^ 2 * η := by ring
    have e3 : (1 + v) ^ 2 * (β + L * wm + U * wp + η * (1 + w + 4 * d * (1 + wp))) = (1 + v) ^ 2 * β +
      (1 + v) ^ 2 * (L * wm) + (1 + v) ^ 2 * (U * wp) + (1 + v) ^ 2 * η + (1 + v) ^ 2 * (η * w) +
      (1 + v) ^ 2 * (η * (4 * d * (1 + wp))) := by ring
    have e4 : (1 - v) * w * ((1 - v) * (d - ((1 + v) * S + η))) = (1 - v) ^ 2 * (d * w) -
      (1 - v) ^ 2 * ((1 + v) * (S * w)) - (1 - v) ^ 2 * (η * w) := by ring
    have e5 : η * (4 * d * (1 + wp)) = 2 * (η * (2 * d)) + 2 * (η * (2 * d) * wp) := by ring
    have e6 : D * (Qn + (1 + v) * Pn * wp + η) = D * Qn + D * ((1 + v) * Pn * wp) + η * D := by ring
    have e7 : D * ((1 - v) * w) = (1 - v) * w * D := by ring
    rw [e6, e7]
    linarith
  exact le_of_mul_le_mul_left fin Dpos

/-- The part of a step that does not depend on the pivot. -/
theorem step_real0 {v η d L U β w wm wp S q : ℝ} (v0 : 0 ≤ v) (v1 : v < 1) (hη : 0 < η)
    (hd : 0 < d) (hL : 0 ≤ L) (hU : 0 ≤ U) (hβ : 0 ≤ β) (hw : 0 < w) (hwm : 0 ≤ wm) (hwp : 0 ≤ wp) (hS : 0 ≤ S) (hq : 0 ≤ q)
    (inv : L * q + (1 + v) * S * w ≤ (1 - v) * L * wm)
    (row : β + L * wm + U * wp + η * (1 + w + 4 * d * (1 + wp)) ≤ (1 - v) ^ 4 * d * w) :
    S ≤ d ∧ (1 + v) * (β + ((1 + v) * (L * q) + η)) ≤ d * w ∧ (1 + v) * (L * q) + η ≤ d * w := by
  have w1 : 0 < 1 - v := by linarith
  obtain ⟨h1, _, h2, h3, _⟩ := step_real (D := 2 * d) (N := 0) (Qn := 0) (Pn := 0) v0 v1 hη hd hL hU hβ hw hwm hwp hS hq
    inv row (by
      have : (1 - v) * (d - ((1 + v) * S + η)) ≤ (1 - v) * d :=
        mul_le_mul_of_nonneg_left (by have := mul_nonneg (show 0 ≤ 1 + v by linarith) hS; linarith) w1.le
      have h4 : 0 ≤ v * d := mul_nonneg v0 hd.le
      linarith) le_rfl (by positivity) (by rw [zero_div, mul_zero]; linarith) (by positivity)
  exact ⟨h1, h2, h3⟩

/-- Weights that are a supersolution with a margin for the roundings bound everything the solver computes. -/
theorem bounded_ok (h : TdmaEq n a b x D P Q) (hd : ∀ i, i < n → (val0 a.d i).IsFin)
    (hl : ∀ i, i + 1 < n → (val0 a.dl i).IsFin) (hu : ∀ i, i + 1 < n → (val0 a.du i).IsFin)
    (hb : ∀ i, i < n → (b i).IsFin) {w : Nat → ℝ} (w0 : ∀ i, 0 < w i) (wt : ∀ i, i < n → w i < F.top)
    (wr : ∀ i, i + 1 < n → w i < F.top * w (i + 1)) (wd : ∀ i, i < n → |(val0 a.d i).val| * w i < F.top)
    (h2 : ∀ i, i < n → 2 * |(val0 a.d i).val| < F.top)
    (row : ∀ i, i < n → |(b i).val| + (if 0 < i then |(val0 a.dl (i - 1)).val| * w (i - 1) else 0) +
      (if i + 1 < n then |(val0 a.du i).val| * w (i + 1) else 0) +
      F.eta * (1 + w i + 4 * |(val0 a.d i).val| * (1 + w (i + 1))) ≤ (1 - F.u) ^ 4 * |(val0 a.d i).val| * w i) :
    (∀ i, i < n → (D i).IsFin ∧ (D i).val ≠ 0 ∧ |(D i).val| ≤ 2 * |(val0 a.d i).val| ∧
      (0 < i → |(val0 a.dl (i - 1)).val * (P (i - 1)).val| ≤ |(val0 a.d i).val|)) ∧
    ∀ i, i < n → (x i).IsFin ∧ |(x i).val| ≤ w i := by
  have v0 := F.u_nonneg
  have v1 := F.u_lt_one
  have hη := F.eta_pos
  -- the diagonal is not zero
  have dp : ∀ i, i < n → 0 < |(val0 a.d i).val| := by
    intro i hi
    rcases (abs_nonneg (val0 a.d i).val).lt_or_eq with h | h
    · exact h
    · have r := row i hi
      rw [← h] at r
      have q1 : 0 ≤ if 0 < i then |(val0 a.dl (i - 1)).val| * w (i - 1) else 0 := by
        split_ifs
        · exact mul_nonneg (abs_nonneg _) (w0 _).le
        · exact le_rfl
      have q2 : 0 ≤ if i + 1 < n then |(val0 a.du i).val| * w (i + 1) else 0 := by
        split_ifs
        · exact mul_nonneg (abs_nonneg _) (w0 _).le
        · exact le_rfl
      have q3 := abs_nonneg (b i).val
      have q4 := mul_pos hη (w0 i)
      exfalso
      simp only [mul_zero, zero_mul, add_zero] at r
      linarith [mul_add F.eta 1 (w i), mul_one F.eta]
  -- what a pivot and a numerator give
  have quot : ∀ i, i < n → (D i).IsFin → (D i).val ≠ 0 → ∀ N : Fp F, N.IsFin → Q i = N / D i →
      (1 + F.u) * (|N.val| / |(D i).val|) + F.eta ≤ (1 - F.u) * w i → 
      (Q i).IsFin ∧ |(Q i).val| ≤ (1 + F.u) * (|N.val| / |(D i).val|) + F.eta := by
    intro i hi hf h0 N hN e hle
    have q : |F.rnd (N.val / (D i).val)| ≤ (1 + F.u) * (|N.val| / |(D i).val|) + F.eta := by
      rw [← abs_div]; exact F.rnd_le _
    have : (1 - F.u) * w i ≤ w i := mul_le_of_le_one_left (w0 i).le (by linarith)
    obtain ⟨q1, q2⟩ := div_ok hN hf h0 (by have := wt i hi; linarith)
    rw [e]
    exact ⟨q1, by rw [q2]; exact q⟩
  have pquot : ∀ i, i + 1 < n → (D i).IsFin → (D i).val ≠ 0 →
      (1 + F.u) * ((1 + F.u) * (|(val0 a.du i).val| / |(D i).val|) + F.eta) * w (i + 1) ≤ (1 - F.u) * w i →
      (P i).IsFin ∧ |(P i).val| ≤ (1 + F.u) * (|(val0 a.du i).val| / |(D i).val|) + F.eta := by
    intro i hi hf h0 hle
    have q : |F.rnd ((-val0 a.du i).val / (D i).val)| ≤ (1 + F.u) * (|(val0 a.du i).val| / |(D i).val|) + F.eta := by
      rw [val_neg, ← abs_neg (val0 a.du i).val, ← abs_div]; exact F.rnd_le _
    set B := (1 + F.u) * (|(val0 a.du i).val| / |(D i).val|) + F.eta with hB
    have B0 : 0 ≤ B := by positivity
    have h1 : (1 - F.u) * w i ≤ w i := mul_le_of_le_one_left (w0 i).le (by linarith)
    have h3 : B * w (i + 1) ≤ (1 + F.u) * B * w (i + 1) :=
      mul_le_mul_of_nonneg_right (le_mul_of_one_le_left B0 (by linarith)) (w0 _).le
    have h4 : B < F.top := lt_of_mul_lt_mul_right (by have := wr i hi; linarith : B * w (i + 1) < F.top * w (i + 1)) (w0 _).le
    obtain ⟨q1, q2⟩ := div_ok ((isFin_neg _).mpr (hu i hi)) hf h0 (q.trans_lt h4)
    rw [h.p i hi]
    exact ⟨q1, by rw [q2]; exact q⟩
  have fwd : ∀ i, i < n → (D i).IsFin ∧ (D i).val ≠ 0 ∧ |(D i).val| ≤ 2 * |(val0 a.d i).val| ∧ (Q i).IsFin ∧
      (i + 1 < n → (P i).IsFin) ∧
      |(Q i).val| + (if i + 1 < n then (1 + F.u) * |(P i).val| * w (i + 1) else 0) + F.eta ≤ (1 - F.u) * w i ∧
      (0 < i → |(val0 a.dl (i - 1)).val * (P (i - 1)).val| ≤ |(val0 a.d i).val|) := by
    -- the conclusions from a pivot, a numerator, and the numbers of the row before
    have done : ∀ i, i < n → ∀ (L wm S q : ℝ) (N : Fp F), 0 ≤ L → 0 ≤ wm → 0 ≤ S → 0 ≤ q →
        L * q + (1 + F.u) * S * w i ≤ (1 - F.u) * L * wm →
        |(b i).val| + L * wm + (if i + 1 < n then |(val0 a.du i).val| * w (i + 1) else 0) +
          F.eta * (1 + w i + 4 * |(val0 a.d i).val| * (1 + w (i + 1))) ≤ (1 - F.u) ^ 4 * |(val0 a.d i).val| * w i →
        (D i).IsFin → (1 - F.u) * (|(val0 a.d i).val| - ((1 + F.u) * S + F.eta)) ≤ |(D i).val| →
        |(D i).val| ≤ 2 * |(val0 a.d i).val| → N.IsFin →
        |N.val| ≤ (1 + F.u) * (|(b i).val| + ((1 + F.u) * (L * q) + F.eta)) → Q i = N / D i →
        (D i).val ≠ 0 ∧ (Q i).IsFin ∧ (i + 1 < n → (P i).IsFin) ∧
        |(Q i).val| + (if i + 1 < n then (1 + F.u) * |(P i).val| * w (i + 1) else 0) + F.eta ≤ (1 - F.u) * w i := by
      intro i hi L wm S q N hL hwm hS hq inv r hf hD hD2 hN hNb e
      have wp := w0 (i + 1)
      have U0 : 0 ≤ if i + 1 < n then |(val0 a.du i).val| else 0 := by
        split_ifs
        · exact abs_nonneg _
        · exact le_rfl
      have r' : |(b i).val| + L * wm + (if i + 1 < n then |(val0 a.du i).val| else 0) * w (i + 1) +
          F.eta * (1 + w i + 4 * |(val0 a.d i).val| * (1 + w (i + 1))) ≤ (1 - F.u) ^ 4 * |(val0 a.d i).val| * w i := by
        refine le_of_eq_of_le ?_ r
        split_ifs <;> simp
      obtain ⟨_, Dp, _, _, fin⟩ := step_real v0 v1 hη (dp i hi) hL U0 (abs_nonneg (b i).val) (w0 i) hwm wp.le hS hq inv r'
        hD hD2 hNb le_rfl le_rfl
      have Dn : (D i).val ≠ 0 := abs_pos.mp Dp
      have f1 : 0 ≤ (1 + F.u) * (|N.val| / |(D i).val|) := by positivity
      set U := if i + 1 < n then |(val0 a.du i).val| else 0 with hU
      have f2 : 0 ≤ (1 + F.u) * ((1 + F.u) * (U / |(D i).val|) + F.eta) * w (i + 1) := by positivity
      obtain ⟨Qf, Qb⟩ := quot i hi hf Dn N hN e (by linarith)
      refine ⟨Dn, Qf, ?_⟩
      by_cases hlt : i + 1 < n
      · have hU' : U = |(val0 a.du i).val| := by rw [hU, if_pos hlt]
        rw [hU'] at fin
        obtain ⟨Pf, Pb⟩ := pquot i hlt hf Dn (by linarith)
        refine ⟨fun _ => Pf, ?_⟩
        have : (1 + F.u) * |(P i).val| * w (i + 1) ≤
            (1 + F.u) * ((1 + F.u) * (|(val0 a.du i).val| / |(D i).val|) + F.eta) * w (i + 1) :=
          mul_le_mul_of_nonneg_right (mul_le_mul_of_nonneg_left Pb (by linarith)) wp.le
        rw [if_pos hlt]
        linarith
      · refine ⟨fun h => absurd h hlt, ?_⟩
        rw [if_neg hlt]
        linarith
    intro i
    induction i with
    | zero =>
      intro hi
      have r := row 0 hi
      simp only [lt_irrefl, if_false, add_zero] at r
      have hD := h.d0
      have dpos := dp 0 hi
      have k : (1 - F.u) * (|(val0 a.d 0).val| - ((1 + F.u) * 0 + F.eta)) ≤ |(val0 a.d 0).val| := by
        have : (1 - F.u) * |(val0 a.d 0).val| ≤ |(val0 a.d 0).val| := mul_le_of_le_one_left dpos.le (by linarith)
        have h3 : 0 ≤ (1 - F.u) * F.eta := mul_nonneg (by linarith) hη.le
        linarith
      have kb : |(b 0).val| ≤ (1 + F.u) * (|(b 0).val| + ((1 + F.u) * (0 * 0) + F.eta)) := by
        have h1 := abs_nonneg (b 0).val
        have h3 : |(b 0).val| + F.eta ≤ (1 + F.u) * (|(b 0).val| + F.eta) :=
          le_mul_of_one_le_left (by linarith) (by linarith)
        simp only [mul_zero, zero_add]
        linarith
      obtain ⟨g1, g2, g3, g4⟩ := done 0 hi 0 0 0 0 (b 0) le_rfl le_rfl le_rfl le_rfl (by simp) (by simpa using r)
        (hD ▸ hd 0 hi) (hD ▸ k) (by rw [hD]; linarith) (hb 0 hi) kb h.q0
      exact ⟨hD ▸ hd 0 hi, g1, by rw [hD]; linarith, g2, g3, g4, fun h => absurd h (lt_irrefl 0)⟩
    | succ i ih =>
      intro hi
      obtain ⟨_, _, _, Qf, Pf, inv, _⟩ := ih (by omega)
      have Pf := Pf hi
      rw [if_pos hi] at inv
      have r := row (i + 1) hi
      simp only [Nat.succ_pos, if_true, Nat.add_sub_cancel] at r
      have L0 := abs_nonneg (val0 a.dl i).val
      have inv' : |(val0 a.dl i).val| * |(Q i).val| + (1 + F.u) * |(val0 a.dl i).val * (P i).val| * w (i + 1) ≤
          (1 - F.u) * |(val0 a.dl i).val| * w i := by
        have h1 := mul_le_mul_of_nonneg_left inv L0
        have h3 := mul_nonneg L0 hη.le
        rw [abs_mul]
        have e1 : |(val0 a.dl i).val| * (|(Q i).val| + (1 + F.u) * |(P i).val| * w (i + 1) + F.eta) =
          |(val0 a.dl i).val| * |(Q i).val| + (1 + F.u) * (|(val0 a.dl i).val| * |(P i).val|) * w (i + 1) +
          |(val0 a.dl i).val| * F.eta := by ring
        linarith
      have U0 : 0 ≤ if i + 1 + 1 < n then |(val0 a.du (i + 1)).val| else 0 := by
        split_ifs
        · exact abs_nonneg _
        · exact le_rfl
      have r' : |(b (i + 1)).val| + |(val0 a.dl i).val| * w i +
          (if i + 1 + 1 < n then |(val0 a.du (i + 1)).val| else 0) * w (i + 1 + 1) +
          F.eta * (1 + w (i + 1) + 4 * |(val0 a.d (i + 1)).val| * (1 + w (i + 1 + 1))) ≤
          (1 - F.u) ^ 4 * |(val0 a.d (i + 1)).val| * w (i + 1) := by
        refine le_of_eq_of_le ?_ r
        split_ifs <;> simp
      obtain ⟨s1, s2, s3⟩ := step_real0 v0 v1 hη (dp _ hi) L0 U0 (abs_nonneg (b (i + 1)).val) (w0 _) (w0 i).le (w0 _).le
        (abs_nonneg ((val0 a.dl i).val * (P i).val)) (abs_nonneg (Q i).val) inv' r'
      obtain ⟨_, m2, d1, d2, d3⟩ := pivot_ok (hd _ hi) (hl i hi) Pf (h2 _ hi) s1
      rw [← h.d i hi] at d1 d2 d3
      have lowD : (1 - F.u) * (|(val0 a.d (i + 1)).val| - ((1 + F.u) * |(val0 a.dl i).val * (P i).val| + F.eta)) ≤
          |(D (i + 1)).val| := by
        have g := F.le_rnd_grid ((isGrid_val (val0 a.d (i + 1))).add (isGrid_val (val0 a.dl i * P i)))
        rw [d2]
        refine le_trans (mul_le_mul_of_nonneg_left ?_ (by linarith)) g
        have := abs_sub ((val0 a.d (i + 1)).val + (val0 a.dl i * P i).val) (val0 a.dl i * P i).val
        rw [add_sub_cancel_right] at this
        have m3 := F.rnd_le ((val0 a.dl i).val * (P i).val)
        rw [← m2] at m3
        linarith
      -- the numerator
      have q1 : |F.rnd ((val0 a.dl i).val * (Q i).val)| ≤ (1 + F.u) * (|(val0 a.dl i).val| * |(Q i).val|) + F.eta := by
        rw [← abs_mul]; exact F.rnd_le _
      obtain ⟨n1, n2⟩ := mul_ok (hl i hi) Qf ((q1.trans s3).trans_lt (wd _ hi))
      have q2 : |F.rnd ((b (i + 1)).val - (val0 a.dl i * Q i).val)| ≤
          (1 + F.u) * (|(b (i + 1)).val| + ((1 + F.u) * (|(val0 a.dl i).val| * |(Q i).val|) + F.eta)) := by
        have g := F.rnd_le_grid ((isGrid_val (b (i + 1))).add (isGrid_val (val0 a.dl i * Q i)).neg)
        rw [← sub_eq_add_neg] at g
        refine g.trans (mul_le_mul_of_nonneg_left ?_ (by linarith))
        refine (abs_sub _ _).trans (add_le_add le_rfl ?_)
        rw [n2]; exact q1
      obtain ⟨n3, n4⟩ := sub_ok (hb _ hi) n1 ((q2.trans s2).trans_lt (wd _ hi))
      obtain ⟨g1, g2, g3, g4⟩ := done (i + 1) hi _ _ _ _ _ L0 (w0 i).le (abs_nonneg _) (abs_nonneg _) inv' r d1 lowD d3 n3
        (by rw [n4]; exact q2) (h.q i hi)
      exact ⟨d1, g1, d3, g2, g3, g4, fun _ => s1⟩
  refine ⟨fun i hi => ?_, ?_⟩
  · obtain ⟨g1, g2, g3, _, _, _, g7⟩ := fwd i hi
    exact ⟨g1, g2, g3, g7⟩
  -- the backward sweep
  have bwd : ∀ k, k < n → (x (n - 1 - k)).IsFin ∧ |(x (n - 1 - k)).val| ≤ w (n - 1 - k) := by
    intro k
    induction k with
    | zero =>
      intro hk
      obtain ⟨_, _, _, g4, _, g6, _⟩ := fwd (n - 1) (by omega)
      rw [Nat.sub_zero, h.last]
      refine ⟨g4, ?_⟩
      rw [if_neg (by omega)] at g6
      have : (1 - F.u) * w (n - 1) ≤ w (n - 1) := mul_le_of_le_one_left (w0 _).le (by linarith)
      linarith
    | succ k ih =>
      intro hk
      obtain ⟨x1, x2⟩ := ih (by omega)
      obtain ⟨i, hi⟩ : ∃ i, i = n - 1 - (k + 1) := ⟨_, rfl⟩
      have hin : i + 1 < n := by omega
      rw [show n - 1 - k = i + 1 by omega] at x1 x2
      rw [← hi, h.back i hin]
      obtain ⟨_, _, _, g4, g5, g6, _⟩ := fwd i (by omega)
      rw [if_pos hin] at g6
      have q1 : |F.rnd ((P i).val * (x (i + 1)).val)| ≤ (1 + F.u) * |(P i).val| * w (i + 1) + F.eta := by
        refine (F.rnd_le _).trans (add_le_add ?_ le_rfl)
        rw [abs_mul, mul_assoc]
        exact mul_le_mul_of_nonneg_left (mul_le_mul_of_nonneg_left x2 (abs_nonneg _)) (by linarith)
      have ww : (1 - F.u) * w i ≤ w i := mul_le_of_le_one_left (w0 i).le (by linarith)
      have wt' := wt i (by omega)
      have qn := abs_nonneg (Q i).val
      obtain ⟨m1, m2⟩ := mul_ok (g5 hin) x1 (by linarith)
      have q2 : |F.rnd ((P i * x (i + 1)).val + (Q i).val)| ≤ w i := by
        refine (F.rnd_le_grid ((isGrid_val _).add (isGrid_val _))).trans ?_
        have h1 : |(P i * x (i + 1)).val + (Q i).val| ≤ (1 - F.u) * w i := by
          refine (abs_add_le _ _).trans ?_
          rw [m2]; linarith
        calc _ ≤ (1 + F.u) * ((1 - F.u) * w i) := mul_le_mul_of_nonneg_left h1 (by linarith)
          _ = w i - F.u * F.u * w i := by ring
          _ ≤ w i := by have := mul_nonneg (mul_nonneg v0 v0) (w0 i).le; linarith
      obtain ⟨s1, s2⟩ := add_ok m1 g4 (q2.trans_lt wt')
      exact ⟨s1, by rw [s2]; exact q2⟩
  intro i hi
  have := bwd (n - 1 - i) (by omega)
  rwa [show n - 1 - (n - 1 - i) = i by omega] at this

end Fp

end Lalib
