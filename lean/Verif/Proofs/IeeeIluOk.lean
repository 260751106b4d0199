import Verif.Proofs.IeeeCholOk
import Verif.Proofs.IluDom
import Verif.Spec.IeeeIluOk

/-! # Incomplete LU factorisation over IEEE 754 numbers: matrices for which it cannot fail -/

namespace Lalib

open Finset

namespace Fp
variable {F : Fmt}

/-- A difference of products that stays in range: bounds both ways. -/
theorem chain_ok {f h : Nat → Fp F} {a : Fp F} {lo c n : Nat} {M : ℝ} (hcn : c ≤ n) (ha : a.IsFin)
    (hf : ∀ k, k < c → (f (lo + k)).IsFin) (hh : ∀ k, k < c → (h (lo + k)).IsFin) (hM : |a.val| ≤ M)
    (hs : ∑ k ∈ range c, |(f (lo + k)).val| * |(h (lo + k)).val| ≤ M) (hg : gam F.u (2 * n + 2) ≤ 1 / 8)
    (he : 4 * (F.eta * n) ≤ M) (ht : 16 * M < F.top) :
    (subUp (fun k => f k * h k) lo (lo + c) a).IsFin ∧ |(subUp (fun k => f k * h k) lo (lo + c) a).val| ≤ 4 * M ∧
      |(subUp (fun k => f k * h k) lo (lo + c) a).val| ≤
        (1 + gam F.u (2 * n + 1)) * (|a.val| + ∑ k ∈ range c, |(f (lo + k)).val| * |(h (lo + k)).val| + F.eta * n) ∧
      |a.val| ≤ (1 + gam F.u (2 * n + 1)) *
        (|(subUp (fun k => f k * h k) lo (lo + c) a).val| + ∑ k ∈ range c, |(f (lo + k)).val| * |(h (lo + k)).val| + F.eta * n) := by
  have h0 := F.u_nonneg
  have h1 := F.u_lt_one
  have hη := F.eta_pos
  have g1 := gam_mono h0 h1 (show n + 1 ≤ 2 * n + 2 by omega)
  have G := gam_nonneg h0 h1 (n + 1)
  have E0 : 0 ≤ F.eta * n := by positivity
  simp only [← abs_mul] at hs ⊢
  obtain ⟨fin, hb⟩ := sums_ok hcn ha hf hh hM hs (by linarith)
    (by rw [mul_assoc]; have := mul_le_mul_of_nonneg_right (show 1 + gam F.u (n + 1) ≤ 4 / 3 by linarith) E0; linarith) ht c le_rfl
  obtain ⟨σ, ρ, r, hσ, hρ, hr, e⟩ := sub_prods fin
  refine ⟨fin, hb, ?_, ?_⟩
  all_goals set S := (subUp (fun k => f k * h k) lo (lo + c) a).val with hS
  · have σ0 := hσ.pos h0 h1
    have k1 : |1 / σ| ≤ 1 + gam F.u (2 * n + 1) :=
      ((hσ.inv h0 h1).mono h0 h1 (show c ≤ 2 * n + 1 by omega)).abs_le h0 h1
    have k2 : ∀ k, k < c → |ρ k / σ| ≤ 1 + gam F.u (2 * n + 1) := fun k hk =>
      (((hρ k).div h0 h1 hσ).mono h0 h1 (show k + 1 + c ≤ 2 * n + 1 by omega)).abs_le h0 h1
    have k3 : |r * (1 / σ)| ≤ (1 + gam F.u (2 * n + 1)) * (F.eta * n) := by
      rw [abs_mul]
      have i1 : |1 / σ| ≤ 1 + gam F.u n := ((hσ.inv h0 h1).mono h0 h1 hcn).abs_le h0 h1
      have i2 : |r| ≤ (1 + gam F.u n) * (F.eta * n) := by
        refine hr.trans ?_
        rw [mul_assoc]
        refine mul_le_mul (by linarith [gam_mono h0 h1 hcn]) ?_ (by positivity) (by linarith [gam_nonneg h0 h1 n])
        exact mul_le_mul_of_nonneg_left (by exact_mod_cast hcn) hη.le
      have i3 : (1 + gam F.u n) * (1 + gam F.u n) ≤ 1 + gam F.u (2 * n + 1) := by
        rw [← gam_add h0 h1]; linarith [gam_mono h0 h1 (show n + n ≤ 2 * n + 1 by omega)]
      calc |r| * |1 / σ| ≤ ((1 + gam F.u n) * (F.eta * n)) * (1 + gam F.u n) :=
            mul_le_mul i2 i1 (abs_nonneg _) (mul_nonneg (by linarith [gam_nonneg h0 h1 n]) E0)
        _ = ((1 + gam F.u n) * (1 + gam F.u n)) * (F.eta * n) := by ring
        _ ≤ _ := mul_le_mul_of_nonneg_right i3 E0
    have eS : S = a.val * (1 / σ) - ∑ k ∈ range c, (f (lo + k)).val * (h (lo + k)).val * (ρ k / σ) - r * (1 / σ) := by
      have : ∑ k ∈ range c, (f (lo + k)).val * (h (lo + k)).val * (ρ k / σ) =
          (∑ k ∈ range c, (f (lo + k)).val * (h (lo + k)).val * ρ k) * (1 / σ) := by
        rw [sum_mul]; exact sum_congr rfl fun k _ => by ring
      rw [this, e]; field_simp; ring
    rw [eS]
    have l1 : |a.val * (1 / σ)| ≤ (1 + gam F.u (2 * n + 1)) * |a.val| := by
      rw [abs_mul, mul_comm]; exact mul_le_mul_of_nonneg_right k1 (abs_nonneg _)
    have l2 : |∑ k ∈ range c, (f (lo + k)).val * (h (lo + k)).val * (ρ k / σ)| ≤
        (1 + gam F.u (2 * n + 1)) * ∑ k ∈ range c, |(f (lo + k)).val * (h (lo + k)).val| := by
      rw [mul_sum]
      refine (abs_sum_le_sum_abs _ _).trans (sum_le_sum fun k hk => ?_)
      rw [abs_mul _ (ρ k / σ), mul_comm]
      exact mul_le_mul_of_nonneg_right (k2 k (mem_range.mp hk)) (abs_nonneg _)
    have l3 := abs_sub (a.val * (1 / σ) - ∑ k ∈ range c, (f (lo + k)).val * (h (lo + k)).val * (ρ k / σ)) (r * (1 / σ))
    have l4 := abs_sub (a.val * (1 / σ)) (∑ k ∈ range c, (f (lo + k)).val * (h (lo + k)).val * (ρ k / σ))
    rw [mul_add, mul_add]
    linarith
  · rw [e]
    have l1 : |S * σ| ≤ (1 + gam F.u (2 * n + 1)) * |S| := by
      rw [abs_mul, mul_comm]
      exact mul_le_mul_of_nonneg_right ((hσ.mono h0 h1 (show c ≤ 2 * n + 1 by omega)).abs_le h0 h1) (abs_nonneg _)
    have l2 : |∑ k ∈ range c, (f (lo + k)).val * (h (lo + k)).val * ρ k| ≤
        (1 + gam F.u (2 * n + 1)) * ∑ k ∈ range c, |(f (lo + k)).val * (h (lo + k)).val| := by
      rw [mul_sum]
      refine (abs_sum_le_sum_abs _ _).trans (sum_le_sum fun k hk => ?_)
      rw [abs_mul _ (ρ k), mul_comm]
      have := mem_range.mp hk
      exact mul_le_mul_of_nonneg_right (((hρ k).mono h0 h1 (show k + 1 ≤ 2 * n + 1 by omega)).abs_le h0 h1) (abs_nonneg _)
    have l3 : |r| ≤ (1 + gam F.u (2 * n + 1)) * (F.eta * n) := by
      refine hr.trans ?_
      rw [mul_assoc]
      refine mul_le_mul (by linarith [gam_mono h0 h1 (show c ≤ 2 * n + 1 by omega)]) ?_ (by positivity)
        (by linarith [gam_nonneg h0 h1 (2 * n + 1)])
      exact mul_le_mul_of_nonneg_left (by exact_mod_cast hcn) hη.le
    have l4 := abs_add_le (S * σ + ∑ k ∈ range c, (f (lo + k)).val * (h (lo + k)).val * ρ k) r
    have l5 := abs_add_le (S * σ) (∑ k ∈ range c, (f (lo + k)).val * (h (lo + k)).val * ρ k)
    rw [mul_add, mul_add]
    linarith

/-- The same, divided. -/
theorem quot_ok {f h : Nat → Fp F} {a d : Fp F} {lo c n : Nat} {M : ℝ} (hcn : c ≤ n) (hn : 0 < n) (ha : a.IsFin)
    (hf : ∀ k, k < c → (f (lo + k)).IsFin) (hh : ∀ k, k < c → (h (lo + k)).IsFin) (hM : |a.val| ≤ M)
    (hs : ∑ k ∈ range c, |(f (lo + k)).val| * |(h (lo + k)).val| ≤ M) (hg : gam F.u (2 * n + 2) ≤ 1 / 8)
    (he : 4 * (F.eta * n) ≤ M) (ht : 16 * M < F.top) (hd : d.IsFin) (hd0 : d.val ≠ 0) (htd : 8 * M < F.top * |d.val|) :
    (subUp (fun k => f k * h k) lo (lo + c) a / d).IsFin ∧
      |(subUp (fun k => f k * h k) lo (lo + c) a / d).val| * |d.val| ≤
        (1 + gam F.u (2 * n + 2)) * (|a.val| + ∑ k ∈ range c, |(f (lo + k)).val| * |(h (lo + k)).val| + F.eta * (n + |d.val|)) := by
  have h0 := F.u_nonneg
  have h1 := F.u_lt_one
  have hη := F.eta_pos
  obtain ⟨fin, hb, hS, _⟩ := chain_ok hcn ha hf hh hM hs hg he ht
  set S := subUp (fun k => f k * h k) lo (lo + c) a
  have d0 : 0 < |d.val| := abs_pos.mpr hd0
  have n1 : (1 : ℝ) ≤ n := by exact_mod_cast hn
  have η1 : F.eta ≤ F.eta * n := le_mul_of_one_le_right hη.le n1
  have hu : F.u ≤ 1 / 8 := (u_le_gam h0 h1 (show 1 ≤ 2 * n + 2 by omega)).trans hg
  have q : |S.val / d.val| * 2 ≤ F.top := by
    rw [abs_div, div_mul_eq_mul_div, div_le_iff₀ d0]; linarith
  have r1 := F.rnd_le (S.val / d.val)
  obtain ⟨v1, v2⟩ := div_ok fin hd hd0 (by nlinarith [abs_nonneg (S.val / d.val)])
  refine ⟨v1, ?_⟩
  obtain ⟨φ, ε, hφ, hε, _, e⟩ := F.rnd_fac (S.val / d.val)
  rw [v2, e, ← abs_mul, show (S.val / d.val * φ + ε) * d.val = S.val * φ + ε * d.val by field_simp]
  have l1 : |S.val * φ| ≤ (1 + gam F.u 1) * |S.val| := by
    rw [abs_mul, mul_comm]; exact mul_le_mul_of_nonneg_right (hφ.abs_le h0 h1) (abs_nonneg _)
  have l2 : |ε * d.val| ≤ F.eta * |d.val| := by
    rw [abs_mul]; exact mul_le_mul_of_nonneg_right hε d0.le
  have l3 := abs_add_le (S.val * φ) (ε * d.val)
  have l4 := mul_le_mul_of_nonneg_left hS (show 0 ≤ 1 + gam F.u 1 by linarith [gam_nonneg h0 h1 1])
  rw [← mul_assoc, ← gam_add h0 h1, show 1 + (2 * n + 1) = 2 * n + 2 by omega] at l4
  have l5 : 0 ≤ gam F.u (2 * n + 2) * (F.eta * |d.val|) := mul_nonneg (gam_nonneg h0 h1 _) (by positivity)
  linarith


/-! ## One row of the factors -/

variable {n : ℕ} {A G : Nat → Nat → Fp F} {w : ℕ → ℝ}

/-- The row of the matrix without its diagonal. -/
noncomputable def offRow (A : Nat → Nat → Fp F) (i j : ℕ) : ℝ := if j = i then 0 else |(A i j).val|

theorem offRow_nonneg (i j : ℕ) : 0 ≤ offRow A i j := by
  unfold offRow; split_ifs; exacts [le_rfl, abs_nonneg _]

theorem offRow_sum {i : ℕ} (hi : i < n) :
    ∑ j ∈ range n, offRow A i j * w j = ∑ j ∈ (range n).erase i, |mat A i j| * w j := by
  rw [← add_sum_erase _ _ (mem_range.mpr hi), offRow, if_pos rfl, zero_mul, zero_add]
  exact sum_congr rfl fun j hj => by rw [offRow, if_neg (mem_erase.mp hj).1]; rfl

/-- What is known of row `i` of the factors: finite, the inequalities the roundings leave, and the consequences of
dominance. -/
structure RowFit (n : ℕ) (A G : Nat → Nat → Fp F) (w : ℕ → ℝ) (i : ℕ) : Prop where
  fin : ∀ c, c < n → (G i c).IsFin
  low : ∀ j, j < i → |(G i j).val| * |(G j j).val| ≤ (1 + gam F.u (2 * n + 2)) *
    (offRow A i j + ∑ k ∈ range j, |(G i k).val| * |(G k j).val|) + (1 + gam F.u (2 * n + 2)) * (F.eta * (n + |(G j j).val|))
  up : ∀ j, i < j → j < n → |(G i j).val| ≤ (1 + gam F.u (2 * n + 2)) *
    (offRow A i j + ∑ k ∈ range i, |(G i k).val| * |(G k j).val| + F.eta * n)
  piv : |(A i i).val| ≤ (1 + gam F.u (2 * n + 2)) *
    (|(G i i).val| + ∑ k ∈ range i, |(G i k).val| * |(G k i).val| + F.eta * n)
  dom : (1 + gam F.u (2 * n + 2)) * ∑ j ∈ Ico (i + 1) n, |(G i j).val| * w j ≤ |(G i i).val| * w i
  gap : ieeeGap F n (mat A) w i ≤ 2 * (|(G i i).val| * w i)
  size : |(G i i).val| ≤ 3 * |(A i i).val|

theorem ilu_g {F : Fmt} {n : ℕ} (hs : gam F.u (6 * (n + 1)) ≤ 1 / 3) :
    0 ≤ gam F.u (2 * n + 2) ∧ gam F.u (2 * n + 2) ≤ 1 / 8 ∧
      iluFac F n = (1 + gam F.u (2 * n + 2)) * (1 + gam F.u (2 * n + 2)) * (1 + gam F.u (2 * n + 2)) := by
  have h0 := F.u_nonneg
  have h1 := F.u_lt_one
  have g0 := gam_nonneg h0 h1 (2 * n + 2)
  have e : iluFac F n = (1 + gam F.u (2 * n + 2)) * (1 + gam F.u (2 * n + 2)) * (1 + gam F.u (2 * n + 2)) := by
    rw [iluFac, ← gam_add h0 h1, ← gam_add h0 h1]
    congr 2; ring
  refine ⟨g0, ?_, e⟩
  rw [iluFac] at e
  nlinarith [mul_nonneg g0 g0, mul_nonneg g0 (mul_nonneg g0 g0)]

/-- The underflows of all rows before `c`. -/
theorem eta_sum (hs : gam F.u (6 * (n + 1)) ≤ 1 / 3) (hw : ∀ j, j < n → 0 < w j) {c : ℕ} (hc : c ≤ n)
    (hz : ∀ k, k < c → |(G k k).val| ≤ 3 * |(A k k).val|) :
    ∑ j ∈ range c, (1 + gam F.u (2 * n + 2)) * (F.eta * (n + |(G j j).val|)) * w j +
      ∑ j ∈ Ico c n, F.eta * n * w j ≤ 4 * (F.eta * ∑ j ∈ range n, (n + |mat A j j|) * w j) := by
  obtain ⟨g0, g1, _⟩ := ilu_g (F := F) hs
  have hη := F.eta_pos
  have n0 : (0 : ℝ) ≤ n := Nat.cast_nonneg n
  rw [show range n = Ico 0 n from range_eq_Ico n, ← sum_Ico_consecutive _ (Nat.zero_le c) hc, ← range_eq_Ico, mul_add, mul_add]
  simp only [mul_sum]
  refine add_le_add (sum_le_sum fun j hj => ?_) (sum_le_sum fun j hj => ?_)
  · have hj := mem_range.mp hj
    have a := hz j hj
    have b := abs_nonneg (A j j).val
    have c' := abs_nonneg (G j j).val
    rw [show (1 + gam F.u (2 * n + 2)) * (F.eta * (n + |(G j j).val|)) * w j =
        F.eta * w j * ((1 + gam F.u (2 * n + 2)) * (n + |(G j j).val|)) by ring,
      show 4 * (F.eta * ((n + |mat A j j|) * w j)) = F.eta * w j * (4 * (n + |mat A j j|)) by ring]
    refine mul_le_mul_of_nonneg_left ?_ (mul_nonneg hη.le (hw j (by omega)).le)
    have m : |mat A j j| = |(A j j).val| := rfl
    rw [m]
    have := mul_le_mul_of_nonneg_right (show 1 + gam F.u (2 * n + 2) ≤ 9 / 8 by linarith) (show 0 ≤ n + |(G j j).val| by positivity)
    linarith
  · have hj := mem_Ico.mp hj
    rw [show 4 * (F.eta * ((n + |mat A j j|) * w j)) = 4 * (F.eta * (n + |mat A j j|)) * w j by ring]
    refine mul_le_mul_of_nonneg_right ?_ (hw j hj.2).le
    have b := abs_nonneg (mat A j j)
    have := mul_nonneg hη.le n0
    have := mul_nonneg hη.le b
    linarith

theorem row_arith {g X Y Q S a U : ℝ} (g0 : 0 ≤ g) (g1 : g ≤ 1 / 8) (X0 : 0 ≤ X) (Y0 : 0 ≤ Y) (Q0 : 0 ≤ Q) (T : Y + Q ≤ S)
    (hS : (1 + g) * (1 + g) * (1 + g) * S < a) (e1 : X ≤ (1 + g) * (a + Y)) (e2 : a ≤ (1 + g) * (X + Y)) (hU : U ≤ (1 + g) * Q) :
    (1 + g) * U ≤ X ∧ a - (1 + g) * (1 + g) * (1 + g) * S ≤ 2 * X ∧ X ≤ 3 * a := by
  have g1' : 0 < 1 + g := by linarith
  have S0 : 0 ≤ S := by linarith
  have gg : 1 ≤ (1 + g) * (1 + g) := by nlinarith
  have ggg : 1 ≤ (1 + g) * (1 + g) * (1 + g) := by nlinarith
  have a0 : 0 ≤ a := le_trans (by positivity) hS.le
  refine ⟨?_, ?_, ?_⟩
  · have k1 : (1 + g) * ((1 + g) * (1 + g) * (Q + Y)) ≤ (1 + g) * (X + Y) := by
      have : (1 + g) * (1 + g) * (1 + g) * (Y + Q) ≤ (1 + g) * (1 + g) * (1 + g) * S :=
        mul_le_mul_of_nonneg_left T (by positivity)
      linarith
    have k2 := le_of_mul_le_mul_left k1 g1'
    have k3 : Y ≤ (1 + g) * (1 + g) * Y := le_mul_of_one_le_left Y0 gg
    have k4 := mul_le_mul_of_nonneg_left hU g1'.le
    linarith
  · have k1 : (1 + g) * (Y + Q) ≤ (1 + g) * (1 + g) * (1 + g) * S := by
      have a' : (1 + g) * (Y + Q) ≤ (1 + g) * S := mul_le_mul_of_nonneg_left T g1'.le
      have b : 0 ≤ ((1 + g) * (1 + g) - 1) * ((1 + g) * S) := mul_nonneg (by linarith) (by positivity)
      linarith
    have k2 : 0 ≤ (1 + g) * Q := by positivity
    have k3 : (1 + g) * X ≤ 2 * X := mul_le_mul_of_nonneg_right (by linarith) X0
    linarith
  · have : S ≤ (1 + g) * (1 + g) * (1 + g) * S := le_mul_of_one_le_left S0 ggg
    have k := mul_le_mul_of_nonneg_left (show a + Y ≤ 2 * a by linarith) g1'.le
    have k' := mul_le_mul_of_nonneg_right (show 1 + g ≤ 9 / 8 by linarith) a0
    linarith

theorem ilu_row (hR : IluRange F n (mat A) w) (hA : ∀ i j, i < n → j < n → (A i j).IsFin) {i : ℕ} (hi : i < n)
    (hc : ∀ c, c < n → IluCell A G i c) (ih : ∀ k, k < i → RowFit n A G w k) : RowFit n A G w i := by
  have h0 := F.u_nonneg
  have h1 := F.u_lt_one
  have hη := F.eta_pos
  obtain ⟨g0, g1, eg⟩ := ilu_g (F := F) hR.small
  set g := gam F.u (2 * n + 2) with hg
  have n0 : (0 : ℝ) ≤ n := Nat.cast_nonneg n
  have hn : 0 < n := by omega
  set E := 4 * (F.eta * ∑ j ∈ range n, (n + |mat A j j|) * w j) with hE
  set O := ∑ j ∈ (range n).erase i, |mat A i j| * w j with hO
  have gp := hR.gap i hi
  have hw := hR.pos
  have wi := hw i hi
  have egap : ieeeGap F n (mat A) w i = |(A i i).val| * w i - (1 + g) * (1 + g) * (1 + g) * (O + E) := by
    rw [ieeeGap, eg]; rfl
  have O0 : 0 ≤ O := sum_nonneg fun j hj => mul_nonneg (abs_nonneg _) (hw j (mem_range.mp (mem_erase.mp hj).2)).le
  have E0 : 0 ≤ E := mul_nonneg (by norm_num) (mul_nonneg hη.le (sum_nonneg fun j hj =>
    mul_nonneg (by positivity) (hw j (mem_range.mp hj)).le))
  have OE : (1 + g) * (1 + g) * (1 + g) * (O + E) < |(A i i).val| * w i := by linarith
  have OE1 : O + E ≤ (1 + g) * (1 + g) * (1 + g) * (O + E) := by
    refine le_mul_of_one_le_left (by linarith) ?_
    nlinarith [mul_nonneg g0 g0, mul_nonneg g0 (mul_nonneg g0 g0)]
  have A0 : 0 < |(A i i).val| * w i := lt_of_le_of_lt (by linarith) OE
  -- the telescope
  have tel : ∀ c, c ≤ i → (∀ j, j < c → |(G i j).val| * |(G j j).val| ≤ (1 + g) *
      (offRow A i j + ∑ k ∈ range j, |(G i k).val| * |(G k j).val|) + (1 + g) * (F.eta * (n + |(G j j).val|))) →
      ∑ j ∈ Ico c n, (offRow A i j + ∑ k ∈ range c, |(G i k).val| * |(G k j).val| + F.eta * n) * w j ≤ O + E := by
    intro c hci hlow
    have t := dom_tel (m := n) (c := c) (B := offRow A i) (p := fun k => |(G i k).val|) (f := fun k j => |(G k j).val|)
      (w := w) (e := fun j => (1 + g) * (F.eta * (n + |(G j j).val|))) (g := g) g0 (by omega) (fun _ => abs_nonneg _)
      (fun k hk => (hw k hk).le) (fun k => by positivity) (fun k hk => (ih k (by omega)).dom) hlow
    rw [offRow_sum hi] at t
    have es := eta_sum (A := A) (G := G) hR.small hw (show c ≤ n by omega) (fun k hk => (ih k (by omega)).size)
    have : ∑ j ∈ Ico c n, (offRow A i j + ∑ k ∈ range c, |(G i k).val| * |(G k j).val| + F.eta * n) * w j =
        ∑ j ∈ Ico c n, (offRow A i j + ∑ k ∈ range c, |(G i k).val| * |(G k j).val|) * w j + ∑ j ∈ Ico c n, F.eta * n * w j := by
      rw [← sum_add_distrib]; exact sum_congr rfl fun j _ => by ring
    rw [this]
    linarith
  have one : ∀ c j, c ≤ i → c ≤ j → j < n → (∀ j, j < c → |(G i j).val| * |(G j j).val| ≤ (1 + g) *
      (offRow A i j + ∑ k ∈ range j, |(G i k).val| * |(G k j).val|) + (1 + g) * (F.eta * (n + |(G j j).val|))) →
      offRow A i j + ∑ k ∈ range c, |(G i k).val| * |(G k j).val| + F.eta * n ≤ |(A i i).val| * w i / w j := by
    intro c j hci hcj hj hlow
    rw [le_div_iff₀ (hw j hj)]
    refine le_trans ?_ ((tel c hci hlow).trans (OE1.trans OE.le))
    exact single_le_sum (f := fun j => (offRow A i j + ∑ k ∈ range c, |(G i k).val| * |(G k j).val| + F.eta * n) * w j)
      (fun j hj => mul_nonneg (add_nonneg (add_nonneg (offRow_nonneg i j) (sum_nonneg fun k _ => by positivity)) (by positivity))
        (hw j (mem_Ico.mp hj).2).le) (mem_Ico.mpr ⟨hcj, hj⟩)
  have hM : ∀ j, j < n → |(A i j).val| ≤ |(A i i).val| * w i / w j := by
    intro j hj
    rcases eq_or_ne j i with rfl | hji
    · rw [mul_div_cancel_right₀ _ wi.ne']
    · have := one 0 j (Nat.zero_le _) (Nat.zero_le _) hj (fun j hj => by omega)
      rw [range_zero, sum_empty, offRow, if_neg hji] at this
      have := mul_nonneg hη.le n0
      linarith
  have hη4 : ∀ j, j < n → 4 * (F.eta * n) ≤ |(A i i).val| * w i / w j := by
    intro j hj
    rw [le_div_iff₀ (hw j hj)]
    have : (n + |mat A j j|) * w j ≤ ∑ j ∈ range n, (n + |mat A j j|) * w j :=
      single_le_sum (f := fun j => (n + |mat A j j|) * w j)
        (fun j hj => mul_nonneg (by positivity) (hw j (mem_range.mp hj)).le) (mem_range.mpr hj)
    have := mul_le_mul_of_nonneg_left this hη.le
    have := mul_nonneg hη.le (mul_nonneg (abs_nonneg (mat A j j)) (hw j hj).le)
    have : 4 * (F.eta * n) * w j ≤ E := by rw [hE]; linarith
    linarith
  have htop : ∀ j, j < n → 16 * (|(A i i).val| * w i / w j) < F.top := by
    intro j hj
    rw [← mul_div_assoc, div_lt_iff₀ (hw j hj)]
    exact hR.top i j hi hj
  -- columns before the diagonal
  have left : ∀ c, c ≤ i → ∀ j, j < c → (G i j).IsFin ∧ |(G i j).val| * |(G j j).val| ≤ (1 + g) *
      (offRow A i j + ∑ k ∈ range j, |(G i k).val| * |(G k j).val|) + (1 + g) * (F.eta * (n + |(G j j).val|)) := by
    intro c
    induction c with
    | zero => intro _ j hj; omega
    | succ c ihc =>
      intro hc' j hj
      have ihc := ihc (by omega)
      rcases Nat.lt_or_eq_of_le (Nat.lt_succ_iff.mp hj) with hlt | rfl
      · exact ihc j hlt
      by_cases hz : IsZ (A i j)
      · have hz' := (isZ_iff _).mp hz
        rw [(hc j (by omega)).1 hz]
        refine ⟨hz'.1, ?_⟩
        rw [hz'.2, abs_zero, zero_mul]
        have := offRow_nonneg (A := A) i j
        have : 0 ≤ ∑ k ∈ range j, |(G i k).val| * |(G k j).val| := sum_nonneg fun k _ => by positivity
        positivity
      · obtain ⟨hd0, e⟩ := (hc j (by omega)).2.1 (by omega) hz
        have o := one j j (by omega) le_rfl (by omega) (fun j' hj' => (ihc j' hj').2)
        have hfj := (ih j (by omega)).fin j (by omega)
        have hgap := (ih j (by omega)).gap
        have hpv := hR.piv i j (by omega) hi
        have := offRow_nonneg (A := A) i j
        have := mul_nonneg hη.le n0
        obtain ⟨q1, q2⟩ := quot_ok (f := fun k => G i k) (h := fun k => G k j) (a := A i j) (d := G j j) (lo := 0) (c := j)
          (n := n) (M := |(A i i).val| * w i / w j) (by omega) hn (hA i j hi (by omega))
          (fun k hk => by rw [Nat.zero_add]; exact (ihc k hk).1)
          (fun k hk => by rw [Nat.zero_add]; exact (ih k (by omega)).fin j (by omega)) (hM j (by omega))
          (by simp only [Nat.zero_add]; linarith) g1 (hη4 j (by omega)) (htop j (by omega)) hfj (val_ne hfj hd0)
          (by
            rw [← mul_div_assoc, div_lt_iff₀ (hw j (by omega))]
            have := mul_le_mul_of_nonneg_left hgap F.top_pos.le
            have m : |mat A i i| = |(A i i).val| := rfl
            rw [m] at hpv
            nlinarith)
        simp only [Nat.zero_add] at q1 q2
        rw [← e] at q1 q2
        refine ⟨q1, q2.trans_eq ?_⟩
        rw [offRow, if_neg (show j ≠ i by omega)]
        ring
  have hlow := fun j hj => (left i le_rfl j hj).2
  have hlf := fun j hj => (left i le_rfl j hj).1
  -- the other columns
  have right : ∀ j, i ≤ j → j < n → ¬ IsZ (A i j) → (G i j).IsFin ∧
      |(G i j).val| ≤ (1 + g) * (|(A i j).val| + ∑ k ∈ range i, |(G i k).val| * |(G k j).val| + F.eta * n) ∧
      |(A i j).val| ≤ (1 + g) * (|(G i j).val| + ∑ k ∈ range i, |(G i k).val| * |(G k j).val| + F.eta * n) := by
    intro j hij hj hz
    have e := (hc j hj).2.2 hij hz
    have o := one i j le_rfl hij hj hlow
    have := offRow_nonneg (A := A) i j
    have := mul_nonneg hη.le n0
    obtain ⟨q1, _, q2, q3⟩ := chain_ok (f := fun k => G i k) (h := fun k => G k j) (a := A i j) (lo := 0) (c := i) (n := n)
      (M := |(A i i).val| * w i / w j) hi.le (hA i j hi hj) (fun k hk => by rw [Nat.zero_add]; exact hlf k hk)
      (fun k hk => by rw [Nat.zero_add]; exact (ih k hk).fin j hj) (hM j hj)
      (by simp only [Nat.zero_add]; linarith) g1 (hη4 j hj) (htop j hj)
    simp only [Nat.zero_add] at q1 q2 q3
    rw [← e] at q1 q2 q3
    have gm := gam_mono h0 h1 (show 2 * n + 1 ≤ 2 * n + 2 by omega)
    have s0 : 0 ≤ ∑ k ∈ range i, |(G i k).val| * |(G k j).val| := sum_nonneg fun k _ => by positivity
    exact ⟨q1, q2.trans (mul_le_mul_of_nonneg_right (by linarith) (by positivity)),
      q3.trans (mul_le_mul_of_nonneg_right (by linarith) (by positivity))⟩
  have dz : ¬ IsZ (A i i) := fun h => by
    rw [((isZ_iff _).mp h).2, abs_zero, zero_mul] at A0
    exact lt_irrefl _ A0
  have hup : ∀ j, i < j → j < n → |(G i j).val| ≤ (1 + g) *
      (offRow A i j + ∑ k ∈ range i, |(G i k).val| * |(G k j).val| + F.eta * n) := by
    intro j hij hj
    by_cases hz : IsZ (A i j)
    · rw [(hc j hj).1 hz, ((isZ_iff _).mp hz).2, abs_zero]
      have := offRow_nonneg (A := A) i j
      have : 0 ≤ ∑ k ∈ range i, |(G i k).val| * |(G k j).val| := sum_nonneg fun k _ => by positivity
      positivity
    · have := (right j hij.le hj hz).2.1
      rw [offRow, if_neg (show j ≠ i by omega)]
      exact this
  obtain ⟨df, d1, d2⟩ := right i le_rfl hi dz
  have T := tel i le_rfl hlow
  rw [sum_eq_sum_Ico_succ_bot hi, offRow, if_pos rfl, zero_add] at T
  set P := ∑ k ∈ range i, |(G i k).val| * |(G k i).val| with hP
  set Q := ∑ j ∈ Ico (i + 1) n, (offRow A i j + ∑ k ∈ range i, |(G i k).val| * |(G k j).val| + F.eta * n) * w j with hQ
  have Q0 : 0 ≤ Q := sum_nonneg fun j hj => mul_nonneg (add_nonneg (add_nonneg (offRow_nonneg i j)
    (sum_nonneg fun k _ => by positivity)) (by positivity)) (hw j (mem_Ico.mp hj).2).le
  have P0 : 0 ≤ P := sum_nonneg fun k _ => by positivity
  have hU : ∑ j ∈ Ico (i + 1) n, |(G i j).val| * w j ≤ (1 + g) * Q := by
    rw [hQ, mul_sum]
    refine sum_le_sum fun j hj => ?_
    have hj := mem_Ico.mp hj
    rw [← mul_assoc]
    exact mul_le_mul_of_nonneg_right (hup j (by omega) hj.2) (hw j hj.2).le
  have d2' := mul_le_mul_of_nonneg_right d2 wi.le
  have d1' := mul_le_mul_of_nonneg_right d1 wi.le
  obtain ⟨z1, z2, z3⟩ := row_arith (X := |(G i i).val| * w i) (Y := (P + F.eta * n) * w i) (Q := Q) (S := O + E) g0 g1
    (by positivity) (by positivity) Q0 T OE (by linarith) (by linarith) hU
  refine ⟨fun c hcn => ?_, hlow, hup, d2, z1, by rw [egap]; exact z2, ?_⟩
  · rcases Nat.lt_or_ge c i with h | h
    · exact hlf c h
    · by_cases hz : IsZ (A i c)
      · rw [(hc c hcn).1 hz]; exact ((isZ_iff _).mp hz).1
      · exact (right c h hcn hz).1
  · exact le_of_mul_le_mul_right (by linarith : |(G i i).val| * w i ≤ 3 * |(A i i).val| * w i) wi

theorem ilu_rows (hR : IluRange F n (mat A) w) (hA : ∀ i j, i < n → j < n → (A i j).IsFin) {i : ℕ} (hi : i ≤ n)
    (hc : ∀ r c, r < i → c < n → IluCell A G r c) : ∀ r, r < i → RowFit n A G w r := by
  intro r
  induction r using Nat.strong_induction_on with
  | _ r ih =>
    intro hr
    exact ilu_row hR hA (by omega) (fun c hc' => hc r c hr hc') fun k hk => ih k hk (by omega)

theorem RowFit.nonzero (hR : IluRange F n (mat A) w) {i : ℕ} (hi : i < n) (h : RowFit n A G w i) : (G i i).val ≠ 0 := by
  intro h0
  have := h.gap
  rw [h0, abs_zero, zero_mul, mul_zero] at this
  exact absurd (hR.gap i hi) (not_lt.mpr this)

theorem ilu_not_stuck {M : Type} {R : M → (Nat → Nat → Fp F) → Prop} (hR : IluRange F n (mat A) w)
    (hA : ∀ i j, i < n → j < n → (A i j).IsFin) {a : M} (h : Ilu.RStuck R n A a) : False := by
  obtain ⟨i, j, V, hj, hi, hI, _, h0⟩ := h
  have := ilu_rows hR hA (i := j + 1) (by omega) (fun r c hr hc => hI.done r c (by omega) hc (.inl (by omega))) j (by omega)
  exact this.nonzero hR (by omega) ((isZ_iff _).mp h0).2

/-! ## Solving -/

theorem fwd_arith {g X Y Q S a U by' b y s t t' : ℝ} (g0 : 0 ≤ g) (s0 : 0 ≤ s) (t0 : 0 ≤ t) (Y0 : 0 ≤ Y)
    (T : s * (Y + Q) + by' ≤ s * S + b) (hb : (1 + g) * (1 + g) * (1 + g) * (b + t + t') ≤ s * (a - (1 + g) * (1 + g) * (1 + g) * S))
    (e2 : a ≤ (1 + g) * (X + Y)) (hU : U ≤ (1 + g) * Q) (hy : y ≤ (1 + g) * (by' + t')) :
    (1 + g) * (y + s * U + t) ≤ s * X := by
  have g1' : 0 < 1 + g := by linarith
  have gg : 1 ≤ (1 + g) * (1 + g) := by nlinarith
  have k0 : y + s * U + t ≤ (1 + g) * (by' + s * Q + t + t') := by
    have := mul_le_mul_of_nonneg_left hU s0
    have : 0 ≤ g * t := mul_nonneg g0 t0
    linarith
  have k1 : (1 + g) * (y + s * U + t) ≤ (1 + g) * (1 + g) * (by' + s * Q + t + t') := by
    have := mul_le_mul_of_nonneg_left k0 g1'.le
    linarith
  have k2 : (1 + g) * (1 + g) * (1 + g) * (by' + s * (Y + Q) + t + t') ≤ (1 + g) * (1 + g) * (1 + g) * (s * S + b + t + t') :=
    mul_le_mul_of_nonneg_left (by linarith) (by positivity)
  have k3 := mul_le_mul_of_nonneg_left e2 s0
  have k4 : (1 + g) * ((1 + g) * (1 + g) * (by' + s * (Y + Q) + t + t')) ≤ (1 + g) * (s * (X + Y)) := by linarith
  have k5 := le_of_mul_le_mul_left k4 g1'
  have k6 : s * Y ≤ (1 + g) * (1 + g) * (s * Y) := le_mul_of_one_le_left (mul_nonneg s0 Y0) gg
  linarith

theorem fwd_tel (hR : IluRange F n (mat A) w) (hG : ∀ i, i < n → RowFit n A G w i) {b y : Nat → Fp F} {s : ℝ} (s0 : 0 ≤ s)
    {i : ℕ} (hi : i < n) (ih : ∀ k, k < i → (1 + gam F.u (2 * n + 2)) * (|(y k).val| + s * ∑ j ∈ Ico (k + 1) n, |(G k j).val| * w j +
      4 * (F.eta * (n + |(G k k).val|))) ≤ s * (|(G k k).val| * w k)) :
    s * ((∑ k ∈ range i, |(G i k).val| * |(G k i).val| + F.eta * n) * w i +
      ∑ j ∈ Ico (i + 1) n, (offRow A i j + ∑ k ∈ range i, |(G i k).val| * |(G k j).val| + F.eta * n) * w j) +
      (|(b i).val| + ∑ k ∈ range i, |(G i k).val| * |(y k).val|) ≤
      s * (∑ j ∈ (range n).erase i, |mat A i j| * w j + 4 * (F.eta * ∑ j ∈ range n, (n + |mat A j j|) * w j)) + |(b i).val| := by
  have hη := F.eta_pos
  obtain ⟨g0, g1, _⟩ := ilu_g (F := F) hR.small
  set g := gam F.u (2 * n + 2) with hg
  have n0 : (0 : ℝ) ≤ n := Nat.cast_nonneg n
  have hw := hR.pos
  -- the telescope, with the right-hand side as one more column
  set B : ℕ → ℝ := fun j => if j = n then |(b i).val| else offRow A i j with hB
  set f : ℕ → ℕ → ℝ := fun k j => if j = n then |(y k).val| else |(G k j).val| with hf
  set v : ℕ → ℝ := fun j => if j = n then 1 else s * w j with hv
  have vn : v n = 1 := if_pos rfl
  have fn : ∀ k, f k n = |(y k).val| := fun k => if_pos rfl
  have Bn : B n = |(b i).val| := if_pos rfl
  have fl : ∀ k j, j < n → f k j = |(G k j).val| := fun k j hj => if_neg (by omega)
  have Bl : ∀ j, j < n → B j = offRow A i j := fun j hj => if_neg (by omega)
  have vl : ∀ j, j < n → v j = s * w j := fun j hj => if_neg (by omega)
  have v0 : ∀ j, j < n + 1 → 0 ≤ v j := by
    intro j hj
    simp only [hv]
    split_ifs with h
    · exact zero_le_one
    · exact mul_nonneg s0 (hw j (by omega)).le
  have Sv : ∀ (c : ℕ) (g : ℕ → ℝ), c ≤ n → ∑ j ∈ Ico c (n + 1), g j * v j = s * ∑ j ∈ Ico c n, g j * w j + g n := by
    intro c g hc
    rw [sum_Ico_succ_top hc, vn, mul_one, mul_sum]
    congr 1
    exact sum_congr rfl fun j hj => by rw [vl j (mem_Ico.mp hj).2]; ring
  have t := dom_tel (m := n + 1) (c := i) (B := B) (p := fun k => |(G i k).val|) (f := f) (w := v)
    (e := fun j => (1 + g) * (F.eta * (n + |(G j j).val|))) (g := g) g0 (by omega) (fun _ => abs_nonneg _) v0
    (fun k => by positivity)
    (fun k hk => by
      rw [Sv _ _ (by omega), fl k k (by omega), vl k (by omega), fn,
        sum_congr rfl (fun j hj => by rw [fl k j (mem_Ico.mp hj).2] : ∀ j ∈ Ico (k + 1) n, f k j * w j = |(G k j).val| * w j)]
      have := ih k hk
      have p : 0 ≤ (1 + g) * (4 * (F.eta * (n + |(G k k).val|))) := by positivity
      linarith)
    (fun j hj => by
      rw [fl j j (by omega), Bl j (by omega),
        sum_congr rfl (fun k hk => by rw [fl k j (by omega)] : ∀ k ∈ range j, |(G i k).val| * f k j = |(G i k).val| * |(G k j).val|)]
      exact (hG i hi).low j hj)
  rw [Sv _ _ hi.le, show range (n + 1) = Ico 0 (n + 1) from range_eq_Ico _, Sv _ _ (Nat.zero_le n), Bn, ← range_eq_Ico,
    sum_congr rfl (fun j hj => by rw [Bl j (mem_range.mp hj)] : ∀ j ∈ range n, B j * w j = offRow A i j * w j), offRow_sum hi] at t
  have eC : ∑ j ∈ Ico i n, (B j + ∑ k ∈ range i, |(G i k).val| * f k j) * w j =
      ∑ j ∈ Ico i n, (offRow A i j + ∑ k ∈ range i, |(G i k).val| * |(G k j).val|) * w j := by
    refine sum_congr rfl fun j hj => ?_
    have hj := (mem_Ico.mp hj).2
    rw [Bl j hj, sum_congr rfl (fun k _ => by rw [fl k j hj])]
  have eD : ∑ k ∈ range i, |(G i k).val| * f k n = ∑ k ∈ range i, |(G i k).val| * |(y k).val| :=
    sum_congr rfl fun k _ => by rw [fn]
  have eV : ∑ j ∈ range i, (1 + g) * (F.eta * (n + |(G j j).val|)) * v j =
      s * ∑ j ∈ range i, (1 + g) * (F.eta * (n + |(G j j).val|)) * w j := by
    rw [mul_sum]
    exact sum_congr rfl fun j hj => by rw [vl j (by have := mem_range.mp hj; omega)]; ring
  rw [eC, eD, eV] at t
  have es := mul_le_mul_of_nonneg_left (eta_sum (A := A) (G := G) hR.small hw hi.le (fun k hk => (hG k (by omega)).size)) s0
  set Q := ∑ j ∈ Ico (i + 1) n, (offRow A i j + ∑ k ∈ range i, |(G i k).val| * |(G k j).val| + F.eta * n) * w j with hQ
  set P := ∑ k ∈ range i, |(G i k).val| * |(G k i).val| with hP
  set D := ∑ k ∈ range i, |(G i k).val| * |(y k).val| with hD
  have eQ : ∑ j ∈ Ico i n, (offRow A i j + ∑ k ∈ range i, |(G i k).val| * |(G k j).val|) * w j + ∑ j ∈ Ico i n, F.eta * n * w j =
      (P + F.eta * n) * w i + Q := by
    rw [← sum_add_distrib, sum_eq_sum_Ico_succ_bot hi, offRow, if_pos rfl, hQ]
    refine congrArg₂ _ (by ring) (sum_congr rfl fun j _ => by ring)
  rw [← eQ]; linarith

theorem ilu_fwd (hR : IluRange F n (mat A) w) (hG : ∀ i, i < n → RowFit n A G w i) {b y : Nat → Fp F} {s : ℝ}
    (hb : ∀ i, i < n → (b i).IsFin) (hS : IluRhs F n (mat A) w (fun i => (b i).val) s) (h : FwdUnitRec n G b y) :
    ∀ i, i < n → (y i).IsFin ∧ (1 + gam F.u (2 * n + 2)) * (|(y i).val| + s * ∑ j ∈ Ico (i + 1) n, |(G i j).val| * w j +
      4 * (F.eta * (n + |(G i i).val|))) ≤ s * (|(G i i).val| * w i) := by
  have h0 := F.u_nonneg
  have h1 := F.u_lt_one
  have hη := F.eta_pos
  obtain ⟨g0, g1, eg⟩ := ilu_g (F := F) hR.small
  set g := gam F.u (2 * n + 2) with hg
  have n0 : (0 : ℝ) ≤ n := Nat.cast_nonneg n
  have hw := hR.pos
  have s0 := hS.pos.le
  intro i
  induction i using Nat.strong_induction_on with
  | _ i ih =>
    intro hi
    have wi := hw i hi
    set E := 4 * (F.eta * ∑ j ∈ range n, (n + |mat A j j|) * w j) with hE
    set O := ∑ j ∈ (range n).erase i, |mat A i j| * w j with hO
    have egap : ieeeGap F n (mat A) w i = |(A i i).val| * w i - (1 + g) * (1 + g) * (1 + g) * (O + E) := by
      rw [ieeeGap, eg]; rfl
    have hrhs := hS.rhs i hi
    rw [egap, eg] at hrhs
    have mA : |mat A i i| = |(A i i).val| := rfl
    rw [mA] at hrhs
    have O0 : 0 ≤ O := sum_nonneg fun j hj => mul_nonneg (abs_nonneg _) (hw j (mem_range.mp (mem_erase.mp hj).2)).le
    have E0 : 0 ≤ E := mul_nonneg (by norm_num) (mul_nonneg hη.le (sum_nonneg fun j hj =>
      mul_nonneg (by positivity) (hw j (mem_range.mp hj)).le))
    set Q := ∑ j ∈ Ico (i + 1) n, (offRow A i j + ∑ k ∈ range i, |(G i k).val| * |(G k j).val| + F.eta * n) * w j with hQ
    set P := ∑ k ∈ range i, |(G i k).val| * |(G k i).val| with hP
    set D := ∑ k ∈ range i, |(G i k).val| * |(y k).val| with hD
    have P0 : 0 ≤ P := sum_nonneg fun k _ => by positivity
    have D0 : 0 ≤ D := sum_nonneg fun k _ => by positivity
    have Q0 : 0 ≤ Q := sum_nonneg fun j hj => mul_nonneg (add_nonneg (add_nonneg (offRow_nonneg i j)
      (sum_nonneg fun k _ => by positivity)) (by positivity)) (hw j (mem_Ico.mp hj).2).le
    have T : s * ((P + F.eta * n) * w i + Q) + (|(b i).val| + D) ≤ s * (O + E) + |(b i).val| :=
      fwd_tel hR hG s0 hi fun k hk => (ih k hk (by omega)).2
    have hU : ∑ j ∈ Ico (i + 1) n, |(G i j).val| * w j ≤ (1 + g) * Q := by
      rw [hQ, mul_sum]
      refine sum_le_sum fun j hj => ?_
      have hj := mem_Ico.mp hj
      rw [← mul_assoc]
      exact mul_le_mul_of_nonneg_right ((hG i hi).up j (by omega) hj.2) (hw j hj.2).le
    have e2 := mul_le_mul_of_nonneg_right (hG i hi).piv wi.le
    have ggg : 1 ≤ (1 + g) * (1 + g) * (1 + g) := by nlinarith [mul_nonneg g0 g0, mul_nonneg g0 (mul_nonneg g0 g0)]
    have a0 := abs_nonneg (A i i).val
    have b0 := abs_nonneg (b i).val
    have OE : O + E ≤ (1 + g) * (1 + g) * (1 + g) * (O + E) := le_mul_of_one_le_left (by linarith) ggg
    have bb : |(b i).val| + 16 * (F.eta * (n + |(A i i).val|)) ≤
        (1 + g) * (1 + g) * (1 + g) * (|(b i).val| + 16 * (F.eta * (n + |(A i i).val|))) :=
      le_mul_of_one_le_left (by positivity) ggg
    have ηn := mul_nonneg hη.le n0
    have ηa := mul_nonneg hη.le a0
    have Mb : s * (O + E) + |(b i).val| + 16 * (F.eta * (n + |(A i i).val|)) ≤ s * (|(A i i).val| * w i) := by
      have := mul_le_mul_of_nonneg_left OE s0
      linarith
    have PQ : 0 ≤ s * ((P + F.eta * n) * w i + Q) := mul_nonneg s0 (by positivity)
    have sOE : 0 ≤ s * (O + E) := mul_nonneg s0 (by linarith)
    obtain ⟨q1, _, q2, _⟩ := chain_ok (f := fun k => G i k) (h := y) (a := b i) (lo := 0) (c := i) (n := n)
      (M := s * (|(A i i).val| * w i)) hi.le (hb i hi) (fun k hk => by rw [Nat.zero_add]; exact (hG i hi).fin k (by omega))
      (fun k hk => by rw [Nat.zero_add]; exact (ih k hk (by omega)).1) (by linarith)
      (by simp only [Nat.zero_add]; linarith) g1 (by linarith)
      (by
        have := hS.mul i hi
        rw [mA] at this
        have : 0 ≤ s * (|(A i i).val| * w i) := by positivity
        linarith)
    simp only [Nat.zero_add] at q1 q2
    rw [← h i hi] at q1 q2
    refine ⟨q1, fwd_arith (by' := |(b i).val| + D) (b := |(b i).val|) (Y := (P + F.eta * n) * w i) (Q := Q) (S := O + E)
      (a := |(A i i).val| * w i) (t' := F.eta * n) g0 s0 (by positivity) (by positivity) T (le_trans ?_ hrhs) (by linarith) hU
      (q2.trans ?_)⟩
    · refine mul_le_mul_of_nonneg_left ?_ (by positivity)
      have := mul_le_mul_of_nonneg_left (hG i hi).size hη.le
      linarith
    · have gm := gam_mono h0 h1 (show 2 * n + 1 ≤ 2 * n + 2 by omega)
      exact mul_le_mul_of_nonneg_right (by linarith) (by positivity)

theorem ilu_back (hR : IluRange F n (mat A) w) (hG : ∀ i, i < n → RowFit n A G w i) {y x : Nat → Fp F} {s : ℝ} (s0 : 0 < s)
    (hm : ∀ i, i < n → 48 * (s * (|mat A i i| * w i)) < F.top) (ht : ∀ i, i < n → 8 * (s * w i) < F.top)
    (hy : ∀ i, i < n → (y i).IsFin ∧ (1 + gam F.u (2 * n + 2)) * (|(y i).val| + s * ∑ j ∈ Ico (i + 1) n, |(G i j).val| * w j +
      4 * (F.eta * (n + |(G i i).val|))) ≤ s * (|(G i i).val| * w i)) (h : BackSubRec n G y x) :
    ∀ i, i < n → (x i).IsFin ∧ |(x i).val| ≤ s * w i := by
  have hη := F.eta_pos
  obtain ⟨g0, g1, _⟩ := ilu_g (F := F) hR.small
  set g := gam F.u (2 * n + 2) with hg
  have n0 : (0 : ℝ) ≤ n := Nat.cast_nonneg n
  have hw := hR.pos
  have main : ∀ d i, i < n → n - i = d → (x i).IsFin ∧ |(x i).val| ≤ s * w i := by
    intro d
    induction d using Nat.strong_induction_on with
    | _ d ih =>
      intro i hi hd
      have wi := hw i hi
      have hx : ∀ k, k < n - (i + 1) → (x (i + 1 + k)).IsFin ∧ |(x (i + 1 + k)).val| ≤ s * w (i + 1 + k) := fun k hk =>
        ih (n - (i + 1 + k)) (by omega) _ (by omega) rfl
      have e1 : ∑ k ∈ range (n - (i + 1)), |(G i (i + 1 + k)).val| * |(x (i + 1 + k)).val| ≤
          s * ∑ j ∈ Ico (i + 1) n, |(G i j).val| * w j := by
        rw [sum_Ico_eq_sum_range, mul_sum]
        refine sum_le_sum fun k hk => ?_
        have := mul_le_mul_of_nonneg_left (hx k (mem_range.mp hk)).2 (abs_nonneg (G i (i + 1 + k)).val)
        linarith
      have hyi := (hy i hi).2
      have gf := (hG i hi).fin i hi
      have gz := (hG i hi).nonzero hR hi
      have gp : 0 < |(G i i).val| := abs_pos.mpr gz
      set U := s * ∑ j ∈ Ico (i + 1) n, |(G i j).val| * w j with hU
      have U0 : 0 ≤ U := le_trans (sum_nonneg fun k _ => by positivity) e1
      have y0 := abs_nonneg (y i).val
      have t0 : 0 ≤ F.eta * (n + |(G i i).val|) := by positivity
      have ηg : 0 ≤ F.eta * |(G i i).val| := by positivity
      have all : |(y i).val| + U + 4 * (F.eta * (n + |(G i i).val|)) ≤ s * (|(G i i).val| * w i) :=
        (le_mul_of_one_le_left (by linarith) (by linarith : 1 ≤ 1 + g)).trans hyi
      have sz := mul_le_mul_of_nonneg_right (mul_le_mul_of_nonneg_left (hG i hi).size s0.le) wi.le
      have hmi := hm i hi
      have mA : |mat A i i| = |(A i i).val| := rfl
      rw [mA] at hmi
      have hd' := h i hi
      rw [show n = i + 1 + (n - (i + 1)) by omega] at hd'
      obtain ⟨q1, q2⟩ := quot_ok (f := fun k => G i k) (h := x) (a := y i) (d := G i i) (lo := i + 1) (c := n - (i + 1)) (n := n)
        (M := s * (|(G i i).val| * w i)) (by omega) (by omega) (hy i hi).1 (fun k hk => (hG i hi).fin _ (by omega))
        (fun k hk => (hx k hk).1) (by linarith) (by linarith) g1 (by linarith) (by linarith) gf gz
        (by have := mul_lt_mul_of_pos_right (ht i hi) gp; linarith)
      rw [← hd'] at q1 q2
      refine ⟨q1, le_of_mul_le_mul_right ?_ gp⟩
      refine q2.trans ?_
      have : (1 + g) * (|(y i).val| + ∑ k ∈ range (n - (i + 1)), |(G i (i + 1 + k)).val| * |(x (i + 1 + k)).val| +
          F.eta * (n + |(G i i).val|)) ≤ (1 + g) * (|(y i).val| + U + 4 * (F.eta * (n + |(G i i).val|))) :=
        mul_le_mul_of_nonneg_left (by linarith) (by linarith)
      linarith
  exact fun i hi => main (n - i) i hi rfl

/-! ## Errors -/

/-- Every product of the elimination of a row is below the diagonal entry of the matrix. -/
theorem RowFit.prod_le (hR : IluRange F n (mat A) w) (hG : ∀ i, i < n → RowFit n A G w i) {i k : ℕ} (hk : k < i) (hi : i < n) :
    |(G i k).val| * |(G k k).val| * w k ≤ |(A i i).val| * w i := by
  have hη := F.eta_pos
  obtain ⟨g0, g1, eg⟩ := ilu_g (F := F) hR.small
  set g := gam F.u (2 * n + 2) with hg
  have hw := hR.pos
  have n0 : (0 : ℝ) ≤ n := Nat.cast_nonneg n
  have t := dom_tel (m := n) (c := k) (B := offRow A i) (p := fun k => |(G i k).val|) (f := fun k j => |(G k j).val|)
    (w := w) (e := fun j => (1 + g) * (F.eta * (n + |(G j j).val|))) (g := g) g0 (by omega) (fun _ => abs_nonneg _)
    (fun k hk => (hw k hk).le) (fun k => by positivity) (fun k hk => (hG k (by omega)).dom) (fun j hj => (hG i hi).low j (by omega))
  rw [offRow_sum hi] at t
  have one : (offRow A i k + ∑ m ∈ range k, |(G i m).val| * |(G m k).val|) * w k ≤
      ∑ j ∈ Ico k n, (offRow A i j + ∑ m ∈ range k, |(G i m).val| * |(G m j).val|) * w j :=
    single_le_sum (f := fun j => (offRow A i j + ∑ m ∈ range k, |(G i m).val| * |(G m j).val|) * w j)
      (fun j hj => mul_nonneg (add_nonneg (offRow_nonneg i j) (sum_nonneg fun k _ => by positivity))
        (hw j (mem_Ico.mp hj).2).le) (mem_Ico.mpr ⟨le_rfl, by omega⟩)
  have es := eta_sum (A := A) (G := G) hR.small hw (show k + 1 ≤ n by omega) (fun j hj => (hG j (by omega)).size)
  rw [sum_range_succ] at es
  have I0 : 0 ≤ ∑ j ∈ Ico (k + 1) n, F.eta * n * w j := sum_nonneg fun j hj =>
    mul_nonneg (by positivity) (hw j (mem_Ico.mp hj).2).le
  have l := mul_le_mul_of_nonneg_right ((hG i hi).low k hk) (hw k (by omega)).le
  have gp := hR.gap i hi
  rw [ieeeGap, eg] at gp
  have mA : |mat A i i| = |(A i i).val| := rfl
  rw [mA] at gp
  set O := ∑ j ∈ (range n).erase i, |mat A i j| * w j
  set E := 4 * (F.eta * ∑ j ∈ range n, (n + |mat A j j|) * w j)
  set Z := ∑ j ∈ range k, (1 + g) * (F.eta * (n + |(G j j).val|)) * w j
  set V := (offRow A i k + ∑ m ∈ range k, |(G i m).val| * |(G m k).val|) * w k
  have hek : 0 ≤ (1 + g) * (F.eta * (n + |(G k k).val|)) * w k := mul_nonneg (by positivity) (hw k (by omega)).le
  set e := (1 + g) * (F.eta * (n + |(G k k).val|)) * w k
  have O0 : 0 ≤ O := sum_nonneg fun j hj => mul_nonneg (abs_nonneg _) (hw j (mem_range.mp (mem_erase.mp hj).2)).le
  have E0 : 0 ≤ E := by
    have : 0 ≤ Z := sum_nonneg fun j hj => mul_nonneg (by positivity) (hw j (by have := mem_range.mp hj; omega)).le
    linarith
  have h1 : (1 + g) * V ≤ (1 + g) * (O + Z) := mul_le_mul_of_nonneg_left (by linarith) (by linarith)
  have h2 : e ≤ (1 + g) * e := le_mul_of_one_le_left hek (by linarith)
  have h3 : (1 + g) * (O + (Z + e)) ≤ (1 + g) * (O + E) := mul_le_mul_of_nonneg_left (by linarith) (by linarith)
  have h4 : 0 ≤ ((1 + g) * (1 + g) - 1) * ((1 + g) * (O + E)) :=
    mul_nonneg (by nlinarith) (mul_nonneg (by linarith) (by linarith))
  have h5 : |(G i k).val| * |(G k k).val| * w k ≤ (1 + g) * V + e := by linarith
  linarith

/-- The product of the absolute values of the factors. -/
theorem lu_weight (hR : IluRange F n (mat A) w) (hG : ∀ i, i < n → RowFit n A G w i) {i : ℕ} (hi : i < n) :
    ∑ j ∈ range n, (∑ k ∈ range n, |unitLow (mat G) i k * upper (mat G) k j|) * w j ≤ (2 * n + 6) * (|(A i i).val| * w i) := by
  obtain ⟨g0, g1, _⟩ := ilu_g (F := F) hR.small
  have hw := hR.pos
  have a0 : 0 ≤ |(A i i).val| * w i := mul_nonneg (abs_nonneg _) (hw i hi).le
  have row : ∀ k, k < n → ∑ j ∈ range n, |upper (mat G) k j| * w j ≤ 2 * (|(G k k).val| * w k) := by
    intro k hk
    have d := (hG k hk).dom
    have U0 : 0 ≤ ∑ j ∈ Ico (k + 1) n, |(G k j).val| * w j := sum_nonneg fun j hj => mul_nonneg (abs_nonneg _) (hw j (mem_Ico.mp hj).2).le
    have : ∑ j ∈ range n, |upper (mat G) k j| * w j = |(G k k).val| * w k + ∑ j ∈ Ico (k + 1) n, |(G k j).val| * w j := by
      rw [range_eq_Ico, ← sum_Ico_consecutive _ (Nat.zero_le k) hk.le, sum_eq_zero, zero_add, sum_eq_sum_Ico_succ_bot hk]
      · rw [upper, if_pos le_rfl]
        refine congrArg₂ _ rfl (sum_congr rfl fun j hj => ?_)
        rw [upper, if_pos (by have := (mem_Ico.mp hj).1; omega)]; rfl
      · intro j hj
        rw [upper, if_neg (by have := (mem_Ico.mp hj).2; omega), abs_zero, zero_mul]
    rw [this]
    have := mul_nonneg g0 U0
    linarith
  have sw : ∑ j ∈ range n, (∑ k ∈ range n, |unitLow (mat G) i k * upper (mat G) k j|) * w j =
      ∑ k ∈ range n, |unitLow (mat G) i k| * ∑ j ∈ range n, |upper (mat G) k j| * w j := by
    simp only [sum_mul, mul_sum]
    rw [sum_comm]
    exact sum_congr rfl fun k _ => sum_congr rfl fun j _ => by rw [abs_mul]; ring
  rw [sw]
  have term : ∀ k, k < n → |unitLow (mat G) i k| * ∑ j ∈ range n, |upper (mat G) k j| * w j ≤
      2 * (|(A i i).val| * w i) + if k = i then 6 * (|(A i i).val| * w i) else 0 := by
    intro k hk
    rcases lt_trichotomy k i with h | rfl | h
    · rw [unitLow, if_pos h, if_neg h.ne, add_zero]
      have := mul_le_mul_of_nonneg_left (row k hk) (abs_nonneg (mat G i k))
      have p := RowFit.prod_le hR hG h hi
      have m : |mat G i k| = |(G i k).val| := rfl
      rw [m] at this ⊢
      linarith
    · rw [unitLow, if_neg (lt_irrefl _), if_pos rfl, if_pos rfl, abs_one, one_mul]
      have := row k hk
      have := mul_le_mul_of_nonneg_right (hG k hk).size (hw k hk).le
      linarith
    · rw [unitLow, if_neg (by omega), if_neg (by omega), abs_zero, zero_mul, if_neg (by omega)]
      linarith
  calc _ ≤ ∑ k ∈ range n, (2 * (|(A i i).val| * w i) + if k = i then 6 * (|(A i i).val| * w i) else 0) :=
        sum_le_sum fun k hk => term k (mem_range.mp hk)
    _ = (2 * n + 6) * (|(A i i).val| * w i) := by
        rw [sum_add_distrib, sum_const, card_range, nsmul_eq_mul, sum_ite_eq', if_pos (mem_range.mpr hi)]; ring

theorem lu_off {M L : ℕ → ℕ → ℝ} (hz : ∀ i j, i < n → j < n → M i j = 0 → L i j = 0) (hf : NoFill n M) {i j : ℕ} (hi : i < n)
    (hj : j < n) (h0 : M i j = 0) : luProd n L i j = 0 := by
  refine sum_eq_zero fun k hk => ?_
  have hk := mem_range.mp hk
  unfold unitLow upper
  by_cases hkj : k ≤ j
  · rw [if_pos hkj]
    rcases lt_trichotomy k i with h | rfl | h
    · rw [if_pos h]
      rcases Nat.lt_or_eq_of_le hkj with h' | rfl
      · by_contra hne
        have h1 : M i k ≠ 0 := fun e => hne (by rw [hz i k hi hk e, zero_mul])
        have h2 : M k j ≠ 0 := fun e => hne (by rw [hz k j hk hj e, mul_zero])
        exact hf i j k hi hj h h' h1 h2 h0
      · rw [hz i k hi hj h0, zero_mul]
    · rw [hz k j hi hj h0, mul_zero]
    · rw [if_neg (by omega), if_neg (by omega), zero_mul]
  · rw [if_neg hkj, mul_zero]

theorem ilu_residual (hR : IluRange F n (mat A) w) (hAf : ∀ i j, i < n → j < n → (A i j).IsFin) (hc : IluRec n A G)
    (hG : ∀ i, i < n → RowFit n A G w i) (hf : NoFill n (mat A)) {b x : ℕ → ℝ} {s : ℝ} (s0 : 0 < s) (hF : IluFine F n (mat A) w s) (hx : ∀ i, i < n → |x i| ≤ s * w i)
    (hr : ∀ i, i < n → |mulVec n (luProd n (mat G)) x i - b i| ≤
      ∑ j ∈ range n, (gam F.u (2 * n) * ∑ k ∈ range n, |unitLow (mat G) i k * upper (mat G) k j|) * |x j| +
      (1 + gam F.u n) * F.eta * (n + (1 + gam F.u n) * ∑ k ∈ range n, |unitLow (mat G) i k| * (n + |mat G k k|))) :
    ∀ i, i < n → |mulVec n (mat A) x i - b i| ≤ (2 * n + 6) * gam F.u (3 * n + 1) * (s * (|(A i i).val| * w i)) := by
  intro i hi
  have h0 := F.u_nonneg
  have h1 := F.u_lt_one
  have hη := F.eta_pos
  obtain ⟨g0, g1, eg⟩ := ilu_g (F := F) hR.small
  have hw := hR.pos
  have n0 : (0 : ℝ) ≤ n := Nat.cast_nonneg n
  have a0 : 0 ≤ |(A i i).val| * w i := mul_nonneg (abs_nonneg _) (hw i hi).le
  have gn0 := gam_nonneg h0 h1 n
  have gn := gam_mono h0 h1 (show n ≤ 2 * n + 2 by omega)
  set a := |(A i i).val| * w i with ha
  set W : ℕ → ℝ := fun j => ∑ k ∈ range n, |unitLow (mat G) i k * upper (mat G) k j| with hW
  have W0 : ∀ j, 0 ≤ W j := fun j => sum_nonneg fun k _ => abs_nonneg _
  have hLW : ∑ j ∈ range n, W j * w j ≤ (2 * n + 6) * a := lu_weight hR hG hi
  have hWx : ∀ c : ℝ, 0 ≤ c → ∑ j ∈ range n, c * W j * |x j| ≤ c * (s * ((2 * n + 6) * a)) := by
    intro c c0
    calc _ ≤ ∑ j ∈ range n, c * s * (W j * w j) := sum_le_sum fun j hj => by
          have := mul_le_mul_of_nonneg_left (hx j (mem_range.mp hj)) (mul_nonneg c0 (W0 j))
          linarith
      _ = c * s * ∑ j ∈ range n, W j * w j := by rw [mul_sum]
      _ ≤ c * s * ((2 * n + 6) * a) := mul_le_mul_of_nonneg_left hLW (by positivity)
      _ = _ := by ring
  -- the factors against the matrix
  have ent : ∀ j, j < n → |luProd n (mat G) i j - mat A i j| ≤ gam F.u n * W j + 4 * (F.eta * (n + |mat A j j|)) := by
    intro j hj
    have z0 : 0 ≤ 4 * (F.eta * (n + |mat A j j|)) := by positivity
    by_cases hz : IsZ (A i j)
    · have e0 : mat A i j = 0 := ((isZ_iff _).mp hz).2
      rw [lu_off (M := mat A) (L := mat G) (fun i' j' hi' hj' h => ?_) hf hi hj e0, e0, sub_self, abs_zero]
      · exact add_nonneg (mul_nonneg gn0 (W0 j)) z0
      · show (G i' j').val = 0
        rw [(hc i' j' hi' hj').1 ((isZ_iff _).mpr ⟨hAf i' j' hi' hj', h⟩)]; exact h
    · obtain ⟨ρ, t, hρ, ht, e⟩ := ilu_eta hi hj (hc i j hi hj) hz ((hG i hi).fin j hj) (fun h => (hG j hj).fin j hj)
      have e' : mat A i j = _ := e
      rw [e', abs_sub_comm, luProd, add_sub_right_comm]
      refine (abs_add_le _ _).trans (add_le_add (sum_fac_le h0 h1 fun k _ => hρ k) (ht.trans ?_))
      have sz := (hG j hj).size
      have m : |mat A j j| = |(A j j).val| := rfl
      have b0 := abs_nonneg (A j j).val
      have q : (n + if j < i then |(G j j).val| else 0) ≤ 3 * (n + |mat A j j|) := by
        rw [m]; split_ifs <;> linarith
      have q0 : 0 ≤ F.eta * (n + |mat A j j|) := by positivity
      calc _ ≤ (1 + gam F.u n) * F.eta * (3 * (n + |mat A j j|)) := mul_le_mul_of_nonneg_left q (by positivity)
        _ = (1 + gam F.u n) * (3 * (F.eta * (n + |mat A j j|))) := by ring
        _ ≤ 4 / 3 * (3 * (F.eta * (n + |mat A j j|))) := mul_le_mul_of_nonneg_right (by linarith) (by positivity)
        _ = _ := by ring
  have d1 : |mulVec n (luProd n (mat G)) x i - mulVec n (mat A) x i| ≤ gam F.u n * (s * ((2 * n + 6) * a)) + F.u * (s * a) := by
    unfold mulVec
    rw [← sum_sub_distrib]
    refine (abs_sum_le_sum_abs _ _).trans ?_
    calc _ ≤ ∑ j ∈ range n, (gam F.u n * W j * |x j| + s * (4 * (F.eta * ((n + |mat A j j|) * w j)))) := by
          refine sum_le_sum fun j hj => ?_
          have hj := mem_range.mp hj
          rw [← sub_mul, abs_mul]
          have p1 := mul_le_mul_of_nonneg_right (ent j hj) (abs_nonneg (x j))
          have p2 := mul_le_mul_of_nonneg_left (hx j hj) (show 0 ≤ 4 * (F.eta * (n + |mat A j j|)) by positivity)
          linarith
      _ = ∑ j ∈ range n, gam F.u n * W j * |x j| + s * (4 * (F.eta * ∑ j ∈ range n, (n + |mat A j j|) * w j)) := by
          rw [sum_add_distrib]; simp only [mul_sum]
      _ ≤ gam F.u n * (s * ((2 * n + 6) * a)) + s * (F.u * (|mat A i i| * w i)) :=
          add_le_add (hWx _ gn0) (mul_le_mul_of_nonneg_left (hF.row i hi) s0.le)
      _ = _ := by rw [ha]; unfold mat; ring
  -- underflows of the two sweeps
  have gapA : ∀ k, k < n → ieeeGap F n (mat A) w k ≤ |mat A k k| * w k := by
    intro k hk
    rw [ieeeGap, eg]
    have O0 : 0 ≤ ∑ j ∈ (range n).erase k, |mat A k j| * w j :=
      sum_nonneg fun j hj => mul_nonneg (abs_nonneg _) (hw j (mem_range.mp (mem_erase.mp hj).2)).le
    have E0 : 0 ≤ 4 * (F.eta * ∑ j ∈ range n, (n + |mat A j j|) * w j) := mul_nonneg (by norm_num) (mul_nonneg hη.le (sum_nonneg fun j hj =>
      mul_nonneg (by positivity) (hw j (mem_range.mp hj)).le))
    have : 0 ≤ (1 + gam F.u (2 * n + 2)) * (1 + gam F.u (2 * n + 2)) * (1 + gam F.u (2 * n + 2)) *
      (∑ j ∈ (range n).erase k, |mat A k j| * w j + 4 * (F.eta * ∑ j ∈ range n, (n + |mat A j j|) * w j)) := by positivity
    linarith
  have und : ∀ k, k < n → 4 * (F.eta * (n + |mat G k k|)) ≤ F.u * (s * (2 * (|(G k k).val| * w k))) := by
    intro k hk
    have p1 := hF.gap k hk
    have p2 := mul_le_mul_of_nonneg_left (mul_le_mul_of_nonneg_left (hG k hk).gap s0.le) h0
    have p3 : |mat G k k| ≤ 3 * |mat A k k| := (hG k hk).size
    have p4 := mul_le_mul_of_nonneg_left p3 hη.le
    have p5 : 0 ≤ F.eta * n := by positivity
    have p6 : 0 ≤ F.eta * |mat A k k| := by positivity
    linarith
  have us0 : 0 ≤ F.u * s := by positivity
  have sumU : ∑ k ∈ range n, |unitLow (mat G) i k| * (4 * (F.eta * (n + |mat G k k|))) ≤ (2 * n + 6) * (F.u * s * a) := by
    have term : ∀ k, k < n → |unitLow (mat G) i k| * (4 * (F.eta * (n + |mat G k k|))) ≤
        2 * (F.u * s * a) + if k = i then 6 * (F.u * s * a) else 0 := by
      intro k hk
      have usa : 0 ≤ F.u * s * a := mul_nonneg us0 a0
      rcases lt_trichotomy k i with h | rfl | h
      · rw [unitLow, if_pos h, if_neg h.ne, add_zero]
        have q1 := mul_le_mul_of_nonneg_left (und k hk) (abs_nonneg (mat G i k))
        have q2 := mul_le_mul_of_nonneg_left (RowFit.prod_le hR hG h hi) us0
        have m : |mat G i k| = |(G i k).val| := rfl
        rw [m] at q1 ⊢
        linarith
      · rw [unitLow, if_neg (lt_irrefl _), if_pos rfl, if_pos rfl, abs_one, one_mul]
        have q1 := und k hk
        have q2 := mul_le_mul_of_nonneg_left (mul_le_mul_of_nonneg_right (hG k hk).size (hw k hk).le) us0
        linarith
      · rw [unitLow, if_neg (by omega), if_neg (by omega), abs_zero, zero_mul, if_neg (by omega)]
        linarith
    calc _ ≤ ∑ k ∈ range n, (2 * (F.u * s * a) + if k = i then 6 * (F.u * s * a) else 0) :=
          sum_le_sum fun k hk => term k (mem_range.mp hk)
      _ = (2 * n + 6) * (F.u * s * a) := by
          rw [sum_add_distrib, sum_const, card_range, nsmul_eq_mul, sum_ite_eq', if_pos (mem_range.mpr hi)]; ring
  have d2 : (1 + gam F.u n) * F.eta * (n + (1 + gam F.u n) * ∑ k ∈ range n, |unitLow (mat G) i k| * (n + |mat G k k|)) ≤
      (n + 4) * (F.u * s * a) := by
    have e1 : ∑ k ∈ range n, |unitLow (mat G) i k| * (4 * (F.eta * (n + |mat G k k|))) =
        4 * (F.eta * ∑ k ∈ range n, |unitLow (mat G) i k| * (n + |mat G k k|)) := by
      simp only [mul_sum]; exact sum_congr rfl fun k _ => by ring
    rw [e1] at sumU
    have S0 : 0 ≤ ∑ k ∈ range n, |unitLow (mat G) i k| * (n + |mat G k k|) := sum_nonneg fun k _ => by positivity
    set S := ∑ k ∈ range n, |unitLow (mat G) i k| * (n + |mat G k k|)
    have f1 : 16 * (F.eta * n) ≤ F.u * s * a := by
      have p1 := hF.gap i hi
      have p2 := mul_le_mul_of_nonneg_left (mul_le_mul_of_nonneg_left (gapA i hi) s0.le) h0
      have p3 : 0 ≤ F.eta * |mat A i i| := by positivity
      have m : |mat A i i| * w i = a := rfl
      rw [m] at p2
      linarith
    have f2 : 0 ≤ F.eta * n := by positivity
    have f3 : 0 ≤ F.eta * S := by positivity
    have k1 : (1 + gam F.u n) * (F.eta * n) ≤ 9 / 8 * (F.eta * n) := mul_le_mul_of_nonneg_right (by linarith) f2
    have k2 : (1 + gam F.u n) * (1 + gam F.u n) * (F.eta * S) ≤ 2 * (F.eta * S) := mul_le_mul_of_nonneg_right (by nlinarith) f3
    have usa : 0 ≤ F.u * s * a := mul_nonneg us0 a0
    have e2 : (1 + gam F.u n) * F.eta * (n + (1 + gam F.u n) * S) =
      (1 + gam F.u n) * (F.eta * n) + (1 + gam F.u n) * (1 + gam F.u n) * (F.eta * S) := by ring
    rw [e2]
    have : (n : ℝ) * (F.u * s * a) = n * (F.u * s * a) := rfl
    linarith
  have r := hr i hi
  have d3 := hWx (gam F.u (2 * n)) (gam_nonneg h0 h1 _)
  have tri : |mulVec n (mat A) x i - b i| ≤ |mulVec n (luProd n (mat G)) x i - b i| +
      |mulVec n (luProd n (mat G)) x i - mulVec n (mat A) x i| := by
    rw [abs_sub_comm (mulVec n (luProd n (mat G)) x i) (mulVec n (mat A) x i)]
    have := abs_add_le (mulVec n (luProd n (mat G)) x i - b i) (mulVec n (mat A) x i - mulVec n (luProd n (mat G)) x i)
    rwa [show mulVec n (luProd n (mat G)) x i - b i + (mulVec n (mat A) x i - mulVec n (luProd n (mat G)) x i) =
      mulVec n (mat A) x i - b i by ring] at this
  have sa : 0 ≤ s * a := mul_nonneg s0.le a0
  have G1 : gam F.u (2 * n) + gam F.u n + F.u ≤ gam F.u (3 * n + 1) := by
    have q1 := gam_add_le h0 h1 (2 * n) n
    have q2 := gam_add_le h0 h1 (2 * n + n) 1
    have q3 := u_le_gam h0 h1 (show 1 ≤ 1 by omega)
    rw [show 2 * n + n + 1 = 3 * n + 1 by omega] at q2
    linarith
  have G2 := mul_le_mul_of_nonneg_right G1 (show 0 ≤ (2 * n + 6) * (s * a) by positivity)
  have G3 : 0 ≤ (n : ℝ) * (F.u * s * a) := mul_nonneg n0 (mul_nonneg us0 a0)
  have G4 : 0 ≤ F.u * s * a := mul_nonneg us0 a0
  linarith

end Fp

end Lalib
