import Verif.Proofs.Ieee

/-! # IEEE 754 numbers: rounding errors -/

namespace Lalib

namespace Fmt
variable (F : Fmt)

theorem u_nonneg : 0 ≤ F.u := by unfold u; positivity
theorem u_pos : 0 < F.u := by unfold u; positivity
theorem u_lt_one : F.u < 1 := by
  unfold u
  have := F.one_le_p
  exact lt_of_le_of_lt (pow_le_of_le_one (by norm_num) (by norm_num) (by omega : F.p ≠ 0)) (by norm_num)
theorem eta_pos : 0 < F.eta := by unfold eta; positivity

/-- The result is exact or has a relative error of at most `u`, unless it is subnormal. -/
theorem rnd_err_low {x : ℝ} (h : Int.log 2 |x| + 1 - (F.p : ℤ) ≤ F.emin) : |F.rnd x - x| ≤ F.eta := by
  rw [F.rnd_low h]
  have h0 : (0 : ℝ) < 2 ^ F.emin := by positivity
  have h1 := nearestEven_err (x / 2 ^ F.emin)
  have e : nearestEven (x / 2 ^ F.emin) * (2 : ℝ) ^ F.emin - x = (nearestEven (x / 2 ^ F.emin) - x / 2 ^ F.emin) * 2 ^ F.emin := by
    field_simp
  rw [e, abs_mul, abs_of_pos h0]
  unfold eta
  nlinarith

theorem rnd_err_bin {x : ℝ} (h : F.emin ≤ Int.log 2 |x| + 1 - (F.p : ℤ)) : |F.rnd x - x| ≤ F.u * |x| := by
  rw [F.rnd_bin h]; exact rndBin_err F.p x

theorem rnd_err (x : ℝ) : |F.rnd x - x| ≤ F.u * |x| ∨ |F.rnd x - x| ≤ F.eta := by
  rcases le_total F.emin (Int.log 2 |x| + 1 - (F.p : ℤ)) with h | h
  · exact .inl (F.rnd_err_bin h)
  · exact .inr (F.rnd_err_low h)

/-- No underflow: relative error. -/
theorem rnd_err_normal {x : ℝ} (h : F.normal ≤ |x|) : |F.rnd x - x| ≤ F.u * |x| := by
  refine F.rnd_err_bin ?_
  have h0 : 0 < |x| := lt_of_lt_of_le (by unfold normal; positivity) h
  have : F.emin + F.p - 1 ≤ Int.log 2 |x| := by
    rw [← Int.zpow_le_iff_le_log (by norm_num) h0]
    exact_mod_cast h
  omega

/-- Multiples of the smallest number. -/
def IsGrid (x : ℝ) : Prop := ∃ z : ℤ, x = z * 2 ^ F.emin

variable {F} in
theorem IsGrid.add {x y : ℝ} (hx : F.IsGrid x) (hy : F.IsGrid y) : F.IsGrid (x + y) := by
  obtain ⟨a, rfl⟩ := hx
  obtain ⟨b, rfl⟩ := hy
  exact ⟨a + b, by push_cast; ring⟩

variable {F} in
theorem IsGrid.neg {x : ℝ} (hx : F.IsGrid x) : F.IsGrid (-x) := by
  obtain ⟨a, rfl⟩ := hx
  exact ⟨-a, by push_cast; ring⟩

theorem isGrid_rnd (x : ℝ) : F.IsGrid (F.rnd x) := by
  obtain ⟨d, hd⟩ : ∃ d : ℕ, F.uexp x = F.emin + d :=
    ⟨(F.uexp x - F.emin).toNat, by have : F.emin ≤ F.uexp x := le_max_right _ _; omega⟩
  refine ⟨nearestEven (x / 2 ^ F.uexp x) * 2 ^ d, ?_⟩
  unfold rnd
  rw [hd, zpow_add₀ (by norm_num), zpow_natCast]
  push_cast; ring

/-- Such numbers do not underflow: sums and differences of numbers of the format. -/
theorem rnd_err_grid {x : ℝ} (h : F.IsGrid x) : |F.rnd x - x| ≤ F.u * |x| := by
  rcases le_total F.emin (Int.log 2 |x| + 1 - (F.p : ℤ)) with hl | hl
  · exact F.rnd_err_bin hl
  · obtain ⟨z, hz⟩ := h
    have : x / 2 ^ F.emin = z := by
      rw [hz]
      have : (2 : ℝ) ^ F.emin ≠ 0 := by positivity
      field_simp
    rw [F.rnd_low hl, this, nearestEven_int, ← hz, sub_self, abs_zero]
    exact mul_nonneg F.u_nonneg (abs_nonneg x)

theorem fac_of_err {x y : ℝ} (h : |y - x| ≤ F.u * |x|) : ∃ ρ, Fac F.u 1 ρ ∧ y = x * ρ := by
  have h0 := F.u_nonneg
  have h1 := F.u_lt_one
  by_cases hx : x = 0
  · subst hx
    refine ⟨1, Fac.one h0 h1 1, ?_⟩
    simpa using h
  · refine ⟨y / x, ?_, by field_simp⟩
    have h2 : |y / x - 1| ≤ F.u := by
      rw [show y / x - 1 = (y - x) / x by field_simp, abs_div]
      exact (div_le_iff₀ (abs_pos.mpr hx)).mpr h
    have h3 := abs_le.mp h2
    unfold Fac
    rw [pow_one]
    constructor
    · linarith
    · have : 0 ≤ 1 - F.u := by linarith
      nlinarith

theorem rnd_fac_grid {x : ℝ} (h : F.IsGrid x) : ∃ ρ, Fac F.u 1 ρ ∧ F.rnd x = x * ρ := F.fac_of_err (F.rnd_err_grid h)

/-- Any result: a relative error, and an absolute one which is not zero only when the result underflows. -/
theorem rnd_fac (x : ℝ) : ∃ ρ ε, Fac F.u 1 ρ ∧ |ε| ≤ F.eta ∧ (F.normal ≤ |x| → ε = 0) ∧ F.rnd x = x * ρ + ε := by
  have h0 := F.u_nonneg
  have h1 := F.u_lt_one
  by_cases h : |F.rnd x - x| ≤ F.u * |x|
  · obtain ⟨ρ, hρ, e⟩ := F.fac_of_err h
    exact ⟨ρ, 0, hρ, by simpa using F.eta_pos.le, fun _ => rfl, by rw [e, add_zero]⟩
  · refine ⟨1, F.rnd x - x, Fac.one h0 h1 1, (F.rnd_err x).resolve_left h, fun hn => absurd (F.rnd_err_normal hn) h, by ring⟩

end Fmt

namespace Fp
variable {F : Fmt}

theorem isGrid_val (a : Fp F) : F.IsGrid a.val := by
  cases a with
  | nan => exact ⟨0, by simp [val]⟩
  | inf s => exact ⟨0, by simp [val]⟩
  | fin s x h =>
    have : F.IsGrid x := by rw [← h.2.1]; exact F.isGrid_rnd x
    cases s with
    | false => simpa [val] using this
    | true => simpa [val] using this.neg

/-- Every value is a number of the format. -/
theorem rnd_val (a : Fp F) : F.rnd a.val = a.val := by
  cases a with
  | nan => exact F.rnd_zero
  | inf s => exact F.rnd_zero
  | fin s x h =>
    cases s with
    | false => simpa [val] using h.2.1
    | true => simp only [val, if_true]; rw [F.rnd_neg, h.2.1]

theorem rnd_abs_val (a : Fp F) : F.rnd |a.val| = |a.val| := by
  rcases abs_cases a.val with ⟨h, _⟩ | ⟨h, _⟩ <;> rw [h]
  · exact rnd_val a
  · rw [F.rnd_neg, rnd_val]

theorem abs_val_lt (a : Fp F) : |a.val| < F.top := by
  cases a with
  | nan => simpa [val] using F.top_pos
  | inf s => simpa [val] using F.top_pos
  | fin s x h => cases s <;> simpa [val, abs_of_nonneg h.1] using h.2.2

/-- A sum that does not overflow has a relative error of at most `u`: sums do not underflow. -/
theorem add_fac {a b : Fp F} (h : (a + b).IsFin) : ∃ ρ, Fac F.u 1 ρ ∧ (a + b).val = (a.val + b.val) * ρ := by
  rw [val_add h]; exact F.rnd_fac_grid (a.isGrid_val.add b.isGrid_val)

theorem sub_fac {a b : Fp F} (h : (a - b).IsFin) : ∃ ρ, Fac F.u 1 ρ ∧ (a - b).val = (a.val - b.val) * ρ := by
  rw [val_sub h, sub_eq_add_neg]; exact F.rnd_fac_grid (a.isGrid_val.add b.isGrid_val.neg)

theorem mul_fac {a b : Fp F} (h : (a * b).IsFin) : ∃ ρ ε, Fac F.u 1 ρ ∧ |ε| ≤ F.eta ∧
    (F.normal ≤ |a.val * b.val| → ε = 0) ∧ (a * b).val = a.val * b.val * ρ + ε := by
  rw [val_mul h]; exact F.rnd_fac _

theorem div_fac {a b : Fp F} (h : (a / b).IsFin) (hb : b.IsFin) : ∃ ρ ε, Fac F.u 1 ρ ∧ |ε| ≤ F.eta ∧
    (F.normal ≤ |a.val / b.val| → ε = 0) ∧ (a / b).val = a.val / b.val * ρ + ε := by
  rw [val_div h hb]; exact F.rnd_fac _

end Fp

end Lalib
