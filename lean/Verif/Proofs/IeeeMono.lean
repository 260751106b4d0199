import Verif.Proofs.IeeeErr

/-! # IEEE 754 numbers: rounding is monotone -/

namespace Lalib

theorem nearestEven_le {x : ℝ} {n : ℤ} (h : x ≤ n) : nearestEven x ≤ n := by
  have h1 := Int.floor_add_fract x
  have h2 := Int.fract_nonneg x
  have hf : ⌊x⌋ ≤ n := by
    have : (⌊x⌋ : ℝ) ≤ n := by linarith
    exact_mod_cast this
  rcases hf.lt_or_eq with hlt | heq
  · unfold nearestEven; split_ifs <;> omega
  · have h3 : Int.fract x = 0 := by
      have : (⌊x⌋ : ℝ) = n := by rw [heq]
      linarith
    unfold nearestEven
    rw [if_pos (by rw [h3]; norm_num)]
    exact hf

theorem le_nearestEven {x : ℝ} {n : ℤ} (h : (n : ℝ) ≤ x) : n ≤ nearestEven x := by
  have : n ≤ ⌊x⌋ := Int.le_floor.mpr h
  unfold nearestEven
  split_ifs <;> omega

theorem nearestEven_mono {x y : ℝ} (h : x ≤ y) : nearestEven x ≤ nearestEven y := by
  have hf := Int.floor_le_floor h
  rcases hf.lt_or_eq with hlt | heq
  · have h1 : nearestEven x ≤ ⌊y⌋ := by
      refine nearestEven_le ?_
      have : (⌊x⌋ : ℝ) + 1 ≤ ⌊y⌋ := by exact_mod_cast hlt
      have := Int.lt_floor_add_one x
      linarith
    exact h1.trans (le_nearestEven (Int.floor_le y))
  · have hfr : Int.fract x ≤ Int.fract y := by
      have h1 := Int.floor_add_fract x
      have h2 := Int.floor_add_fract y
      rw [heq] at h1
      linarith
    unfold nearestEven
    rw [heq]
    split_ifs <;> first | omega | (exfalso; linarith)

namespace Fmt
variable (F : Fmt)

theorem rnd_mono_nonneg {x y : ℝ} (hx : 0 ≤ x) (h : x ≤ y) : F.rnd x ≤ F.rnd y := by
  rcases hx.lt_or_eq with hx0 | rfl
  swap
  · rw [F.rnd_zero]; exact F.rnd_nonneg h
  have hy0 : 0 < y := lt_of_lt_of_le hx0 h
  have hlog : Int.log 2 |x| ≤ Int.log 2 |y| := by
    rw [abs_of_pos hx0, abs_of_pos hy0]; exact Int.log_mono_right hx0 h
  by_cases hu : F.uexp x = F.uexp y
  · unfold rnd
    rw [hu]
    have hp : (0 : ℝ) < 2 ^ F.uexp y := by positivity
    refine mul_le_mul_of_nonneg_right ?_ hp.le
    exact_mod_cast nearestEven_mono (div_le_div_of_nonneg_right h hp.le)
  · -- the power of two between them
    have hy1 : F.emin < Int.log 2 |y| + 1 - F.p := by
      by_contra hc
      apply hu
      unfold uexp
      rw [max_eq_right (by omega), max_eq_right (by omega)]
    have hlt : Int.log 2 |x| < Int.log 2 |y| := by
      rcases hlog.lt_or_eq with h | h
      · exact h
      · exact absurd (by unfold uexp; rw [h]) hu
    set b := Int.log 2 |y| with hb
    have hxb : x ≤ (2 : ℝ) ^ b := by
      have h1 := Int.lt_zpow_succ_log_self (b := 2) (by norm_num) |x|
      rw [abs_of_pos hx0] at h1
      have h2 : (2 : ℝ) ^ (Int.log 2 x + 1) ≤ 2 ^ b := zpow_le_zpow_right₀ (by norm_num) (by rw [abs_of_pos hx0] at hlt; omega)
      have h3 : x < (2 : ℝ) ^ (Int.log 2 x + 1) := by exact_mod_cast h1
      linarith
    have hyb : (2 : ℝ) ^ b ≤ y := by
      have h1 := Int.zpow_log_le_self (b := 2) (by norm_num) (abs_pos.mpr hy0.ne')
      rw [← hb, abs_of_pos hy0] at h1
      exact_mod_cast h1
    have hp1 := F.one_le_p
    have key : ∀ q : ℤ, q ≤ b → ∃ n : ℤ, (2 : ℝ) ^ b = n * 2 ^ q := by
      intro q hq
      refine ⟨2 ^ (b - q).toNat, ?_⟩
      push_cast
      rw [← zpow_natCast, ← zpow_add₀ (by norm_num)]
      congr 1; omega
    have hqx : F.uexp x ≤ b := by unfold uexp; omega
    have hqy : F.uexp y ≤ b := by unfold uexp; omega
    obtain ⟨n, hn⟩ := key _ hqx
    obtain ⟨k, hk⟩ := key _ hqy
    have l1 : F.rnd x ≤ 2 ^ b := by
      unfold rnd
      rw [hn]
      have hp : (0 : ℝ) < 2 ^ F.uexp x := by positivity
      refine mul_le_mul_of_nonneg_right ?_ hp.le
      exact_mod_cast nearestEven_le ((div_le_iff₀ hp).mpr (by rw [← hn]; exact hxb))
    have l2 : (2 : ℝ) ^ b ≤ F.rnd y := by
      unfold rnd
      rw [hk]
      have hp : (0 : ℝ) < 2 ^ F.uexp y := by positivity
      refine mul_le_mul_of_nonneg_right ?_ hp.le
      exact_mod_cast le_nearestEven ((le_div_iff₀ hp).mpr (by rw [← hk]; exact hyb))
    exact l1.trans l2

theorem rnd_mono {x y : ℝ} (h : x ≤ y) : F.rnd x ≤ F.rnd y := by
  rcases le_total 0 x with hx | hx
  · exact F.rnd_mono_nonneg hx h
  · rcases le_total 0 y with hy | hy
    · have h1 := F.rnd_nonneg (x := -x) (by linarith)
      have h2 := F.rnd_nonneg hy
      rw [F.rnd_neg] at h1
      linarith
    · have := F.rnd_mono_nonneg (x := -y) (y := -x) (by linarith) (by linarith)
      rw [F.rnd_neg, F.rnd_neg] at this
      linarith

/-- Powers of two in range are numbers of the format. -/
theorem isMag_pow {e : ℤ} (h1 : F.emin ≤ e) (h2 : e < F.emax) : F.IsMag (2 ^ e) := by
  refine ⟨by positivity, ?_, ?_⟩
  · have := F.rnd_fix 1 e (by rw [abs_one]; exact one_le_pow₀ (by norm_num)) h1
    simpa using this
  · exact zpow_lt_zpow_right₀ (by norm_num) h2

/-- Integers up to `2^p`. -/
theorem isMag_nat {n : ℕ} (h : n ≤ 2 ^ F.p) (hl : (n : ℝ) < F.top) (he : F.emin ≤ 0) : F.IsMag n := by
  refine ⟨by positivity, ?_, hl⟩
  have := F.rnd_fix n 0 (by rw [abs_of_nonneg (by positivity)]; exact_mod_cast h) he
  simpa using this

end Fmt

namespace Fp
variable {F : Fmt}

/-- Roots do not overflow. -/
theorem isFin_sqrt (a : Fp F) : (Sqrt.sqrt a).IsFin ↔ a.IsFin ∧ 0 ≤ a.val := by
  refine ⟨isFin_sqrt_imp, ?_⟩
  rintro ⟨ha, hv⟩
  obtain ⟨s, x, hx, rfl⟩ := ha.cases
  rw [sqrt_eq]
  simp only [sqrt]
  split
  · trivial
  · next h0 =>
    cases s with
    | true =>
      exfalso
      have : 0 ≤ -x := by simpa [val] using hv
      exact h0 (le_antisymm (by linarith) hx.1)
    | false =>
      simp only [Bool.false_eq_true, if_false]
      rw [isFin_round, abs_of_nonneg (Real.sqrt_nonneg _)]
      rcases le_total 1 x with h1 | h1
      · have h2 : Real.sqrt x ≤ x := by
          rw [Real.sqrt_le_left hx.1]; nlinarith
        refine lt_of_le_of_lt (F.rnd_mono h2) ?_
        rw [hx.2.1]; exact hx.2.2
      · have h2 : Real.sqrt x ≤ 1 := (Real.sqrt_le_sqrt h1).trans_eq Real.sqrt_one
        refine lt_of_le_of_lt (F.rnd_mono h2) ?_
        rw [F.isMag_one.2.1]; exact F.isMag_one.2.2

theorem val_sqrt {a : Fp F} (h : (Sqrt.sqrt a).IsFin) : (Sqrt.sqrt a).val = F.rnd (Real.sqrt a.val) := by
  obtain ⟨ha, hv⟩ := (isFin_sqrt a).mp h
  obtain ⟨s, x, hx, rfl⟩ := ha.cases
  rw [sqrt_eq] at h ⊢
  simp only [sqrt] at h ⊢
  split
  · next h0 =>
    have : (fin s x hx : Fp F).val = 0 := by cases s <;> simp [val, h0]
    rw [this, Real.sqrt_zero, F.rnd_zero]
  · next h0 =>
    rw [if_neg h0] at h
    cases s with
    | true => simp at h
    | false =>
      simp only [Bool.false_eq_true, if_false] at h ⊢
      rw [val_round h]
      simp [val]

/-- Roots do not underflow. -/
theorem sqrt_fac {a : Fp F} (h : (Sqrt.sqrt a).IsFin) :
    ∃ ρ, Fac F.u 1 ρ ∧ (Sqrt.sqrt a).val = Real.sqrt a.val * ρ := by
  rw [val_sqrt h]
  apply F.fac_of_err
  obtain ⟨ha, hv⟩ := (isFin_sqrt a).mp h
  rcases hv.lt_or_eq with hv | hv
  swap
  · rw [← hv, Real.sqrt_zero, F.rnd_zero]; simp
  apply F.rnd_err_normal
  rw [abs_of_nonneg (Real.sqrt_nonneg _)]
  obtain ⟨z, hz⟩ := a.isGrid_val
  have h1 : (2 : ℝ) ^ F.emin ≤ a.val := by
    have hp : (0 : ℝ) < 2 ^ F.emin := by positivity
    have : 0 < z := by
      by_contra hc
      have : (z : ℝ) ≤ 0 := by exact_mod_cast not_lt.mp hc
      rw [hz] at hv
      nlinarith
    have : (1 : ℝ) ≤ z := by exact_mod_cast this
    rw [hz]; nlinarith
  apply Real.le_sqrt_of_sq_le
  refine le_trans ?_ h1
  unfold Fmt.normal
  rw [← zpow_natCast, ← zpow_mul]
  refine zpow_le_zpow_right₀ (by norm_num) ?_
  have := F.wide
  push_cast
  omega

end Fp

end Lalib
