import Verif.Proofs.Binary
import Verif.Proofs.Struct

/-! # The rounded square root of a perfect square is exact -/

namespace Lalib

theorem nearestEven_close {x : ℝ} {w : ℤ} (h : |x - w| < 1 / 2) : nearestEven x = w := by
  have h1 := nearestEven_err x
  have h2 : |((nearestEven x - w : ℤ) : ℝ)| < 1 := by
    push_cast
    have := abs_add_le ((nearestEven x : ℝ) - x) (x - w)
    rw [sub_add_sub_cancel] at this
    linarith
  have h3 : |nearestEven x - w| < 1 := by exact_mod_cast h2
  have := abs_lt.mp h3
  omega

theorem log_eq {x : ℝ} {k : ℤ} (h1 : (2 : ℝ) ^ k ≤ x) (h2 : x < (2 : ℝ) ^ (k + 1)) : Int.log 2 x = k := by
  have hx : 0 < x := lt_of_lt_of_le (by positivity) h1
  have l1 : k ≤ Int.log 2 x := (Int.zpow_le_iff_le_log (by norm_num) hx).mp (by exact_mod_cast h1)
  have l2 : Int.log 2 x < k + 1 := (Int.lt_zpow_iff_log_lt (by norm_num) hx).mp (by exact_mod_cast h2)
  omega

/-- `sqrt(s*s) = s` with both the argument and the result rounded to `p` bits. -/
theorem rndBin_sqrt_sq (p : ℕ) (hp : 1 ≤ p) (s : ℕ) (hs : s < 2 ^ p) :
    rndBin p (Real.sqrt (rndBin p ((s * s : ℕ) : ℝ))) = s := by
  rcases Nat.eq_zero_or_pos s with rfl | h0
  · simp [rndBin, nearestEven]
  obtain ⟨k, hk1, hk2⟩ : ∃ k, 2 ^ k ≤ s ∧ s < 2 ^ (k + 1) :=
    ⟨Nat.log 2 s, Nat.pow_log_le_self 2 (by omega), Nat.lt_pow_succ_log_self (by norm_num) s⟩
  have hkp : k < p := (Nat.pow_lt_pow_iff_right (by norm_num : 1 < 2)).mp (by omega)
  have hsr : rndBin p (s : ℝ) = s := by
    have := rndBin_int p hp (s : ℤ) (by rw [abs_of_nonneg (by positivity)]; exact_mod_cast hs.le)
    exact_mod_cast this
  by_cases hpow : s = 2 ^ k
  · -- a power of two: both roundings are exact
    have e : rndBin p ((s * s : ℕ) : ℝ) = ((s * s : ℕ) : ℝ) := by
      have := rndBin_fix p 1 (2 * k : ℤ) hp (by simpa using one_le_pow₀ (by norm_num : (1 : ℤ) ≤ 2))
      have e2 : ((1 : ℤ) : ℝ) * (2 : ℝ) ^ (2 * k : ℤ) = ((s * s : ℕ) : ℝ) := by
        rw [hpow]; push_cast
        rw [one_mul, ← zpow_natCast, ← zpow_add₀ (by norm_num)]; congr 1; ring
      rwa [e2] at this
    rw [e]; push_cast
    rw [Real.sqrt_mul_self (by positivity), hsr]
  · have hk1' : 2 ^ k + 1 ≤ s := by omega
    set q : ℝ := 2 ^ k with hq
    have hq1 : 1 ≤ q := one_le_pow₀ (by norm_num)
    have a1 : q + 1 ≤ s := by rw [hq]; exact_mod_cast hk1'
    have a2 : (s : ℝ) + 1 ≤ 2 * q := by
      rw [hq]
      have : s + 1 ≤ 2 * 2 ^ k := by rw [← pow_succ']; omega
      exact_mod_cast this
    -- half an ulp at `s`
    set h : ℝ := 2 ^ (k : ℤ) / 2 ^ p with hh
    have hqz : (2 : ℝ) ^ (k : ℤ) = q := by rw [zpow_natCast]
    rw [hqz] at hh
    have hpp : (0 : ℝ) < 2 ^ p := by positivity
    have hhp : 0 < h := by rw [hh]; positivity
    have hh2 : 2 * h ≤ 1 := by
      rw [hh, ← mul_div_assoc, div_le_one hpp, hq, ← pow_succ']
      exact pow_le_pow_right₀ (by norm_num) hkp
    -- the rounded square
    set r := rndBin p ((s * s : ℕ) : ℝ) with hr
    have hrs : |r - s * s| ≤ 2 * q * h := by
      have e := rndBin_abs_err p ((s * s : ℕ) : ℝ)
      rw [← hr] at e
      push_cast at e
      refine e.trans ?_
      have hlog : Int.log 2 |(s : ℝ) * s| ≤ 2 * k + 1 := by
        rw [abs_of_nonneg (by positivity)]
        have : Int.log 2 ((s : ℝ) * s) < 2 * k + 1 + 1 := by
          refine (Int.lt_zpow_iff_log_lt (by norm_num) (by nlinarith)).mp ?_
          have e2 : (((2 : ℕ) : ℝ)) ^ (2 * (k : ℤ) + 1 + 1) = (2 * q) * (2 * q) := by
            rw [hq, ← pow_succ', ← pow_add, ← zpow_natCast]; push_cast; congr 1; ring
          rw [e2]; nlinarith
        omega
      unfold ulp
      have : (2 : ℝ) ^ (Int.log 2 |(s : ℝ) * s| + 1 - (p : ℤ)) ≤ 2 ^ (2 * (k : ℤ) + 1 + 1 - (p : ℤ)) :=
        zpow_le_zpow_right₀ (by norm_num) (by omega)
      have e3 : (2 : ℝ) ^ (2 * (k : ℤ) + 1 + 1 - (p : ℤ)) = 2 * (2 * q * h) := by
        rw [hh, hq, zpow_sub₀ (by norm_num), zpow_add₀ (by norm_num), zpow_add₀ (by norm_num), two_mul (k : ℤ),
          zpow_add₀ (by norm_num), zpow_natCast, zpow_natCast]
        ring
      linarith
    have hrs' := abs_le.mp hrs
    have r1 : q * q < r := by nlinarith
    have r2 : r < (2 * q) * (2 * q) := by nlinarith
    have r0 : 0 ≤ r := by nlinarith
    set y := Real.sqrt r with hy
    have hyy : y * y = r := Real.mul_self_sqrt r0
    have y1 : q < y := Real.lt_sqrt_of_sq_lt (by rw [pow_two]; exact r1)
    have y2 : y < 2 * q := by
      rw [hy, Real.sqrt_lt' (by linarith), pow_two]; exact r2
    have hys : |y - s| < h := by
      have e : (y - s) * (y + s) = r - s * s := by rw [← hyy]; ring
      have hpos : 2 * q < y + s := by linarith
      have e' : |y - s| * (y + s) ≤ 2 * q * h := by
        have : |y - s| * (y + s) = |r - s * s| := by
          rw [← e, abs_mul, abs_of_pos (show 0 < y + (s : ℝ) by linarith)]
        rw [this]; exact hrs
      by_contra hcon
      push Not at hcon
      nlinarith
    -- `y` and `s` have the same exponent
    have hulp : ulp p y = 2 * h := by
      unfold ulp
      rw [abs_of_pos (by linarith), log_eq (k := k) (by rw [hqz]; exact y1.le)
        (by rw [zpow_add₀ (by norm_num), hqz, zpow_one]; linarith)]
      rw [hh, zpow_sub₀ (by norm_num), zpow_add₀ (by norm_num), hqz, zpow_natCast, zpow_one]; ring
    have hsw : (s : ℝ) / (2 * h) = ((s * 2 ^ (p - 1 - k) : ℕ) : ℤ) := by
      have : (2 : ℝ) ^ p = 2 * q * 2 ^ (p - 1 - k) := by
        rw [hq, ← pow_succ', ← pow_add]; congr 1; omega
      rw [hh, this]; push_cast
      field_simp
    have hne : nearestEven (y / ulp p y) = ((s * 2 ^ (p - 1 - k) : ℕ) : ℤ) := by
      refine nearestEven_close ?_
      rw [hulp, ← hsw, ← sub_div, abs_div, abs_of_pos (by linarith : (0:ℝ) < 2 * h), div_lt_iff₀ (by linarith)]
      linarith
    unfold rndBin
    rw [hne, ← hsw, hulp]
    field_simp

theorem sqrtExact_double : SqrtExact sqrtDouble := by
  intro k hk
  have : k < 2 ^ 53 := by
    by_contra h
    have : 2 ^ 53 * 2 ^ 53 ≤ k * k := Nat.mul_le_mul (by omega) (by omega)
    omega
  unfold sqrtDouble
  rw [rndBin_sqrt_sq 53 (by norm_num) k this, Nat.floor_natCast]

end Lalib
