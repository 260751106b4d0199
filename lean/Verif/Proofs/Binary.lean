import Verif.Spec.Float
import Mathlib.Tactic.Linarith
import Mathlib.Tactic.FieldSimp
import Mathlib.Tactic.Ring
import Mathlib.Tactic.NormNum
import Mathlib.Algebra.Order.Field.Power
import Mathlib.Tactic.Positivity

/-! # Binary rounding satisfies the standard model -/

namespace Lalib

theorem nearestEven_err (x : ℝ) : |(nearestEven x : ℝ) - x| ≤ 1 / 2 := by
  have h := Int.floor_add_fract x
  have h0 := Int.fract_nonneg x
  have h1 := Int.fract_lt_one x
  unfold nearestEven
  split_ifs <;> push_cast <;> rw [abs_le] <;> constructor <;> linarith

theorem nearestEven_int (z : ℤ) : nearestEven (z : ℝ) = z := by
  unfold nearestEven
  rw [if_pos (by simp), Int.floor_intCast]

theorem nearestEven_neg (x : ℝ) : nearestEven (-x) = -nearestEven x := by
  by_cases hx : Int.fract x = 0
  · obtain ⟨z, rfl⟩ : ∃ z : ℤ, x = z := ⟨⌊x⌋, by have := Int.floor_add_fract x; linarith⟩
    have : (-(z : ℝ)) = ((-z : ℤ) : ℝ) := by push_cast; rfl
    rw [this, nearestEven_int, nearestEven_int]
  · have hf : Int.fract (-x) = 1 - Int.fract x := Int.fract_neg hx
    have hfl : ⌊-x⌋ = -⌊x⌋ - 1 := by
      have h1 := Int.floor_add_fract (-x)
      have h2 := Int.floor_add_fract x
      have : ((⌊-x⌋ : ℤ) : ℝ) = ((-⌊x⌋ - 1 : ℤ) : ℝ) := by push_cast; linarith
      exact_mod_cast this
    unfold nearestEven
    rw [hf, hfl]
    rcases lt_trichotomy (Int.fract x) (1 / 2) with h | h | h
    · rw [if_neg (by linarith), if_pos (by linarith), if_pos h]; ring
    · rw [if_neg (by linarith), if_neg (by linarith), if_neg (show ¬ Int.fract x < 1 / 2 by linarith),
        if_neg (show ¬ 1 / 2 < Int.fract x by linarith)]
      by_cases he : Even ⌊x⌋
      · rw [if_pos he, if_neg ?_]
        · ring
        · intro h'
          have : Even ((-⌊x⌋ - 1) + ⌊x⌋) := h'.add he
          rw [show (-⌊x⌋ - 1) + ⌊x⌋ = -1 by ring] at this
          exact absurd this (by decide)
      · rw [if_neg he, if_pos ?_]
        · ring
        · rw [Int.not_even_iff_odd] at he
          have : Odd (-1 : ℤ) := by decide
          have := he.neg.add_odd this
          rwa [← sub_eq_add_neg] at this
    · rw [if_pos (by linarith), if_neg (by linarith), if_pos h]; ring

theorem ulp_pos (p : ℕ) (x : ℝ) : 0 < ulp p x := by unfold ulp; positivity

theorem ulp_neg (p : ℕ) (x : ℝ) : ulp p (-x) = ulp p x := by unfold ulp; rw [abs_neg]

theorem rndBin_neg (p : ℕ) (x : ℝ) : rndBin p (-x) = -rndBin p x := by
  unfold rndBin
  rw [ulp_neg, neg_div, nearestEven_neg]
  push_cast; ring

theorem rndBin_abs_err (p : ℕ) (x : ℝ) : |rndBin p x - x| ≤ ulp p x / 2 := by
  have h0 := ulp_pos p x
  have h := nearestEven_err (x / ulp p x)
  have e : rndBin p x - x = (nearestEven (x / ulp p x) - x / ulp p x) * ulp p x := by
    unfold rndBin; field_simp
  rw [e, abs_mul, abs_of_pos h0]
  nlinarith

theorem ulp_le (p : ℕ) {x : ℝ} (hx : x ≠ 0) : ulp p x ≤ 2 * ((1 / 2) ^ p * |x|) := by
  have h := Int.zpow_log_le_self (b := 2) (by norm_num) (abs_pos.mpr hx)
  unfold ulp
  rw [zpow_sub₀ (by norm_num), zpow_add₀ (by norm_num), zpow_one, zpow_natCast]
  have : (0 : ℝ) < 2 ^ p := by positivity
  rw [div_pow, one_pow, div_le_iff₀ this]
  have e : 2 * (1 / 2 ^ p * |x|) * 2 ^ p = 2 * |x| := by field_simp
  rw [e]
  push_cast at h
  linarith

theorem rndBin_err (p : ℕ) (x : ℝ) : |rndBin p x - x| ≤ (1 / 2) ^ p * |x| := by
  by_cases hx : x = 0
  · subst hx; simp [rndBin, nearestEven]
  · have h1 := rndBin_abs_err p x
    have h2 := ulp_le p hx
    linarith

/-- Integer multiples `z * 2^e` with `|z| ≤ 2^p` are not changed. -/
theorem rndBin_fix (p : ℕ) (z e : ℤ) (hp : 1 ≤ p) (hz : |z| ≤ 2 ^ p) : rndBin p (z * (2 : ℝ) ^ e) = z * (2 : ℝ) ^ e := by
  by_cases h0 : z = 0
  · subst h0; simp [rndBin, nearestEven]
  set x : ℝ := z * (2 : ℝ) ^ e with hx
  have hx0 : x ≠ 0 := mul_ne_zero (by exact_mod_cast h0) (by positivity)
  obtain ⟨w, hw⟩ : ∃ w : ℤ, x = w * ulp p x := by
    have hl := Int.zpow_log_le_self (b := 2) (by norm_num) (abs_pos.mpr hx0)
    set k := Int.log 2 |x| with hk
    have hax : |x| = |(z : ℝ)| * (2 : ℝ) ^ e := by rw [hx, abs_mul, abs_of_pos (by positivity : (0 : ℝ) < 2 ^ e)]
    have hzr : |(z : ℝ)| ≤ (2 : ℝ) ^ (p : ℤ) := by rw [zpow_natCast]; exact_mod_cast hz
    have hb : (2 : ℝ) ^ k ≤ (2 : ℝ) ^ ((p : ℤ) + e) := by
      rw [zpow_add₀ (by norm_num)]
      have : (2 : ℝ) ^ k ≤ |x| := by exact_mod_cast hl
      rw [hax] at this
      have hp : (0 : ℝ) < 2 ^ e := by positivity
      nlinarith
    have hke : k ≤ p + e := (zpow_le_zpow_iff_right₀ (by norm_num : (1 : ℝ) < 2)).mp hb
    by_cases hlt : k < p + e
    · -- the ulp divides 2^e
      obtain ⟨d, hd⟩ : ∃ d : ℕ, e = (k + 1 - p) + d := ⟨(e - (k + 1 - p)).toNat, by omega⟩
      refine ⟨z * 2 ^ d, ?_⟩
      unfold ulp
      rw [← hk, hx]
      push_cast
      have : (2 : ℝ) ^ e = 2 ^ (k + 1 - (p : ℤ)) * 2 ^ d := by
        rw [← zpow_natCast, ← zpow_add₀ (by norm_num), ← hd]
      rw [this]; ring
    · have hke' : k = p + e := by omega
      -- |z| = 2^p exactly
      have h1 : (2 : ℝ) ^ k ≤ |(z : ℝ)| * (2 : ℝ) ^ e := by rw [← hax]; exact_mod_cast hl
      rw [hke', zpow_add₀ (by norm_num)] at h1
      have h2 : (2 : ℝ) ^ (p : ℤ) ≤ |(z : ℝ)| := le_of_mul_le_mul_right h1 (by positivity)
      have h3 : |(z : ℝ)| = 2 ^ p := by rw [zpow_natCast] at h2 hzr; exact le_antisymm hzr h2
      have h4 : |z| = 2 ^ p := by exact_mod_cast h3
      · obtain ⟨q, rfl⟩ : ∃ q, p = q + 1 := ⟨p - 1, by omega⟩
        refine ⟨z.sign * 2 ^ q, ?_⟩
        have hz' : z = z.sign * 2 ^ (q + 1) := by rw [← h4, Int.sign_mul_abs]
        unfold ulp
        rw [← hk, hke', hx]
        have : (2 : ℝ) ^ (((q + 1 : ℕ) : ℤ) + e + 1 - ((q + 1 : ℕ) : ℤ)) = 2 ^ e * 2 := by
          rw [show ((q + 1 : ℕ) : ℤ) + e + 1 - ((q + 1 : ℕ) : ℤ) = e + 1 by ring, zpow_add₀ (by norm_num), zpow_one]
        rw [this]
        conv_lhs => rw [hz']
        push_cast; ring
  have hu := ulp_pos p x
  have : x / ulp p x = w := by rw [div_eq_iff hu.ne']; exact hw
  unfold rndBin
  rw [this, nearestEven_int]
  exact hw.symm

theorem rndBin_int (p : ℕ) (hp : 1 ≤ p) (z : ℤ) (hz : |z| ≤ 2 ^ p) : rndBin p z = z := by
  have := rndBin_fix p z 0 hp hz
  simpa using this

theorem rndBin_idem (p : ℕ) (hp : 1 ≤ p) (x : ℝ) : rndBin p (rndBin p x) = rndBin p x := by
  refine rndBin_fix p _ _ hp ?_
  -- |x / ulp| < 2^p
  by_cases hx : x = 0
  · subst hx; simp [nearestEven]
  have hu := ulp_pos p x
  have hl := Int.lt_zpow_succ_log_self (b := 2) (by norm_num) |x|
  have h1 : |x / ulp p x| < 2 ^ p := by
    rw [abs_div, abs_of_pos hu, div_lt_iff₀ hu]
    unfold ulp
    rw [← zpow_natCast, ← zpow_add₀ (by norm_num)]
    have e : (p : ℤ) + (Int.log 2 |x| + 1 - p) = Int.log 2 |x| + 1 := by ring
    rw [e]
    exact_mod_cast hl
  have h2 := nearestEven_err (x / ulp p x)
  have h3 : |(nearestEven (x / ulp p x) : ℝ)| < 2 ^ p + 1 := by
    have := abs_add_le ((nearestEven (x / ulp p x) : ℝ) - x / ulp p x) (x / ulp p x)
    rw [sub_add_cancel] at this
    linarith
  have h4 : |nearestEven (x / ulp p x)| < 2 ^ p + 1 := by exact_mod_cast h3
  omega

/-- Rounding to `p` bits, with `u = 2^-p`. -/
noncomputable def binary (p : ℕ) (hp : 1 ≤ p) : Rounding where
  u := (1 / 2) ^ p
  u_nonneg := by positivity
  u_lt_one := by
    refine lt_of_le_of_lt (pow_le_of_le_one (by norm_num) (by norm_num) (by omega : p ≠ 0)) (by norm_num)
  rnd := rndBin p
  err := rndBin_err p
  idem := rndBin_idem p hp
  neg := fun x h => by rw [rndBin_neg, h]
  one := by
    have := rndBin_int p hp 1 (by simpa using one_le_pow₀ (by norm_num : (1 : ℤ) ≤ 2))
    simpa using this

end Lalib
