import Verif.Spec.Ieee
import Verif.Proofs.Float
import Verif.Spec.Eval

/-! # IEEE 754 numbers: when a result is finite, and its value -/

namespace Lalib

namespace Fp
variable {F : Fmt}

theorem add_eq (a b : Fp F) : a + b = add a b := rfl
theorem sub_eq (a b : Fp F) : a - b = a + -b := rfl
theorem mul_eq (a b : Fp F) : a * b = mul a b := rfl
theorem div_eq (a b : Fp F) : a / b = div a b := rfl
theorem sqrt_eq (a : Fp F) : Sqrt.sqrt a = sqrt a := rfl
theorem zero_eq : (0 : Fp F) = fin false 0 F.isMag_zero := rfl
theorem one_eq : (1 : Fp F) = fin false 1 F.isMag_one := rfl
theorem lt_eq (a b : Fp F) : (a < b) = lt a b := rfl
theorem isZ_eq (a : Fp F) : IsZ a = isZero a := rfl
theorem divC_eq (a b : Fp F) : divC a b = .ok (a / b) := rfl
theorem sqrtC_eq (a : Fp F) : sqrtC a = .ok (Sqrt.sqrt a) := rfl

theorem divAt (b : Fp F) : DivAt b := fun _ => rfl

theorem isZ_zero : IsZ (0 : Fp F) := rfl

@[simp] theorem val_zero : (0 : Fp F).val = 0 := by show (if false then -(0 : ℝ) else 0) = 0; simp
@[simp] theorem val_one : (1 : Fp F).val = 1 := by show (if false then -(1 : ℝ) else 1) = 1; simp
@[simp] theorem isFin_zero : (0 : Fp F).IsFin := trivial
@[simp] theorem isFin_one : (1 : Fp F).IsFin := trivial
@[simp] theorem isFin_fin (s : Bool) (x : ℝ) (h : F.IsMag x) : (fin s x h : Fp F).IsFin := trivial
@[simp] theorem not_isFin_nan : ¬ (nan : Fp F).IsFin := id
@[simp] theorem not_isFin_inf (s : Bool) : ¬ (inf s : Fp F).IsFin := id

theorem IsFin.cases {a : Fp F} (h : a.IsFin) : ∃ s x hx, a = fin s x hx := by
  cases a with
  | nan => exact absurd h id
  | inf s => exact absurd h id
  | fin s x hx => exact ⟨s, x, hx, rfl⟩

theorem isZ_iff (a : Fp F) : IsZ a ↔ a.IsFin ∧ a.val = 0 := by
  cases a with
  | nan => simp [isZ_eq, isZero]
  | inf s => simp [isZ_eq, isZero]
  | fin s x h => cases s <;> simp [isZ_eq, isZero, val]

/-! ## Negation -/

@[simp] theorem neg_nan : -(nan : Fp F) = nan := rfl
theorem neg_inf (s : Bool) : -(inf s : Fp F) = inf !s := rfl
theorem neg_fin (s : Bool) (x : ℝ) (h : F.IsMag x) : -(fin s x h : Fp F) = fin (!s) x h := rfl

@[simp] theorem isFin_neg (a : Fp F) : (-a).IsFin ↔ a.IsFin := by cases a <;> exact Iff.rfl

@[simp] theorem val_neg (a : Fp F) : (-a).val = -a.val := by
  cases a with
  | nan => simp [val]
  | inf s => simp [val]
  | fin s x h => cases s <;> simp [val]

theorem neg_eq_nan (a : Fp F) : -a = nan ↔ a = nan := by cases a <;> simp [Neg.neg]

/-! ## Rounded results -/

theorem isFin_round (z : Bool) (r : ℝ) : (round F z r).IsFin ↔ F.rnd |r| < F.top := by
  unfold round
  split
  · next h => exact iff_of_true trivial h
  · next h => exact iff_of_false id h

theorem round_ne_nan (z : Bool) (r : ℝ) : round F z r ≠ nan := by
  unfold round
  split <;> simp

theorem val_round {z : Bool} {r : ℝ} (h : (round F z r).IsFin) : (round F z r).val = F.rnd r := by
  have h' := (isFin_round z r).mp h
  unfold round
  rw [dif_pos h']
  unfold val
  by_cases h0 : r = 0
  · subst h0; simp [F.rnd_zero]
  · rw [if_neg h0]
    rcases lt_or_gt_of_ne h0 with hr | hr
    · simp only [decide_true, hr, if_true]
      rw [abs_of_neg hr, F.rnd_neg, neg_neg]
    · have : ¬ r < 0 := not_lt.mpr hr.le
      simp only [this, decide_false, Bool.false_eq_true, if_false]
      rw [abs_of_pos hr]

/-! ## NaN -/

@[simp] theorem nan_add (a : Fp F) : nan + a = nan := rfl
@[simp] theorem add_nan (a : Fp F) : a + nan = nan := by cases a <;> rfl
@[simp] theorem nan_sub (a : Fp F) : nan - a = nan := rfl
@[simp] theorem sub_nan (a : Fp F) : a - nan = nan := add_nan _
@[simp] theorem nan_mul (a : Fp F) : nan * a = nan := rfl
@[simp] theorem mul_nan (a : Fp F) : a * nan = nan := by cases a <;> rfl
@[simp] theorem nan_div (a : Fp F) : nan / a = nan := rfl
@[simp] theorem div_nan (a : Fp F) : a / nan = nan := by cases a <;> rfl
@[simp] theorem sqrt_nan : Sqrt.sqrt (nan : Fp F) = nan := rfl
@[simp] theorem not_nan_lt (a : Fp F) : ¬ nan < a := id
@[simp] theorem not_lt_nan (a : Fp F) : ¬ a < nan := by cases a <;> exact id
@[simp] theorem not_isZ_nan : ¬ IsZ (nan : Fp F) := id
@[simp] theorem not_isZ_inf (s : Bool) : ¬ IsZ (inf s : Fp F) := id

/-! ## Sums -/

theorem isFin_add (a b : Fp F) : (a + b).IsFin ↔ a.IsFin ∧ b.IsFin ∧ F.rnd |a.val + b.val| < F.top := by
  cases a <;> cases b <;> simp only [add_eq, add]
  all_goals first
    | (simp; done)
    | (rw [isFin_round]; simp)
    | (split <;> simp)

theorem val_add {a b : Fp F} (h : (a + b).IsFin) : (a + b).val = F.rnd (a.val + b.val) := by
  obtain ⟨ha, hb, _⟩ := (isFin_add a b).mp h
  obtain ⟨s, x, hx, rfl⟩ := ha.cases
  obtain ⟨t, y, hy, rfl⟩ := hb.cases
  exact val_round h

theorem isFin_sub (a b : Fp F) : (a - b).IsFin ↔ a.IsFin ∧ b.IsFin ∧ F.rnd |a.val - b.val| < F.top := by
  rw [sub_eq, isFin_add, isFin_neg, val_neg, ← sub_eq_add_neg]

theorem val_sub {a b : Fp F} (h : (a - b).IsFin) : (a - b).val = F.rnd (a.val - b.val) := by
  rw [sub_eq, val_add h, val_neg, ← sub_eq_add_neg]

theorem add_ne_nan {a b : Fp F} (h : a + b ≠ nan) : a ≠ nan ∧ b ≠ nan :=
  ⟨fun e => h (by rw [e, nan_add]), fun e => h (by rw [e, add_nan])⟩

/-! ## Products -/

theorem isFin_mul (a b : Fp F) : (a * b).IsFin ↔ a.IsFin ∧ b.IsFin ∧ F.rnd |a.val * b.val| < F.top := by
  cases a <;> cases b <;> simp only [mul_eq, mul]
  all_goals first
    | (simp; done)
    | (rw [isFin_round]; simp)
    | (split <;> simp)

theorem val_mul {a b : Fp F} (h : (a * b).IsFin) : (a * b).val = F.rnd (a.val * b.val) := by
  obtain ⟨ha, hb, _⟩ := (isFin_mul a b).mp h
  obtain ⟨s, x, hx, rfl⟩ := ha.cases
  obtain ⟨t, y, hy, rfl⟩ := hb.cases
  exact val_round h

/-! ## Quotients -/

/-- A finite quotient: the numerator is finite, the denominator is neither zero nor NaN. -/
theorem isFin_div (a b : Fp F) : (a / b).IsFin ↔ a.IsFin ∧ b ≠ nan ∧ ¬ IsZ b ∧
    (b.IsFin → F.rnd |a.val / b.val| < F.top) := by
  cases a <;> cases b <;> simp only [div_eq, div]
  all_goals first
    | (simp; done)
    | skip
  rename_i s x hx t y hy
  by_cases hy0 : y = 0
  · subst hy0
    have : IsZ (fin t 0 hy : Fp F) := rfl
    by_cases hx0 : x = 0 <;> simp [hx0, this]
  · have : ¬ IsZ (fin t y hy : Fp F) := hy0
    rw [if_neg hy0, isFin_round]
    simp [this]

theorem val_div {a b : Fp F} (h : (a / b).IsFin) (hb : b.IsFin) : (a / b).val = F.rnd (a.val / b.val) := by
  obtain ⟨ha, _, hz, _⟩ := (isFin_div a b).mp h
  obtain ⟨s, x, hx, rfl⟩ := ha.cases
  obtain ⟨t, y, hy, rfl⟩ := hb.cases
  have hy0 : ¬ y = 0 := hz
  have e : (fin s x hx / fin t y hy : Fp F) = round F (s ^^ t) ((fin s x hx : Fp F).val / (fin t y hy : Fp F).val) := by
    simp only [div_eq, div, if_neg hy0]
  rw [e] at h ⊢
  exact val_round h

/-- Dividing by an infinity gives zero. -/
theorem div_inf {a : Fp F} (ha : a.IsFin) (s : Bool) : IsZ (a / inf s) := by
  obtain ⟨t, x, hx, rfl⟩ := ha.cases
  exact (rfl : (0 : ℝ) = 0)

/-- `x / 0` is an infinity or NaN. -/
theorem not_isFin_div_zero (a : Fp F) {b : Fp F} (hb : IsZ b) : ¬ (a / b).IsFin :=
  fun h => ((isFin_div a b).mp h).2.2.1 hb

/-- `0 / 0`. -/
theorem zero_div_zero {a b : Fp F} (ha : IsZ a) (hb : IsZ b) : a / b = nan := by
  obtain ⟨s, x, hx, rfl⟩ := ((isZ_iff a).mp ha).1.cases
  obtain ⟨t, y, hy, rfl⟩ := ((isZ_iff b).mp hb).1.cases
  have hx0 : x = 0 := ha
  have hy0 : y = 0 := hb
  simp [div_eq, div, hx0, hy0]

theorem inf_div_inf (s t : Bool) : (inf s : Fp F) / inf t = nan := rfl
theorem inf_div_fin (s : Bool) {b : Fp F} (hb : b.IsFin) : ∃ t, (inf s : Fp F) / b = inf t := by
  obtain ⟨t, y, hy, rfl⟩ := hb.cases
  exact ⟨_, rfl⟩

theorem inf_mul_zero (s : Bool) {b : Fp F} (hb : IsZ b) : (inf s : Fp F) * b = nan := by
  obtain ⟨t, y, hy, rfl⟩ := ((isZ_iff b).mp hb).1.cases
  have hy0 : y = 0 := hb
  simp [mul_eq, mul, hy0]

theorem zero_mul_inf (s : Bool) {a : Fp F} (ha : IsZ a) : a * (inf s : Fp F) = nan := by
  obtain ⟨t, y, hy, rfl⟩ := ((isZ_iff a).mp ha).1.cases
  have hy0 : y = 0 := ha
  simp [mul_eq, mul, hy0]

/-- A product with a zero is a zero or NaN. -/
theorem zero_mul_cases {a : Fp F} (ha : IsZ a) (b : Fp F) : IsZ (a * b) ∨ a * b = nan := by
  obtain ⟨t, y, hy, rfl⟩ := ((isZ_iff a).mp ha).1.cases
  have hy0 : y = 0 := ha
  subst hy0
  cases b with
  | nan => exact .inr rfl
  | inf s => exact .inr (zero_mul_inf s rfl)
  | fin s x hx =>
    left
    have h : (fin t 0 hy * fin s x hx : Fp F).IsFin := by
      rw [isFin_mul]
      refine ⟨trivial, trivial, ?_⟩
      have : (fin t 0 hy : Fp F).val = 0 := by cases t <;> simp [val]
      rw [this, zero_mul, abs_zero, F.rnd_zero]; exact F.top_pos
    rw [isZ_iff]
    refine ⟨h, ?_⟩
    rw [val_mul h]
    have : (fin t 0 hy : Fp F).val = 0 := by cases t <;> simp [val]
    rw [this, zero_mul, F.rnd_zero]

/-! ## Roots -/

theorem val_nonneg_of_not_lt {a : Fp F} (ha : a.IsFin) (h : ¬ a < 0) : 0 ≤ a.val := by
  obtain ⟨s, x, hx, rfl⟩ := ha.cases
  rw [lt_eq, zero_eq] at h
  simp only [lt] at h
  have := not_lt.mp h
  simpa [val] using this

theorem fin_lt {a b : Fp F} (ha : a.IsFin) (hb : b.IsFin) : a < b ↔ a.val < b.val := by
  obtain ⟨s, x, hx, rfl⟩ := ha.cases
  obtain ⟨t, y, hy, rfl⟩ := hb.cases
  exact Iff.rfl

theorem isFin_sqrt_imp {a : Fp F} (h : (Sqrt.sqrt a).IsFin) : a.IsFin ∧ 0 ≤ a.val := by
  cases a with
  | nan => exact absurd h id
  | inf s => cases s <;> exact absurd h id
  | fin s x hx =>
    refine ⟨trivial, ?_⟩
    cases s with
    | false => simpa [val] using hx.1
    | true =>
      by_cases h0 : x = 0
      · simp [val, h0]
      · rw [sqrt_eq] at h; simp [sqrt, h0] at h

/-! ## Laws which hold -/

theorem round_val (s : Bool) (x : ℝ) (h : F.IsMag x) : round F s (fin s x h : Fp F).val = fin s x h := by
  have hv : |(fin s x h : Fp F).val| = x := by cases s <;> simp [val, abs_of_nonneg h.1]
  unfold round
  rw [dif_pos (by rw [hv, h.2.1]; exact h.2.2)]
  have e : F.rnd |(fin s x h : Fp F).val| = x := by rw [hv, h.2.1]
  simp only [e]
  congr 1
  split
  · rfl
  · next h0 =>
    have hx : 0 < x := lt_of_le_of_ne h.1 fun e0 => h0 (by cases s <;> simp [val, ← e0])
    cases s
    · simp [val, hx.le]
    · simp [val, hx]

protected theorem one_mul (a : Fp F) : 1 * a = a := by
  cases a with
  | nan => rfl
  | inf s => simp [mul_eq, one_eq, mul]
  | fin s x h =>
    have : (fin false 1 F.isMag_one : Fp F).val = 1 := val_one
    rw [mul_eq, one_eq]
    simp only [mul]
    rw [this, _root_.one_mul, Bool.false_xor, round_val]

protected theorem mul_comm (a b : Fp F) : a * b = b * a := by
  cases a <;> cases b <;> simp only [mul_eq, mul, Bool.xor_comm, mul_comm]

protected theorem add_comm (a b : Fp F) : a + b = b + a := by
  cases a <;> cases b <;> simp only [add_eq, add, Bool.and_comm, add_comm]
  next s t =>
    by_cases h : s = t
    · subst h; rfl
    · rw [if_neg h, if_neg (Ne.symm h)]

/-- Adding a zero does not change the value. -/
theorem add_zero_val {a z : Fp F} (ha : a.IsFin) (hz : IsZ z) : (a + z).IsFin ∧ (a + z).val = a.val := by
  obtain ⟨hzf, hz0⟩ := (isZ_iff z).mp hz
  have hr : F.rnd |a.val| < F.top := by
    obtain ⟨s, x, h, rfl⟩ := ha.cases
    have hv : |(fin s x h : Fp F).val| = x := by cases s <;> simp [val, abs_of_nonneg h.1]
    rw [hv, h.2.1]; exact h.2.2
  have h : (a + z).IsFin := (isFin_add a z).mpr ⟨ha, hzf, by rw [hz0, add_zero]; exact hr⟩
  refine ⟨h, ?_⟩
  rw [val_add h, hz0, add_zero]
  obtain ⟨s, x, hx, rfl⟩ := ha.cases
  cases s
  · simpa [val] using hx.2.1
  · simp only [val, if_true]; rw [F.rnd_neg, hx.2.1]

/-! ## Sums of numbers that are not negative -/

/-- A finite number that is not negative, or plus infinity. -/
def Pos (a : Fp F) : Prop := a = inf false ∨ a.IsFin ∧ 0 ≤ a.val

theorem pos_zero : (0 : Fp F).Pos := .inr ⟨trivial, by simp⟩

theorem round_pos {z : Bool} {r : ℝ} (h : 0 ≤ r) : (round F z r).Pos := by
  by_cases hf : (round F z r).IsFin
  · refine .inr ⟨hf, ?_⟩
    rw [val_round hf]
    exact F.rnd_nonneg h
  · left
    unfold round at hf ⊢
    split
    · next h' => rw [dif_pos h'] at hf; exact absurd trivial hf
    · simp [h]

theorem Pos.add {a b : Fp F} (ha : a.Pos) (hb : b.Pos) : (a + b).Pos := by
  rcases ha with rfl | ⟨ha, va⟩ <;> rcases hb with rfl | ⟨hb, vb⟩
  · exact .inl rfl
  · obtain ⟨s, x, hx, rfl⟩ := hb.cases; exact .inl rfl
  · obtain ⟨s, x, hx, rfl⟩ := ha.cases; exact .inl rfl
  · obtain ⟨s, x, hx, rfl⟩ := ha.cases
    obtain ⟨t, y, hy, rfl⟩ := hb.cases
    exact round_pos (add_nonneg va vb)

theorem pos_mul_self {a : Fp F} (h : a ≠ nan) : (a * a).Pos := by
  cases a with
  | nan => exact absurd rfl h
  | inf s => left; simp [mul_eq, mul]
  | fin s x hx => exact round_pos (mul_self_nonneg _)

theorem Pos.not_lt {a : Fp F} (h : a.Pos) : ¬ a < 0 := by
  rcases h with rfl | ⟨ha, va⟩
  · intro h; cases h
  · rw [fin_lt ha isFin_zero, val_zero]; exact _root_.not_lt.mpr va

theorem Pos.ne_nan {a : Fp F} (h : a.Pos) : a ≠ nan := by
  rcases h with rfl | ⟨ha, _⟩
  · simp
  · rintro rfl; exact ha

theorem Pos.sqrt {a : Fp F} (h : a.Pos) : (Sqrt.sqrt a).Pos ∧ (a = inf false → Sqrt.sqrt a = inf false) := by
  rcases h with rfl | ⟨ha, va⟩
  · exact ⟨.inl rfl, fun _ => rfl⟩
  · obtain ⟨s, x, hx, rfl⟩ := ha.cases
    refine ⟨?_, fun h => by cases h⟩
    rw [sqrt_eq]
    simp only [Fp.sqrt]
    split
    · exact .inr ⟨trivial, va⟩
    · next h0 =>
      cases s with
      | false => exact round_pos (Real.sqrt_nonneg _)
      | true =>
        exfalso
        have : 0 ≤ -x := by simpa [val] using va
        exact h0 (le_antisymm (by linarith) hx.1)

end Fp

end Lalib
