import Verif.Spec.Scaling
import Verif.Proofs.IeeeSolve
import Verif.Proofs.Float
import Verif.Proofs.IeeeSum

/-! # Factors that leave the arithmetic as it is -/

namespace Lalib

/-! ## Rounded arithmetic -/

namespace Rounding.Scale
variable {R : Rounding} {c d : ℝ}

theorem one : R.Scale 1 := ⟨one_ne_zero, by simp, by simp⟩

theorem mul (h : R.Scale c) (k : R.Scale d) : R.Scale (c * d) := by
  refine ⟨mul_ne_zero h.1 k.1, fun x => ?_, fun x => ?_⟩
  · rw [mul_assoc, h.2.1, k.2.1, mul_assoc]
  · rw [abs_mul, mul_assoc, h.2.2, k.2.2, mul_assoc]

theorem inv (h : R.Scale c) : R.Scale c⁻¹ := by
  have hc := h.1
  have hc' : |c| ≠ 0 := abs_ne_zero.mpr hc
  refine ⟨inv_ne_zero hc, fun x => ?_, fun x => ?_⟩
  · have := h.2.1 (c⁻¹ * x)
    rw [mul_inv_cancel_left₀ hc] at this
    rw [this, inv_mul_cancel_left₀ hc]
  · have := h.2.2 (|c|⁻¹ * x)
    rw [mul_inv_cancel_left₀ hc'] at this
    rw [abs_inv, this, inv_mul_cancel_left₀ hc']

theorem abs (h : R.Scale c) : R.Scale |c| :=
  ⟨abs_ne_zero.mpr h.1, h.2.2, by rw [abs_abs]; exact h.2.2⟩

theorem neg (hn : ∀ x, R.rnd (-x) = -R.rnd x) (h : R.Scale c) : R.Scale (-c) := by
  refine ⟨neg_ne_zero.mpr h.1, fun x => ?_, fun x => ?_⟩
  · rw [neg_mul, hn, h.2.1, neg_mul]
  · rw [abs_neg]; exact h.2.2 x

end Rounding.Scale

theorem log_two_zpow_mul (k : ℤ) {x : ℝ} (hx : 0 < x) : Int.log 2 ((2 : ℝ) ^ k * x) = Int.log 2 x + k := by
  have hp : (0 : ℝ) < 2 ^ k := by positivity
  apply le_antisymm
  · rw [← Int.lt_add_one_iff, ← Int.lt_zpow_iff_log_lt (by norm_num) (by positivity)]
    have := Int.lt_zpow_succ_log_self (b := 2) (by norm_num) x
    rw [show Int.log 2 x + k + 1 = k + (Int.log 2 x + 1) by ring, Nat.cast_ofNat, zpow_add₀ (by norm_num)]
    exact mul_lt_mul_of_pos_left (by exact_mod_cast this) hp
  · rw [← Int.zpow_le_iff_le_log (by norm_num) (by positivity), add_comm, Nat.cast_ofNat, zpow_add₀ (by norm_num)]
    have := Int.zpow_log_le_self (b := 2) (by norm_num) hx
    exact mul_le_mul_of_nonneg_left (by exact_mod_cast this) hp.le

theorem rndBin_zpow (p : ℕ) (k : ℤ) (x : ℝ) : rndBin p ((2 : ℝ) ^ k * x) = 2 ^ k * rndBin p x := by
  by_cases hx : x = 0
  · subst hx; simp [rndBin, nearestEven]
  have hp : (0 : ℝ) < 2 ^ k := by positivity
  have hu : ulp p ((2 : ℝ) ^ k * x) = 2 ^ k * ulp p x := by
    unfold ulp
    rw [abs_mul, abs_of_pos hp, log_two_zpow_mul k (abs_pos.mpr hx), ← zpow_add₀ (by norm_num)]
    congr 1; ring
  unfold rndBin
  rw [hu, mul_div_mul_left _ _ hp.ne']
  ring

/-- Powers of two commute with rounding to `p` bits. -/
theorem scale_zpow (p : ℕ) (hp : 1 ≤ p) (k : ℤ) : (binary p hp).Scale (2 ^ k) := by
  refine ⟨by positivity, fun x => rndBin_zpow p k x, fun x => ?_⟩
  rw [abs_of_pos (by positivity)]
  exact rndBin_zpow p k x

/-- So do their negatives. -/
theorem scale_neg_zpow (p : ℕ) (hp : 1 ≤ p) (k : ℤ) : (binary p hp).Scale (-2 ^ k) :=
  (scale_zpow p hp k).neg fun x => rndBin_neg p x

namespace Fl
variable {R : Rounding}

/-- Rounded arithmetic and the factors that commute with rounding. -/
noncomputable def scaling (R : Rounding) : Scaling (Fl R) where
  ok := R.Scale
  rel := Fl.Times
  ne_zero h := h.1
  ok_one := Rounding.Scale.one
  ok_mul h k := h.mul k
  ok_inv h := h.inv
  ok_abs h := h.abs
  refl a := (one_mul _).symm
  zero_any {c d a b} _ _ h r := by
    have h0 : a.val = 0 := by
      have : a = 0 := h
      rw [this]; rfl
    unfold Times at r ⊢
    rw [r, h0, mul_zero, mul_zero]
  isZ {c a b} hc r := by
    rw [isZ_iff, isZ_iff, ← not_iff_not, ← ne_eq, ← ne_eq, ne_zero_iff, ne_zero_iff]
    rw [show b.val = c * a.val from r]
    simp [hc.1]
  lt {c a b a' b'} hc r s := by
    show a.val < b.val ↔ a'.val < b'.val
    rw [show a'.val = |c| * a.val from r, show b'.val = |c| * b.val from s, mul_lt_mul_iff_right₀ (abs_pos.mpr hc.1)]
  neg {c a b} _ r := by
    show (-b).val = c * (-a).val
    rw [val_neg, val_neg, show b.val = c * a.val from r]; ring
  add {c a b a' b'} hc r s := by
    show (a' + b').val = c * (a + b).val
    rw [val_add, val_add, show a'.val = c * a.val from r, show b'.val = c * b.val from s, ← mul_add, hc.2.1]
  sub {c a b a' b'} hc r s := by
    show (a' - b').val = c * (a - b).val
    rw [val_sub, val_sub, show a'.val = c * a.val from r, show b'.val = c * b.val from s, ← mul_sub, hc.2.1]
  mul {c d a b a' b'} hc hd r s := by
    show (a' * b').val = c * d * (a * b).val
    rw [val_mul, val_mul, show a'.val = c * a.val from r, show b'.val = d * b.val from s, mul_mul_mul_comm,
      (hc.mul hd).2.1]
  div {c d a b a' b'} hc hd _ r s := by
    show (a' / b').val = c / d * (a / b).val
    rw [val_div, val_div, show a'.val = c * a.val from r, show b'.val = d * b.val from s, mul_div_mul_comm,
      div_eq_mul_inv c d, (hc.mul hd.inv).2.1]
  sqrt {c a b} hc r := by
    show (Sqrt.sqrt b).val = |c| * (Sqrt.sqrt a).val
    rw [val_sqrt, val_sqrt, show b.val = c * c * a.val from r, Real.sqrt_mul (mul_self_nonneg c), Real.sqrt_mul_self_eq_abs,
      hc.2.2]
  sqrtC {c a b} hc r := by
    have hlt : a < 0 ↔ b < 0 := by
      show a.val < 0 ↔ b.val < 0
      rw [show b.val = c * c * a.val from r]
      exact ⟨fun h => mul_neg_of_pos_of_neg (mul_self_pos.mpr hc.1) h, fun h => by
        by_contra hn
        exact absurd h (not_lt.mpr (mul_nonneg (mul_self_nonneg c) (not_lt.mp hn)))⟩
    rw [sqrtC_eq, sqrtC_eq]
    by_cases h : a < 0
    · rw [if_pos h, if_pos (hlt.mp h)]; rfl
    · rw [if_neg h, if_neg fun h' => h (hlt.mpr h')]
      show (Sqrt.sqrt b).val = |c| * (Sqrt.sqrt a).val
      rw [val_sqrt, val_sqrt, show b.val = c * c * a.val from r, Real.sqrt_mul (mul_self_nonneg c), Real.sqrt_mul_self_eq_abs,
        hc.2.2]
  divSq {c d a a' g g' n} hc hd r r0 hg := by
    have key : ∀ k, Times (d * d) (addUp (fun i => g i * g i) 1 (min k n) (g 0 * g 0))
        (addUp (fun i => g' i * g' i) 1 (min k n) (g' 0 * g' 0)) := by
      have sq : ∀ k, Times d (g k) (g' k) → Times (d * d) (g k * g k) (g' k * g' k) := by
        intro k r
        show (g' k * g' k).val = d * d * (g k * g k).val
        rw [val_mul, val_mul, show (g' k).val = d * (g k).val from r, mul_mul_mul_comm, (hd.mul hd).2.1]
      intro k
      induction k with
      | zero => rw [Nat.zero_min, Fp.addUp_ge _ (by omega), Fp.addUp_ge _ (by omega)]; exact sq 0 r0
      | succ k ih =>
        by_cases hk : k < n
        · rw [Nat.min_eq_left (by omega)] at ih ⊢
          cases k with
          | zero => rw [Fp.addUp_ge _ (by omega), Fp.addUp_ge _ (by omega)]; exact sq 0 r0
          | succ k =>
            rw [show k + 1 + 1 = 1 + (k + 1) by omega, Fp.addUp_succ, Fp.addUp_succ, show 1 + k = k + 1 by omega]
            have s := sq (k + 1) (hg _ hk)
            show (_ + _ : Fl R).val = d * d * (_ + _ : Fl R).val
            rw [val_add, val_add, show Fl.val _ = _ from ih, show Fl.val _ = _ from s, ← mul_add, (hd.mul hd).2.1]
        · rw [Nat.min_eq_right (by omega)] at ih ⊢
          exact ih
    have hs := key n
    rw [Nat.min_self] at hs
    generalize addUp (fun i => g i * g i) 1 n (g 0 * g 0) = b at hs
    generalize addUp (fun i => g' i * g' i) 1 n (g' 0 * g' 0) = b' at hs
    have hz : b = 0 ↔ b' = 0 := by
      rw [← not_iff_not, ← ne_eq, ← ne_eq, ne_zero_iff, ne_zero_iff, show b'.val = d * d * b.val from hs]
      simp [hd.1]
    by_cases hb : b = 0
    · rw [hb, hz.mp hb, divC_zero, divC_zero]; rfl
    · rw [divC_ok hb, divC_ok fun h => hb (hz.mpr h)]
      show (a' / b').val = c / (d * d) * (a / b).val
      rw [val_div, val_div, show a'.val = c * a.val from r, show b'.val = d * d * b.val from hs, mul_div_mul_comm,
        div_eq_mul_inv c (d * d), (hc.mul (hd.mul hd).inv).2.1]
  isZ_zero := rfl
  div_ok b h := divAt_of h
  sqrt_ok v h h0 := by
    refine ⟨by rw [sqrtC_eq, if_neg h], ?_⟩
    have hv : 0 < v.val := lt_of_le_of_ne (not_lt.mp h) fun e => (ne_zero_iff v).mp h0 e.symm
    rw [isZ_iff, ← ne_eq, ne_zero_iff]
    obtain ⟨ρ, hρ, e⟩ := sqrt_fac v
    rw [e]
    exact mul_ne_zero (Real.sqrt_ne_zero'.mpr hv) (hρ.pos R.u_nonneg R.u_lt_one).ne'

end Fl

/-! ## IEEE 754 numbers -/

namespace Fp
variable {F : Fmt}

theorem neg_neg' (a : Fp F) : - -a = a := by
  cases a <;> simp [Neg.neg]

theorem isZ_neg_iff (a : Fp F) : IsZ (-a) ↔ IsZ a := by
  cases a <;> rfl

theorem Eqv.rfl' (a : Fp F) : Eqv a a := .inl rfl

theorem Eqv.symm {a b : Fp F} (h : Eqv a b) : Eqv b a := by
  rcases h with rfl | h
  · exact .inl rfl
  · exact .inr h.symm

theorem Eqv.isZ {a b : Fp F} (h : Eqv a b) : IsZ a ↔ IsZ b := by
  rcases h with rfl | h
  · exact Iff.rfl
  · exact ⟨fun _ => h.2, fun _ => h.1⟩

theorem Eqv.trans {a b c : Fp F} (h : Eqv a b) (k : Eqv b c) : Eqv a c := by
  rcases h with rfl | h
  · exact k
  · exact .inr ⟨h.1, k.isZ.mp h.2⟩

theorem Eqv.neg {a b : Fp F} (h : Eqv a b) : Eqv (-a) (-b) := by
  rcases h with rfl | h
  · exact .inl rfl
  · exact .inr ⟨(isZ_neg_iff a).mpr h.1, (isZ_neg_iff b).mpr h.2⟩

/-- A zero. -/
theorem isZ_cases {a : Fp F} (h : IsZ a) : ∃ s, a = fin s 0 F.isMag_zero := by
  cases a with
  | nan => exact absurd h id
  | inf s => exact absurd h id
  | fin s x hx =>
    have : x = 0 := h
    subst this
    exact ⟨s, rfl⟩

theorem val_zeroS (s : Bool) : (fin s 0 F.isMag_zero : Fp F).val = 0 := by cases s <;> simp [val]

theorem round_zero (z : Bool) : round F z 0 = fin z 0 F.isMag_zero := by
  have := round_val z 0 F.isMag_zero
  rwa [val_zeroS] at this

theorem round_ne {r : ℝ} (h : r ≠ 0) (z z' : Bool) : round F z r = round F z' r := by
  unfold round
  simp only [if_neg h]

theorem round_neg (z : Bool) (r : ℝ) : round F (!z) (-r) = -round F z r := by
  by_cases h : r = 0
  · subst h; rw [neg_zero, round_zero, round_zero]; rfl
  · unfold round
    simp only [abs_neg, neg_eq_zero, if_neg h]
    have e : decide (-r < 0) = !decide (r < 0) := by
      rw [← decide_not, decide_eq_decide, not_lt, neg_lt_zero]
      exact ⟨le_of_lt, fun h' => lt_of_le_of_ne h' (Ne.symm h)⟩
    split <;> simp only [e] <;> rfl

theorem val_neg' (a : Fp F) : (-a).val = -a.val := by
  cases a with
  | nan => show (0 : ℝ) = -0; simp
  | inf s => show (0 : ℝ) = -0; simp
  | fin s x h => rw [neg_fin]; cases s <;> simp [val]

theorem Eqv.add_left {a a' : Fp F} (h : Eqv a a') (b : Fp F) : Eqv (a + b) (a' + b) := by
  rcases h with rfl | ⟨h, h'⟩
  · exact .inl rfl
  obtain ⟨s, rfl⟩ := isZ_cases h
  obtain ⟨t, rfl⟩ := isZ_cases h'
  cases b with
  | nan => exact .inl rfl
  | inf s => exact .inl rfl
  | fin w x hx =>
    simp only [add_eq, add, val_zeroS, zero_add]
    by_cases h0 : (fin w x hx : Fp F).val = 0
    · rw [h0, round_zero, round_zero]; exact .inr ⟨rfl, rfl⟩
    · exact .inl (round_ne h0 _ _)

theorem Eqv.add {a a' b b' : Fp F} (h : Eqv a a') (k : Eqv b b') : Eqv (a + b) (a' + b') := by
  refine (h.add_left b).trans ?_
  rw [Fp.add_comm a' b, Fp.add_comm a' b']
  exact k.add_left a'

theorem Eqv.mul_left {a a' : Fp F} (h : Eqv a a') (b : Fp F) : Eqv (a * b) (a' * b) := by
  rcases h with rfl | ⟨h, h'⟩
  · exact .inl rfl
  obtain ⟨s, rfl⟩ := isZ_cases h
  obtain ⟨t, rfl⟩ := isZ_cases h'
  cases b with
  | nan => exact .inl rfl
  | inf s => simp only [mul_eq, mul, if_true]; exact .inl rfl
  | fin w x hx =>
    simp only [mul_eq, mul, val_zeroS, zero_mul, round_zero]
    exact .inr ⟨rfl, rfl⟩

theorem Eqv.mul {a a' b b' : Fp F} (h : Eqv a a') (k : Eqv b b') : Eqv (a * b) (a' * b') := by
  refine (h.mul_left b).trans ?_
  rw [Fp.mul_comm a' b, Fp.mul_comm a' b']
  exact k.mul_left a'

theorem Eqv.div {a a' b b' : Fp F} (h0 : ¬ IsZ b) (h : Eqv a a') (k : Eqv b b') : Eqv (a / b) (a' / b') := by
  rcases k with rfl | k
  swap
  · exact absurd k.1 h0
  rcases h with rfl | ⟨h, h'⟩
  · exact .inl rfl
  obtain ⟨s, rfl⟩ := isZ_cases h
  obtain ⟨t, rfl⟩ := isZ_cases h'
  cases b with
  | nan => exact .inl rfl
  | inf s => exact .inr ⟨rfl, rfl⟩
  | fin w x hx =>
    have h0' : ¬ x = 0 := h0
    simp only [div_eq, Fp.div, if_neg h0', val_zeroS, zero_div, round_zero]
    exact .inr ⟨rfl, rfl⟩

theorem Eqv.sqrt {a a' : Fp F} (h : Eqv a a') : Eqv (Sqrt.sqrt a) (Sqrt.sqrt a') := by
  rcases h with rfl | ⟨h, h'⟩
  · exact .inl rfl
  obtain ⟨s, rfl⟩ := isZ_cases h
  obtain ⟨t, rfl⟩ := isZ_cases h'
  simp only [sqrt_eq, Fp.sqrt, if_true]
  exact .inr ⟨rfl, rfl⟩

theorem Eqv.lt {a a' b b' : Fp F} (h : Eqv a a') (k : Eqv b b') : a < b ↔ a' < b' := by
  have left : ∀ {a a' : Fp F} (b : Fp F), Eqv a a' → (a < b ↔ a' < b) := by
    intro a a' b h
    rcases h with rfl | ⟨h, h'⟩
    · exact Iff.rfl
    obtain ⟨s, rfl⟩ := isZ_cases h
    obtain ⟨t, rfl⟩ := isZ_cases h'
    cases b with
    | nan => exact Iff.rfl
    | inf s => exact Iff.rfl
    | fin w x hx => simp only [lt_eq, Fp.lt, val_zeroS]
  have right : ∀ {b b' : Fp F} (a : Fp F), Eqv b b' → (a < b ↔ a < b') := by
    intro b b' a h
    rcases h with rfl | ⟨h, h'⟩
    · exact Iff.rfl
    obtain ⟨s, rfl⟩ := isZ_cases h
    obtain ⟨t, rfl⟩ := isZ_cases h'
    cases a with
    | nan => exact Iff.rfl
    | inf s => exact Iff.rfl
    | fin w x hx => simp only [lt_eq, Fp.lt, val_zeroS]
  exact (left b h).trans (right a' k)

/-- Zeros over the same number. -/
theorem Eqv.div_same {a a' : Fp F} (h : Eqv a a') (b : Fp F) : Eqv (a / b) (a' / b) := by
  by_cases h0 : IsZ b
  · rcases h with rfl | ⟨h, h'⟩
    · exact .inl rfl
    · exact .inl (by rw [zero_div_zero h h0, zero_div_zero h' h0])
  · exact Eqv.div h0 h (.inl rfl)

theorem neg_mul' (a b : Fp F) : -a * b = -(a * b) := by
  cases a with
  | nan => rfl
  | inf s =>
    cases b with
    | nan => rfl
    | inf t => simp [mul_eq, mul, neg_inf]
    | fin t y k =>
      simp only [mul_eq, mul, neg_inf]
      split
      · rfl
      · simp [neg_inf]
  | fin s x h =>
    cases b with
    | nan => rfl
    | inf t =>
      simp only [mul_eq, mul, neg_fin]
      split
      · rfl
      · simp [neg_inf]
    | fin t y k =>
      rw [neg_fin]
      simp only [mul_eq, mul]
      rw [← round_neg, ← neg_fin, val_neg', Bool.not_xor, neg_mul]

theorem mul_neg' (a b : Fp F) : a * -b = -(a * b) := by
  rw [Fp.mul_comm, neg_mul', Fp.mul_comm]

theorem neg_div' (a b : Fp F) : -a / b = -(a / b) := by
  cases a with
  | nan => rfl
  | inf s =>
    cases b with
    | nan => rfl
    | inf t => rfl
    | fin t y k => simp [div_eq, div, neg_inf]
  | fin s x h =>
    cases b with
    | nan => rfl
    | inf t => simp [div_eq, div, neg_fin]
    | fin t y k =>
      rw [neg_fin]
      simp only [div_eq, div]
      split
      · split
        · rfl
        · simp [neg_inf]
      · rw [← round_neg, ← neg_fin, val_neg', Bool.not_xor, neg_div]

theorem div_neg' (a b : Fp F) : a / -b = -(a / b) := by
  cases a with
  | nan => cases b <;> rfl
  | inf s =>
    cases b with
    | nan => rfl
    | inf t => rfl
    | fin t y k => simp [div_eq, div, neg_inf, neg_fin]
  | fin s x h =>
    cases b with
    | nan => rfl
    | inf t => simp [div_eq, div, neg_fin, neg_inf]
    | fin t y k =>
      rw [neg_fin]
      simp only [div_eq, div]
      split
      · split
        · rfl
        · simp [neg_inf]
      · rw [← round_neg, ← neg_fin, val_neg', Bool.xor_not, div_neg]

theorem neg_add' (a b : Fp F) : Eqv (-(a + b)) (-a + -b) := by
  cases a with
  | nan => exact .inl rfl
  | inf s =>
    cases b with
    | nan => exact .inl rfl
    | inf t => left; cases s <;> cases t <;> simp [add_eq, add, neg_inf]
    | fin t y k => exact .inl rfl
  | fin s x h =>
    cases b with
    | nan => exact .inl rfl
    | inf t => exact .inl rfl
    | fin t y k =>
      rw [neg_fin, neg_fin]
      simp only [add_eq, add]
      rw [← round_neg, ← neg_fin, ← neg_fin, val_neg', val_neg', ← _root_.neg_add]
      by_cases h0 : (fin s x h : Fp F).val + (fin t y k : Fp F).val = 0
      · rw [h0, neg_zero, round_zero, round_zero]; exact .inr ⟨rfl, rfl⟩
      · exact .inl (round_ne (neg_ne_zero.mpr h0) _ _)

/-- Multiply by a sign. -/
noncomputable def sg (c : ℝ) (a : Fp F) : Fp F := open Classical in if c = 1 then a else -a

theorem signed_iff {c : ℝ} {a b : Fp F} : Signed c a b ↔ Eqv (sg c a) b := Iff.rfl

theorem sg_one (a : Fp F) : sg 1 a = a := by simp [sg]
theorem sg_neg (a : Fp F) : sg (-1) a = -a := by
  unfold sg; rw [if_neg (by norm_num)]

theorem isZ_sg (c : ℝ) (a : Fp F) : IsZ (sg c a) ↔ IsZ a := by
  unfold sg
  split
  · exact Iff.rfl
  · exact isZ_neg_iff a

/-- The factors are the signs. -/
def IsSign (c : ℝ) : Prop := c = 1 ∨ c = -1

theorem IsSign.sq {c : ℝ} (h : IsSign c) : c * c = 1 := by rcases h with rfl | rfl <;> norm_num
theorem IsSign.abs {c : ℝ} (h : IsSign c) : |c| = 1 := by rcases h with rfl | rfl <;> norm_num

theorem sg_add {c : ℝ} (hc : IsSign c) (a b : Fp F) : Eqv (sg c (a + b)) (sg c a + sg c b) := by
  rcases hc with rfl | rfl
  · simp only [sg_one]; exact .rfl' _
  · simp only [sg_neg]; exact neg_add' a b

theorem sg_negC {c : ℝ} (hc : IsSign c) (a : Fp F) : sg c (-a) = -sg c a := by
  rcases hc with rfl | rfl
  · simp only [sg_one]
  · simp only [sg_neg]

theorem sg_mul {c d : ℝ} (hc : IsSign c) (hd : IsSign d) (a b : Fp F) : sg (c * d) (a * b) = sg c a * sg d b := by
  rcases hc with rfl | rfl <;> rcases hd with rfl | rfl
  · simp only [one_mul, sg_one]
  · simp only [one_mul, sg_one, sg_neg, mul_neg']
  · simp only [mul_one, sg_one, sg_neg, neg_mul']
  · rw [show (-1 : ℝ) * -1 = 1 by norm_num]
    simp only [sg_one, sg_neg, neg_mul', mul_neg', neg_neg']

theorem sg_div {c d : ℝ} (hc : IsSign c) (hd : IsSign d) (a b : Fp F) : sg (c / d) (a / b) = sg c a / sg d b := by
  rcases hc with rfl | rfl <;> rcases hd with rfl | rfl
  · simp only [div_one, sg_one]
  · rw [show (1 : ℝ) / -1 = -1 by norm_num]
    simp only [sg_one, sg_neg, div_neg']
  · simp only [div_one, sg_one, sg_neg, neg_div']
  · rw [show (-1 : ℝ) / -1 = 1 by norm_num]
    simp only [sg_one, sg_neg, neg_div', div_neg', neg_neg']

/-- The squares of the two runs are the same number. -/
theorem signed_sq {d : ℝ} (hd : IsSign d) {a b : Fp F} (h : Signed d a b) : b * b = a * a := by
  rw [signed_iff] at h
  rcases h with rfl | ⟨h1, h2⟩
  · rw [← sg_mul hd hd, hd.sq, sg_one]
  · obtain ⟨s, rfl⟩ := isZ_cases ((isZ_sg d a).mp h1)
    obtain ⟨t, rfl⟩ := isZ_cases h2
    simp only [mul_eq, mul, val_zeroS, mul_zero, Bool.xor_self]

/-- IEEE 754 numbers and the signs. -/
noncomputable def scaling (F : Fmt) : Scaling (Fp F) where
  ok := IsSign
  rel := Fp.Signed
  ne_zero h := by rcases h with rfl | rfl <;> norm_num
  ok_one := .inl rfl
  ok_mul h k := by rcases h with rfl | rfl <;> rcases k with rfl | rfl <;> norm_num [IsSign]
  ok_inv h := by rcases h with rfl | rfl <;> norm_num [IsSign]
  ok_abs h := .inl h.abs
  refl a := by rw [signed_iff, sg_one]; exact .rfl' a
  zero_any {c d a b} _ _ h r := by
    rw [signed_iff] at r ⊢
    exact .inr ⟨(isZ_sg d a).mpr h, r.isZ.mp ((isZ_sg c a).mpr h)⟩
  isZ {c a b} _ r := by
    rw [signed_iff] at r
    rw [← isZ_sg c a]; exact r.isZ
  lt {c a b a' b'} hc r s := by
    rw [hc.abs, signed_iff, sg_one] at r s
    exact r.lt s
  neg {c a b} hc r := by
    rw [signed_iff] at r ⊢
    rw [sg_negC hc]; exact r.neg
  add {c a b a' b'} hc r s := by
    rw [signed_iff] at r s ⊢
    exact (sg_add hc a b).trans (r.add s)
  sub {c a b a' b'} hc r s := by
    rw [signed_iff] at r s ⊢
    have := (sg_add hc a (-b)).trans (r.add (b' := -b') (by rw [sg_negC hc]; exact s.neg))
    exact this
  mul {c d a b a' b'} hc hd r s := by
    rw [signed_iff] at r s ⊢
    rw [sg_mul hc hd]; exact r.mul s
  div {c d a b a' b'} hc hd h0 r s := by
    rw [signed_iff] at r s ⊢
    rw [sg_div hc hd]; exact Eqv.div (fun h => h0 ((isZ_sg d b).mp h)) r s
  sqrt {c a b} hc r := by
    rw [hc.sq, signed_iff, sg_one] at r
    rw [hc.abs, signed_iff, sg_one]; exact r.sqrt
  sqrtC {c a b} hc r := by
    rw [hc.sq, signed_iff, sg_one] at r
    show Signed |c| (Sqrt.sqrt a) (Sqrt.sqrt b)
    rw [hc.abs, signed_iff, sg_one]; exact r.sqrt
  divSq {c d a a' g g' n} hc hd r r0 hg := by
    have e : addUp (fun i => g' i * g' i) 1 n (g' 0 * g' 0) = addUp (fun i => g i * g i) 1 n (g 0 * g 0) := by
      rw [signed_sq hd r0]
      exact addUp_congr (fun k _ hk => signed_sq hd (hg k hk)) _
    rw [e, divC_eq, divC_eq]
    show Signed _ _ _
    rw [hd.sq, div_one, signed_iff]
    rw [signed_iff] at r
    have := r.div_same (addUp (fun i => g i * g i) 1 n (g 0 * g 0))
    rcases hc with rfl | rfl
    · rw [sg_one] at this ⊢; exact this
    · rw [sg_neg] at this ⊢; rw [neg_div'] at this; exact this
  isZ_zero := rfl
  div_ok b _ := divAt b
  sqrt_ok v _ h0 := ⟨rfl, sqrt_nz h0⟩

end Fp

end Lalib
