import Verif.Proofs.Binary

/-! # IEEE 754 numbers

Binary floating-point numbers with infinities, NaN, signed zeros, subnormal numbers and overflow, under rounding to nearest,
ties to even.  The functions of the model run on them as they are: `Fp binary32` is `float`, `Fp binary64` is `double`.

Simplifications: there is one NaN (no payload, no sign, no signalling); the status flags and traps are left out; a product
followed by a sum is two operations (no contraction to `fma`), and an operation has the precision of its type (no extended
intermediate results).  This is what a compiler gives with `-ffp-contract=off`, SSE2 or a later instruction set, and without
`-ffast-math`. -/

namespace Lalib

/-- A binary format: `p` significant bits; every number is a multiple of `2^emin`; overflow begins at `2^emax`. -/
structure Fmt where
  p : ℕ
  emin : ℤ
  emax : ℤ
  one_le_p : 1 ≤ p
  wide : emin + 2 * p ≤ 2
  p_le : (p : ℤ) + emin ≤ emax
  emax_pos : 1 ≤ emax

/-- `float`. -/
def binary32 : Fmt := ⟨24, -149, 128, by decide, by decide, by decide, by decide⟩
/-- `double`. -/
def binary64 : Fmt := ⟨53, -1074, 1024, by decide, by decide, by decide, by decide⟩

namespace Fmt
variable (F : Fmt)

/-- Exponent of the spacing of the numbers at `x`. -/
noncomputable def uexp (x : ℝ) : ℤ := max (Int.log 2 |x| + 1 - (F.p : ℤ)) F.emin

/-- Rounding to nearest, ties to even, without regard to overflow. -/
noncomputable def rnd (x : ℝ) : ℝ := nearestEven (x / 2 ^ F.uexp x) * 2 ^ F.uexp x

/-- First power of two that is out of range. -/
noncomputable def top : ℝ := 2 ^ F.emax

/-- Unit roundoff. -/
noncomputable def u : ℝ := (1 / 2) ^ F.p
/-- Half the smallest positive number: the largest error of an underflowing result. -/
noncomputable def eta : ℝ := 2 ^ F.emin / 2
/-- Smallest normal number. -/
noncomputable def normal : ℝ := 2 ^ (F.emin + F.p - 1)

/-- Magnitude of a finite number. -/
def IsMag (x : ℝ) : Prop := 0 ≤ x ∧ F.rnd x = x ∧ x < F.top

theorem top_pos : 0 < F.top := by unfold top; positivity

theorem rnd_neg (x : ℝ) : F.rnd (-x) = -F.rnd x := by
  unfold rnd uexp
  rw [abs_neg, neg_div, nearestEven_neg]
  push_cast; ring

theorem rnd_zero : F.rnd 0 = 0 := by simp [rnd, nearestEven]

theorem rnd_bin {x : ℝ} (h : F.emin ≤ Int.log 2 |x| + 1 - (F.p : ℤ)) : F.rnd x = rndBin F.p x := by
  unfold rnd uexp rndBin ulp
  rw [max_eq_left h]

theorem rnd_low {x : ℝ} (h : Int.log 2 |x| + 1 - (F.p : ℤ) ≤ F.emin) :
    F.rnd x = nearestEven (x / 2 ^ F.emin) * 2 ^ F.emin := by
  unfold rnd uexp
  rw [max_eq_right h]

/-- Integer multiples `z * 2^e` with `|z| ≤ 2^p` and `e ≥ emin` are not changed. -/
theorem rnd_fix (z e : ℤ) (hz : |z| ≤ 2 ^ F.p) (he : F.emin ≤ e) : F.rnd (z * (2 : ℝ) ^ e) = z * (2 : ℝ) ^ e := by
  rcases le_total F.emin (Int.log 2 |(z : ℝ) * (2 : ℝ) ^ e| + 1 - (F.p : ℤ)) with h | h
  · rw [F.rnd_bin h, rndBin_fix F.p z e F.one_le_p hz]
  · rw [F.rnd_low h]
    obtain ⟨d, hd⟩ : ∃ d : ℕ, e = F.emin + d := ⟨(e - F.emin).toNat, by omega⟩
    have e1 : (2 : ℝ) ^ e = 2 ^ F.emin * 2 ^ d := by
      rw [hd, zpow_add₀ (by norm_num), zpow_natCast]
    have e2 : (z : ℝ) * 2 ^ e / 2 ^ F.emin = ((z * 2 ^ d : ℤ) : ℝ) := by
      rw [e1]; push_cast
      have : (2 : ℝ) ^ F.emin ≠ 0 := by positivity
      field_simp
    rw [e2, nearestEven_int, e1]
    push_cast; ring

theorem sig_le (x : ℝ) : |nearestEven (x / 2 ^ F.uexp x)| ≤ 2 ^ F.p := by
  have hl := Int.lt_zpow_succ_log_self (b := 2) (by norm_num) |x|
  have hu : (0 : ℝ) < 2 ^ F.uexp x := by positivity
  have h1 : |x / 2 ^ F.uexp x| < 2 ^ F.p := by
    rw [abs_div, abs_of_pos hu, div_lt_iff₀ hu, ← zpow_natCast, ← zpow_add₀ (by norm_num)]
    refine lt_of_lt_of_le (by exact_mod_cast hl) (zpow_le_zpow_right₀ (by norm_num) ?_)
    have := le_max_left (Int.log 2 |x| + 1 - (F.p : ℤ)) F.emin
    unfold uexp
    omega
  have h2 := nearestEven_err (x / 2 ^ F.uexp x)
  have h3 : |(nearestEven (x / 2 ^ F.uexp x) : ℝ)| < 2 ^ F.p + 1 := by
    have := abs_add_le ((nearestEven (x / 2 ^ F.uexp x) : ℝ) - x / 2 ^ F.uexp x) (x / 2 ^ F.uexp x)
    rw [sub_add_cancel] at this
    linarith
  have h4 : |nearestEven (x / 2 ^ F.uexp x)| < 2 ^ F.p + 1 := by exact_mod_cast h3
  omega

theorem rnd_idem (x : ℝ) : F.rnd (F.rnd x) = F.rnd x :=
  F.rnd_fix _ _ (F.sig_le x) (le_max_right _ _)

theorem nearestEven_nonneg {x : ℝ} (h : 0 ≤ x) : 0 ≤ nearestEven x := by
  have h0 : 0 ≤ ⌊x⌋ := Int.floor_nonneg.mpr h
  unfold nearestEven
  split_ifs <;> omega

theorem rnd_nonneg {x : ℝ} (h : 0 ≤ x) : 0 ≤ F.rnd x := by
  unfold rnd
  have h1 := nearestEven_nonneg (x := x / 2 ^ F.uexp x) (by positivity)
  have : (0 : ℝ) ≤ nearestEven (x / 2 ^ F.uexp x) := by exact_mod_cast h1
  positivity

theorem isMag_zero : F.IsMag 0 := ⟨le_rfl, F.rnd_zero, F.top_pos⟩

theorem isMag_one : F.IsMag 1 := by
  refine ⟨zero_le_one, ?_, ?_⟩
  · have := F.rnd_fix (2 ^ (F.p - 1)) (1 - F.p) ?_ ?_
    · have e : ((2 ^ (F.p - 1) : ℤ) : ℝ) * 2 ^ (1 - (F.p : ℤ)) = 1 := by
        push_cast
        rw [← zpow_natCast, ← zpow_add₀ (by norm_num)]
        have := F.one_le_p
        rw [show ((F.p - 1 : ℕ) : ℤ) + (1 - (F.p : ℤ)) = 0 by omega, zpow_zero]
      rwa [e] at this
    · rw [abs_of_pos (by positivity)]
      exact pow_le_pow_right₀ (by norm_num) (Nat.sub_le _ _)
    · have := F.wide; have := F.one_le_p; omega
  · unfold top
    exact one_lt_zpow₀ (by norm_num) (by have := F.emax_pos; omega)

end Fmt

/-- The numbers of a format: NaN, the infinities and the finite numbers with a sign (`true` is minus) and a magnitude. -/
inductive Fp (F : Fmt) : Type where
  | nan : Fp F
  | inf (s : Bool) : Fp F
  | fin (s : Bool) (x : ℝ) (h : F.IsMag x) : Fp F

namespace Fp
variable {F : Fmt}

/-- Finite number. -/
def IsFin : Fp F → Prop
  | fin _ _ _ => True
  | _ => False

/-- Value of a finite number (the others get 0). -/
def val : Fp F → ℝ
  | fin s x _ => if s then -x else x
  | _ => 0

/-- The result `r` of an operation, rounded; `z` is the sign to use when `r` is 0. -/
noncomputable def round (F : Fmt) (z : Bool) (r : ℝ) : Fp F :=
  open Classical in
  if h : F.rnd |r| < F.top then
    .fin (if r = 0 then z else decide (r < 0)) (F.rnd |r|) ⟨F.rnd_nonneg (abs_nonneg r), F.rnd_idem _, h⟩
  else .inf (decide (r < 0))

noncomputable instance : Zero (Fp F) := ⟨.fin false 0 F.isMag_zero⟩
noncomputable instance : One (Fp F) := ⟨.fin false 1 F.isMag_one⟩

instance : Neg (Fp F) := ⟨fun a => match a with
  | nan => nan
  | inf s => inf (!s)
  | fin s x h => fin (!s) x h⟩

noncomputable def add : Fp F → Fp F → Fp F
  | nan, _ => nan
  | _, nan => nan
  | inf s, inf t => if s = t then inf s else nan
  | inf s, fin _ _ _ => inf s
  | fin _ _ _, inf t => inf t
  | fin s x h, fin t y k => round F (s && t) ((fin s x h).val + (fin t y k).val)

noncomputable instance : Add (Fp F) := ⟨add⟩
noncomputable instance : Sub (Fp F) := ⟨fun a b => a + -b⟩

open Classical in
noncomputable def mul : Fp F → Fp F → Fp F
  | nan, _ => nan
  | _, nan => nan
  | inf s, inf t => inf (s ^^ t)
  | inf s, fin t y _ => if y = 0 then nan else inf (s ^^ t)
  | fin s x _, inf t => if x = 0 then nan else inf (s ^^ t)
  | fin s x h, fin t y k => round F (s ^^ t) ((fin s x h).val * (fin t y k).val)

noncomputable instance : Mul (Fp F) := ⟨mul⟩

open Classical in
noncomputable def div : Fp F → Fp F → Fp F
  | nan, _ => nan
  | _, nan => nan
  | inf _, inf _ => nan
  | inf s, fin t _ _ => inf (s ^^ t)
  | fin s _ _, inf t => fin (s ^^ t) 0 F.isMag_zero
  | fin s x h, fin t y k =>
    if y = 0 then (if x = 0 then nan else inf (s ^^ t))
    else round F (s ^^ t) ((fin s x h).val / (fin t y k).val)

noncomputable instance : Div (Fp F) := ⟨div⟩

open Classical in
noncomputable def sqrt : Fp F → Fp F
  | nan => nan
  | inf s => if s then nan else inf false
  | fin s x h => if x = 0 then fin s x h else if s then nan else round F false (Real.sqrt x)

noncomputable instance : Sqrt (Fp F) := ⟨sqrt⟩

/-- `a < b`; false when one of them is NaN. -/
def lt : Fp F → Fp F → Prop
  | nan, _ => False
  | _, nan => False
  | inf s, inf t => s = true ∧ t = false
  | inf s, fin _ _ _ => s = true
  | fin _ _ _, inf t => t = false
  | fin s x h, fin t y k => (fin s x h).val < (fin t y k).val

instance : LT (Fp F) := ⟨lt⟩
noncomputable instance : DecidableLT (Fp F) := fun _ _ => Classical.propDecidable _

/-- `a == 0`: both zeros, and nothing else. -/
def isZero : Fp F → Prop
  | fin _ x _ => x = 0
  | _ => False

noncomputable instance : CZero (Fp F) := ⟨isZero, fun _ => Classical.propDecidable _⟩

/-- A division always has a result. -/
noncomputable instance : CDiv (Fp F) := ⟨fun a b => .ok (a / b)⟩
/-- A square root always has a result. -/
noncomputable instance : CSqrt (Fp F) := ⟨fun a => .ok (Sqrt.sqrt a)⟩

instance : DivCases (Fp F) := ⟨fun _ => .inl fun _ => rfl⟩

end Fp

end Lalib
