import Verif.Spec.SoftFloat
import Verif.Spec.Twin
import Verif.Proofs.Ieee
import Verif.Proofs.SqrtDouble

/-! # The executable operations are those of `Spec/Ieee.lean` -/

namespace Lalib

namespace Fmt
variable (F : Fmt)

/-! ## Rounding of `n 2^e` -/

theorem log_nat {n : ℕ} (hn : n ≠ 0) (e : ℤ) : Int.log 2 ((n : ℝ) * 2 ^ e) = (Nat.log2 n : ℤ) + e := by
  have h1 : 2 ^ Nat.log2 n ≤ n := Nat.log2_self_le hn
  have h2 : n < 2 ^ (Nat.log2 n + 1) := Nat.lt_log2_self
  have hp : (0 : ℝ) < 2 ^ e := by positivity
  have hn0 : (0 : ℝ) < n := by exact_mod_cast Nat.pos_of_ne_zero hn
  apply le_antisymm
  · have : Int.log 2 ((n : ℝ) * 2 ^ e) < (Nat.log2 n : ℤ) + e + 1 := by
      rw [← Int.lt_zpow_iff_log_lt (b := 2) (by norm_num) (by positivity)]
      have : (n : ℝ) < 2 ^ (Nat.log2 n + 1) := by exact_mod_cast h2
      have e1 : ((2 : ℕ) : ℝ) ^ ((Nat.log2 n : ℤ) + e + 1) = 2 ^ (Nat.log2 n + 1) * 2 ^ e := by
        rw [show (Nat.log2 n : ℤ) + e + 1 = ((Nat.log2 n + 1 : ℕ) : ℤ) + e by push_cast; ring,
          zpow_add₀ (by norm_num), zpow_natCast]
        norm_num
      rw [e1]
      exact mul_lt_mul_of_pos_right this hp
    omega
  · rw [← Int.zpow_le_iff_le_log (b := 2) (by norm_num) (by positivity)]
    have : (2 : ℝ) ^ (Nat.log2 n) ≤ n := by exact_mod_cast h1
    have e1 : ((2 : ℕ) : ℝ) ^ ((Nat.log2 n : ℤ) + e) = 2 ^ (Nat.log2 n) * 2 ^ e := by
      rw [zpow_add₀ (by norm_num), zpow_natCast]
      norm_num
    rw [e1]
    exact mul_le_mul_of_nonneg_right this hp.le

theorem uexp_nat {n : ℕ} (hn : n ≠ 0) (e : ℤ) :
    F.uexp ((n : ℝ) * 2 ^ e) = max ((Nat.log2 n : ℤ) + e + 1 - F.p) F.emin := by
  unfold uexp
  rw [abs_of_nonneg (by positivity), log_nat hn]

/-- In an open interval between consecutive half-integers the nearest integer is constant. -/
theorem nearestEven_cell {j : ℤ} {y : ℝ} (h1 : (j : ℝ) / 2 < y) (h2 : y < (j + 1) / 2) : nearestEven y = (j + 1) / 2 := by
  refine nearestEven_close ?_
  rcases Int.even_or_odd' j with ⟨k, rfl | rfl⟩
  · rw [show (2 * k + 1) / 2 = k by omega]
    push_cast at h1 h2
    rw [abs_lt]; constructor <;> linarith
  · rw [show (2 * k + 1 + 1) / 2 = k + 1 by omega]
    push_cast at h1 h2 ⊢
    rw [abs_lt]; constructor <;> linarith

theorem log_cell {N : ℕ} {e : ℤ} (h0 : N ≠ 0) {x : ℝ} (hx : (N : ℝ) * 2 ^ e ≤ x ∧ x < (N + 1) * 2 ^ e) :
    Int.log 2 |x| = (Nat.log2 N : ℤ) + e := by
  have hp : (0 : ℝ) < 2 ^ e := by positivity
  have hN : (0 : ℝ) < N := by exact_mod_cast Nat.pos_of_ne_zero h0
  have hx0 : 0 < x := lt_of_lt_of_le (by positivity) hx.1
  rw [abs_of_pos hx0]
  apply le_antisymm
  · have : Int.log 2 x < (Nat.log2 N : ℤ) + e + 1 := by
      rw [← Int.lt_zpow_iff_log_lt (b := 2) (by norm_num) hx0]
      have h2 : N + 1 ≤ 2 ^ (Nat.log2 N + 1) := Nat.lt_log2_self
      have h3 : (N : ℝ) + 1 ≤ 2 ^ (Nat.log2 N + 1) := by exact_mod_cast h2
      have e1 : ((2 : ℕ) : ℝ) ^ ((Nat.log2 N : ℤ) + e + 1) = 2 ^ (Nat.log2 N + 1) * 2 ^ e := by
        rw [show (Nat.log2 N : ℤ) + e + 1 = ((Nat.log2 N + 1 : ℕ) : ℤ) + e by push_cast; ring,
          zpow_add₀ (by norm_num), zpow_natCast]
        norm_num
      rw [e1]
      exact lt_of_lt_of_le hx.2 (mul_le_mul_of_nonneg_right h3 hp.le)
    omega
  · rw [← log_nat h0 e]
    exact Int.log_mono_right (by positivity) hx.1

/-- The numbers of an open cell all round alike, if the cell is fine enough. -/
theorem rnd_cell {N : ℕ} {e : ℤ} (hN : F.p ≤ Nat.log2 N) (h0 : N ≠ 0) {x y : ℝ}
    (hx : (N : ℝ) * 2 ^ (e + 1) < x ∧ x < (N + 1) * 2 ^ (e + 1)) (hy : (N : ℝ) * 2 ^ (e + 1) < y ∧ y < (N + 1) * 2 ^ (e + 1)) :
    F.rnd x = F.rnd y := by
  have lx := log_cell h0 ⟨hx.1.le, hx.2⟩
  have ly := log_cell h0 ⟨hy.1.le, hy.2⟩
  have ux : F.uexp x = F.uexp y := by unfold uexp; rw [lx, ly]
  have hq : e + 2 ≤ F.uexp y := by
    refine le_trans ?_ (le_max_left _ _)
    rw [ly]
    omega
  obtain ⟨d, hd⟩ : ∃ d : ℕ, F.uexp y = e + 2 + d := ⟨(F.uexp y - e - 2).toNat, by omega⟩
  have hdiv := Nat.div_add_mod N (2 ^ d)
  have hmod := Nat.mod_lt N (show 0 < 2 ^ d by positivity)
  set J := N / 2 ^ d with hJ
  have h1 : (J : ℝ) * 2 ^ d ≤ N := by
    have : J * 2 ^ d ≤ N := by rw [mul_comm]; omega
    exact_mod_cast this
  have h2 : (N : ℝ) + 1 ≤ ((J : ℝ) + 1) * 2 ^ d := by
    have : N + 1 ≤ (J + 1) * 2 ^ d := by rw [add_mul, one_mul, mul_comm]; omega
    exact_mod_cast this
  have hE : (0 : ℝ) < 2 ^ (e + 1) := by positivity
  have hu : (2 : ℝ) ^ F.uexp y = 2 ^ (e + 1) * (2 * 2 ^ d) := by
    rw [hd, show e + 2 + (d : ℤ) = (e + 1) + 1 + (d : ℤ) by ring, zpow_add₀ (by norm_num), zpow_add₀ (by norm_num), zpow_natCast]
    ring
  have cell : ∀ z : ℝ, (N : ℝ) * 2 ^ (e + 1) < z → z < (N + 1) * 2 ^ (e + 1) →
      nearestEven (z / 2 ^ F.uexp y) = ((J : ℤ) + 1) / 2 := by
    intro z hz1 hz2
    have hpd : (0 : ℝ) < 2 ^ d := by positivity
    refine nearestEven_cell ?_ ?_
    · rw [lt_div_iff₀ (by positivity), hu]
      push_cast
      calc (J : ℝ) / 2 * (2 ^ (e + 1) * (2 * 2 ^ d)) = (J * 2 ^ d) * 2 ^ (e + 1) := by ring
        _ ≤ N * 2 ^ (e + 1) := mul_le_mul_of_nonneg_right h1 hE.le
        _ < z := hz1
    · rw [div_lt_iff₀ (by positivity), hu]
      push_cast
      calc z < (N + 1) * 2 ^ (e + 1) := hz2
        _ ≤ ((J + 1) * 2 ^ d) * 2 ^ (e + 1) := mul_le_mul_of_nonneg_right h2 hE.le
        _ = ((J : ℝ) + 1) / 2 * (2 ^ (e + 1) * (2 * 2 ^ d)) := by ring
  unfold rnd
  rw [ux, cell x hx.1 hx.2, cell y hy.1 hy.2]

end Fmt

namespace Sf
variable {F : Fmt}

theorem nearest_eq (n j : ℕ) : nearestEven ((n : ℝ) / 2 ^ j) = nearest n j := by
  have hp : (0 : ℝ) < 2 ^ j := by positivity
  have hdiv := Nat.div_add_mod n (2 ^ j)
  have hmod := Nat.mod_lt n (show 0 < 2 ^ j by positivity)
  have hf : ⌊(n : ℝ) / 2 ^ j⌋ = ((n / 2 ^ j : ℕ) : ℤ) := by
    rw [Int.floor_eq_iff]
    have h1 : ((n / 2 ^ j : ℕ) : ℝ) * 2 ^ j ≤ n := by
      have : n / 2 ^ j * 2 ^ j ≤ n := Nat.div_mul_le_self _ _
      exact_mod_cast this
    have h2 : (n : ℝ) < ((n / 2 ^ j : ℕ) + 1) * 2 ^ j := by
      have : n < (n / 2 ^ j + 1) * 2 ^ j := by rw [add_mul, one_mul, mul_comm]; omega
      exact_mod_cast this
    rw [Int.cast_natCast, le_div_iff₀ hp, div_lt_iff₀ hp]
    exact ⟨h1, h2⟩
  have hr : Int.fract ((n : ℝ) / 2 ^ j) = ((n % 2 ^ j : ℕ) : ℝ) / 2 ^ j := by
    unfold Int.fract
    rw [hf, eq_div_iff hp.ne', sub_mul, div_mul_cancel₀ _ hp.ne']
    have : (n : ℝ) = 2 ^ j * (n / 2 ^ j : ℕ) + (n % 2 ^ j : ℕ) := by exact_mod_cast hdiv.symm
    rw [Int.cast_natCast]
    linarith
  have hk : n >>> j = n / 2 ^ j := Nat.shiftRight_eq_div_pow n j
  have hrem : n - (n >>> j) <<< j = n % 2 ^ j := by
    rw [hk, Nat.shiftLeft_eq, mul_comm]; omega
  have h1 : (1 : ℕ) <<< j = 2 ^ j := by rw [Nat.shiftLeft_eq, one_mul]
  have c1 : Int.fract ((n : ℝ) / 2 ^ j) < 1 / 2 ↔ 2 * (n % 2 ^ j) < 2 ^ j := by
    rw [hr, div_lt_div_iff₀ hp (by norm_num)]
    constructor
    · intro h; have h' : (((n % 2 ^ j) * 2 : ℕ) : ℝ) < ((1 * 2 ^ j : ℕ) : ℝ) := by push_cast; exact h
      have := (Nat.cast_lt (α := ℝ)).mp h'; omega
    · intro h
      have : (((n % 2 ^ j) * 2 : ℕ) : ℝ) < ((1 * 2 ^ j : ℕ) : ℝ) := by rw [Nat.cast_lt]; omega
      push_cast at this; exact this
  have c2 : 1 / 2 < Int.fract ((n : ℝ) / 2 ^ j) ↔ 2 ^ j < 2 * (n % 2 ^ j) := by
    rw [hr, div_lt_div_iff₀ (by norm_num) hp]
    constructor
    · intro h; have h' : ((1 * 2 ^ j : ℕ) : ℝ) < (((n % 2 ^ j) * 2 : ℕ) : ℝ) := by push_cast; exact h
      have := (Nat.cast_lt (α := ℝ)).mp h'; omega
    · intro h
      have : ((1 * 2 ^ j : ℕ) : ℝ) < (((n % 2 ^ j) * 2 : ℕ) : ℝ) := by rw [Nat.cast_lt]; omega
      push_cast at this; exact this
  have c3 : Even ⌊(n : ℝ) / 2 ^ j⌋ ↔ (n / 2 ^ j) % 2 = 0 := by
    rw [hf, Int.even_coe_nat, Nat.even_iff]
  unfold nearestEven nearest
  dsimp only
  rw [hrem, h1, hk, hf]
  rw [hf] at c3
  simp only [c1, c2, c3]
  split_ifs <;> push_cast <;> rfl

theorem over_is {s : Bool} {m : ℕ} {e : ℤ} {x : ℝ} (hx : x = m * 2 ^ e) :
    (F.top ≤ x → over F s m e = inf s) ∧ (x < F.top → over F s m e = fin s m e) := by
  have key : (m ≠ 0 ∧ F.emax ≤ (Nat.log2 m : Int) + e) ↔ F.top ≤ x := by
    subst hx
    unfold Fmt.top
    by_cases hm : m = 0
    · subst hm
      simp only [ne_eq, not_true_eq_false, false_and, Nat.cast_zero, zero_mul, false_iff, not_le]
      positivity
    · have hm0 : (0 : ℝ) < m := by exact_mod_cast Nat.pos_of_ne_zero hm
      have := Int.zpow_le_iff_le_log (b := 2) (R := ℝ) (x := F.emax) (r := m * 2 ^ e) (by norm_num) (by positivity)
      rw [Fmt.log_nat hm] at this
      simp only [ne_eq, hm, not_false_eq_true, true_and]
      rw [← this]
      norm_num
  unfold over
  constructor
  · intro h; rw [if_pos (key.mpr h)]
  · intro h; rw [if_neg (fun k => absurd (key.mp k) (not_le.mpr h)), force_eq, forceInt_eq]

/-- The rounded number, without regard to overflow. -/
theorem round_is {s z : Bool} {n : ℕ} {e : ℤ} {r : ℝ} (hr : F.rnd |r| = F.rnd (n * 2 ^ e)) (h0 : r = 0 ↔ n = 0)
    (hs : r ≠ 0 → s = decide (r < 0)) : Is (round F s z n e) (Fp.round F z r) := by
  by_cases hn : n = 0
  · have hr0 := h0.mpr hn
    have : F.rnd |r| < F.top := by rw [hr0, abs_zero, F.rnd_zero]; exact F.top_pos
    unfold round Fp.round
    rw [if_pos hn, dif_pos this]
    refine ⟨by rw [if_pos hr0], ?_⟩
    rw [hr0, abs_zero, F.rnd_zero]; simp
  · have hr0 : r ≠ 0 := fun h => hn (h0.mp h)
    have hu := F.uexp_nat hn e
    have key : ∀ m q, F.rnd |r| = (m : ℕ) * (2 : ℝ) ^ (q : ℤ) → Is (over F s m q) (Fp.round F z r) := by
      intro m q hmq
      unfold Fp.round
      by_cases ht : F.rnd |r| < F.top
      · rw [dif_pos ht, (over_is hmq).2 ht]
        refine ⟨?_, hmq⟩
        rw [if_neg hr0]; exact hs hr0
      · rw [dif_neg ht, (over_is hmq).1 (not_lt.mp ht)]
        exact hs hr0
    unfold round
    rw [if_neg hn]
    dsimp only
    rw [← hu]
    split
    · next hq =>
      refine key n e ?_
      rw [hr]
      obtain ⟨d, hd⟩ : ∃ d : ℕ, e = F.uexp (n * 2 ^ e) + d := ⟨(e - F.uexp (n * 2 ^ e)).toNat, by omega⟩
      unfold Fmt.rnd
      have e1 : (n : ℝ) * 2 ^ e / 2 ^ F.uexp (n * 2 ^ e) = ((n * 2 ^ d : ℤ) : ℝ) := by
        rw [div_eq_iff (by positivity)]
        push_cast
        rw [mul_assoc, ← zpow_natCast, ← zpow_add₀ (by norm_num), add_comm (d : ℤ), ← hd]
      rw [e1, nearestEven_int, ← e1, div_mul_cancel₀ _ (by positivity)]
    · next hq =>
      refine key _ _ ?_
      rw [hr]
      unfold Fmt.rnd
      have e1 : (n : ℝ) * 2 ^ e / 2 ^ F.uexp (n * 2 ^ e) = (n : ℝ) / 2 ^ (F.uexp (n * 2 ^ e) - e).toNat := by
        rw [div_eq_div_iff (by positivity) (by positivity), mul_assoc, ← zpow_natCast, ← zpow_add₀ (by norm_num)]
        congr 2
        omega
      rw [e1, nearest_eq]
      simp

theorem is_zero : Is (0 : Sf F) 0 := ⟨rfl, by simp⟩

theorem is_one : Is (1 : Sf F) 1 := ⟨rfl, by simp⟩

theorem is_neg {a : Sf F} {b : Fp F} (h : Is a b) : Is (-a) (-b) := by
  match a, b, h with
  | nan, .nan, _ => trivial
  | inf s, .inf _, h => exact congrArg _ h
  | fin s m e, .fin _ x _, h => exact ⟨congrArg _ h.1, h.2⟩

/-- Value of a signed significand. -/
theorem align_val (s : Bool) (m : ℕ) (e g : ℤ) (h : g ≤ e) {x : ℝ} (hx : x = m * 2 ^ e) :
    ((align s m e g : ℤ) : ℝ) * 2 ^ g = if s then -x else x := by
  have e1 : (((m <<< (e - g).toNat : ℕ) : ℤ) : ℝ) * 2 ^ g = x := by
    rw [Nat.shiftLeft_eq]
    push_cast
    rw [mul_assoc, ← zpow_natCast, ← zpow_add₀ (by norm_num), show ((e - g).toNat : ℤ) + g = e by omega, hx]
  unfold align
  split
  · rw [← e1]; push_cast; ring
  · exact e1

theorem is_add {a a' : Sf F} {b b' : Fp F} (h : Is a b) (h' : Is a' b') : Is (a + a') (b + b') := by
  match a, b, h, a', b', h' with
  | nan, .nan, _, _, _, _ => trivial
  | inf _, .inf _, _, nan, .nan, _ => trivial
  | fin _ _ _, .fin _ _ _, _, nan, .nan, _ => trivial
  | inf s, .inf _, h, inf t, .inf _, h' =>
    cases h; cases h'
    show Is (if s = t then inf s else nan) (if s = t then Fp.inf s else Fp.nan)
    split
    · rfl
    · trivial
  | inf s, .inf _, h, fin _ _ _, .fin _ _ _, _ => exact h
  | fin _ _ _, .fin _ _ _, _, inf _, .inf _, h' => exact h'
  | fin s m e, .fin _ x hx, ⟨hs, h⟩, fin t n f, .fin _ y hy, ⟨ht, h'⟩ =>
    subst hs; subst ht
    have hv : (Fp.fin s x hx).val + (Fp.fin t y hy).val =
        ((align s m e (min e f) + align t n f (min e f) : ℤ) : ℝ) * 2 ^ (min e f) := by
      push_cast
      rw [add_mul, align_val s m e _ (min_le_left _ _) h, align_val t n f _ (min_le_right _ _) h']
      rfl
    have hp : (0 : ℝ) < 2 ^ (min e f) := by positivity
    show Is (round F _ _ _ _) (Fp.round F _ _)
    rw [hv]
    generalize align s m e (min e f) + align t n f (min e f) = z
    refine round_is ?_ ?_ ?_
    · rw [abs_mul, abs_of_pos hp, Nat.cast_natAbs, Int.cast_abs]
    · rw [mul_eq_zero, or_iff_left hp.ne', Int.cast_eq_zero, Int.natAbs_eq_zero]
    · intro _
      congr 1
      rw [eq_iff_iff]
      constructor
      · intro hz
        have : (z : ℝ) < 0 := by exact_mod_cast hz
        exact mul_neg_of_neg_of_pos this hp
      · intro hz
        have : (z : ℝ) < 0 := by
          by_contra hc
          exact absurd hz (not_lt.mpr (mul_nonneg (not_lt.mp hc) hp.le))
        exact_mod_cast this

theorem is_sub {a a' : Sf F} {b b' : Fp F} (h : Is a b) (h' : Is a' b') : Is (a - a') (b - b') := is_add h (is_neg h')

theorem mag_zero {m : ℕ} {e : ℤ} {x : ℝ} (h : x = m * 2 ^ e) : x = 0 ↔ m = 0 := by
  rw [h, mul_eq_zero, or_iff_left (by positivity), Nat.cast_eq_zero]

theorem val_fin (s : Bool) (x : ℝ) (h : F.IsMag x) : (Fp.fin s x h).val = (if s then -1 else 1) * x := by
  unfold Fp.val; split <;> simp_all

/-- Sign of a product or quotient. -/
theorem sign_xor (s t : Bool) {x y : ℝ} (hx : 0 < x) (hy : 0 < y) :
    (s ^^ t) = decide ((if s then -1 else 1) * x * ((if t then -1 else 1) * y) < 0) := by
  have := mul_pos hx hy
  cases s <;> cases t <;> simp <;> nlinarith

theorem is_mul {a a' : Sf F} {b b' : Fp F} (h : Is a b) (h' : Is a' b') : Is (a * a') (b * b') := by
  match a, b, h, a', b', h' with
  | nan, .nan, _, _, _, _ => trivial
  | inf _, .inf _, _, nan, .nan, _ => trivial
  | fin _ _ _, .fin _ _ _, _, nan, .nan, _ => trivial
  | inf s, .inf _, h, inf t, .inf _, h' => cases h; cases h'; rfl
  | inf s, .inf _, h, fin t n _, .fin _ y _, ⟨ht, h'⟩ =>
    cases h; cases ht
    show Is (if n = 0 then nan else inf _) (if y = 0 then Fp.nan else Fp.inf _)
    by_cases hn : n = 0
    · rw [if_pos hn, if_pos ((mag_zero h').mpr hn)]; trivial
    · rw [if_neg hn, if_neg (fun k => hn ((mag_zero h').mp k))]; rfl
  | fin t n _, .fin _ y _, ⟨ht, h'⟩, inf s, .inf _, h =>
    cases h; cases ht
    show Is (if n = 0 then nan else inf _) (if y = 0 then Fp.nan else Fp.inf _)
    by_cases hn : n = 0
    · rw [if_pos hn, if_pos ((mag_zero h').mpr hn)]; trivial
    · rw [if_neg hn, if_neg (fun k => hn ((mag_zero h').mp k))]; rfl
  | fin s m e, .fin _ x hx, ⟨hs, h⟩, fin t n f, .fin _ y hy, ⟨ht, h'⟩ =>
    subst hs; subst ht
    show Is (round F _ _ _ _) (Fp.round F _ _)
    have hv : |(Fp.fin s x hx).val * (Fp.fin t y hy).val| = ((m * n : ℕ) : ℝ) * 2 ^ (e + f) := by
      rw [val_fin, val_fin, abs_mul, abs_mul, abs_mul, abs_of_nonneg hx.1, abs_of_nonneg hy.1, h, h', zpow_add₀ (by norm_num)]
      push_cast
      cases s <;> cases t <;> simp <;> ring
    refine round_is (by rw [hv]) ?_ ?_
    · rw [← abs_eq_zero, hv, mul_eq_zero, or_iff_left (by positivity), Nat.cast_eq_zero]
    · intro hne
      rw [val_fin, val_fin] at hne ⊢
      have hx0 : 0 < x := lt_of_le_of_ne hx.1 (by rintro rfl; simp at hne)
      have hy0 : 0 < y := lt_of_le_of_ne hy.1 (by rintro rfl; simp at hne)
      exact sign_xor s t hx0 hy0

/-- A number in the cell above `N 2^(e+1)` is rounded like the middle of the cell. -/
theorem sticky_rnd {N : ℕ} {e : ℤ} {x : ℝ} {ex : Bool} (hN : x ≠ 0 → F.p ≤ Nat.log2 N ∧ N ≠ 0)
    (h1 : ex = true → x = N * 2 ^ (e + 1)) (h2 : ex = false → (N : ℝ) * 2 ^ (e + 1) < x ∧ x < (N + 1) * 2 ^ (e + 1)) :
    F.rnd x = F.rnd ((sticky ex N : ℕ) * 2 ^ e) ∧ (x = 0 ↔ sticky ex N = 0) := by
  have hp : (0 : ℝ) < 2 ^ e := by positivity
  have h2e : (2 : ℝ) ^ (e + 1) = 2 * 2 ^ e := by rw [zpow_add_one₀ (by norm_num)]; ring
  cases ex with
  | true =>
    have hx := h1 rfl
    have : ((sticky true N : ℕ) : ℝ) * 2 ^ e = x := by
      rw [hx, h2e]; simp only [sticky, if_true]; push_cast; ring
    refine ⟨by rw [this], ?_⟩
    rw [← this, mul_eq_zero, or_iff_left hp.ne', Nat.cast_eq_zero]
  | false =>
    obtain ⟨ha, hb⟩ := h2 rfl
    have hx : 0 < x := lt_of_le_of_lt (by positivity) ha
    obtain ⟨hl, h0⟩ := hN hx.ne'
    refine ⟨F.rnd_cell hl h0 ⟨ha, hb⟩ ?_, ?_⟩
    · simp only [sticky, Bool.false_eq_true, if_false]
      push_cast
      rw [h2e]
      constructor <;> nlinarith
    · simp only [sticky, Bool.false_eq_true, if_false]
      constructor
      · intro h; exact absurd h hx.ne'
      · intro h; omega

theorem log2_ge {k N : ℕ} (h : 2 ^ k ≤ N) : k ≤ Nat.log2 N := by
  have hN : N ≠ 0 := by have := Nat.two_pow_pos k; omega
  exact (Nat.le_log2 hN).mpr h

theorem is_div {a a' : Sf F} {b b' : Fp F} (h : Is a b) (h' : Is a' b') : Is (div a a') (b / b') := by
  match a, b, h, a', b', h' with
  | nan, .nan, _, _, _, _ => trivial
  | inf _, .inf _, _, nan, .nan, _ => trivial
  | fin _ _ _, .fin _ _ _, _, nan, .nan, _ => trivial
  | inf s, .inf _, h, inf t, .inf _, h' => trivial
  | inf s, .inf _, h, fin t n _, .fin _ y _, ⟨ht, h'⟩ => cases h; cases ht; rfl
  | fin t n _, .fin _ y _, ⟨ht, h'⟩, inf s, .inf _, h => cases h; cases ht; exact ⟨rfl, by simp⟩
  | fin s m e, .fin _ x hx, ⟨hs, h⟩, fin t n f, .fin _ y hy, ⟨ht, h'⟩ =>
    subst hs; subst ht
    rw [Fp.div_eq]
    unfold div Fp.div
    dsimp only
    by_cases hn : n = 0
    · rw [if_pos hn, if_pos ((mag_zero h').mpr hn)]
      by_cases hm : m = 0
      · rw [if_pos hm, if_pos ((mag_zero h).mpr hm)]; trivial
      · rw [if_neg hm, if_neg (fun k => hm ((mag_zero h).mp k))]; rfl
    · rw [if_neg hn, if_neg (fun k => hn ((mag_zero h').mp k))]
      have hy0 : 0 < y := lt_of_le_of_ne hy.1 (fun k => hn ((mag_zero h').mp k.symm))
      have hn0 : (0 : ℝ) < n := by exact_mod_cast Nat.pos_of_ne_zero hn
      set k := F.p + 2 + Nat.log2 n with hk
      have hv : |(Fp.fin s x hx).val / (Fp.fin t y hy).val| = x / y := by
        rw [val_fin, val_fin, abs_div, abs_mul, abs_mul, abs_of_nonneg hx.1, abs_of_pos hy0]
        cases s <;> cases t <;> simp
      have hxy : x / y = ((m <<< k : ℕ) : ℝ) / n * 2 ^ (e - f - k - 1 + 1) := by
        rw [h, h', Nat.shiftLeft_eq]
        push_cast
        rw [sub_add_cancel, zpow_sub₀ (by norm_num), zpow_sub₀ (by norm_num), zpow_natCast]
        field_simp
      have hp : (0 : ℝ) < 2 ^ (e - f - k - 1 + 1) := by positivity
      have hdiv := Nat.div_add_mod (m <<< k) n
      have hmod := Nat.mod_lt (m <<< k) (Nat.pos_of_ne_zero hn)
      have hst := sticky_rnd (F := F) (N := m <<< k / n) (e := e - f - k - 1) (x := x / y) (ex := m <<< k % n == 0) ?_ ?_ ?_
      · refine round_is ?_ ?_ ?_
        · rw [hv]; exact hst.1
        · rw [← abs_eq_zero, hv]; exact hst.2
        · intro hne
          rw [val_fin, val_fin] at hne ⊢
          have hx0 : 0 < x := lt_of_le_of_ne hx.1 (by rintro rfl; simp at hne)
          have := sign_xor s t hx0 (inv_pos.mpr hy0)
          rw [this, div_eq_mul_inv, mul_inv]
          congr 2
          cases t <;> norm_num
      · intro hne
        have hm : m ≠ 0 := by
          rintro rfl
          rw [h] at hne; simp at hne
        have hN : 2 ^ (F.p + 1) ≤ m <<< k / n := by
          rw [Nat.le_div_iff_mul_le (Nat.pos_of_ne_zero hn), Nat.shiftLeft_eq, hk]
          have h1 : n < 2 ^ (Nat.log2 n + 1) := Nat.lt_log2_self
          calc 2 ^ (F.p + 1) * n ≤ 2 ^ (F.p + 1) * 2 ^ (Nat.log2 n + 1) := Nat.mul_le_mul_left _ h1.le
            _ = 1 * 2 ^ (F.p + 2 + Nat.log2 n) := by rw [← pow_add, one_mul]; congr 1; omega
            _ ≤ m * 2 ^ (F.p + 2 + Nat.log2 n) := Nat.mul_le_mul_right _ (Nat.pos_of_ne_zero hm)
        have := log2_ge hN
        refine ⟨by omega, ?_⟩
        have := Nat.two_pow_pos (F.p + 1)
        omega
      · intro hex
        have hz : m <<< k % n = 0 := by simpa using hex
        rw [hxy]
        congr 1
        rw [div_eq_iff hn0.ne']
        have : m <<< k = m <<< k / n * n := by rw [mul_comm]; omega
        exact_mod_cast this
      · intro hex
        have hz : m <<< k % n ≠ 0 := by simpa using hex
        rw [hxy]
        constructor
        · refine mul_lt_mul_of_pos_right ?_ hp
          rw [lt_div_iff₀ hn0]
          have : m <<< k / n * n < m <<< k := by rw [mul_comm]; omega
          exact_mod_cast this
        · refine mul_lt_mul_of_pos_right ?_ hp
          rw [div_lt_iff₀ hn0]
          have : m <<< k < (m <<< k / n + 1) * n := by rw [add_mul, one_mul, mul_comm (m <<< k / n)]; omega
          exact_mod_cast this

theorem isqrt_spec (a : ℕ) : ∀ b r : ℕ, r * r ≤ a → a < (r + 2 ^ b) * (r + 2 ^ b) →
    isqrt a b r * isqrt a b r ≤ a ∧ a < (isqrt a b r + 1) * (isqrt a b r + 1)
  | 0, r, h1, h2 => by
    unfold isqrt
    exact ⟨h1, by simpa using h2⟩
  | b + 1, r, h1, h2 => by
    unfold isqrt
    rw [force_eq, Nat.shiftLeft_eq, one_mul]
    split
    · next h => exact isqrt_spec a b _ h (by rw [add_assoc, ← two_mul, ← pow_succ']; exact h2)
    · next h => exact isqrt_spec a b r h1 (by omega)

theorem is_sqrt {a : Sf F} {b : Fp F} (h : Is a b) : Is (sqrt a) (Fp.sqrt b) := by
  match a, b, h with
  | nan, .nan, _ => trivial
  | inf s, .inf _, h =>
    cases h
    unfold sqrt Fp.sqrt
    cases s
    · rfl
    · trivial
  | fin s m e, .fin _ x hx, ⟨hs, h⟩ =>
    subst hs
    unfold sqrt Fp.sqrt
    dsimp only
    by_cases hm : m = 0
    · rw [if_pos hm, if_pos ((mag_zero h).mpr hm)]; exact ⟨rfl, h⟩
    · rw [if_neg hm, if_neg (fun k => hm ((mag_zero h).mp k))]
      cases s with
      | true => trivial
      | false =>
        simp only [Bool.false_eq_true, if_false]
        set t := 2 * (F.p + 2) + (e % 2).toNat with ht
        set A := m <<< t with hA
        have hA0 : A = m * 2 ^ t := Nat.shiftLeft_eq _ _
        have hev : ∃ w : ℤ, e - t = 2 * w := by
          refine ⟨(e - t) / 2, ?_⟩
          omega
        obtain ⟨w, hw⟩ := hev
        have hw2 : (e - (t : ℤ)) / 2 = w := by omega
        obtain ⟨r1, r2⟩ := isqrt_spec A (Nat.log2 A / 2 + 1) 0 (by simp) (by
          have h1 : A < 2 ^ (Nat.log2 A + 1) := Nat.lt_log2_self
          refine lt_of_lt_of_le h1 ?_
          rw [zero_add, ← pow_add]
          exact Nat.pow_le_pow_right (by norm_num) (by omega))
        set R := isqrt A (Nat.log2 A / 2 + 1) 0 with hR
        have hx0 : 0 < x := lt_of_le_of_ne hx.1 (fun k => hm ((mag_zero h).mp k.symm))
        have hp : (0 : ℝ) < 2 ^ w := by positivity
        have hsq : Real.sqrt x = Real.sqrt A * 2 ^ w := by
          have : x = A * (2 ^ w) ^ 2 := by
            rw [h, hA0]; push_cast
            rw [mul_assoc, ← zpow_natCast (2 : ℝ) t, ← zpow_natCast, ← zpow_mul, ← zpow_add₀ (by norm_num)]
            congr 2
            push_cast
            omega
          rw [this, Real.sqrt_mul (by positivity), Real.sqrt_sq hp.le]
        rw [hw2]
        have hst := sticky_rnd (F := F) (N := R) (e := w - 1) (x := Real.sqrt x) (ex := R * R == A) ?_ ?_ ?_
        · refine round_is ?_ hst.2 ?_
          · rw [abs_of_nonneg (Real.sqrt_nonneg _)]; exact hst.1
          · intro _
            have := Real.sqrt_nonneg x
            simp [this]
        · intro _
          have hA1 : 2 ^ (2 * (F.p + 2)) ≤ A := by
            rw [hA0, ht]
            calc 2 ^ (2 * (F.p + 2)) ≤ 2 ^ (2 * (F.p + 2) + (e % 2).toNat) := Nat.pow_le_pow_right (by norm_num) (by omega)
              _ ≤ m * _ := Nat.le_mul_of_pos_left _ (Nat.pos_of_ne_zero hm)
          have hR1 : 2 ^ (F.p + 2) ≤ R := by
            by_contra hc
            have hc' : R + 1 ≤ 2 ^ (F.p + 2) := by omega
            have := Nat.mul_le_mul hc' hc'
            rw [← pow_add, ← two_mul] at this
            omega
          have := log2_ge hR1
          have := Nat.two_pow_pos (F.p + 2)
          exact ⟨by omega, by omega⟩
        · intro hex
          have he : R * R = A := by simpa using hex
          rw [hsq, sub_add_cancel, ← he]
          push_cast
          rw [Real.sqrt_mul_self (by positivity)]
        · intro hex
          have he : R * R ≠ A := by simpa using hex
          rw [hsq, sub_add_cancel]
          constructor
          · refine mul_lt_mul_of_pos_right ?_ hp
            rw [Real.lt_sqrt (by positivity), sq]
            have : R * R < A := by omega
            exact_mod_cast this
          · refine mul_lt_mul_of_pos_right ?_ hp
            rw [Real.sqrt_lt' (by positivity), sq]
            exact_mod_cast r2

theorem is_lt {a a' : Sf F} {b b' : Fp F} (h : Is a b) (h' : Is a' b') : a < a' ↔ b < b' := by
  show lt a a' = true ↔ Fp.lt b b'
  match a, b, h, a', b', h' with
  | nan, .nan, _, _, _, _ => simp [lt, Fp.lt]
  | inf _, .inf _, _, nan, .nan, _ => simp [lt, Fp.lt]
  | fin _ _ _, .fin _ _ _, _, nan, .nan, _ => simp [lt, Fp.lt]
  | inf s, .inf _, h, inf t, .inf _, h' => cases h; cases h'; simp [lt, Fp.lt]
  | inf s, .inf _, h, fin t n _, .fin _ y _, ⟨ht, h'⟩ => cases h; simp [lt, Fp.lt]
  | fin t n _, .fin _ y _, ⟨ht, h'⟩, inf s, .inf _, h => cases h; simp [lt, Fp.lt]
  | fin s m e, .fin _ x hx, ⟨hs, h⟩, fin t n f, .fin _ y hy, ⟨ht, h'⟩ =>
    subst hs; subst ht
    have hp : (0 : ℝ) < 2 ^ (min e f) := by positivity
    have e1 := align_val s m e (min e f) (min_le_left _ _) h
    have e2 := align_val t n f (min e f) (min_le_right _ _) h'
    show decide (align s m e (min e f) < align t n f (min e f)) = true ↔ (Fp.fin s x hx).val < (Fp.fin t y hy).val
    unfold Fp.val
    dsimp only
    rw [← e1, ← e2, decide_eq_true_iff, mul_lt_mul_iff_left₀ hp, Int.cast_lt]

theorem is_isZ {a : Sf F} {b : Fp F} (h : Is a b) : IsZ a ↔ IsZ b := by
  show isZero a = true ↔ Fp.isZero b
  match a, b, h with
  | nan, .nan, _ => simp [isZero, Fp.isZero]
  | inf s, .inf _, h => simp [isZero, Fp.isZero]
  | fin s m e, .fin _ x hx, ⟨hs, h⟩ =>
    show (m == 0) = true ↔ x = 0
    rw [mag_zero h]; simp

/-- The two descriptions of the numbers of a format. -/
def twin (F : Fmt) : Twin (Sf F) (Fp F) where
  rel := Is
  zero := is_zero
  one := is_one
  neg := is_neg
  add := is_add
  sub := is_sub
  mul := is_mul
  div := fun h h' => is_div h h'

theorem twin_z (F : Fmt) : (twin F).SameZ := fun h => is_isZ h
theorem twin_sqrt (F : Fmt) : (twin F).SameSqrt := fun h => is_sqrt h
theorem twin_lt (F : Fmt) : (twin F).SameLt := fun h h' => is_lt h h'

/-! ## Numbers and their executable forms -/

theorem is_toFp {a : Sf F} {b : Fp F} (h : Is a b) : b = toFp a := by
  match a, b, h with
  | nan, .nan, _ => rfl
  | inf s, .inf _, h => cases h; rfl
  | fin s m e, .fin _ x hx, ⟨hs, h⟩ =>
    subst hs
    unfold toFp
    dsimp only
    rw [← h]
    have hab : |(if s then -1 else 1) * x| = x := by
      rw [abs_mul, abs_of_nonneg hx.1]; cases s <;> simp
    have hr : F.rnd |(if s then -1 else 1) * x| = x := by rw [hab]; exact hx.2.1
    unfold Fp.round
    rw [dif_pos (by rw [hr]; exact hx.2.2)]
    congr 1
    · by_cases h0 : x = 0
      · rw [if_pos (by rw [h0, mul_zero])]
      · have : 0 < x := lt_of_le_of_ne hx.1 (Ne.symm h0)
        rw [if_neg (by cases s <;> simp [h0])]
        cases s <;> simp <;> linarith
    · exact hr.symm

theorem is_inj {a : Sf F} {b b' : Fp F} (h : Is a b) (h' : Is a b') : b = b' := (is_toFp h).trans (is_toFp h').symm

theorem is_ofFp (b : Fp F) : ∃ a : Sf F, Is a b := by
  match b with
  | .nan => exact ⟨nan, trivial⟩
  | .inf s => exact ⟨inf s, rfl⟩
  | .fin s x h =>
    have hz : (0 : ℝ) ≤ (nearestEven (x / 2 ^ F.uexp x) : ℝ) := by
      by_contra hc
      have h1 : F.rnd x < 0 := mul_neg_of_neg_of_pos (not_le.mp hc) (by positivity)
      rw [h.2.1] at h1
      exact absurd h1 (not_lt.mpr h.1)
    have hz' : 0 ≤ nearestEven (x / 2 ^ F.uexp x) := by exact_mod_cast hz
    refine ⟨fin s (nearestEven (x / 2 ^ F.uexp x)).toNat (F.uexp x), rfl, ?_⟩
    have e1 : (((nearestEven (x / 2 ^ F.uexp x)).toNat : ℕ) : ℝ) = (nearestEven (x / 2 ^ F.uexp x) : ℝ) := by
      rw [← Int.cast_natCast, Int.toNat_of_nonneg hz']
    rw [e1]
    exact h.2.1.symm

theorem ok_is {a : Sf F} (h : ok a = true) : Is a (toFp a) := by
  match a, h with
  | nan, _ => trivial
  | inf _, _ => rfl
  | fin s m e, h =>
    by_cases hm : m = 0
    · subst hm
      unfold toFp
      simp only [Nat.cast_zero, zero_mul, mul_zero]
      have : F.rnd |(0 : ℝ)| < F.top := by rw [abs_zero, F.rnd_zero]; exact F.top_pos
      unfold Fp.round
      rw [dif_pos this]
      exact ⟨by simp, by simp [F.rnd_zero]⟩
    · have hm0 : (0 : ℝ) < m := by exact_mod_cast Nat.pos_of_ne_zero hm
      simp only [ok, Bool.or_eq_true, beq_iff_eq, hm, false_or, Bool.and_eq_true, decide_eq_true_eq] at h
      have hx : (0 : ℝ) < m * 2 ^ e := by positivity
      have hr : round F s s m e = fin s m e := by
        unfold round
        rw [if_neg hm]
        dsimp only
        rw [if_pos h.1]
        unfold over
        rw [if_neg (fun k => absurd k.2 (not_le.mpr h.2)), force_eq, forceInt_eq]
      have key := round_is (F := F) (s := s) (z := s) (n := m) (e := e) (r := (if s then -1 else 1) * (m * 2 ^ e)) ?_ ?_ ?_
      · rw [hr] at key; exact key
      · rw [abs_mul, abs_of_pos hx]; cases s <;> simp
      · constructor
        · intro k
          exfalso
          have := hx.ne'
          cases s <;> simp_all
        · intro k; exact absurd k hm
      · intro _
        cases s <;> simp <;> linarith

/-- Literals: the nearest number. -/
theorem ofFrac_is (s : Bool) (n d : ℕ) (hd : d ≠ 0) : Is (ofFrac F s n d) (Fp.round F s ((if s then -1 else 1) * (n / d))) := by
  have hd0 : (0 : ℝ) < d := by exact_mod_cast Nat.pos_of_ne_zero hd
  unfold ofFrac
  dsimp only
  set k := F.p + 2 + Nat.log2 d with hk
  have hq : (0 : ℝ) ≤ (n : ℝ) / d := by positivity
  have hv : |(if s then -1 else 1) * ((n : ℝ) / d)| = n / d := by
    rw [abs_mul, abs_of_nonneg hq]; cases s <;> simp
  have hxy : (n : ℝ) / d = ((n <<< k : ℕ) : ℝ) / d * 2 ^ (-(k : ℤ) - 1 + 1) := by
    rw [Nat.shiftLeft_eq]
    push_cast
    rw [sub_add_cancel, zpow_neg, zpow_natCast]
    field_simp
  have hp : (0 : ℝ) < 2 ^ (-(k : ℤ) - 1 + 1) := by positivity
  have hdiv := Nat.div_add_mod (n <<< k) d
  have hmod := Nat.mod_lt (n <<< k) (Nat.pos_of_ne_zero hd)
  have hst := sticky_rnd (F := F) (N := n <<< k / d) (e := -(k : ℤ) - 1) (x := (n : ℝ) / d) (ex := n <<< k % d == 0) ?_ ?_ ?_
  · refine round_is ?_ ?_ ?_
    · rw [hv]; exact hst.1
    · rw [← abs_eq_zero, hv]; exact hst.2
    · intro hne
      have hx0 : 0 < (n : ℝ) / d := lt_of_le_of_ne (by positivity) (fun k => hne (by rw [← k, mul_zero]))
      cases s <;> simp <;> linarith
  · intro hne
    have hm : n ≠ 0 := by rintro rfl; simp at hne
    have hN : 2 ^ (F.p + 1) ≤ n <<< k / d := by
      rw [Nat.le_div_iff_mul_le (Nat.pos_of_ne_zero hd), Nat.shiftLeft_eq, hk]
      have h1 : d < 2 ^ (Nat.log2 d + 1) := Nat.lt_log2_self
      calc 2 ^ (F.p + 1) * d ≤ 2 ^ (F.p + 1) * 2 ^ (Nat.log2 d + 1) := Nat.mul_le_mul_left _ h1.le
        _ = 1 * 2 ^ (F.p + 2 + Nat.log2 d) := by rw [← pow_add, one_mul]; congr 1; omega
        _ ≤ n * 2 ^ (F.p + 2 + Nat.log2 d) := Nat.mul_le_mul_right _ (Nat.pos_of_ne_zero hm)
    have := log2_ge hN
    refine ⟨by omega, ?_⟩
    have := Nat.two_pow_pos (F.p + 1)
    omega
  · intro hex
    have hz : n <<< k % d = 0 := by simpa using hex
    rw [hxy]
    congr 1
    rw [div_eq_iff hd0.ne']
    have : n <<< k = n <<< k / d * d := by rw [mul_comm]; omega
    exact_mod_cast this
  · intro hex
    have hz : n <<< k % d ≠ 0 := by simpa using hex
    rw [hxy]
    constructor
    · refine mul_lt_mul_of_pos_right ?_ hp
      rw [lt_div_iff₀ hd0]
      have : n <<< k / d * d < n <<< k := by rw [mul_comm]; omega
      exact_mod_cast this
    · refine mul_lt_mul_of_pos_right ?_ hp
      rw [div_lt_iff₀ hd0]
      have : n <<< k < (n <<< k / d + 1) * d := by rw [add_mul, one_mul, mul_comm (n <<< k / d)]; omega
      exact_mod_cast this

end Sf

end Lalib
