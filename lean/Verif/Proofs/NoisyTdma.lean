import Verif.Proofs.NoisySolve
import Verif.Proofs.FloatTdma
import Verif.Proofs.EvalSolve
import Mathlib.Tactic.Linarith

/-! # Backward error of the tri-diagonal solver, with any accurate arithmetic -/

namespace Lalib.Nz

open Finset
open Fl (band band_sum)

variable {N : Noisy} {n : Nat}

/-- One row: an identity between the computed numbers and the given ones. -/
private theorem row_identity {b D Q Q' x x' x'' P P' u l d f2 f3 f4 f5 f6 f7 f8 g1 g7 g8 : ℝ}
    (hD : D ≠ 0) (hf : f2 ≠ 0 ∧ f5 ≠ 0 ∧ f6 ≠ 0 ∧ f8 ≠ 0 ∧ g8 ≠ 0)
    (e1 : D = (d + l * P' * g1) * f2) (e2 : P = -u / D * f3) (e3 : Q = ((b - l * Q' * f4) * f5) / D * f6)
    (e4 : x = (P * x'' * f7 + Q) * f8) (e5 : x' = (P' * x * g7 + Q') * g8) :
    (d + (D * (1 / (f5 * f6 * f8) - 1 / f2) - l * P' * (f4 * g7 - g1))) * x + u * (f3 * f7 / (f5 * f6)) * x'' +
      l * (f4 / g8) * x' = b := by
  obtain ⟨h2, h5, h6, h8, h9⟩ := hf
  have d1 : d = D / f2 - l * P' * g1 := by rw [e1]; field_simp; ring
  have q1 : Q' = x' / g8 - P' * x * g7 := by rw [e5]; field_simp; ring
  have q2 : b = D * Q / (f5 * f6) + l * Q' * f4 := by rw [e3]; field_simp; ring
  have q3 : Q = x / f8 - P * x'' * f7 := by rw [e4]; field_simp; ring
  have q4 : D * P = -u * f3 := by rw [e2]; field_simp
  have q5 : D * Q = D * x / f8 + u * f3 * x'' * f7 := by
    rw [q3, mul_sub, show D * (P * x'' * f7) = (D * P) * (x'' * f7) by ring, q4]; ring
  rw [q2, q5, q1, d1]
  field_simp
  ring

theorem tdma_near {a : TriDiag (Nz N)} {b x D P Q : Nat → Nz N} (h : TdmaEq n a b x D P Q)
    (hD : ∀ i, i < n → (D i).val ≠ 0) :
    NearSolves n (mat (triFull a)) (fun i j => gam N.u 4 * (if i = j then |(D i).val| +
        (if 0 < i then |(val0 a.dl (i - 1)).val * (P (i - 1)).val| else 0) else |mat (triFull a) i j|))
      (fun i => (x i).val) (fun i => (b i).val) := by
  have h0 := N.u_nonneg
  have h1 := N.u_lt_one
  choose m hm em using fun s t : Nz N => mul_fac s t
  choose dv hdv edv using fun s t : Nz N => div_fac s t
  choose ad had ead using fun s t : Nz N => add_fac s t
  choose sb hsb esb using fun s t : Nz N => sub_fac s t
  -- the factors of every step
  set g1 : ℕ → ℝ := fun i => m (val0 a.dl i) (P i)
  set f2 : ℕ → ℝ := fun i => if i = 0 then 1 else ad (val0 a.d i) (val0 a.dl (i - 1) * P (i - 1)) with hf2
  set f3 : ℕ → ℝ := fun i => dv (-val0 a.du i) (D i)
  set f4 : ℕ → ℝ := fun i => m (val0 a.dl i) (Q i)
  set f5 : ℕ → ℝ := fun i => if i = 0 then 1 else sb (b i) (val0 a.dl (i - 1) * Q (i - 1)) with hf5
  set f6 : ℕ → ℝ := fun i => if i = 0 then dv (b 0) (D 0) else dv (b i - val0 a.dl (i - 1) * Q (i - 1)) (D i) with hf6
  set f7 : ℕ → ℝ := fun i => m (P i) (x (i + 1))
  set f8 : ℕ → ℝ := fun i => if i + 1 < n then ad (P i * x (i + 1)) (Q i) else 1 with hf8
  have F1 : ∀ i, Fac N.u 1 (g1 i) := fun i => hm _ _
  have F2 : ∀ i, Fac N.u 1 (f2 i) := fun i => by
    simp only [hf2]; split_ifs
    · exact Fac.one h0 h1 1
    · exact had _ _
  have F3 : ∀ i, Fac N.u 1 (f3 i) := fun i => hdv _ _
  have F4 : ∀ i, Fac N.u 1 (f4 i) := fun i => hm _ _
  have F5 : ∀ i, Fac N.u 1 (f5 i) := fun i => by
    simp only [hf5]; split_ifs
    · exact Fac.one h0 h1 1
    · exact hsb _ _
  have F6 : ∀ i, Fac N.u 1 (f6 i) := fun i => by
    simp only [hf6]; split_ifs <;> exact hdv _ _
  have F7 : ∀ i, Fac N.u 1 (f7 i) := fun i => hm _ _
  have F8 : ∀ i, Fac N.u 1 (f8 i) := fun i => by
    simp only [hf8]; split_ifs
    · exact had _ _
    · exact Fac.one h0 h1 1
  have ne : ∀ {ρ : ℝ}, Fac N.u 1 ρ → ρ ≠ 0 := fun hρ => (hρ.pos h0 h1).ne'
  -- the steps
  have E2 : ∀ i, i + 1 < n → (P i).val = -(val0 a.du i).val / (D i).val * f3 i := by
    intro i hi
    rw [h.p i hi, edv, val_neg]
  have E8 : ∀ i, i + 1 < n → (x i).val = ((P i).val * (x (i + 1)).val * f7 i + (Q i).val) * f8 i := by
    intro i hi
    have : f8 i = ad (P i * x (i + 1)) (Q i) := by simp only [hf8]; rw [if_pos hi]
    rw [this, h.back i hi, ead, em]
  set dl : ℕ → ℝ := fun i => (val0 a.dl i).val
  set dv' : ℕ → ℝ := fun i => (val0 a.d i).val
  set du : ℕ → ℝ := fun i => (val0 a.du i).val
  let c : ℕ → ℝ := fun i => dv' i + ((D i).val * (1 / (f5 i * f6 i * f8 i) - 1 / f2 i) -
    (if 0 < i then dl (i - 1) * (P (i - 1)).val * (f4 (i - 1) * f7 (i - 1) - g1 (i - 1)) else 0))
  let e : ℕ → ℝ := fun i => du i * (f3 i * f7 i / (f5 i * f6 i))
  let f : ℕ → ℝ := fun i => dl i * (f4 i / f8 i)
  refine ⟨fun i j => band c e f i j - mat (triFull a) i j, fun i j hi hj => ?_, fun i hi => ?_⟩
  · beta_reduce
    have gn := gam_nonneg h0 h1 4
    by_cases hij : i = j
    · subst hij
      rw [if_pos rfl]
      have e1 : band c e f i i - mat (triFull a) i i = c i - dv' i := by simp [band, mat, triFull, dv']
      rw [e1]
      simp only [c, add_sub_cancel_left]
      have b1 : |(D i).val * (1 / (f5 i * f6 i * f8 i) - 1 / f2 i)| ≤ gam N.u 4 * |(D i).val| := by
        rw [abs_mul, mul_comm]
        refine mul_le_mul_of_nonneg_right ?_ (abs_nonneg _)
        exact ((((F5 i).mul h0 h1 (F6 i)).mul h0 h1 (F8 i)).inv h0 h1).sub_le h0 h1 ((F2 i).inv h0 h1)
      refine (abs_sub _ _).trans ?_
      rw [mul_add]
      refine add_le_add b1 ?_
      split_ifs with hi0
      · rw [abs_mul, mul_comm]
        refine mul_le_mul_of_nonneg_right ?_ (abs_nonneg _)
        refine (((F4 _).mul h0 h1 (F7 _)).sub_le h0 h1 (F1 _)).trans (gam_mono h0 h1 (by omega))
      · simp
    · rw [if_neg hij]
      by_cases h2 : i + 1 = j
      · have e1 : band c e f i j - mat (triFull a) i j = du i * (f3 i * f7 i / (f5 i * f6 i)) - du i := by
          simp [band, mat, triFull, hij, h2, e, du]
        have e2 : mat (triFull a) i j = du i := by simp [mat, triFull, hij, h2, du]
        rw [e1, e2]
        exact term_fac_le h0 h1 (((F3 i).mul h0 h1 (F7 i)).div h0 h1 ((F5 i).mul h0 h1 (F6 i)))
      · by_cases h3 : i = j + 1
        · have e1 : band c e f i j - mat (triFull a) i j = dl j * (f4 j / f8 j) - dl j := by
            unfold band mat triFull
            rw [if_neg hij, if_neg h2, if_pos h3, if_neg hij, if_neg h2, if_pos h3]
          have e2 : mat (triFull a) i j = dl j := by
            unfold mat triFull
            rw [if_neg hij, if_neg h2, if_pos h3]
          rw [e1, e2]
          exact term_fac_le h0 h1 (((F4 j).div h0 h1 (F8 j)).mono h0 h1 (by omega))
        · have e1 : band c e f i j - mat (triFull a) i j = 0 := by
            simp [band, mat, triFull, hij, h2, h3]
          rw [e1, abs_zero]
          exact mul_nonneg gn (abs_nonneg _)
  · have : mulVec n (fun i j => mat (triFull a) i j + (band c e f i j - mat (triFull a) i j))
        (fun i => (x i).val) i = mulVec n (band c e f) (fun i => (x i).val) i := by
      unfold mulVec
      exact sum_congr rfl fun j _ => by beta_reduce; rw [add_sub_cancel]
    show mulVec n (fun i j => mat (triFull a) i j + (band c e f i j - mat (triFull a) i j)) (fun i => (x i).val) i = _
    rw [this, band_sum c e f _ hi]
    -- equation of the backward sweep, with nothing behind the last row
    have Ex : (x i).val = (((if i + 1 < n then (P i).val else 0) * (x (i + 1)).val * f7 i + (Q i).val) * f8 i) := by
      split_ifs with hlt
      · exact E8 i hlt
      · have : i = n - 1 := by omega
        have e8 : f8 i = 1 := by simp only [hf8]; rw [if_neg hlt]
        rw [e8, this, h.last]; ring
    have Ep : (if i + 1 < n then (P i).val else 0) = -(if i + 1 < n then du i else 0) / (D i).val * f3 i := by
      split_ifs with hlt
      · exact E2 i hlt
      · simp
    have fin : (if i + 1 < n then e i * (x (i + 1)).val else 0) =
        (if i + 1 < n then du i else 0) * (f3 i * f7 i / (f5 i * f6 i)) * (x (i + 1)).val := by
      split_ifs <;> simp [e]
    rw [fin]
    cases i with
    | zero =>
      have q0 : (Q 0).val = ((b 0).val - 0 * 0 * 1) * f5 0 / (D 0).val * f6 0 := by
        have e5 : f5 0 = 1 := by simp [hf5]
        have e6 : f6 0 = dv (b 0) (D 0) := by simp [hf6]
        rw [e5, e6, h.q0, edv]; ring
      have d0 : (D 0).val = (dv' 0 + 0 * 0 * 1) * f2 0 := by
        have e2 : f2 0 = 1 := by simp [hf2]
        rw [e2, h.d0]; simp [dv']
      have key := row_identity (x' := 0) (g7 := 1) (g8 := 1) (hD 0 hi) ⟨ne (F2 0), ne (F5 0), ne (F6 0), ne (F8 0), one_ne_zero⟩
        d0 Ep q0 Ex (by ring)
      simp only [lt_irrefl, if_false, c]
      linear_combination key
    | succ i =>
      have q0 : (Q (i + 1)).val = ((b (i + 1)).val - dl i * (Q i).val * f4 i) * f5 (i + 1) / (D (i + 1)).val *
          f6 (i + 1) := by
        have e5 : f5 (i + 1) = sb (b (i + 1)) (val0 a.dl i * Q i) := by simp [hf5]
        have e6 : f6 (i + 1) = dv (b (i + 1) - val0 a.dl i * Q i) (D (i + 1)) := by simp [hf6]
        rw [e5, e6, h.q i hi, edv, esb, em]
      have d0 : (D (i + 1)).val = (dv' (i + 1) + dl i * (P i).val * g1 i) * f2 (i + 1) := by
        have e2 : f2 (i + 1) = ad (val0 a.d (i + 1)) (val0 a.dl i * P i) := by simp [hf2]
        rw [e2, h.d i hi, ead, em]
      have key := row_identity (hD (i + 1) hi)
        ⟨ne (F2 _), ne (F5 _), ne (F6 _), ne (F8 _), ne (F8 i)⟩ d0 Ep q0 Ex (E8 i hi)
      simp only [Nat.succ_pos, if_true, Nat.add_sub_cancel, c, f]
      linear_combination key

/-- Pivots of a matrix that is dominant with a margin for the roundings. -/
theorem dom_pivots {a : TriDiag (Nz N)}
    (hd : ∀ i, i < n → ∑ j ∈ (range n).erase i, |mat (triFull a) i j| < (1 - N.u) ^ 2 * |mat (triFull a) i i|) :
    ∀ i, i < n → (Tdma.D a i).val ≠ 0 ∧ |(Tdma.D a i).val| ≤ 2 * (1 + gam N.u 1) * |mat (triFull a) i i| ∧
      (0 < i → |(val0 a.dl (i - 1)).val * (Tdma.P a (i - 1)).val| ≤ |mat (triFull a) i i|) ∧
      (i + 1 < n → |(Tdma.P a i).val| ≤ 1) := by
  have h0 := N.u_nonneg
  have h1 := N.u_lt_one
  let a' : TriDiag ℝ := ⟨a.dl.map Nz.val, a.d.map Nz.val, a.du.map Nz.val⟩
  have vm : ∀ (l : List (Nz N)) i, val0 (l.map Nz.val) i = (val0 l i).val := by
    intro l i
    unfold val0
    by_cases hi : i < l.length <;> simp [hi]
  have tf : ∀ i j, triFull a' i j = mat (triFull a) i j := by
    intro i j
    simp only [triFull, mat, a', vm]
    split_ifs <;> first | rfl | exact val_zero.symm
  have row : ∀ i, i < n → (if 0 < i then |(val0 a.dl (i - 1)).val| else 0) +
      (if i + 1 < n then |(val0 a.du i).val| else 0) < (1 - N.u) ^ 2 * |(val0 a.d i).val| := by
    intro i hi
    have := Tdma.row_sum_le a' hi
    simp only [tf] at this
    simp only [a', vm] at this
    have e : mat (triFull a) i i = (val0 a.d i).val := by simp [mat, triFull]
    have h := hd i hi
    rw [e] at h
    exact lt_of_le_of_lt this h
  have dg : ∀ i, mat (triFull a) i i = (val0 a.d i).val := fun i => by simp [mat, triFull]
  simp only [dg]
  have w0 : 0 < 1 - N.u := by linarith
  have w1 : 1 - N.u ≤ 1 := by linarith
  set w := 1 - N.u with hw
  have g1 : 1 + gam N.u 1 = 1 / w := by rw [gam, hw]; ring
  -- the root of the computed quotient
  have quot : ∀ i, i < n → (Tdma.D a i).val ≠ 0 → (i + 1 < n → |(val0 a.du i).val| ≤ w * |(Tdma.D a i).val|) → i + 1 < n →
      |(Tdma.P a i).val| ≤ 1 := by
    intro i _ hD hle hi1
    obtain ⟨ρ, hρ, e⟩ := div_fac (-val0 a.du i) (Tdma.D a i)
    rw [← Tdma.P_eq, val_neg] at e
    have hD' := hD
    have p := hρ.pos h0 h1
    have p2 : ρ * w ≤ 1 := by have := hρ.2; rwa [pow_one] at this
    rw [e, abs_mul, abs_div, abs_neg, abs_of_pos p, div_mul_eq_mul_div, div_le_one (abs_pos.mpr hD')]
    have := hle hi1
    have q := abs_nonneg (Tdma.D a i).val
    calc |(val0 a.du i).val| * ρ ≤ w * |(Tdma.D a i).val| * ρ := mul_le_mul_of_nonneg_right this p.le
      _ = (ρ * w) * |(Tdma.D a i).val| := by ring
      _ ≤ 1 * |(Tdma.D a i).val| := mul_le_mul_of_nonneg_right p2 q
      _ = _ := one_mul _
  intro i
  induction i with
  | zero =>
    intro hi
    have r := row 0 hi
    simp only [lt_irrefl, if_false, zero_add] at r
    have e : (Tdma.D a 0) = val0 a.d 0 := rfl
    have dpos : 0 < |(val0 a.d 0).val| := by
      by_contra hn
      have : |(val0 a.d 0).val| = 0 := le_antisymm (not_lt.mp hn) (abs_nonneg _)
      rw [this, mul_zero] at r
      split_ifs at r
      · exact absurd r (not_lt.mpr (abs_nonneg _))
      · exact absurd r (lt_irrefl _)
    have hD : (Tdma.D a 0).val ≠ 0 := by rw [e]; exact abs_pos.mp dpos
    refine ⟨hD, ?_, fun h => absurd h (lt_irrefl _), quot 0 hi hD ?_⟩
    · rw [e]
      have := gam_nonneg h0 h1 1
      nlinarith
    · intro h2
      rw [if_pos h2] at r
      rw [e]
      have := mul_le_mul_of_nonneg_right (show w ^ 2 ≤ w by nlinarith) dpos.le
      linarith
  | succ i ih =>
    intro hi
    obtain ⟨_, _, _, hP⟩ := ih (by omega)
    have hP := hP hi
    have r := row (i + 1) hi
    simp only [Nat.succ_pos, if_true, Nat.add_sub_cancel] at r
    obtain ⟨ρ, hρ, e1⟩ := mul_fac (val0 a.dl i) (Tdma.P a i)
    obtain ⟨σ, hσ, e2⟩ := add_fac (val0 a.d (i + 1)) (val0 a.dl i * Tdma.P a i)
    have e : (Tdma.D a (i + 1)).val = ((val0 a.d (i + 1)).val + (val0 a.dl i).val * (Tdma.P a i).val * ρ) * σ := by
      rw [← e1, ← e2]; rfl
    have ρp := hρ.pos h0 h1
    have σp := hσ.pos h0 h1
    have ρ2 : ρ * w ≤ 1 := by have := hρ.2; rwa [pow_one] at this
    have σ1 : w ≤ σ := by have := hσ.1; rwa [pow_one] at this
    have σ2 : σ * w ≤ 1 := by have := hσ.2; rwa [pow_one] at this
    have lp : |(val0 a.dl i).val * (Tdma.P a i).val| ≤ |(val0 a.dl i).val| := by
      rw [abs_mul]
      exact mul_le_of_le_one_right (abs_nonneg _) hP
    have dn := abs_nonneg (val0 a.d (i + 1)).val
    have ln := abs_nonneg (val0 a.dl i).val
    have un : 0 ≤ (if i + 1 + 1 < n then |(val0 a.du (i + 1)).val| else 0) := by
      split_ifs
      · exact abs_nonneg _
      · exact le_refl _
    have lpw : |(val0 a.dl i).val * (Tdma.P a i).val * ρ| * w ≤ |(val0 a.dl i).val| := by
      rw [abs_mul, abs_of_pos ρp]
      calc _ = |(val0 a.dl i).val * (Tdma.P a i).val| * (ρ * w) := by ring
        _ ≤ |(val0 a.dl i).val * (Tdma.P a i).val| * 1 := mul_le_mul_of_nonneg_left ρ2 (abs_nonneg _)
        _ ≤ _ := by rw [mul_one]; exact lp
    set t := (val0 a.dl i).val * (Tdma.P a i).val * ρ
    set d := (val0 a.d (i + 1)).val
    set U := (if i + 1 + 1 < n then |(val0 a.du (i + 1)).val| else 0) with hU
    have lower : w * |d| - |(val0 a.dl i).val| ≤ |(Tdma.D a (i + 1)).val| := by
      rw [e, abs_mul, abs_of_pos σp]
      have a1 : |d| - |t| ≤ |d + t| := by
        have := abs_sub_abs_le_abs_sub d (-t)
        rwa [abs_neg, sub_neg_eq_add] at this
      have a2 := abs_nonneg (d + t)
      nlinarith
    have upper' : |(Tdma.D a (i + 1)).val| ≤ 2 * (1 / w) * |d| := by
      rw [e, abs_mul, abs_of_pos σp]
      have a1 := abs_add_le d t
      have a2 : |t| * w ≤ w ^ 2 * |d| := by linarith
      have a3 : |t| ≤ w * |d| := by
        have : |t| * w ≤ (w * |d|) * w := by nlinarith
        exact le_of_mul_le_mul_right this w0
      have a4 : |d + t| ≤ 2 * |d| := by nlinarith
      have a5 : σ ≤ 1 / w := by rw [le_div_iff₀ w0]; exact σ2
      calc |d + t| * σ ≤ 2 * |d| * σ := mul_le_mul_of_nonneg_right a4 σp.le
        _ ≤ 2 * |d| * (1 / w) := mul_le_mul_of_nonneg_left a5 (by linarith)
        _ = _ := by ring
    have hD : (Tdma.D a (i + 1)).val ≠ 0 := by
      rw [← abs_pos]
      refine lt_of_lt_of_le ?_ lower
      nlinarith
    refine ⟨hD, ?_, fun _ => ?_, quot (i + 1) hi hD ?_⟩
    · rw [g1]; exact upper'
    · simp only [Nat.add_sub_cancel]
      refine lp.trans ?_
      have := mul_le_mul_of_nonneg_right (show w ^ 2 ≤ 1 by nlinarith) dn
      linarith
    · intro h2
      have : |(val0 a.du (i + 1)).val| = U := by rw [hU, if_pos h2]
      rw [this]
      have p1 := mul_le_mul_of_nonneg_left lower w0.le
      have p2 := mul_le_of_le_one_left ln w1
      have p3 : w * (w * |d| - |(val0 a.dl i).val|) = w ^ 2 * |d| - w * |(val0 a.dl i).val| := by ring
      linarith

end Lalib.Nz
