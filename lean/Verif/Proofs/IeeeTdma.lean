import Verif.Proofs.IeeeNear
import Verif.Proofs.FloatTdma

/-! # Backward error of the tri-diagonal solver over IEEE 754 numbers -/

namespace Lalib

open Finset Fl

/-- The backward error of the tri-diagonal algorithm, from the factors and the underflows of its steps. -/
theorem tdma_eta {n : ℕ} {v η : ℝ} (h0 : 0 ≤ v) (h1 : v < 1) (hη : 0 ≤ η)
    {l d u b x D P Q g1 f2 f3 f4 f5 f6 f7 f8 ε1 ε3 ε4 ε6 ε7 : ℕ → ℝ} (hD : ∀ i, i < n → D i ≠ 0)
    (F1 : ∀ i, Fac v 1 (g1 i)) (F2 : ∀ i, Fac v 1 (f2 i)) (F3 : ∀ i, Fac v 1 (f3 i)) (F4 : ∀ i, Fac v 1 (f4 i))
    (F5 : ∀ i, Fac v 1 (f5 i)) (F6 : ∀ i, Fac v 1 (f6 i)) (F7 : ∀ i, Fac v 1 (f7 i)) (F8 : ∀ i, Fac v 1 (f8 i))
    (b1 : ∀ i, |ε1 i| ≤ η) (b3 : ∀ i, |ε3 i| ≤ η) (b4 : ∀ i, |ε4 i| ≤ η) (b6 : ∀ i, |ε6 i| ≤ η) (b7 : ∀ i, |ε7 i| ≤ η)
    (e1 : ∀ i, i < n → D i = (d i + (if 0 < i then l (i - 1) * P (i - 1) * g1 i + ε1 i else 0)) * f2 i)
    (e3 : ∀ i, i + 1 < n → P i = -u i / D i * f3 i + ε3 i)
    (e4 : ∀ i, i < n → Q i = (b i - (if 0 < i then l (i - 1) * Q (i - 1) * f4 i + ε4 i else 0)) * f5 i / D i * f6 i + ε6 i)
    (e7 : ∀ i, i < n → x i = ((if i + 1 < n then P i * x (i + 1) * f7 i + ε7 i else 0) + Q i) * f8 i) :
    NearSolves2 n (band d u l)
      (fun i j => gam v 4 * (if i = j then |D i| + (if 0 < i then |l (i - 1) * P (i - 1)| else 0) else |band d u l i j|) +
        (if i = j then η else if i + 1 = j then (1 + gam v 3) * η * |D i| else 0))
      (fun i => (1 + gam v 3) * η * (2 * |D i| + (if 0 < i then |l (i - 1)| else 0) + 1)) x b := by
  have ne : ∀ {ρ : ℝ}, Fac v 1 ρ → ρ ≠ 0 := fun hρ => (hρ.pos h0 h1).ne'
  have gn := gam_nonneg h0 h1 4
  let c : ℕ → ℝ := fun i => D i * (1 / (f5 i * f6 i * f8 i) - 1 / f2 i) -
    (if 0 < i then l (i - 1) * P (i - 1) * (f4 i * f7 (i - 1) - g1 i) - ε1 i else 0)
  let e : ℕ → ℝ := fun i => u i * (f3 i * f7 i / (f5 i * f6 i)) - D i * ε3 i * (f7 i / (f5 i * f6 i))
  let f : ℕ → ℝ := fun i => l i * (f4 (i + 1) / f8 i)
  let r : ℕ → ℝ := fun i => D i * ((if i + 1 < n then ε7 i else 0) + ε6 i) * (1 / (f5 i * f6 i)) +
    (if 0 < i then l (i - 1) * f4 i * ε7 (i - 1) - ε4 i else 0)
  refine ⟨fun i j => band (fun i => d i + c i) e f i j - band d u l i j, r, fun i j hi hj => ?_, fun i hi => ?_,
    fun i hi => ?_⟩
  · beta_reduce
    by_cases hij : i = j
    · subst hij
      rw [if_pos rfl, if_pos rfl]
      have q1 : band (fun i => d i + c i) e f i i - band d u l i i = c i := by simp [band]
      rw [q1]
      have q2 : |D i * (1 / (f5 i * f6 i * f8 i) - 1 / f2 i)| ≤ gam v 4 * |D i| := by
        rw [abs_mul, mul_comm]
        refine mul_le_mul_of_nonneg_right ?_ (abs_nonneg _)
        exact ((((F5 i).mul h0 h1 (F6 i)).mul h0 h1 (F8 i)).inv h0 h1).sub_le h0 h1 ((F2 i).inv h0 h1)
      refine (abs_sub _ _).trans ?_
      rw [mul_add, add_assoc]
      refine add_le_add q2 ?_
      split_ifs with hi0
      · refine (abs_sub _ _).trans (add_le_add ?_ (b1 i))
        rw [abs_mul, mul_comm]
        refine mul_le_mul_of_nonneg_right ?_ (abs_nonneg _)
        exact (((F4 _).mul h0 h1 (F7 _)).sub_le h0 h1 (F1 _)).trans (gam_mono h0 h1 (by omega))
      · simpa using hη
    · rw [if_neg hij, if_neg hij]
      by_cases h2 : i + 1 = j
      · rw [if_pos h2]
        have q1 : band (fun i => d i + c i) e f i j = e i := by unfold band; rw [if_neg hij, if_pos h2]
        have q2 : band d u l i j = u i := by unfold band; rw [if_neg hij, if_pos h2]
        rw [q1, q2]
        have q3 : e i - u i = (u i * (f3 i * f7 i / (f5 i * f6 i)) - u i) - D i * ε3 i * (f7 i / (f5 i * f6 i)) := by
          simp only [e]; ring
        rw [q3]
        refine (abs_sub _ _).trans (add_le_add
          (term_fac_le h0 h1 (((F3 i).mul h0 h1 (F7 i)).div h0 h1 ((F5 i).mul h0 h1 (F6 i)))) ?_)
        have := ((F7 i).div h0 h1 ((F5 i).mul h0 h1 (F6 i))).abs_le h0 h1
        rw [abs_mul, abs_mul]
        have p1 := mul_le_mul_of_nonneg_left (b3 i) (abs_nonneg (D i))
        calc _ ≤ |D i| * η * (1 + gam v 3) :=
              mul_le_mul p1 this (abs_nonneg _) (mul_nonneg (abs_nonneg _) hη)
          _ = _ := by ring
      · rw [if_neg h2, add_zero]
        by_cases h3 : i = j + 1
        · have q1 : band (fun i => d i + c i) e f i j = l j * (f4 (j + 1) / f8 j) := by
            unfold band; rw [if_neg hij, if_neg h2, if_pos h3]
          have q2 : band d u l i j = l j := by unfold band; rw [if_neg hij, if_neg h2, if_pos h3]
          rw [q1, q2]
          exact term_fac_le h0 h1 (((F4 (j + 1)).div h0 h1 (F8 j)).mono h0 h1 (by omega))
        · have q1 : band (fun i => d i + c i) e f i j - band d u l i j = 0 := by simp [band, hij, h2, h3]
          rw [q1, abs_zero]
          exact mul_nonneg gn (abs_nonneg _)
  · have q1 := (((F5 i).mul h0 h1 (F6 i)).inv h0 h1).abs_le h0 h1
    have g23 := gam_mono h0 h1 (show 2 ≤ 3 by omega)
    have g13 := gam_mono h0 h1 (show 1 ≤ 3 by omega)
    have g3 := gam_nonneg h0 h1 3
    have q2 : |(if i + 1 < n then ε7 i else 0) + ε6 i| ≤ 2 * η := by
      refine (abs_add_le _ _).trans ?_
      have : |if i + 1 < n then ε7 i else 0| ≤ η := by
        split_ifs
        · exact b7 i
        · simpa using hη
      have := b6 i
      linarith
    have q3 : |D i * ((if i + 1 < n then ε7 i else 0) + ε6 i) * (1 / (f5 i * f6 i))| ≤
        (1 + gam v 3) * η * (2 * |D i|) := by
      rw [abs_mul, abs_mul]
      calc _ ≤ |D i| * (2 * η) * (1 + gam v 3) :=
            mul_le_mul (mul_le_mul_of_nonneg_left q2 (abs_nonneg _)) (q1.trans (by linarith)) (abs_nonneg _)
              (mul_nonneg (abs_nonneg _) (by linarith))
        _ = _ := by ring
    simp only [r]
    refine (abs_add_le _ _).trans ?_
    rw [add_assoc (2 * |D i|), mul_add ((1 + gam v 3) * η)]
    refine add_le_add q3 ?_
    have hp : η ≤ (1 + gam v 3) * η := by nlinarith
    split_ifs with hi0
    · refine (abs_sub _ _).trans ?_
      rw [mul_add, mul_one]
      refine add_le_add ?_ ((b4 i).trans hp)
      rw [abs_mul, abs_mul]
      have q4 := (F4 i).abs_le h0 h1
      calc _ ≤ |l (i - 1)| * (1 + gam v 3) * η :=
            mul_le_mul (mul_le_mul_of_nonneg_left (q4.trans (by linarith)) (abs_nonneg _)) (b7 _) (abs_nonneg _)
              (mul_nonneg (abs_nonneg _) (by linarith))
        _ = _ := by ring
    · rw [abs_zero, zero_add, mul_one]; linarith
  · have q1 : mulVec n (fun i j => band d u l i j + (band (fun i => d i + c i) e f i j - band d u l i j)) x i =
        mulVec n (band (fun i => d i + c i) e f) x i := by
      unfold mulVec
      exact sum_congr rfl fun j _ => by beta_reduce; rw [add_sub_cancel]
    refine q1.trans ?_
    rw [band_sum _ e f _ hi]
    have hd := hD i hi
    have n2 := ne (F2 i)
    have n5 := ne (F5 i)
    have n6 := ne (F6 i)
    have n8 := ne (F8 i)
    -- the step of the backward sweep, multiplied by the pivot
    have k1 : D i * Q i = D i * x i / f8 i + (if i + 1 < n then u i * f3 i * f7 i * x (i + 1) -
        D i * ε3 i * f7 i * x (i + 1) - D i * ε7 i else 0) := by
      have a := e7 i hi
      split_ifs with hlt
      · rw [if_pos hlt] at a
        have q : Q i = x i / f8 i - P i * x (i + 1) * f7 i - ε7 i := by rw [a]; field_simp; ring
        have p : D i * P i = -u i * f3 i + D i * ε3 i := by rw [e3 i hlt]; field_simp
        rw [q, mul_sub, mul_sub, show D i * (P i * x (i + 1) * f7 i) = (D i * P i) * (x (i + 1) * f7 i) by ring, p]
        ring
      · rw [if_neg hlt] at a
        have q : Q i = x i / f8 i := by rw [a]; field_simp; ring
        rw [q]; ring
    have k2 : b i = D i * Q i / (f5 i * f6 i) - D i * ε6 i / (f5 i * f6 i) +
        (if 0 < i then l (i - 1) * Q (i - 1) * f4 i + ε4 i else 0) := by
      rw [e4 i hi]; field_simp; ring
    have k3 : d i = D i / f2 i - (if 0 < i then l (i - 1) * P (i - 1) * g1 i + ε1 i else 0) := by
      rw [e1 i hi]; field_simp; ring
    have k4 : 0 < i → Q (i - 1) = x (i - 1) / f8 (i - 1) - P (i - 1) * x i * f7 (i - 1) - ε7 (i - 1) := by
      intro h
      have a := e7 (i - 1) (by omega)
      rw [if_pos (by omega), show i - 1 + 1 = i by omega] at a
      have n9 := ne (F8 (i - 1))
      rw [a]; field_simp; ring
    rw [k1] at k2
    simp only [r, c, e, f]
    rw [k2, k3]
    by_cases hi0 : 0 < i
    · simp only [if_pos hi0]
      rw [k4 hi0, show i - 1 + 1 = i by omega]
      have n9 := ne (F8 (i - 1))
      split_ifs <;> · field_simp; ring
    · simp only [if_neg hi0]
      split_ifs <;> · field_simp; ring

namespace Fp
variable {F : Fmt} {n : Nat}

theorem tdma_near {a : TriDiag (Fp F)} {b x D P Q : Nat → Fp F} (h : TdmaEq n a b x D P Q)
    (hx : ∀ i, i < n → (x i).IsFin) (hd : ∀ i, i < n → (D i).IsFin) :
    NearSolves2 n (mat (triFull a))
      (fun i j => gam F.u 4 * (if i = j then |(D i).val| +
          (if 0 < i then |(val0 a.dl (i - 1)).val * (P (i - 1)).val| else 0) else |mat (triFull a) i j|) +
        (if i = j then F.eta else if i + 1 = j then (1 + gam F.u 3) * F.eta * |(D i).val| else 0))
      (fun i => (1 + gam F.u 3) * F.eta * (2 * |(D i).val| + (if 0 < i then |(val0 a.dl (i - 1)).val| else 0) + 1))
      (fun i => (x i).val) (fun i => (b i).val) := by
  have h0 := F.u_nonneg
  have h1 := F.u_lt_one
  have hη := F.eta_pos.le
  have o := Fac.one h0 h1 1
  have z : |(0 : ℝ)| ≤ F.eta := by simpa using hη
  have hnz : ∀ i, i < n → ¬ IsZ (D i) := fun i hi => ((h.fin hi (hx i hi)).1 i hi).2.2.1
  have hv : ∀ i, i < n → (D i).val ≠ 0 := fun i hi => val_ne (hd i hi) (hnz i hi)
  have hQ : ∀ i, i < n → (Q i).IsFin := by
    intro i hi
    by_cases hl : i + 1 < n
    · have := hx i hi
      rw [h.back i hl] at this
      exact (fin_of_add _ _ this).2
    · have : i = n - 1 := by omega
      rw [this, ← h.last]; exact hx _ (by omega)
  have s1 : ∀ i, ∃ g f ε, Fac F.u 1 g ∧ Fac F.u 1 f ∧ |ε| ≤ F.eta ∧ (i < n → (D i).val = ((val0 a.d i).val +
      (if 0 < i then (val0 a.dl (i - 1)).val * (P (i - 1)).val * g + ε else 0)) * f) := by
    intro i
    by_cases hi : i < n
    · cases i with
      | zero => exact ⟨1, 1, 0, o, o, z, fun _ => by rw [h.d0]; simp⟩
      | succ i =>
        have hf := hd (i + 1) hi
        rw [h.d i hi] at hf
        obtain ⟨f, hf1, hf2⟩ := add_fac hf
        obtain ⟨g, ε, hg, hε, _, e⟩ := mul_fac (fin_of_add _ _ hf).2
        exact ⟨g, f, ε, hg, hf1, hε, fun _ => by
          rw [h.d i hi, hf2, e, if_pos (Nat.succ_pos _), Nat.add_sub_cancel]⟩
    · exact ⟨1, 1, 0, o, o, z, fun h => absurd h hi⟩
  have s3 : ∀ i, ∃ f ε, Fac F.u 1 f ∧ |ε| ≤ F.eta ∧
      (i + 1 < n → (P i).val = -(val0 a.du i).val / (D i).val * f + ε) := by
    intro i
    by_cases hi : i + 1 < n
    · have hf := hx i (by omega)
      rw [h.back i hi] at hf
      have hp := (fin_of_mul _ _ (fin_of_add _ _ hf).1).1
      rw [h.p i hi] at hp
      obtain ⟨f, ε, hf, hε, _, e⟩ := div_fac hp (hd i (by omega))
      exact ⟨f, ε, hf, hε, fun _ => by rw [h.p i hi, e, val_neg]⟩
    · exact ⟨1, 0, o, z, fun h => absurd h hi⟩
  have s4 : ∀ i, ∃ f4 ε4 f5 f6 ε6, Fac F.u 1 f4 ∧ |ε4| ≤ F.eta ∧ Fac F.u 1 f5 ∧ Fac F.u 1 f6 ∧ |ε6| ≤ F.eta ∧
      (i < n → (Q i).val = ((b i).val - (if 0 < i then (val0 a.dl (i - 1)).val * (Q (i - 1)).val * f4 + ε4 else 0)) *
        f5 / (D i).val * f6 + ε6) := by
    intro i
    by_cases hi : i < n
    · cases i with
      | zero =>
        have hf := hQ 0 hi
        rw [h.q0] at hf
        obtain ⟨f, ε, hf, hε, _, e⟩ := div_fac hf (hd 0 hi)
        exact ⟨1, 0, 1, f, ε, o, z, o, hf, hε, fun _ => by rw [h.q0, e]; simp⟩
      | succ i =>
        have hf := hQ (i + 1) hi
        rw [h.q i hi] at hf
        obtain ⟨f6, ε6, hf6, hε6, _, e6⟩ := div_fac hf (hd _ hi)
        have hs := (fin_of_div hf).1
        obtain ⟨f5, hf5, e5⟩ := sub_fac hs
        obtain ⟨f4, ε4, hf4, hε4, _, e4⟩ := mul_fac (fin_of_sub _ _ hs).2
        exact ⟨f4, ε4, f5, f6, ε6, hf4, hε4, hf5, hf6, hε6, fun _ => by
          rw [h.q i hi, e6, e5, e4, if_pos (Nat.succ_pos _), Nat.add_sub_cancel]⟩
    · exact ⟨1, 0, 1, 1, 0, o, z, o, o, z, fun h => absurd h hi⟩
  have s7 : ∀ i, ∃ f7 ε7 f8, Fac F.u 1 f7 ∧ |ε7| ≤ F.eta ∧ Fac F.u 1 f8 ∧ (i < n → (x i).val =
      ((if i + 1 < n then (P i).val * (x (i + 1)).val * f7 + ε7 else 0) + (Q i).val) * f8) := by
    intro i
    by_cases hi : i + 1 < n
    · have hf := hx i (by omega)
      rw [h.back i hi] at hf
      obtain ⟨f8, hf8, e8⟩ := add_fac hf
      obtain ⟨f7, ε7, hf7, hε7, _, e7⟩ := mul_fac (fin_of_add _ _ hf).1
      exact ⟨f7, ε7, f8, hf7, hε7, hf8, fun _ => by rw [h.back i hi, e8, e7, if_pos hi]⟩
    · refine ⟨1, 0, 1, o, z, o, fun hi' => ?_⟩
      have : i = n - 1 := by omega
      rw [if_neg hi, this, h.last]; ring
  choose g1 f2 ε1 F1 F2 b1 e1 using s1
  choose f3 ε3 F3 b3 e3 using s3
  choose f4 ε4 f5 f6 ε6 F4 b4 F5 F6 b6 e4 using s4
  choose f7 ε7 f8 F7 b7 F8 e7 using s7
  have e : mat (triFull a) = band (fun i => (val0 a.d i).val) (fun i => (val0 a.du i).val) (fun i => (val0 a.dl i).val) := by
    funext i j
    unfold mat triFull band
    split_ifs <;> rfl
  rw [e]
  exact tdma_eta h0 h1 hη (D := fun i => (D i).val) (P := fun i => (P i).val) (Q := fun i => (Q i).val)
    hv F1 F2 F3 F4 F5 F6 F7 F8 b1 b3 b4 b6 b7 e1 e3 e4 e7

end Fp
end Lalib
