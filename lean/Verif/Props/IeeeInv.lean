import Verif.Proofs.IeeeGmres
import Verif.Props.Ieee
import Verif.Props.IeeeSolve

/-! # Property C70: overflow and underflow inside the inverse of a 2x2 matrix and the norm -/

namespace Lalib

namespace Fmt
variable (F : Fmt)

theorem rnd_top : F.rnd F.top = F.top := by
  have := F.rnd_fix 1 F.emax (by rw [abs_one]; exact one_le_pow₀ (by norm_num)) (by have := F.p_le; omega)
  simpa [top] using this

/-- What is below half the smallest positive number becomes zero. -/
theorem rnd_tiny {x : ℝ} (h : |x| < F.eta) : F.rnd x = 0 := by
  obtain ⟨k, hk⟩ := F.isGrid_rnd x
  have h2 : (2 : ℝ) ^ F.emin = 2 * F.eta := by unfold eta; ring
  have hp : (0 : ℝ) < 2 ^ F.emin := by positivity
  have hb : |F.rnd x| < 2 ^ F.emin := by
    have h3 : |F.rnd x| ≤ |F.rnd x - x| + |x| := by
      have := abs_add_le (F.rnd x - x) x
      rwa [sub_add_cancel] at this
    rcases F.rnd_err x with h4 | h4
    · have : F.u * |x| ≤ |x| := by
        have := mul_le_mul_of_nonneg_right F.u_lt_one.le (abs_nonneg x)
        linarith
      linarith
    · linarith
  rw [hk, abs_mul, abs_of_pos hp] at hb
  have hk0 : |(k : ℝ)| < 1 := by
    by_contra hc
    have := mul_le_mul_of_nonneg_right (not_lt.mp hc) hp.le
    linarith
  have : k = 0 := by
    rw [← Int.cast_abs] at hk0
    exact Int.abs_lt_one_iff.mp (by exact_mod_cast hk0)
  rw [hk, this]; simp

end Fmt

namespace Fp
variable {F : Fmt}

theorem mul_neg_one (a : Fp F) : a * -1 = -a := by
  cases a with
  | nan => rfl
  | inf s => simp [mul_eq, one_eq, neg_fin, neg_inf, mul]
  | fin s x h =>
    have h1 : (fin true 1 F.isMag_one : Fp F).val = -1 := by simp [val]
    rw [mul_eq, one_eq, neg_fin, neg_fin]
    simp only [mul, Bool.not_false]
    rw [h1, show (fin s x h : Fp F).val * -1 = (fin (!s) x h : Fp F).val by cases s <;> simp [val], Bool.xor_true,
      round_val]

theorem inf_mul_not_fin (s : Bool) (a : Fp F) : ¬ (inf s * a).IsFin := fun h => ((isFin_mul _ _).mp h).1

end Fp

namespace Props

open Lalib

variable {F : Fmt}

theorem invert22_raw {s : Mem (Fp F)} {a r : Nat} {p q u v : Fp F} (ha : s a = [p, q, u, v]) (hr : s.len r = 4) :
    invert22 a r s = .ok (s.setBuf r [1 / (p * v - q * u) * v, 1 / (p * v - q * u) * -q, 1 / (p * v - q * u) * -u,
      1 / (p * v - q * u) * p]) := by
  obtain ⟨r0, r1, r2, r3, hr4⟩ := list4 (show (s r).length = 4 from hr)
  have key : ∀ (x : Fp F) (s' : Mem (Fp F)), s' = s.setBuf r [v, -q, -u, p] → x = p * v - q * u →
      (do let d ← divC 1 x; matScale d ⟨r, 2, 2⟩ s') = .ok (s.setBuf r [1 / (p * v - q * u) * v,
        1 / (p * v - q * u) * -q, 1 / (p * v - q * u) * -u, 1 / (p * v - q * u) * p]) := by
    rintro x s' rfl rfl
    rw [Fp.divC_eq, ok_bind, matScale_eq (by simp [MatRef.Wf, Mem.len]), Mem.setBuf_self, Mem.setBuf_setBuf]
    rfl
  unfold invert22
  by_cases h : a = r
  · subst h
    rw [if_neg (by simp)]
    simp only [rd22, wr22, Mem.rd, ha, lrd, Nat.zero_mul, Nat.one_mul, Nat.reduceAdd, ok_bind,
      List.getElem?_cons_zero, List.getElem?_cons_succ]
    rw [← s.setBuf_same a, ha]
    simp only [Mem.setBuf_wr s a (show 0 < [p, q, u, v].length by simp), ok_bind, Mem.setBuf_self,
      List.set_cons_zero, List.set_cons_succ, List.getElem?_cons_zero, List.getElem?_cons_succ,
      Mem.setBuf_wr s a (show 3 < [v, q, u, v].length by simp),
      Mem.setBuf_wr s a (show 1 < [v, q, u, p].length by simp),
      Mem.setBuf_wr s a (show 2 < [v, q * -1, u, p].length by simp), Mem.setBuf_setBuf]
    exact key _ _ (by rw [Fp.mul_neg_one, Fp.mul_neg_one]) rfl
  · rw [if_pos h]
    simp only [rd22, wr22, Mem.rd, ha, lrd, Nat.zero_mul, Nat.one_mul, Nat.reduceAdd, ok_bind,
      List.getElem?_cons_zero, List.getElem?_cons_succ]
    rw [← s.setBuf_same r, hr4]
    simp only [Mem.setBuf_wr s r (show 0 < [r0, r1, r2, r3].length by simp), ok_bind,
      Mem.setBuf_other s h, ha,
      List.set_cons_zero, List.set_cons_succ, List.getElem?_cons_zero, List.getElem?_cons_succ,
      Mem.setBuf_wr s r (show 3 < [v, r1, r2, r3].length by simp),
      Mem.setBuf_wr s r (show 1 < [v, r1, r2, p].length by simp),
      Mem.setBuf_wr s r (show 2 < [v, -q, r2, p].length by simp), Mem.setBuf_setBuf]
    exact key _ _ rfl rfl

/-- The inverse always has a result, the same bit for bit from all three functions. -/
theorem C70_invert (s : Mem (Fp F)) (a r : Nat) (p q u v : Fp F) (ha : s a = [p, q, u, v]) (hr : s.len r = 4) :
    let l := [1 / (p * v - q * u) * v, 1 / (p * v - q * u) * -q, 1 / (p * v - q * u) * -u, 1 / (p * v - q * u) * p]
    (∃ s', invert22 a r s = .ok s' ∧ Stores s s' r l) ∧ (∃ s', invertInPlace a s = .ok s' ∧ Stores s s' a l) ∧
      (a ≠ r → ∃ s', invertedAt s a r = .ok s' ∧ s' r = l ∧ ∀ b, b ≠ r → s' b = s b) := by
  refine ⟨⟨_, invert22_raw ha hr, stores_setBuf _ _ _⟩,
    ⟨_, invert22_raw ha (by simp [Mem.len, ha]), stores_setBuf _ _ _⟩, fun hne => ?_⟩
  refine ⟨_, invert22_raw (by rw [Mem.setBuf_other _ hne, ha]) (by simp [Mem.len]), Mem.setBuf_self _ _ _, fun b hb => ?_⟩
  rw [Mem.setBuf_other _ hb, Mem.setBuf_other _ hb]

/-- One finite entry of the inverse: then the computed determinant is not zero and not NaN, and either it has overflown or
all entries of the matrix are finite. -/
theorem C70_finite (s s' : Mem (Fp F)) (a r : Nat) (p q u v : Fp F) (ha : s a = [p, q, u, v]) (hr : s.len r = 4)
    (h : invert22 a r s = .ok s') (i : Nat) (hi : i < 4) (hf : (s'.val r i).IsFin) :
    ¬ IsZ (p * v - q * u) ∧ p * v - q * u ≠ .nan ∧
      ((∃ t, p * v - q * u = .inf t) ∨ p.IsFin ∧ q.IsFin ∧ u.IsFin ∧ v.IsFin) := by
  rw [invert22_raw ha hr] at h
  injection h with h
  subst h
  have hd : (1 / (p * v - q * u)).IsFin := by
    have hi' : i = 0 ∨ i = 1 ∨ i = 2 ∨ i = 3 := by omega
    simp only [Mem.val, Mem.setBuf_self] at hf
    rcases hi' with rfl | rfl | rfl | rfl <;> exact (Fp.fin_of_mul _ _ hf).1
  obtain ⟨_, h1, h2, _⟩ := (Fp.isFin_div _ _).mp hd
  refine ⟨h2, h1, ?_⟩
  cases hden : p * v - q * u with
  | nan => exact absurd hden h1
  | inf t => exact .inl ⟨t, rfl⟩
  | fin t x hx =>
    have hfin : (p * v - q * u).IsFin := by rw [hden]; trivial
    obtain ⟨h3, h4⟩ := Fp.fin_of_sub _ _ hfin
    exact .inr ⟨(Fp.fin_of_mul _ _ h3).1, (Fp.fin_of_mul _ _ h4).1, (Fp.fin_of_mul _ _ h4).2, (Fp.fin_of_mul _ _ h3).2⟩

/-- The determinant is computed as zero: no entry of the inverse is finite. -/
theorem C70_singular (s s' : Mem (Fp F)) (a r : Nat) (p q u v : Fp F) (ha : s a = [p, q, u, v]) (hr : s.len r = 4)
    (h : invert22 a r s = .ok s') (hz : IsZ (p * v - q * u)) (i : Nat) (hi : i < 4) : ¬ (s'.val r i).IsFin :=
  fun hf => (C70_finite s s' a r p q u v ha hr h i hi hf).1 hz

/-- The determinant overflows: the "inverse" of a finite matrix is the zero matrix, without any sign of a failure. -/
theorem C70_overflow (s s' : Mem (Fp F)) (a r : Nat) (p q u v : Fp F) (ha : s a = [p, q, u, v]) (hr : s.len r = 4)
    (h : invert22 a r s = .ok s') (hp : p.IsFin) (hq : q.IsFin) (hu : u.IsFin) (hv : v.IsFin)
    (t : Bool) (hd : p * v - q * u = .inf t) (i : Nat) (hi : i < 4) : IsZ (s'.val r i) := by
  rw [invert22_raw ha hr] at h
  injection h with h
  subst h
  have hz : IsZ (1 / (p * v - q * u)) := by rw [hd]; exact Fp.div_inf Fp.isFin_one t
  have key : ∀ w : Fp F, w.IsFin → IsZ (1 / (p * v - q * u) * w) := by
    intro w hw
    rw [Fp.isZ_iff] at hz ⊢
    have : (1 / (p * v - q * u) * w).IsFin := (Fp.isFin_mul _ _).mpr
      ⟨hz.1, hw, by rw [hz.2, zero_mul, abs_zero, F.rnd_zero]; exact F.top_pos⟩
    exact ⟨this, by rw [Fp.val_mul this, hz.2, zero_mul, F.rnd_zero]⟩
  have hi' : i = 0 ∨ i = 1 ∨ i = 2 ∨ i = 3 := by omega
  simp only [Mem.val, Mem.setBuf_self]
  rcases hi' with rfl | rfl | rfl | rfl
  · exact key v hv
  · exact key _ ((Fp.isFin_neg q).mpr hq)
  · exact key _ ((Fp.isFin_neg u).mpr hu)
  · exact key p hp

/-- The norm is infinite as soon as the square of one component overflows, even if the exact norm is a number of the
format. -/
theorem C70_norm_overflow (m : Mem (Fp F)) (x i : Nat) (hi : i < m.len x) (hn : ∀ k, k < m.len x → m.val x k ≠ .nan)
    (ho : F.top ≤ (m.val x i).val ^ 2) : vecNorm2 m x = .ok (.inf false) := by
  have e : vecNorm2 m x = .ok (Sqrt.sqrt (addUp (fun i => m.val x i * m.val x i) 0 (m.len x) 0)) := by
    unfold vecNorm2
    rw [norm2Core_raw (le_refl _), Fp.sqrtC_eq]
    rfl
  have hpos := pos_addUp (g := fun i => m.val x i * m.val x i) (lo := 0) (hi := m.len x) Fp.pos_zero
    fun k _ hk => Fp.pos_mul_self (hn k hk)
  have hinf : addUp (fun i => m.val x i * m.val x i) 0 (m.len x) 0 = .inf false := by
    rcases hpos with h | ⟨h, _⟩
    · exact h
    · exfalso
      have := ((Fp.isFin_mul _ _).mp ((Fp.isFin_addUp h).2 i (Nat.zero_le _) hi)).2.2
      rw [abs_mul_self, ← pow_two] at this
      have h2 := F.rnd_mono ho
      rw [F.rnd_top] at h2
      linarith
  rw [e, hinf]
  rfl

/-- The norm is zero if the squares of all components underflow, although the vector is not zero. -/
theorem C70_norm_underflow (m : Mem (Fp F)) (x : Nat) (hf : ∀ k, k < m.len x → (m.val x k).IsFin)
    (hu : ∀ k, k < m.len x → (m.val x k).val ^ 2 < F.eta) : ∃ r, vecNorm2 m x = .ok r ∧ IsZ r := by
  refine ⟨Sqrt.sqrt (addUp (fun i => m.val x i * m.val x i) 0 (m.len x) 0), ?_, Fp.isZ_sqrt (Fp.isZ_addUp Fp.isZ_zero ?_)⟩
  · unfold vecNorm2
    rw [norm2Core_raw (le_refl _), Fp.sqrtC_eq]
    rfl
  · intro k _ hk
    have h0 : F.rnd ((m.val x k).val * (m.val x k).val) = 0 :=
      F.rnd_tiny (by rw [abs_mul_self, ← pow_two]; exact hu k hk)
    rw [Fp.isZ_iff]
    have : (m.val x k * m.val x k).IsFin := (Fp.isFin_mul _ _).mpr
      ⟨hf k hk, hf k hk, by rw [abs_mul_self, h0]; exact F.top_pos⟩
    exact ⟨this, by rw [Fp.val_mul this, h0]⟩

/-! ## Concrete cases in `double` -/

/-- The number `2^e`. -/
noncomputable def pow2 (e : ℤ) (h : -1074 ≤ e ∧ e < 1024) : Fp binary64 :=
  .fin false (2 ^ e) (binary64.isMag_pow h.1 h.2)

theorem pow2_val (e : ℤ) (h : -1074 ≤ e ∧ e < 1024) : (pow2 e h).val = 2 ^ e := by simp [pow2, Fp.val]

theorem pow2_sq (e : ℤ) (h : -1074 ≤ e ∧ e < 1024) : (pow2 e h).val ^ 2 = 2 ^ (2 * e) := by
  rw [pow2_val, mul_comm, zpow_mul]; rfl

-- the norm of `(2^600)` is infinite, the norm of `(2^-600)` is zero
example : vecNorm2 (Mem.ofList [[pow2 600 (by decide)]]) 0 = .ok (.inf false) := by
  refine C70_norm_overflow _ 0 0 (by decide) (fun k hk => ?_) ?_
  · obtain rfl : k = 0 := by have : k < 1 := hk; omega
    exact fun h => by cases h
  · show binary64.top ≤ (pow2 600 (by decide)).val ^ 2
    rw [pow2_sq]
    exact zpow_le_zpow_right₀ (by norm_num) (by decide)
example : ∃ r, vecNorm2 (Mem.ofList [[pow2 (-600) (by decide)]]) 0 = .ok r ∧ IsZ r := by
  refine C70_norm_underflow _ 0 (fun k hk => ?_) (fun k hk => ?_)
  · obtain rfl : k = 0 := by have : k < 1 := hk; omega
    trivial
  · obtain rfl : k = 0 := by have : k < 1 := hk; omega
    show (pow2 (-600) (by decide)).val ^ 2 < binary64.eta
    rw [pow2_sq]
    unfold Fmt.eta
    rw [show (2 : ℝ) ^ binary64.emin / 2 = 2 ^ (-1075 : ℤ) by
      rw [show (-1075 : ℤ) = binary64.emin - 1 by decide, zpow_sub_one₀ (by norm_num)]; rfl]
    exact zpow_lt_zpow_right₀ (by norm_num) (by decide)

/-- `2^600 * 2^600` overflows. -/
theorem det_big : pow2 600 (by decide) * pow2 600 (by decide) - 0 * 0 = .inf false := by
  have h1 : pow2 600 (by decide) * pow2 600 (by decide) = .inf false := by
    rcases Fp.pos_mul_self (a := pow2 600 (by decide)) (fun h => by cases h) with h | ⟨h, _⟩
    · exact h
    · exfalso
      have := ((Fp.isFin_mul _ _).mp h).2.2
      rw [abs_mul_self, ← pow_two, pow2_sq] at this
      have h2 := binary64.rnd_mono (show binary64.top ≤ 2 ^ (2 * 600 : ℤ) from zpow_le_zpow_right₀ (by norm_num) (by decide))
      rw [binary64.rnd_top] at h2
      linarith
  have h2 : (0 * 0 : Fp binary64).IsFin := ((Fp.isZ_iff _).mp ((Fp.zero_mul_cases Fp.isZ_zero 0).resolve_right
    (fun h => Fp.round_ne_nan _ _ h))).1
  rw [h1, Fp.sub_eq]
  obtain ⟨s, x, h, e⟩ := ((Fp.isFin_neg _).mpr h2).cases
  rw [e]; rfl

-- `inverted(diag(2^600, 2^600))` is the zero matrix; the inverse is `diag(2^-600, 2^-600)`
example : ∃ s', invertedAt (Mem.ofList [[pow2 600 (by decide), 0, 0, pow2 600 (by decide)]]) 0 1 = .ok s' ∧
    ∀ i, i < 4 → IsZ (s'.val 1 i) := by
  have h4 : (((Mem.ofList [[pow2 600 (by decide), 0, 0, pow2 600 (by decide)]]) : Mem (Fp binary64)).setBuf 1
    (List.replicate 4 0)) 0 = [pow2 600 (by decide), 0, 0, pow2 600 (by decide)] := rfl
  have fin : (pow2 600 (by decide)).IsFin := Fp.isFin_fin _ _ _
  exact ⟨_, invert22_raw h4 rfl, fun i hi => C70_overflow _ _ 0 1 _ _ _ _ h4 rfl (invert22_raw h4 rfl) fin
    Fp.isFin_zero Fp.isFin_zero fin false det_big i hi⟩

/-- `2^-600 * 2^-600` underflows. -/
theorem det_small : IsZ (pow2 (-600) (by decide) * pow2 (-600) (by decide) - 0 * 0) := by
  have h0 : binary64.rnd ((pow2 (-600) (by decide)).val * (pow2 (-600) (by decide)).val) = 0 := by
    refine binary64.rnd_tiny ?_
    rw [abs_mul_self, ← pow_two, pow2_sq]
    unfold Fmt.eta
    rw [show (2 : ℝ) ^ binary64.emin / 2 = 2 ^ (-1075 : ℤ) by
      rw [show (-1075 : ℤ) = binary64.emin - 1 by decide, zpow_sub_one₀ (by norm_num)]; rfl]
    exact zpow_lt_zpow_right₀ (by norm_num) (by decide)
  have hf : (pow2 (-600) (by decide) * pow2 (-600) (by decide)).IsFin := (Fp.isFin_mul _ _).mpr
    ⟨Fp.isFin_fin _ _ _, Fp.isFin_fin _ _ _, by rw [abs_mul_self, h0]; exact binary64.top_pos⟩
  refine Fp.isZ_sub ((Fp.isZ_iff _).mpr ⟨hf, by rw [Fp.val_mul hf, h0]⟩) ?_
  exact (Fp.zero_mul_cases Fp.isZ_zero 0).resolve_right (fun h => Fp.round_ne_nan _ _ h)

-- `inverted(diag(2^-600, 2^-600))` has no finite entry; the inverse is `diag(2^600, 2^600)`
example : ∃ s', invertedAt (Mem.ofList [[pow2 (-600) (by decide), 0, 0, pow2 (-600) (by decide)]]) 0 1 = .ok s' ∧
    ∀ i, i < 4 → ¬ (s'.val 1 i).IsFin := by
  have h4 : (((Mem.ofList [[pow2 (-600) (by decide), 0, 0, pow2 (-600) (by decide)]]) : Mem (Fp binary64)).setBuf 1
    (List.replicate 4 0)) 0 = [pow2 (-600) (by decide), 0, 0, pow2 (-600) (by decide)] := rfl
  exact ⟨_, invert22_raw h4 rfl, fun i hi => C70_singular _ _ 0 1 _ _ _ _ h4 rfl (invert22_raw h4 rfl) det_small i hi⟩

end Props

end Lalib
