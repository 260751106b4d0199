import Verif.Props.Scaling
import Verif.Proofs.IeeeMono

/-! # Property C88, continued: the factors, and the two arithmetics -/

namespace Lalib.Props

open Lalib

/-! ## The factors of a binary format -/

theorem rndBin_rep (p : ℕ) (x : ℝ) : ∃ z e : ℤ, |z| ≤ 2 ^ p ∧ rndBin p x = z * (2 : ℝ) ^ e := by
  refine ⟨nearestEven (x / ulp p x), Int.log 2 |x| + 1 - p, ?_, rfl⟩
  by_cases hx : x = 0
  · subst hx; simp [nearestEven]
  have hu := ulp_pos p x
  have hl := Int.lt_zpow_succ_log_self (b := 2) (by norm_num) |x|
  have h1 : |x / ulp p x| < 2 ^ p := by
    rw [abs_div, abs_of_pos hu, div_lt_iff₀ hu]
    unfold ulp
    rw [← zpow_natCast, ← zpow_add₀ (by norm_num)]
    have e : (p : ℤ) + (Int.log 2 |x| + 1 - p) = Int.log 2 |x| + 1 := by ring
    rw [e]
    exact_mod_cast hl
  have h2 := nearestEven_err (x / ulp p x)
  have h3 : |(nearestEven (x / ulp p x) : ℝ)| < 2 ^ p + 1 := by
    have := abs_add_le ((nearestEven (x / ulp p x) : ℝ) - x / ulp p x) (x / ulp p x)
    rw [sub_add_cancel] at this
    linarith
  have h4 : |nearestEven (x / ulp p x)| < 2 ^ p + 1 := by exact_mod_cast h3
  omega

/-- An odd number times a power of two with few bits is small. -/
theorem odd_rep {p : ℕ} {m : ℕ} (hm : m % 2 = 1) {z e e' : ℤ} (hz : |z| ≤ 2 ^ p)
    (h : (m : ℝ) * 2 ^ e' = z * (2 : ℝ) ^ e) : m ≤ 2 ^ p := by
  rcases le_total e e' with hle | hle
  · obtain ⟨s, rfl⟩ : ∃ s : ℕ, e' = e + s := ⟨(e' - e).toNat, by omega⟩
    rw [zpow_add₀ (by norm_num), zpow_natCast] at h
    have h2 : (0 : ℝ) < 2 ^ e := by positivity
    have h3 : ((m * 2 ^ s : ℕ) : ℝ) = z := by
      push_cast
      have : ((m : ℝ) * 2 ^ s) * 2 ^ e = z * 2 ^ e := by rw [← h]; ring
      exact mul_right_cancel₀ h2.ne' this
    have h4 : ((m * 2 ^ s : ℕ) : ℤ) = z := by exact_mod_cast h3
    have h5 : ((m * 2 ^ s : ℕ) : ℤ) ≤ 2 ^ p := by rw [h4]; exact le_trans (le_abs_self z) hz
    have h6 : m * 2 ^ s ≤ 2 ^ p := by exact_mod_cast h5
    exact le_trans (Nat.le_mul_of_pos_right m (by positivity)) h6
  · obtain ⟨s, rfl⟩ : ∃ s : ℕ, e = e' + s := ⟨(e - e').toNat, by omega⟩
    rw [zpow_add₀ (by norm_num), zpow_natCast] at h
    have h2 : (0 : ℝ) < 2 ^ e' := by positivity
    have h3 : (m : ℝ) = z * 2 ^ s := by
      have : (m : ℝ) * 2 ^ e' = (z * 2 ^ s) * 2 ^ e' := by rw [h]; ring
      exact mul_right_cancel₀ h2.ne' this
    have h4 : (m : ℤ) = z * 2 ^ s := by exact_mod_cast h3
    rcases s with - | s
    · rw [pow_zero, mul_one] at h4
      have h5 : (m : ℤ) ≤ 2 ^ p := by rw [h4]; exact le_trans (le_abs_self z) hz
      exact_mod_cast h5
    · exfalso
      rw [pow_succ, ← mul_assoc] at h4
      omega

/-- For the rounding to `p` bits the admissible factors are the powers of two and their negatives: nothing else commutes
with rounding. -/
theorem C88_factors (p : ℕ) (hp : 1 ≤ p) (c : ℝ) :
    (Fl.scaling (binary p hp)).ok c ↔ ∃ k : ℤ, c = 2 ^ k ∨ c = -2 ^ k := by
  constructor
  · intro h
    have h : (binary p hp).Scale c := h
    have h0 : 0 < |c| := abs_pos.mpr h.1
    have hpow : ∀ k : ℕ, rndBin p (|c| ^ k) = |c| ^ k := by
      intro k
      induction k with
      | zero => rw [pow_zero]; exact (binary p hp).one
      | succ k ih => rw [pow_succ', show rndBin p (|c| * |c| ^ k) = |c| * rndBin p (|c| ^ k) from h.2.2 _, ih]
    obtain ⟨z, e, _, hz⟩ := rndBin_rep p |c|
    rw [show rndBin p |c| = |c| by simpa using hpow 1] at hz
    have hzp : 0 < z := by
      by_contra hn
      have : (z : ℝ) ≤ 0 := by exact_mod_cast not_lt.mp hn
      have h2 : (0 : ℝ) < 2 ^ e := by positivity
      nlinarith
    obtain ⟨t, m, hm, hzm⟩ := Nat.exists_eq_two_pow_mul_odd (n := z.toNat) (by omega)
    have hzm' : (z : ℝ) = 2 ^ t * m := by
      have : ((z.toNat : ℕ) : ℤ) = z := Int.toNat_of_nonneg hzp.le
      rw [← this, hzm]; push_cast; rfl
    have hc : |c| = m * 2 ^ (t + e) := by
      rw [hz, hzm', zpow_add₀ (by norm_num), zpow_natCast]; ring
    have hbig : m ^ p ≤ 2 ^ p := by
      obtain ⟨z', e', hz', hr⟩ := rndBin_rep p (|c| ^ p)
      rw [hpow p, hc, mul_pow, ← zpow_natCast ((2 : ℝ) ^ _) p, ← zpow_mul] at hr
      refine odd_rep ?_ hz' (by push_cast; exact hr)
      exact Nat.odd_iff.mp (hm.pow)
    have hm1 : m = 1 := by
      have h1 := Nat.odd_iff.mp hm
      have h2 : m ≤ 2 := by
        by_contra hn
        have := Nat.pow_lt_pow_left (show 2 < m by omega) (show p ≠ 0 by omega)
        omega
      omega
    rw [hm1, Nat.cast_one, one_mul] at hc
    refine ⟨t + e, ?_⟩
    rcases abs_choice c with h1 | h1
    · exact .inl (by rw [← hc, h1])
    · exact .inr (by rw [← hc, h1, neg_neg])
  · rintro ⟨k, rfl | rfl⟩
    · exact scale_zpow p hp k
    · exact scale_neg_zpow p hp k

/-- For IEEE 754 numbers they are the signs. -/
theorem C88_signs (F : Fmt) (c : ℝ) : (Fp.scaling F).ok c ↔ c = 1 ∨ c = -1 := Iff.rfl

/-! ## What this says for numbers of `p` bits: equilibration with powers of two changes nothing but the exponents -/

theorem two_zpow_ok (p : ℕ) (hp : 1 ≤ p) (k : ℤ) : (Fl.scaling (binary p hp)).ok (2 ^ k) :=
  (C88_factors p hp _).mpr ⟨k, .inl rfl⟩

/-- ILU: rows and columns of the system multiplied by powers of two.  The same decision, and the computed solution is the
one of the original system, the components divided by the column factors, bit for bit. -/
theorem C88_ilu_powers (p : ℕ) (hp : 1 ≤ p) {M M' : Type} {ops : MatOps M (Fl (binary p hp))} {ok : M → Prop}
    {ops' : MatOps M' (Fl (binary p hp))} {ok' : M' → Prop} (hst : Storage ops ok) (hst' : Storage ops' ok') (n : Nat)
    (a : M) (a' : M') (A A' : Nat → Nat → Fl (binary p hp)) (hok : ok a) (hok' : ok' a') (hA : Shows ops n a A)
    (hA' : Shows ops' n a' A') (r c : Nat → ℤ)
    (hAA : ∀ i j, i < n → j < n → (A' i j).val = 2 ^ r i * 2 ^ c j * (A i j).val) :
    (Ilu.new ops a = .error (.throw .runtimeError) ∧ Ilu.new ops' a' = .error (.throw .runtimeError)) ∨
    ∃ f f' F, Ilu.new ops a = .ok f ∧ Ilu.new ops' a' = .ok f' ∧ Shows ops n f F ∧
      ((∀ i, i < n → (F i i).val ≠ 0) → ∀ b b' : List (Fl (binary p hp)), b.length = n → b'.length = n →
        (∀ i, i < n → (val0 b' i).val = 2 ^ r i * (val0 b i).val) →
        ∃ x x', Ilu.solve ops f b = .ok x ∧ Ilu.solve ops' f' b' = .ok x' ∧ x.length = n ∧ x'.length = n ∧
          ∀ i, i < n → (val0 x' i).val = (2 ^ c i)⁻¹ * (val0 x i).val) := by
  have hr : ∀ i, i < n → (Fl.scaling (binary p hp)).ok (2 ^ r i) := fun i _ => two_zpow_ok p hp _
  have hc : ∀ i, i < n → (Fl.scaling (binary p hp)).ok (2 ^ c i) := fun i _ => two_zpow_ok p hp _
  rcases C88_ilu (Fl.scaling (binary p hp)) hst hst' n a a' A A' hok hok' hA hA' (fun i => 2 ^ r i) (fun j => 2 ^ c j)
    hr hc hAA with h | ⟨f, f', F, F', e, e', hf, hf', hF, hF', _, _, hFF⟩
  · exact .inl h
  · refine .inr ⟨f, f', F, e, e', hF, fun hz b b' hb hb' hB => ?_⟩
    exact C88_ilu_solve (Fl.scaling (binary p hp)) hst hst' n f f' F F' hf hf' hF hF'
      (fun i hi h => hz i hi (congrArg Fl.val (show F i i = 0 from h))) (fun i => 2 ^ r i) (fun j => 2 ^ c j) hr hc hFF b b' hb hb' hB

/-! ## What this says for IEEE 754 numbers: a change of sign changes nothing but signs -/

/-- The scalar product of `-x` and `y` is minus the one of `x` and `y`, overflow and NaN included; only a zero may have
the other sign. -/
theorem C88_dot_neg (F : Fmt) (m m' : Mem (Fp F)) (x y : Nat) (hx : m' x = (m x).map (- ·)) (hy : m' y = m y)
    (hxy : x ≠ y) : SameOut (fun r r' => Fp.Eqv (-r) r') (dynDot m x y) (dynDot m' x y) := by
  have hb : (Fp.scaling F).Bufs (fun p => p = x ∨ p = y) (fun p _ => if p = x then -1 else 1) m m' := by
    rintro p (rfl | rfl)
    · refine ⟨by rw [hx, List.length_map], fun i hi => ?_⟩
      beta_reduce
      rw [if_pos rfl, hx]
      show Fp.Signed (-1) _ _
      unfold Fp.Signed
      rw [if_neg (by norm_num)]
      left
      unfold val0
      simp [hi]
    · refine ⟨by rw [hy], fun i hi => ?_⟩
      beta_reduce
      rw [if_neg hxy.symm, hy]
      exact (Fp.scaling F).refl _
  have := (C88_dot (Fp.scaling F) hb (fun p _ i => by
    show _ ∨ _
    by_cases h : p = x <;> simp [h]) x y (.inl rfl) (.inr rfl) (-1) (fun i => by rw [if_pos rfl, if_neg hxy.symm]; norm_num)
    0).1
  refine this.mono fun r r' h => ?_
  have h : Fp.Signed (-1) r r' := h
  unfold Fp.Signed at h
  rwa [if_neg (by norm_num)] at h

/-- Nothing more holds of IEEE numbers: twice a vector, and the scalar product overflows where it did not. -/
theorem C88_no_powers (F : Fmt) (h : 1 < F.emax) : ∃ m m' : Mem (Fp F), m' 1 = m 1 ∧
    (m 0).length = 1 ∧ (m' 0).length = 1 ∧ (val0 (m 0) 0).IsFin ∧ (val0 (m' 0) 0).IsFin ∧
    (val0 (m' 0) 0).val = 2 * (val0 (m 0) 0).val ∧
    (∃ r, dynDot m 0 1 = .ok r ∧ r.IsFin) ∧ dynDot m' 0 1 = .ok (.inf false) := by
  have h1 := F.one_le_p
  have hw := F.wide
  have i2 : F.IsMag 2 := by simpa using F.isMag_pow (e := 1) (by omega) h
  have it : F.IsMag (2 ^ (F.emax - 1)) := F.isMag_pow (e := F.emax - 1) (by omega) (by omega)
  have e : (2 : ℝ) * 2 ^ (F.emax - 1) = 2 ^ F.emax := by
    rw [zpow_sub₀ (by norm_num)]; field_simp
  refine ⟨Mem.ofList [[1], [.fin false _ it]], Mem.ofList [[.fin false _ i2], [.fin false _ it]], rfl, rfl, rfl, trivial,
    trivial, by simp [val0, Mem.ofList, Fp.val, Fp.one_eq], ⟨(1 : Fp F) * .fin false _ it, rfl, ?_⟩, ?_⟩
  · show (Fp.round F (false ^^ false) ((Fp.fin false 1 F.isMag_one : Fp F).val * (Fp.fin false _ it : Fp F).val)).IsFin
    unfold Fp.round
    rw [dif_pos]
    · trivial
    · simp only [Fp.val, Bool.false_eq_true, if_false, one_mul]
      rw [abs_of_pos (by positivity), it.2.1]
      exact it.2.2
  · show Except.ok (Fp.round F (false ^^ false) ((Fp.fin false 2 i2 : Fp F).val * (Fp.fin false _ it : Fp F).val)) = _
    congr 1
    unfold Fp.round
    simp only [Fp.val, Bool.false_eq_true, if_false, e]
    rw [dif_neg]
    · simp; positivity
    · rw [abs_of_pos (by positivity)]
      have := F.rnd_fix 1 F.emax (by simpa using one_le_pow₀ (by norm_num)) (by omega)
      rw [Int.cast_one, one_mul] at this
      rw [this]
      exact lt_irrefl _

/-! ## Concrete cases -/

/-- The factors that exist. -/
example : (Fl.scaling (binary 53 (by norm_num))).ok 8 := (C88_factors _ _ _).mpr ⟨3, .inl (by norm_num)⟩
example : ¬ (Fl.scaling (binary 53 (by norm_num))).ok 3 := by
  rw [C88_factors]
  rintro ⟨k, h | h⟩
  · rcases le_or_gt k 1 with hk | hk
    · have := zpow_le_zpow_right₀ (by norm_num : (1 : ℝ) ≤ 2) hk
      rw [← h] at this; norm_num at this
    · have := zpow_le_zpow_right₀ (by norm_num : (1 : ℝ) ≤ 2) (show 2 ≤ k by omega)
      rw [← h] at this; norm_num at this
  · have : (0 : ℝ) < 2 ^ k := by positivity
    linarith

/-- Every system has a second one as in `C88_ilu_powers`: the products are numbers of the format. -/
example (p : ℕ) (hp : 1 ≤ p) (a : Fl (binary p hp)) (k l : ℤ) : ∃ a' : Fl (binary p hp), a'.val = 2 ^ k * 2 ^ l * a.val :=
  ⟨⟨2 ^ k * 2 ^ l * a.val, by
    have h := ((two_zpow_ok p hp k : (binary p hp).Scale _).mul (two_zpow_ok p hp l)).2.1 a.val
    rw [h, a.rep]⟩, rfl⟩

/-- `C88_no_powers` applies to `double`. -/
example : 1 < binary64.emax := by decide

end Lalib.Props
