import Verif.Spec.Order
import Verif.Proofs.Scaling
import Verif.Proofs.IeeeMono

/-! # Arithmetic by monotone rounding: the two number types, and the order of results -/

namespace Lalib

/-! ## Rounding to `p` bits is monotone -/

/-- Formats of `p` bits reaching down as far as wanted. -/
def deepFmt (p : ℕ) (hp : 1 ≤ p) (k : ℕ) : Fmt where
  p := p
  emin := -(2 * p + k : ℤ)
  emax := 1
  one_le_p := hp
  wide := by omega
  p_le := by omega
  emax_pos := by omega

theorem rndBin_mono (p : ℕ) (hp : 1 ≤ p) {x y : ℝ} (h : x ≤ y) : rndBin p x ≤ rndBin p y := by
  obtain ⟨k, hx, hy⟩ : ∃ k : ℕ, (deepFmt p hp k).emin ≤ Int.log 2 |x| + 1 - p ∧
      (deepFmt p hp k).emin ≤ Int.log 2 |y| + 1 - p := by
    refine ⟨(Int.log 2 |x|).natAbs + (Int.log 2 |y|).natAbs, ?_, ?_⟩ <;>
    · show -(2 * (p : ℤ) + ((_ + _ : ℕ) : ℤ)) ≤ _
      omega
  have := (deepFmt p hp k).rnd_mono h
  rwa [(deepFmt p hp k).rnd_bin hx, (deepFmt p hp k).rnd_bin hy] at this

theorem binary_mono (p : ℕ) (hp : 1 ≤ p) : (binary p hp).Mono := fun _ _ h => rndBin_mono p hp h

/-! ## The two number types -/

/-- Rounded arithmetic without limits of range. -/
noncomputable def Fl.ordArith (R : Rounding) (hR : R.Mono) : OrdArith (Fl R) where
  fin _ := True
  val a := a.val
  rnd := R.rnd
  inR _ := True
  mono h := hR _ _ h
  rnd_zero := R.rnd_zero
  conv _ _ _ _ := trivial
  inR_val _ := trivial
  zero := ⟨trivial, rfl⟩
  neg := ⟨Iff.rfl, Fl.val_neg _⟩
  add _ _ _ := ⟨trivial, Fl.val_add _ _⟩
  add_fin _ := ⟨trivial, trivial, trivial⟩
  sub _ _ _ := ⟨trivial, Fl.val_sub _ _⟩
  sub_fin _ := ⟨trivial, trivial, trivial⟩
  mul _ _ _ := ⟨trivial, Fl.val_mul _ _⟩
  mul_fin _ := ⟨trivial, trivial, trivial⟩
  div _ _ _ _ := ⟨trivial, Fl.val_div _ _⟩
  div_fin _ _ _ := ⟨trivial, trivial⟩
  sqrt _ _ := ⟨trivial, Fl.val_sqrt _⟩
  sqrt_fin _ := trivial
  isZ {a} _ := by
    show a = 0 ↔ _
    rw [← not_iff_not, ← ne_eq, Fl.ne_zero_iff]
  lt _ _ := Iff.rfl
  sqrtC_ok v h := by rw [sqrtC_eq, if_neg h]
  sqrtC_eq v w h := by
    rw [Lalib.sqrtC_eq] at h
    split at h
    · exact nomatch h
    · exact (Except.ok.inj h).symm
  isZ_zero := (Fl.scaling R).isZ_zero
  div_ok := (Fl.scaling R).div_ok
  sqrt_nz v h h0 := ((Fl.scaling R).sqrt_ok v h h0).2

/-- IEEE 754 numbers. -/
noncomputable def Fp.ordArith (F : Fmt) : OrdArith (Fp F) where
  fin := Fp.IsFin
  val := Fp.val
  rnd := F.rnd
  inR r := F.rnd |r| < F.top
  mono h := F.rnd_mono h
  rnd_zero := F.rnd_zero
  conv {x y z} hx hz h1 h2 := by
    rcases le_total 0 y with hy | hy
    · exact lt_of_le_of_lt (F.rnd_mono (by rw [abs_of_nonneg hy]; exact h2.trans (le_abs_self z))) hz
    · exact lt_of_le_of_lt (F.rnd_mono (by rw [abs_of_nonpos hy]; exact (neg_le_neg h1).trans (neg_le_abs x))) hx
  inR_val {a} ha := by
    obtain ⟨s, x, h, rfl⟩ := ha.cases
    have hv : |(Fp.fin s x h : Fp F).val| = x := by cases s <;> simp [Fp.val, abs_of_nonneg h.1]
    rw [hv, h.2.1]; exact h.2.2
  zero := ⟨Fp.isFin_zero, Fp.val_zero⟩
  neg := ⟨Fp.isFin_neg _, Fp.val_neg _⟩
  add ha hb h := ⟨(Fp.isFin_add _ _).mpr ⟨ha, hb, h⟩, Fp.val_add ((Fp.isFin_add _ _).mpr ⟨ha, hb, h⟩)⟩
  add_fin h := (Fp.isFin_add _ _).mp h
  sub ha hb h := ⟨(Fp.isFin_sub _ _).mpr ⟨ha, hb, h⟩, Fp.val_sub ((Fp.isFin_sub _ _).mpr ⟨ha, hb, h⟩)⟩
  sub_fin h := (Fp.isFin_sub _ _).mp h
  mul ha hb h := ⟨(Fp.isFin_mul _ _).mpr ⟨ha, hb, h⟩, Fp.val_mul ((Fp.isFin_mul _ _).mpr ⟨ha, hb, h⟩)⟩
  mul_fin h := (Fp.isFin_mul _ _).mp h
  div {a b} ha hb h0 h := by
    have : (a / b).IsFin := (Fp.isFin_div _ _).mpr ⟨ha, by rintro rfl; exact hb,
      fun hz => h0 ((Fp.isZ_iff _).mp hz).2, fun _ => h⟩
    exact ⟨this, Fp.val_div this hb⟩
  div_fin hb h0 h := ⟨((Fp.isFin_div _ _).mp h).1, ((Fp.isFin_div _ _).mp h).2.2.2 hb⟩
  sqrt ha h := ⟨(Fp.isFin_sqrt _).mpr ⟨ha, h⟩, Fp.val_sqrt ((Fp.isFin_sqrt _).mpr ⟨ha, h⟩)⟩
  sqrt_fin h := ((Fp.isFin_sqrt _).mp h).1
  isZ {a} ha := by rw [Fp.isZ_iff]; exact ⟨fun h => h.2, fun h => ⟨ha, h⟩⟩
  lt ha hb := Fp.fin_lt ha hb
  sqrtC_ok _ _ := rfl
  sqrtC_eq _ _ h := (Except.ok.inj h).symm
  isZ_zero := (Fp.scaling F).isZ_zero
  div_ok := (Fp.scaling F).div_ok
  sqrt_nz v h h0 := ((Fp.scaling F).sqrt_ok v h h0).2

/-! ## The order of results -/

namespace OrdArith
variable {T : Type} [Zero T] [Add T] [Sub T] [Mul T] [Neg T] [Div T] [CDiv T] [CZero T] [LT T] [Sqrt T] [CSqrt T]
  {S : OrdArith T} {a a' b b' : T}

theorem inR_zero (S : OrdArith T) : S.inR 0 := S.zero.2 ▸ S.inR_val S.zero.1

theorem rnd_nonneg (S : OrdArith T) {x : ℝ} (h : 0 ≤ x) : 0 ≤ S.rnd x := S.rnd_zero ▸ S.mono h

theorem rnd_nonpos (S : OrdArith T) {x : ℝ} (h : x ≤ 0) : S.rnd x ≤ 0 := S.rnd_zero ▸ S.mono h

theorem Nn.right (h : S.Nn a a') : S.Nn a' a' := ⟨h.fin', h.fin', h.nn.trans h.le, le_refl _⟩
theorem Np.right (h : S.Np a a') : S.Np a' a' := ⟨h.fin', h.fin', h.le.trans h.np, le_refl _⟩
theorem Np.ls (h : S.Np a a') : S.Ls a a' := ⟨h.fin, h.fin', h.le⟩
theorem Nn.zero (S : OrdArith T) : S.Nn 0 0 := ⟨S.zero.1, S.zero.1, S.zero.2.ge, le_refl _⟩

theorem Pos.ne {a : T} (h : S.Pos a) : S.val a ≠ 0 := h.2.ne'

theorem Pos.not_isZ {a : T} (h : S.Pos a) : ¬ IsZ a := fun hz => h.ne ((S.isZ h.1).mp hz)

theorem Pos.not_lt {a : T} (h : S.Pos a) : ¬ a < 0 := by
  rw [S.lt h.1 S.zero.1, S.zero.2]
  exact _root_.not_lt.mpr h.2.le

theorem Ls.pos (h : S.Ls a a') (hp : S.Pos a') : S.Pos a := ⟨h.fin, lt_of_lt_of_le hp.2 h.le⟩

theorem Nn.ofVal {r r' : ℝ} {a a' : T} (ha : S.fin a ∧ S.val a = S.rnd r) (ha' : S.fin a' ∧ S.val a' = S.rnd r')
    (h0 : 0 ≤ r) (h : r ≤ r') : S.Nn a a' :=
  ⟨ha.1, ha'.1, by rw [ha.2]; exact S.rnd_nonneg h0, by rw [ha.2, ha'.2]; exact S.mono h⟩

theorem Np.ofVal {r r' : ℝ} {a a' : T} (ha : S.fin a ∧ S.val a = S.rnd r) (ha' : S.fin a' ∧ S.val a' = S.rnd r')
    (h0 : r ≤ 0) (h : r' ≤ r) : S.Np a a' :=
  ⟨ha.1, ha'.1, by rw [ha.2]; exact S.rnd_nonpos h0, by rw [ha.2, ha'.2]; exact S.mono h⟩

theorem Ls.ofVal {r r' : ℝ} {a a' : T} (ha : S.fin a ∧ S.val a = S.rnd r) (ha' : S.fin a' ∧ S.val a' = S.rnd r')
    (h : r' ≤ r) : S.Ls a a' :=
  ⟨ha.1, ha'.1, by rw [ha.2, ha'.2]; exact S.mono h⟩

theorem Nn.add (ha : S.Nn a a') (hb : S.Nn b b') (h : S.fin (a' + b')) : S.Nn (a + b) (a' + b') := by
  have hr := (S.add_fin h).2.2
  have h0 := add_nonneg ha.nn hb.nn
  have h1 := add_le_add ha.le hb.le
  exact .ofVal (S.add ha.fin hb.fin (S.conv S.inR_zero hr h0 h1)) (S.add ha.fin' hb.fin' hr) h0 h1

theorem Nn.mul (ha : S.Nn a a') (hb : S.Nn b b') (h : S.fin (a' * b')) : S.Nn (a * b) (a' * b') := by
  have hr := (S.mul_fin h).2.2
  have h0 := mul_nonneg ha.nn hb.nn
  have h1 := mul_le_mul ha.le hb.le hb.nn (ha.nn.trans ha.le)
  exact .ofVal (S.mul ha.fin hb.fin (S.conv S.inR_zero hr h0 h1)) (S.mul ha.fin' hb.fin' hr) h0 h1

theorem Np.mulNn (ha : S.Np a a') (hb : S.Nn b b') (h : S.fin (a' * b')) : S.Np (a * b) (a' * b') := by
  have hr := (S.mul_fin h).2.2
  have h0 : S.val a * S.val b ≤ 0 := mul_nonpos_of_nonpos_of_nonneg ha.np hb.nn
  have h1 : S.val a' * S.val b' ≤ S.val a * S.val b := by
    have e1 := ha.np; have e2 := ha.le; have e3 := hb.nn; have e4 := hb.le
    nlinarith
  exact .ofVal (S.mul ha.fin hb.fin (S.conv hr S.inR_zero h1 h0)) (S.mul ha.fin' hb.fin' hr) h0 h1

theorem Np.mul (ha : S.Np a a') (hb : S.Np b b') (h : S.fin (a' * b')) : S.Nn (a * b) (a' * b') := by
  have hr := (S.mul_fin h).2.2
  have h0 : 0 ≤ S.val a * S.val b := mul_nonneg_of_nonpos_of_nonpos ha.np hb.np
  have h1 : S.val a * S.val b ≤ S.val a' * S.val b' := by
    have e1 := ha.np; have e2 := ha.le; have e3 := hb.np; have e4 := hb.le
    nlinarith
  exact .ofVal (S.mul ha.fin hb.fin (S.conv S.inR_zero hr h0 h1)) (S.mul ha.fin' hb.fin' hr) h0 h1

theorem Ab.sq (ha : S.Ab a a') (h : S.fin (a' * a')) : S.Nn (a * a) (a' * a') := by
  have hr := (S.mul_fin h).2.2
  have h0 : 0 ≤ S.val a * S.val a := mul_self_nonneg _
  have h1 : S.val a * S.val a ≤ S.val a' * S.val a' := abs_le_iff_mul_self_le.mp ha.le
  exact .ofVal (S.mul ha.fin ha.fin (S.conv S.inR_zero hr h0 h1)) (S.mul ha.fin' ha.fin' hr) h0 h1

theorem Nn.sub (ha : S.Nn a a') (hb : S.Np b b') (h : S.fin (a' - b')) : S.Nn (a - b) (a' - b') := by
  have hr := (S.sub_fin h).2.2
  have h0 : 0 ≤ S.val a - S.val b := by linarith [ha.nn, hb.np]
  have h1 : S.val a - S.val b ≤ S.val a' - S.val b' := by linarith [ha.le, hb.le]
  exact .ofVal (S.sub ha.fin hb.fin (S.conv S.inR_zero hr h0 h1)) (S.sub ha.fin' hb.fin' hr) h0 h1

theorem Np.sub (ha : S.Np a a') (hb : S.Nn b b') (h : S.fin (a' - b')) : S.Np (a - b) (a' - b') := by
  have hr := (S.sub_fin h).2.2
  have h0 : S.val a - S.val b ≤ 0 := by linarith [ha.np, hb.nn]
  have h1 : S.val a' - S.val b' ≤ S.val a - S.val b := by linarith [ha.le, hb.le]
  exact .ofVal (S.sub ha.fin hb.fin (S.conv hr S.inR_zero h1 h0)) (S.sub ha.fin' hb.fin' hr) h0 h1

theorem Ls.sub (ha : S.Ls a a') (hb : S.Nn b b') (h : S.fin (a' - b')) : S.Ls (a - b) (a' - b') := by
  have hr := (S.sub_fin h).2.2
  have h1 : S.val a' - S.val b' ≤ S.val a - S.val b := by linarith [ha.le, hb.le]
  have h2 : S.val a - S.val b ≤ S.val a := by linarith [hb.nn]
  exact .ofVal (S.sub ha.fin hb.fin (S.conv hr (S.inR_val ha.fin) h1 h2)) (S.sub ha.fin' hb.fin' hr) h1

theorem Ls.add (ha : S.Ls a a') (hb : S.Np b b') (h : S.fin (a' + b')) : S.Ls (a + b) (a' + b') := by
  have hr := (S.add_fin h).2.2
  have h1 : S.val a' + S.val b' ≤ S.val a + S.val b := by linarith [ha.le, hb.le]
  have h2 : S.val a + S.val b ≤ S.val a := by linarith [hb.np]
  exact .ofVal (S.add ha.fin hb.fin (S.conv hr (S.inR_val ha.fin) h1 h2)) (S.add ha.fin' hb.fin' hr) h1

theorem Nn.div (ha : S.Nn a a') (hb : S.Ls b b') (hp : S.Pos b') (h : S.fin (a' / b')) : S.Nn (a / b) (a' / b') := by
  have hq := hb.pos hp
  have hr := (S.div_fin hp.1 hp.ne h).2
  have h0 : 0 ≤ S.val a / S.val b := div_nonneg ha.nn hq.2.le
  have h1 : S.val a / S.val b ≤ S.val a' / S.val b' := div_le_div₀ (ha.nn.trans ha.le) ha.le hp.2 hb.le
  exact .ofVal (S.div ha.fin hb.fin hq.ne (S.conv S.inR_zero hr h0 h1)) (S.div ha.fin' hb.fin' hp.ne hr) h0 h1

theorem Np.div (ha : S.Np a a') (hb : S.Ls b b') (hp : S.Pos b') (h : S.fin (a' / b')) : S.Np (a / b) (a' / b') := by
  have hq := hb.pos hp
  have hr := (S.div_fin hp.1 hp.ne h).2
  have h0 : S.val a / S.val b ≤ 0 := div_nonpos_of_nonpos_of_nonneg ha.np hq.2.le
  have h1 : S.val a' / S.val b' ≤ S.val a / S.val b := by
    have := div_le_div₀ (neg_nonneg.mpr (ha.le.trans ha.np)) (neg_le_neg ha.le) hp.2 hb.le
    rw [neg_div, neg_div] at this
    exact neg_le_neg_iff.mp this
  exact .ofVal (S.div ha.fin hb.fin hq.ne (S.conv hr S.inR_zero h1 h0)) (S.div ha.fin' hb.fin' hp.ne hr) h0 h1

theorem Np.neg (h : S.Np a a') : S.Nn (-a) (-a') :=
  ⟨S.neg.1.mpr h.fin, S.neg.1.mpr h.fin', by rw [S.neg.2]; linarith [h.np], by rw [S.neg.2, S.neg.2]; linarith [h.le]⟩

theorem Ls.sqrt (h : S.Ls a a') (h0 : 0 ≤ S.val a') : S.Ls (Sqrt.sqrt a) (Sqrt.sqrt a') :=
  .ofVal (S.sqrt h.fin (h0.trans h.le)) (S.sqrt h.fin' h0) (Real.sqrt_le_sqrt h.le)

theorem Nn.sqrt (h : S.Nn a a') : S.Nn (Sqrt.sqrt a) (Sqrt.sqrt a') :=
  .ofVal (S.sqrt h.fin h.nn) (S.sqrt h.fin' (h.nn.trans h.le)) (Real.sqrt_nonneg _) (Real.sqrt_le_sqrt h.le)

/-! ## Sums -/

theorem addUp_fin {g : Nat → T} {lo hi : Nat} {t : T} (h : S.fin (addUp g lo hi t)) :
    S.fin t ∧ ∀ k, lo ≤ k → k < hi → S.fin (g k) := by
  rcases Nat.le_total hi lo with hle | hle
  · rw [Fp.addUp_ge _ hle] at h
    exact ⟨h, fun k _ _ => by omega⟩
  obtain ⟨n, rfl⟩ := Nat.exists_eq_add_of_le hle
  induction n with
  | zero => rw [Fp.addUp_ge _ (by omega)] at h; exact ⟨h, fun k _ _ => by omega⟩
  | succ n ih =>
    rw [Fp.addUp_succ] at h
    obtain ⟨h1, h2, -⟩ := S.add_fin h
    obtain ⟨i1, i2⟩ := ih h1 (by omega)
    refine ⟨i1, fun k h3 h4 => ?_⟩
    by_cases e : k = lo + n
    · rw [e]; exact h2
    · exact i2 k h3 (by omega)

theorem subUp_fin {g : Nat → T} {lo hi : Nat} {t : T} (h : S.fin (subUp g lo hi t)) :
    S.fin t ∧ ∀ k, lo ≤ k → k < hi → S.fin (g k) := by
  rcases Nat.le_total hi lo with hle | hle
  · rw [Fp.subUp_ge _ hle] at h
    exact ⟨h, fun k _ _ => by omega⟩
  obtain ⟨n, rfl⟩ := Nat.exists_eq_add_of_le hle
  induction n with
  | zero => rw [Fp.subUp_ge _ (by omega)] at h; exact ⟨h, fun k _ _ => by omega⟩
  | succ n ih =>
    rw [Fp.subUp_succ] at h
    obtain ⟨h1, h2, -⟩ := S.sub_fin h
    obtain ⟨i1, i2⟩ := ih h1 (by omega)
    refine ⟨i1, fun k h3 h4 => ?_⟩
    by_cases e : k = lo + n
    · rw [e]; exact h2
    · exact i2 k h3 (by omega)

/-- A relation kept by subtraction is kept by a sum of subtractions. -/
theorem subUp_rel {R Q : T → T → Prop} (hs : ∀ {a a' b b'}, R a a' → Q b b' → S.fin (a' - b') → R (a - b) (a' - b'))
    {g g' : Nat → T} {lo hi : Nat} {t t' : T} (h : S.fin (subUp g' lo hi t')) (ht : S.fin t' → R t t')
    (hg : ∀ k, lo ≤ k → k < hi → S.fin (g' k) → Q (g k) (g' k)) : R (subUp g lo hi t) (subUp g' lo hi t') := by
  rcases Nat.le_total hi lo with hle | hle
  · rw [Fp.subUp_ge _ hle] at h ⊢; rw [Fp.subUp_ge _ hle]
    exact ht h
  obtain ⟨n, rfl⟩ := Nat.exists_eq_add_of_le hle
  induction n with
  | zero => rw [Fp.subUp_ge _ (by omega)] at h ⊢; rw [Fp.subUp_ge _ (by omega)]; exact ht h
  | succ n ih =>
    rw [Fp.subUp_succ] at h ⊢
    rw [Fp.subUp_succ]
    obtain ⟨h1, h2, -⟩ := S.sub_fin h
    exact hs (ih h1 (fun k h3 h4 => hg k h3 (by omega)) (by omega)) (hg _ (by omega) (by omega) h2) h

theorem addUp_nn {g g' : Nat → T} {lo hi : Nat} {t t' : T} (h : S.fin (addUp g' lo hi t')) (ht : S.fin t' → S.Nn t t')
    (hg : ∀ k, lo ≤ k → k < hi → S.fin (g' k) → S.Nn (g k) (g' k)) : S.Nn (addUp g lo hi t) (addUp g' lo hi t') := by
  rcases Nat.le_total hi lo with hle | hle
  · rw [Fp.addUp_ge _ hle] at h ⊢; rw [Fp.addUp_ge _ hle]
    exact ht h
  obtain ⟨n, rfl⟩ := Nat.exists_eq_add_of_le hle
  induction n with
  | zero => rw [Fp.addUp_ge _ (by omega)] at h ⊢; rw [Fp.addUp_ge _ (by omega)]; exact ht h
  | succ n ih =>
    rw [Fp.addUp_succ] at h ⊢
    rw [Fp.addUp_succ]
    obtain ⟨h1, h2, -⟩ := S.add_fin h
    exact (ih h1 (fun k h3 h4 => hg k h3 (by omega)) (by omega)).add (hg _ (by omega) (by omega) h2) h

theorem nn_subUp {g g' : Nat → T} {lo hi : Nat} {t t' : T} (h : S.fin (subUp g' lo hi t')) (ht : S.fin t' → S.Nn t t')
    (hg : ∀ k, lo ≤ k → k < hi → S.fin (g' k) → S.Np (g k) (g' k)) : S.Nn (subUp g lo hi t) (subUp g' lo hi t') :=
  subUp_rel (R := S.Nn) (Q := S.Np) (fun h1 h2 h => h1.sub h2 h) h ht hg

theorem np_subUp {g g' : Nat → T} {lo hi : Nat} {t t' : T} (h : S.fin (subUp g' lo hi t')) (ht : S.fin t' → S.Np t t')
    (hg : ∀ k, lo ≤ k → k < hi → S.fin (g' k) → S.Nn (g k) (g' k)) : S.Np (subUp g lo hi t) (subUp g' lo hi t') :=
  subUp_rel (R := S.Np) (Q := S.Nn) (fun h1 h2 h => h1.sub h2 h) h ht hg

theorem ls_subUp {g g' : Nat → T} {lo hi : Nat} {t t' : T} (h : S.fin (subUp g' lo hi t')) (ht : S.fin t' → S.Ls t t')
    (hg : ∀ k, lo ≤ k → k < hi → S.fin (g' k) → S.Nn (g k) (g' k)) : S.Ls (subUp g lo hi t) (subUp g' lo hi t') :=
  subUp_rel (R := S.Ls) (Q := S.Nn) (fun h1 h2 h => h1.sub h2 h) h ht hg

end OrdArith

end Lalib
