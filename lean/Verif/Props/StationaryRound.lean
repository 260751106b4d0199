import Verif.Proofs.StationaryRound
import Verif.Props.Noisy
import Verif.Props.Stationary
import Mathlib.Analysis.SpecificLimits.Basic

/-! # Property C103 with rounding errors -/

namespace Lalib.Props

open Lalib Finset

variable {N : Noisy} {M : Type} {ops : Bool → GOps M (Nz N)} {ok : M → Prop}

private theorem noisy_storage (h : GStorage ops ok) (nd : Bool) : Storage (ops nd).toMatOps ok := by
  cases h with
  | dense => exact .dense
  | csr => exact .csr

private theorem noisy_mul (h : GStorage ops ok) (nd : Bool) {n : Nat} {a : M} {A : Nat → Nat → Nz N} (hok : ok a)
    (hA : Shows (ops nd).toMatOps n a A) {l : List (Nz N)} (hl : l.length = n) :
    ∃ p, (ops nd).mul a l = .ok p ∧ p.length = n ∧ ∀ i, i < n →
      |(val0 p i).val - mulVec n (Nz.mat A) (fun j => (val0 l j).val) i| ≤
        gam N.u (n + 2) * ∑ j ∈ range n, |Nz.mat A i j * (val0 l j).val| := by
  cases h with
  | dense => exact Nz.dense_mul_err nd hok hA hl
  | csr =>
    have hr := Csr.nrows_of_shape hok.1 hA.1
    obtain ⟨p, e, hp, h⟩ := C87_spmv_op nd a hok.1 hok.2 A n l (by rw [hr]; exact hA.1)
      (fun i j hi hj => hA.2 i j (by rw [← hr]; exact hi) hj) hl
    refine ⟨p, e, by rw [hp, hr], fun i hi => (h i (by rw [hr]; exact hi)).trans ?_⟩
    refine mul_le_mul_of_nonneg_right (gam_mono N.u_nonneg N.u_lt_one ?_) (sum_nonneg fun j _ => abs_nonneg _)
    have := Csr.row_count hok.1 hok.2 hA.1 (i := i) (by rw [hr]; exact hi)
    omega

/-- The residual that a step computes. -/
private theorem noisy_resid {n : Nat} {A : ℕ → ℕ → ℝ} {x : ℕ → ℝ} {b p : Nz N} {i : ℕ}
    (hp : |p.val - mulVec n A x i| ≤ gam N.u (n + 2) * ∑ j ∈ range n, |A i j * x j|) :
    |(b - p).val - (b.val - mulVec n A x i)| ≤ gam N.u (n + 3) * (|b.val| + ∑ j ∈ range n, |A i j * x j|) := by
  have h0 := N.u_nonneg
  have h1 := N.u_lt_one
  have hs : |(b - p).val - (b.val - p.val)| ≤ N.u * |b.val - p.val| := N.sub_err b p
  set S := ∑ j ∈ range n, |A i j * x j|
  have S0 : |mulVec n A x i| ≤ S := abs_sum_le_sum_abs _ _
  have e : 1 + gam N.u (n + 3) = (1 + gam N.u (n + 2)) * (1 + gam N.u 1) := by
    rw [← gam_add h0 h1]
  have g1 : N.u ≤ gam N.u 1 := by
    have hp : 0 < 1 - N.u := by linarith
    unfold gam
    rw [pow_one, le_sub_iff_add_le, le_div_iff₀ hp]
    nlinarith
  have g2 := gam_nonneg h0 h1 (n + 2)
  have b0 := abs_nonneg b.val
  have S1 := (abs_nonneg _).trans S0
  have k1 : |b.val - p.val| ≤ |b.val| + (1 + gam N.u (n + 2)) * S := by
    have h2 := abs_sub b.val p.val
    have h3 := abs_sub (p.val - mulVec n A x i) (-mulVec n A x i)
    rw [sub_neg_eq_add, sub_add_cancel, abs_neg] at h3
    linarith
  have k2 : |b.val - p.val - (b.val - mulVec n A x i)| ≤ gam N.u (n + 2) * S := by
    rwa [sub_sub_sub_cancel_left, abs_sub_comm]
  have k3 := abs_add_le ((b - p).val - (b.val - p.val)) (b.val - p.val - (b.val - mulVec n A x i))
  rw [sub_add_sub_cancel] at k3
  have k4 := mul_le_mul_of_nonneg_left k1 h0
  have k5 : N.u * (|b.val| + (1 + gam N.u (n + 2)) * S) ≤ gam N.u 1 * (|b.val| + (1 + gam N.u (n + 2)) * S) :=
    mul_le_mul_of_nonneg_right g1 (by positivity)
  have k6 : gam N.u (n + 3) = gam N.u (n + 2) + gam N.u 1 + gam N.u (n + 2) * gam N.u 1 := by linarith
  have g3 := gam_nonneg h0 h1 1
  have k7 : 0 ≤ (gam N.u (n + 2) + gam N.u (n + 2) * gam N.u 1) * |b.val| := by positivity
  rw [k6]
  linarith

private theorem factors (hst : GStorage ops ok) (nd : Bool) (n : Nat) (a : M) (A : Nat → Nat → Nz N) (w : ℕ → ℝ) (d : ℝ) (hok : ok a)
    (hA : Shows (ops nd).toMatOps n a A) (hD : GapDom N.u n (Nz.mat A) w d) :
    ∃ f F, Ilu.new (ops nd).toMatOps a = .ok f ∧ ok f ∧ Shows (ops nd).toMatOps n f F ∧ ∀ i j, i < n → j < n → IluCell A F i j := by
  obtain ⟨R, hRep, h1, h2⟩ := storage_rep (noisy_storage hst nd) n
  rcases Ilu.new_raw Nz.isZ_zero (fun _ h => Nz.divAt h) hRep (h1 a A hok hA) with ⟨F, f, e, hF, hI⟩ | ⟨_, _, hS⟩
  · exact ⟨f, F, e, (h2 f F hF).1, (h2 f F hF).2, hI⟩
  · exact (Nz.ilu_not_stuck hD hS).elim

/-- One step with rounding errors: the error, measured with the weights, is multiplied by at most `1 - d / 8`, up to an error of
the size of the unit roundoff.  Nothing is assumed about the pattern, and the constructor does not throw. -/
theorem C103_rounded_step (hst : GStorage ops ok) (nd : Bool) (n : Nat) (a : M) (A : Nat → Nat → Nz N) (w : ℕ → ℝ) (d : ℝ) (hok : ok a)
    (hA : Shows (ops nd).toMatOps n a A) (hD : GapDom N.u n (Nz.mat A) w d) :
    ∃ f, Ilu.new (ops nd).toMatOps a = .ok f ∧ ∀ b : List (Nz N), b.length = n →
      ∀ z : ℕ → ℝ, Solves n (Nz.mat A) z (fun i => (val0 b i).val) → ∀ Z, 0 ≤ Z → (∀ i, i < n → |z i| ≤ Z * w i) →
      ∀ ord : List Nat, ord.Perm (List.range n) → ∀ x : List (Nz N), x.length = n →
      ∀ s, 0 ≤ s → ErrLe n w (fun i => (val0 x i).val) z s →
      ∃ y, iluStep (ops nd) ord a f b x = .ok y ∧ y.length = n ∧
        ErrLe n w (fun i => (val0 y i).val) z ((1 - d / 8) * s + 3 * ((2 * n + 6) * gam N.u (6 * n + 3) / d) * Z) := by
  obtain ⟨f, F, e, hokf, hF, hI⟩ := factors hst nd n a A w d hok hA hD
  refine ⟨f, e, fun b hb z hz Z Z0 hZ ord ho x hx s s0 hs => ?_⟩
  have hpiv : ∀ i, i < n → (F i i).val ≠ 0 := fun i hi =>
    abs_pos.mp (Nz.ilu_near_rows hD le_rfl hI i hi).pos
  obtain ⟨p, ep, hp, vp⟩ := noisy_mul hst nd hok hA hx
  have er := subOp_eq (ord := ord) (x := b) (y := p) (by rw [hb]; exact ho) (by rw [hb, hp])
  obtain ⟨v, ev, hv, vv⟩ := C87_ilu_solve (noisy_storage hst nd) n f F hokf hF hpiv (List.zipWith (· - ·) b p) (by simp [hb, hp])
  have ea := addOp_eq (ord := ord) (x := x) (y := v) (by rw [hx]; exact ho) (by rw [hx, hv])
  refine ⟨List.zipWith (· + ·) x v, by simp only [iluStep, ep, Lalib.ok_bind, er, ev, ea], by simp [hx, hv], ?_⟩
  have e1 : ∀ i, i < n → val0 (List.zipWith (· - ·) b p) i = val0 b i - val0 p i := fun i hi => by
    rw [val0_of_lt (by simp [hb, hp, hi]), List.getElem_zipWith, ← val0_of_lt (by omega), ← val0_of_lt (by omega)]
  have e2 : ∀ i, i < n → val0 (List.zipWith (· + ·) x v) i = val0 x i + val0 v i := fun i hi => by
    rw [val0_of_lt (by simp [hx, hv, hi]), List.getElem_zipWith, ← val0_of_lt (by omega), ← val0_of_lt (by omega)]
  refine round_step N.u_nonneg N.u_lt_one hD (fun i j hi hj => Nz.near_cell hi hj (hI i j hi hj)) hz Z0 s0 hZ hs
    (fun i hi => ?_) vv fun i hi => ?_
  · rw [e1 i hi]
    exact noisy_resid (vp i hi)
  · rw [e2 i hi]
    exact N.add_err _ _

/-- `k` steps with rounding errors. -/
theorem C103_rounded (hst : GStorage ops ok) (nd : Bool) (n : Nat) (a : M) (A : Nat → Nat → Nz N) (w : ℕ → ℝ) (d : ℝ) (hok : ok a)
    (hA : Shows (ops nd).toMatOps n a A) (hD : GapDom N.u n (Nz.mat A) w d) :
    ∃ f, Ilu.new (ops nd).toMatOps a = .ok f ∧ ∀ b : List (Nz N), b.length = n →
      ∀ z : ℕ → ℝ, Solves n (Nz.mat A) z (fun i => (val0 b i).val) → ∀ Z, 0 ≤ Z → (∀ i, i < n → |z i| ≤ Z * w i) →
      ∀ ord : List Nat, ord.Perm (List.range n) → ∀ x : List (Nz N), x.length = n →
      ∀ s, 0 ≤ s → ErrLe n w (fun i => (val0 x i).val) z s →
      ∀ k, ∃ y, iluTimes (ops nd) ord a f b k x = .ok y ∧ y.length = n ∧
        ErrLe n w (fun i => (val0 y i).val) z ((1 - d / 8) ^ k * s + 24 * ((2 * n + 6) * gam N.u (6 * n + 3) / d ^ 2) * Z) := by
  obtain ⟨f, e, h⟩ := C103_rounded_step hst nd n a A w d hok hA hD
  refine ⟨f, e, fun b hb z hz Z Z0 hZ ord ho x hx s s0 hs k => ?_⟩
  have d0 := hD.d0
  have d1 := hD.d1
  have G0 : 0 ≤ (2 * n + 6) * gam N.u (6 * n + 3) := mul_nonneg (by positivity) (gam_nonneg N.u_nonneg N.u_lt_one _)
  set G := (2 * n + 6) * gam N.u (6 * n + 3)
  have e8 : 24 * (G / d ^ 2) * Z = 8 * (3 * (G / d) * Z / d) := by field_simp; ring
  have E0 : 0 ≤ 24 * (G / d ^ 2) * Z := by positivity
  induction k with
  | zero =>
    refine ⟨x, rfl, hx, fun i hi => (hs i hi).trans (mul_le_mul_of_nonneg_right ?_ (hD.pos i hi).le)⟩
    rw [pow_zero, one_mul]
    linarith
  | succ k ih =>
    obtain ⟨y, ey, hy, hey⟩ := ih
    have p0 : 0 ≤ (1 - d / 8) ^ k * s := mul_nonneg (pow_nonneg (by linarith) k) s0
    obtain ⟨y', ey', hy', h'⟩ := h b hb z hz Z Z0 hZ ord ho y hy _ (by linarith) hey
    refine ⟨y', by simp only [iluTimes, ey, Lalib.ok_bind, ey'], hy', ?_⟩
    rw [e8, times_arith d0] at h'
    rw [e8]
    exact h'

/-- The iteration comes close to the solution, up to a relative error of the size of the unit roundoff, and stays there. -/
theorem C103_rounded_limit (hst : GStorage ops ok) (nd : Bool) (n : Nat) (a : M) (A : Nat → Nat → Nz N) (w : ℕ → ℝ) (d : ℝ) (hok : ok a)
    (hA : Shows (ops nd).toMatOps n a A) (hD : GapDom N.u n (Nz.mat A) w d) :
    ∃ f, Ilu.new (ops nd).toMatOps a = .ok f ∧ ∀ b : List (Nz N), b.length = n →
      ∀ z : ℕ → ℝ, Solves n (Nz.mat A) z (fun i => (val0 b i).val) → ∀ Z, 0 ≤ Z → (∀ i, i < n → |z i| ≤ Z * w i) →
      ∀ ord : List Nat, ord.Perm (List.range n) → ∀ x : List (Nz N), x.length = n → ∀ eps, 0 < eps →
      ∃ K, ∀ k, K ≤ k → ∃ y, iluTimes (ops nd) ord a f b k x = .ok y ∧ y.length = n ∧
        ErrLe n w (fun i => (val0 y i).val) z (eps + 24 * ((2 * n + 6) * gam N.u (6 * n + 3) / d ^ 2) * Z) := by
  obtain ⟨f, e, h⟩ := C103_rounded hst nd n a A w d hok hA hD
  refine ⟨f, e, fun b hb z hz Z Z0 hZ ord ho x hx eps hp => ?_⟩
  have d0 := hD.d0
  have d1 := hD.d1
  have t0 : ∀ i, i < n → 0 ≤ |(val0 x i).val - z i| / w i := fun i hi => div_nonneg (abs_nonneg _) (hD.pos i hi).le
  obtain ⟨s, s0, hs⟩ : ∃ s, 0 ≤ s ∧ ErrLe n w (fun i => (val0 x i).val) z s := by
    refine ⟨∑ i ∈ range n, |(val0 x i).val - z i| / w i, sum_nonneg fun i hi => t0 i (mem_range.mp hi), fun i hi => ?_⟩
    rw [← div_le_iff₀ (hD.pos i hi)]
    exact single_le_sum (f := fun i => |(val0 x i).val - z i| / w i) (fun j hj => t0 j (mem_range.mp hj)) (mem_range.mpr hi)
  obtain ⟨K, hK⟩ := exists_pow_lt_of_lt_one (div_pos hp (show 0 < s + 1 by linarith)) (show 1 - d / 8 < 1 by linarith)
  refine ⟨K, fun k hk => ?_⟩
  obtain ⟨y, ey, hy, hey⟩ := h b hb z hz Z Z0 hZ ord ho x hx s s0 hs k
  refine ⟨y, ey, hy, fun i hi => (hey i hi).trans (mul_le_mul_of_nonneg_right (add_le_add_left ?_ _) (hD.pos i hi).le)⟩
  have h1 : (1 - d / 8) ^ k ≤ (1 - d / 8) ^ K := pow_le_pow_of_le_one (by linarith) (by linarith) hk
  rw [lt_div_iff₀ (by linarith)] at hK
  have h2 : 0 ≤ (1 - d / 8) ^ K := pow_nonneg (by linarith) K
  nlinarith

/-! ## Concrete cases -/

/-- The ring of four unknowns of C86 in single precision: every step leaves at most 15/16 of the error. -/
example : GapDom (1 / 2 ^ 24) 4 (fun i j => (exDom i j : ℝ)) (fun _ => 1) (1 / 2) := by
  refine ⟨fun _ _ => one_pos, fun i hi => ?_, by norm_num, by norm_num, fun i hi => ?_, ?_⟩
  · have : ∀ i, i < 4 → exDom i i ≠ 0 := by decide +kernel
    exact_mod_cast this i hi
  · have : ∀ i, i < 4 → |exDom i i| * 1 ≤ 2 * rowGap 4 exDom (fun _ => 1) i := by decide +kernel
    have h := this i hi
    unfold rowGap at h ⊢
    beta_reduce at h ⊢
    have h2 : |(exDom i i : ℝ)| * 1 ≤ 2 * (|(exDom i i : ℝ)| * 1 - ∑ j ∈ (range 4).erase i, |(exDom i j : ℝ)| * 1) := by
      exact_mod_cast h
    linarith
  · unfold gam
    norm_num

/-- What rounding leaves of the error for this matrix in double precision. -/
example : 24 * ((2 * (4 : ℕ) + 6) * gam (1 / 2 ^ 53) (6 * 4 + 3) / (1 / 2) ^ 2) ≤ (1 : ℝ) / 10 ^ 11 := by
  unfold gam
  norm_num

end Lalib.Props
