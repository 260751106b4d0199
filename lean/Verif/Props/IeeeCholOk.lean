import Verif.Spec.IeeeCholOk
import Verif.Proofs.IeeeCholSolve
import Verif.Props.IeeeBack

/-! # C85: positive definite systems for which Cholesky cannot fail in IEEE arithmetic -/

namespace Lalib.Props

open Lalib Finset

variable {F : Fmt}

/-- The constructor succeeds, every number of the factor is finite, its diagonal is positive, and its product with its transpose
is `A` up to an error in terms of `A` alone. -/
theorem C85_factor (mt : MemType) (n : Nat) (l : List (Fp F)) (A : Nat → Nat → Fp F) (hl : Lower mt n l A) (hs : Symm n A)
    (hA : ∀ i j, j ≤ i → i < n → (A i j).IsFin) (lam : ℝ) (hr : FactorRange F n (Fp.mat A)) (hq : FormAbove n (Fp.mat A) lam)
    (hlam : 3 * (n * gam F.u (6 * (n + 1))) < lam) :
    ∃ L, Chol.new mt n l = .ok L ∧ L.length = l.length ∧ CholRec n A (held mt n L) ∧
      (∀ i j, j ≤ i → i < n → (held mt n L i j).IsFin) ∧ (∀ i, i < n → 0 < (held mt n L i i).val) ∧
      ∀ i j, i < n → j < n →
        |∑ k ∈ range n, low (Fp.mat (held mt n L)) i k * low (Fp.mat (held mt n L)) j k - (A i j).val| ≤
          3 * gam F.u (6 * (n + 1)) * (Real.sqrt (A i i).val * Real.sqrt (A j j).val) := by
  have hs' : Symm n (Fp.mat A) := fun i j hi hj => by unfold Fp.mat; rw [hs i j hi hj]
  obtain ⟨⟨c, L⟩, e, h | h⟩ := Chol.decomp_raw Fp.sq_ok mt n l hl.len.ge
  · obtain ⟨hc, h⟩ := h
    simp only at hc h
    subst hc
    have hrec : CholRec n A (held mt n L) := by rw [held_eq]; exact h.cholRec hl.val
    have fit := Fp.chol_fit hA hs' hr.pos hq hlam hr.low hr.top hrec
    refine ⟨L, by simp [Chol.new, e], h.len, hrec, fun i j hj hi => fit.fin i j hj hi, fit.pos, fun i j hi hj => ?_⟩
    have l1 := form_le_one (A := Fp.mat A) hr.pos hq (by omega)
    obtain ⟨τ1, g1, _⟩ := Fp.chol_const (F := F) (by omega) l1 hlam
    exact fit.prod hs' hr.pos τ1 g1 i j hi hj
  · simp only at h
    exfalso
    obtain ⟨_, _, S1, S2, _⟩ := Fp.chol_row_ok hA hs' hr.pos hq hlam hr.low hr.top h.lt (h.upto hl.val (le_refl c)) c le_rfl
    have pv := h.piv
    unfold Chol.pivot at pv
    rw [hl.val c c (le_refl _) h.lt] at pv
    rcases pv with pv | pv
    · exact S2.ne' ((Fp.isZ_iff _).mp pv).2
    · have := (Fp.fin_lt S1 Fp.isFin_zero).mp pv
      simp at this
      linarith

/-- A solution of a nearby system is close to the solution. -/
theorem C85_error (n : ℕ) (A : ℕ → ℕ → ℝ) (lam X g : ℝ) (hp : ∀ p, p < n → 0 < A p p) (hq : FormAbove n A lam) (hl : 0 ≤ lam)
    (hX : 0 ≤ X) (hg : 0 ≤ g) (x z b : ℕ → ℝ) (hx : ∑ p ∈ range n, A p p * x p ^ 2 ≤ X ^ 2)
    (h : NearSolves2 n A (fun i j => g * (Real.sqrt (A i i) * Real.sqrt (A j j))) (fun i => g * (Real.sqrt (A i i) * X)) x b)
    (hz : Solves n A z b) : lam ^ 2 * ∑ p ∈ range n, A p p * (x p - z p) ^ 2 ≤ (2 * (n * g * X)) ^ 2 := by
  have sq : ∀ v : ℕ → ℝ, ∑ p ∈ range n, (Real.sqrt (A p p) * v p) * (Real.sqrt (A p p) * v p) = ∑ p ∈ range n, A p p * v p ^ 2 := by
    intro v
    refine sum_congr rfl fun p hpn => ?_
    have := Real.mul_self_sqrt (hp p (mem_range.mp hpn)).le
    linear_combination (v p ^ 2) * this
  have cs : ∀ (v : ℕ → ℝ) (V : ℝ), 0 ≤ V → ∑ p ∈ range n, A p p * v p ^ 2 ≤ V ^ 2 →
      ∑ p ∈ range n, Real.sqrt (A p p) * |v p| ≤ Real.sqrt n * V := by
    intro v V hV hv
    have := cs_abs (s := range n) (a := fun _ => 1) (b := fun p => Real.sqrt (A p p) * v p) (X := Real.sqrt n) (Y := V)
      (Real.sqrt_nonneg _) hV (by rw [Real.mul_self_sqrt (Nat.cast_nonneg n)]; simp) (by rw [sq, ← pow_two]; exact hv)
    refine le_trans (le_of_eq (sum_congr rfl fun p _ => ?_)) this
    rw [one_mul, abs_mul, abs_of_nonneg (Real.sqrt_nonneg _)]
  set W := Real.sqrt (∑ p ∈ range n, A p p * (x p - z p) ^ 2) with hW
  have W0 : 0 ≤ W := Real.sqrt_nonneg _
  have WW : W ^ 2 = ∑ p ∈ range n, A p p * (x p - z p) ^ 2 :=
    Real.sq_sqrt (sum_nonneg fun p hpn => mul_nonneg (hp p (mem_range.mp hpn)).le (sq_nonneg _))
  have hxs := cs x X hX hx
  have hes := cs (fun p => x p - z p) W W0 WW.ge
  have n0 : (0 : ℝ) ≤ n := Nat.cast_nonneg n
  have sn : Real.sqrt n * Real.sqrt n = n := Real.mul_self_sqrt n0
  have s0 := Real.sqrt_nonneg (n : ℝ)
  have res : ∀ i, i < n → |mulVec n A x i - b i| ≤ g * (1 + Real.sqrt n) * X * Real.sqrt (A i i) := by
    intro i hi
    refine (C71_residual n A _ _ x b h i hi).trans ?_
    have e : ∑ j ∈ range n, g * (Real.sqrt (A i i) * Real.sqrt (A j j)) * |x j| =
        g * Real.sqrt (A i i) * ∑ j ∈ range n, Real.sqrt (A j j) * |x j| := by
      rw [mul_sum]; exact sum_congr rfl fun j _ => by ring
    rw [e]
    have := mul_le_mul_of_nonneg_left hxs (mul_nonneg hg (Real.sqrt_nonneg (A i i)))
    linarith
  have form : ∑ p ∈ range n, ∑ q ∈ range n, (x p - z p) * A p q * (x q - z q) =
      ∑ p ∈ range n, (x p - z p) * (mulVec n A x p - b p) := by
    refine sum_congr rfl fun p hpn => ?_
    rw [← hz p (mem_range.mp hpn)]
    unfold mulVec
    rw [← sum_sub_distrib, mul_sum]
    exact sum_congr rfl fun q _ => by ring
  have le : lam * W ^ 2 ≤ g * (1 + Real.sqrt n) * X * (Real.sqrt n * W) := by
    rw [WW]
    refine (hq fun p => x p - z p).trans ?_
    rw [form]
    calc _ ≤ ∑ p ∈ range n, g * (1 + Real.sqrt n) * X * (Real.sqrt (A p p) * |x p - z p|) := by
          refine sum_le_sum fun p hpn => (le_abs_self _).trans ?_
          rw [abs_mul]
          have := mul_le_mul_of_nonneg_left (res p (mem_range.mp hpn)) (abs_nonneg (x p - z p))
          linarith
      _ = g * (1 + Real.sqrt n) * X * ∑ p ∈ range n, Real.sqrt (A p p) * |x p - z p| := by rw [mul_sum]
      _ ≤ _ := mul_le_mul_of_nonneg_left hes (by positivity)
  have sn1 : Real.sqrt n ≤ n := by
    rcases Nat.eq_zero_or_pos n with rfl | hn
    · simp
    · have : (1 : ℝ) ≤ Real.sqrt n := Real.one_le_sqrt.mpr (by exact_mod_cast hn)
      nlinarith
  have le2 : lam * W ^ 2 ≤ 2 * (n * g * X) * W := by
    refine le.trans ?_
    have : g * (1 + Real.sqrt n) * X * (Real.sqrt n * W) = (Real.sqrt n + Real.sqrt n * Real.sqrt n) * (g * X * W) := by ring
    rw [this, sn]
    have := mul_le_mul_of_nonneg_right sn1 (show 0 ≤ g * X * W by positivity)
    linarith
  have le3 : lam * W ≤ 2 * (n * g * X) := by
    rcases W0.eq_or_lt with w0 | w0
    · rw [← w0, mul_zero]; positivity
    · refine le_of_mul_le_mul_right ?_ w0
      linarith [le2, show lam * W * W = lam * W ^ 2 by ring]
  rw [← WW, ← mul_pow]
  exact pow_le_pow_left₀ (mul_nonneg hl W0) le3 2

private theorem chol_near_ok {n : Nat} {A L : Nat → Nat → Fp F} {b x : Nat → Fp F} {lam X : ℝ} (hs : Symm n A)
    (hr : FactorRange F n (Fp.mat A)) (l1 : lam ≤ 1) (hX : SolveRange F n (Fp.mat A) lam (fun i => (b i).val) X)
    (fit : Fp.CholFit n A L) (hrec : CholRec n A L)
    (hg : gam F.u (6 * (n + 1)) ≤ 1 / 3) (hg' : gam F.u (n + 1) ≤ 1 / 3) (hx : ∀ i, i < n → (x i).IsFin)
    (h : CholSolveRec false n L b x) :
    NearSolves2 n (Fp.mat A) (fun i j => gam F.u (6 * (n + 1)) * (Real.sqrt (A i i).val * Real.sqrt (A j j).val))
      (fun i => gam F.u (6 * (n + 1)) * (Real.sqrt (A i i).val * X)) (fun i => (x i).val) (fun i => (b i).val) := by
  have u0 := F.u_nonneg
  have u1 := F.u_lt_one
  have hη := F.eta_pos.le
  have G := gam_nonneg u0 u1 (n + 1)
  have G0 := gam_nonneg u0 u1 n
  have Gm := gam_mono u0 u1 (show n ≤ n + 1 by omega)
  have sqm : ∀ i, i < n → Real.sqrt (A i i).val * Real.sqrt (A i i).val = (A i i).val := fun i hi => Real.mul_self_sqrt (hr.pos i hi).le
  have sl : Real.sqrt lam ≤ 1 := by rw [Real.sqrt_le_left (by norm_num)]; linarith
  have sl0 := Real.sqrt_nonneg lam
  have two2 : Real.sqrt 2 * Real.sqrt 2 = 2 := Real.mul_self_sqrt (by norm_num)
  have s2 : Real.sqrt 2 ≤ 3 / 2 := by rw [Real.sqrt_le_left (by norm_num)]; norm_num
  have s20 := Real.sqrt_nonneg 2
  have sq : ∀ p, p < n → ∑ m ∈ range n, low (Fp.mat L) p m * low (Fp.mat L) p m ≤
      (Real.sqrt 2 * Real.sqrt (A p p).val) * (Real.sqrt 2 * Real.sqrt (A p p).val) := by
    intro p hp
    refine (fit.sq hr.pos hg hg' p hp).trans (le_of_eq ?_)
    linear_combination (-(A p p).val) * two2 - Real.sqrt 2 * Real.sqrt 2 * sqm p hp
  have prod : ∀ i j, i < n → j < n → ∑ k ∈ range n, |low (Fp.mat L) i k * low (Fp.mat L) j k| ≤
      2 * (Real.sqrt (A i i).val * Real.sqrt (A j j).val) := by
    intro i j hi hj
    refine (cs_abs (by positivity) (by positivity) (sq i hi) (sq j hj)).trans (le_of_eq ?_)
    linear_combination (Real.sqrt (A i i).val * Real.sqrt (A j j).val) * two2
  have entry_le : ∀ i k, i < n → k < n → |low (Fp.mat L) i k| ≤ 3 / 2 * Real.sqrt (A i i).val := by
    intro i k hi hk
    have a : |low (Fp.mat L) i k| ≤ Real.sqrt 2 * Real.sqrt (A i i).val := by
      refine abs_le_of_sq_le_sq ?_ (by positivity)
      have h2 := single_le_sum (f := fun k => low (Fp.mat L) i k * low (Fp.mat L) i k) (fun k _ => mul_self_nonneg _)
        (mem_range.mpr hk)
      have := sq i hi
      rw [pow_two, pow_two]
      linarith
    exact a.trans (mul_le_mul_of_nonneg_right s2 (Real.sqrt_nonneg _))
  have diag_le : ∀ i, i < n → |Fp.mat L i i| ≤ 2 * Real.sqrt (A i i).val := by
    intro i hi
    rw [show |Fp.mat L i i| = (L i i).val from abs_of_pos (fit.pos i hi)]
    exact fit.diag i hi
  have uk : ∀ k : ℕ, k * F.u ≤ gam F.u k := by
    intro k
    induction k with
    | zero => simp [gam]
    | succ k ih =>
      have a := gam_add_le u0 u1 k 1
      have b := u_le_gam u0 u1 (show 1 ≤ 1 by omega)
      push_cast
      linarith
  refine (Fp.chol_near hs hrec fit.fin (fun i hi hz => (fit.pos i hi).ne' ((Fp.isZ_iff _).mp hz).2) h hx).mono (fun i j hi hj => ?_)
    fun i hi => ?_
  · set P := Real.sqrt (A i i).val * Real.sqrt (A j j).val with hP
    have P0 : 0 ≤ P := by positivity
    have under : F.eta * (n + |Fp.mat L (min i j) (min i j)|) ≤ F.u * P := by
      have key : ∀ i j, i < n → j < n → F.eta * (n + |Fp.mat L j j|) ≤ F.u * (Real.sqrt (A i i).val * Real.sqrt (A j j).val) :=
        fun i j hi hj => (mul_le_mul_of_nonneg_left (add_le_add le_rfl (diag_le j hj)) hη).trans (hr.low i j hi hj)
      rcases le_total i j with hij | hij
      · rw [min_eq_left hij, hP, mul_comm (Real.sqrt _)]; exact key j i hj hi
      · rw [min_eq_right hij]; exact key i j hi hj
    have t1 := mul_le_mul_of_nonneg_left (prod i j hi hj) (gam_nonneg u0 u1 (3 * n + 1))
    have t2 : (1 + gam F.u (n + 1)) * F.eta * (n + |Fp.mat L (min i j) (min i j)|) ≤ 2 * (F.u * P) := by
      rw [mul_assoc]
      have : 0 ≤ F.u * P := by positivity
      calc _ ≤ (1 + gam F.u (n + 1)) * (F.u * P) := mul_le_mul_of_nonneg_left under (by linarith)
        _ ≤ 2 * (F.u * P) := mul_le_mul_of_nonneg_right (by linarith) this
    have a := gam_add_le u0 u1 (3 * n + 1) (3 * n + 1)
    have b := gam_add_le u0 u1 (3 * n + 1 + (3 * n + 1)) 2
    have c := uk 2
    have d := gam_mono u0 u1 (show 3 * n + 1 + (3 * n + 1) + 2 ≤ 6 * (n + 1) by omega)
    push_cast at c
    have : (2 * gam F.u (3 * n + 1) + 2 * F.u) * P ≤ gam F.u (6 * (n + 1)) * P := mul_le_mul_of_nonneg_right (by linarith) P0
    linarith
  · set d := Real.sqrt (A i i).val with hd
    have d0 : 0 ≤ d := Real.sqrt_nonneg _
    have X0 := hX.pos
    have a1 : F.eta * (n + |Fp.mat L i i|) ≤ F.u * (X * d) / 4 := by
      have a := mul_le_mul_of_nonneg_left (add_le_add (le_refl (n : ℝ)) (diag_le i hi)) hη
      have b := hX.lowMul i hi
      have c : F.u * (Real.sqrt lam * X * d) ≤ F.u * (X * d) := by
        rw [mul_assoc (Real.sqrt lam)]
        exact mul_le_mul_of_nonneg_left (mul_le_of_le_one_left (by positivity) sl) u0
      have b' : 4 * (F.eta * (n + 2 * d)) ≤ F.u * (Real.sqrt lam * X * d) := b
      linarith
    have a2 : ∀ k, k < n → F.eta * (n + |Fp.mat L k k|) ≤ F.u * X / 4 := by
      intro k hk
      have a := mul_le_mul_of_nonneg_left (add_le_add (le_refl (n : ℝ)) (diag_le k hk)) hη
      have b := hX.low k hk
      have c : F.u * (Real.sqrt lam * X) ≤ F.u * X := mul_le_mul_of_nonneg_left (mul_le_of_le_one_left X0.le sl) u0
      have b' : 4 * (F.eta * (n + 2 * Real.sqrt (A k k).val)) ≤ F.u * (Real.sqrt lam * X) := b
      linarith
    have a3 : F.eta * ∑ k ∈ range n, |low (Fp.mat L) i k| * (n + |Fp.mat L k k|) ≤ n * (3 / 8 * (F.u * (X * d))) := by
      rw [mul_sum]
      calc _ ≤ ∑ k ∈ range n, 3 / 8 * (F.u * (X * d)) := by
            refine sum_le_sum fun k hk => ?_
            have hk := mem_range.mp hk
            have e := mul_le_mul (entry_le i k hi hk) (a2 k hk) (by positivity) (by positivity)
            linarith
        _ = _ := by simp
    have S0 : 0 ≤ ∑ k ∈ range n, |low (Fp.mat L) i k| * (n + |Fp.mat L k k|) := sum_nonneg fun k _ => by positivity
    set S := ∑ k ∈ range n, |low (Fp.mat L) i k| * (n + |Fp.mat L k k|)
    have e : (1 + gam F.u n) * F.eta * (n + |Fp.mat L i i| + (1 + gam F.u n) * S) =
        (1 + gam F.u n) * (F.eta * (n + |Fp.mat L i i|) + (1 + gam F.u n) * (F.eta * S)) := by ring
    rw [e]
    have Y0 : 0 ≤ F.u * (X * d) := by positivity
    have f1 : (1 + gam F.u n) * (F.eta * S) ≤ 4 / 3 * (n * (3 / 8 * (F.u * (X * d)))) :=
      mul_le_mul (by linarith) a3 (by positivity) (by norm_num)
    have f2 : (1 + gam F.u n) * (F.eta * (n + |Fp.mat L i i|) + (1 + gam F.u n) * (F.eta * S)) ≤
        4 / 3 * (F.u * (X * d) / 4 + 4 / 3 * (n * (3 / 8 * (F.u * (X * d))))) :=
      mul_le_mul (by linarith) (add_le_add a1 f1) (by positivity) (by norm_num)
    have nY : 0 ≤ (n : ℝ) * (F.u * (X * d)) := by positivity
    have g := mul_le_mul_of_nonneg_right (uk (6 * (n + 1))) (show 0 ≤ X * d by positivity)
    push_cast at g
    rw [mul_comm d X]
    linarith

/-- Solving with the factor, one right-hand side. -/
private theorem solve_col {n : Nat} {A L : Nat → Nat → Fp F} {b x : Nat → Fp F} {lam X : ℝ} (hs : Symm n A)
    (hr : FactorRange F n (Fp.mat A)) (hq : FormAbove n (Fp.mat A) lam) (hlam : 6 * ((n + 1) * gam F.u (6 * (n + 1))) < lam)
    (fit : Fp.CholFit n A L) (hrec : CholRec n A L) (hb : ∀ i, i < n → (b i).IsFin)
    (hX : SolveRange F n (Fp.mat A) lam (fun i => (b i).val) X) (h : CholSolveRec false n L b x) :
    CholSolved F n (Fp.mat A) lam X b x := by
  have u0 := F.u_nonneg
  have u1 := F.u_lt_one
  have T := gam_nonneg u0 u1 (6 * (n + 1))
  have X0 := hX.pos
  have n0 : (0 : ℝ) ≤ n := Nat.cast_nonneg n
  have l0 : 0 < lam := lt_of_le_of_lt (by positivity) hlam
  rcases Nat.eq_zero_or_pos n with rfl | hn
  · exact ⟨fun i hi => absurd hi (by omega), by simp; positivity,
      ⟨fun _ _ => 0, fun _ => 0, fun i _ hi => absurd hi (by omega), fun i hi => absurd hi (by omega), fun i hi => absurd hi (by omega)⟩,
      fun z _ => by simp⟩
  have hs' : Symm n (Fp.mat A) := fun i j hi hj => by unfold Fp.mat; rw [hs i j hi hj]
  have l1 := form_le_one (A := Fp.mat A) hr.pos hq hn
  have hlam' : 3 * (n * gam F.u (6 * (n + 1))) < lam := by
    have : 0 ≤ (n : ℝ) * gam F.u (6 * (n + 1)) := by positivity
    linarith
  obtain ⟨τ1, g1, _⟩ := Fp.chol_const (F := F) hn l1 hlam'
  have ss : Real.sqrt lam * Real.sqrt lam = lam := Real.mul_self_sqrt l0.le
  have s0 : 0 < Real.sqrt lam := Real.sqrt_pos.mpr l0
  have sl : Real.sqrt lam ≤ 1 := by rw [Real.sqrt_le_left (by norm_num)]; linarith
  obtain ⟨y, hf, hbk⟩ := h
  have hf : FwdSubRec n L b y := by simpa [CholFwdRec] using hf
  have DX : Real.sqrt lam * X / 4 ≤ X := by
    have := mul_le_of_le_one_left X0.le sl
    linarith
  have nX : 0 ≤ (n : ℝ) * X := by positivity
  obtain ⟨yf, ys⟩ := Fp.fwd_ok (D := Real.sqrt lam * X / 4) hs' hr.pos hq hlam hn fit (by positivity) hb
    (by
      have := hX.rhs
      have e : lam * (Real.sqrt lam * X / 4 * (Real.sqrt lam * X / 4)) = lam ^ 2 * X ^ 2 / 16 := by
        linear_combination (lam * X ^ 2 / 16) * ss
      rw [e]
      have : 64 * ∑ p ∈ range n, (b p).val ^ 2 / (A p p).val ≤ lam ^ 2 * X ^ 2 := this
      linarith)
    (fun j hj => by
      have := hX.lowMul j hj
      have : 4 * (F.eta * (n + 2 * Real.sqrt (A j j).val)) ≤ F.u * (Real.sqrt lam * X * Real.sqrt (A j j).val) := this
      linarith)
    (by have := hX.top; linarith)
    (fun p hp => by
      have a := hX.mul p hp
      have b := mul_le_mul_of_nonneg_right DX (Real.sqrt_nonneg (Fp.mat A p p))
      have : 16 * (Real.sqrt lam * X / 4 * Real.sqrt (Fp.mat A p p)) < F.top := by linarith
      exact this)
    hf
  obtain ⟨xf, xs⟩ := Fp.back_ok (D := Real.sqrt lam * X / 4) (X := X) hs' hr.pos hq hlam hn fit (by positivity) X0
    (by linear_combination (X ^ 2) * ss) yf ys
    (fun j hj => by
      have := hX.low j hj
      have : 4 * (F.eta * (n + 2 * Real.sqrt (A j j).val)) ≤ F.u * (Real.sqrt lam * X) := this
      linarith)
    hX.top hX.div hbk
  have hsz : ∑ p ∈ range n, Fp.mat A p p * (x p).val ^ 2 ≤ X ^ 2 := by rw [pow_two X]; exact xs
  have near := chol_near_ok hs hr l1 hX fit hrec τ1 g1 xf ⟨y, by simpa [CholFwdRec] using hf, hbk⟩
  exact ⟨xf, hsz, near, fun z hz => C85_error n (Fp.mat A) lam X _ hr.pos hq l0.le X0.le T _ z _ hsz near hz⟩

/-- Factoring and solving, one right-hand side: nothing overflows, and the solution is as good as it can be. -/
theorem C85_solve_vec (nd : Bool) (mt : MemType) (n : Nat) (l : List (Fp F)) (A : Nat → Nat → Fp F) (hl : Lower mt n l A)
    (hs : Symm n A) (hA : ∀ i j, j ≤ i → i < n → (A i j).IsFin) (lam : ℝ) (hr : FactorRange F n (Fp.mat A))
    (hq : FormAbove n (Fp.mat A) lam) (hlam : 6 * ((n + 1) * gam F.u (6 * (n + 1))) < lam) (m : Mem (Fp F)) (b r : Nat)
    (hb : m.len b = n) (hrb : r ≠ b) (hbf : ∀ i, i < n → (m.val b i).IsFin) (X : ℝ)
    (hX : SolveRange F n (Fp.mat A) lam (fun i => (m.val b i).val) X) :
    ∃ L x, Chol.new mt n l = .ok L ∧ x.length = n ∧ Chol.solveMutVec nd false mt n L b m = .ok (m.setBuf b x) ∧
      Chol.solveVecAt nd false mt n L b r m = .ok (m.setBuf r x) ∧ CholSolved F n (Fp.mat A) lam X (m.val b) (val0 x) := by
  have hlam' : 3 * (n * gam F.u (6 * (n + 1))) < lam := by
    have a := gam_nonneg F.u_nonneg F.u_lt_one (6 * (n + 1))
    have : 0 ≤ (n : ℝ) * gam F.u (6 * (n + 1)) := by positivity
    linarith
  have hs' : Symm n (Fp.mat A) := fun i j hi hj => by unfold Fp.mat; rw [hs i j hi hj]
  obtain ⟨L, e, hlen, hrec, _⟩ := C85_factor mt n l A hl hs hA lam hr hq hlam'
  obtain ⟨x, hx, hsol, e1, e2, _⟩ := C67_chol_solve_vec nd false mt n L (held mt n L)
    ⟨by rw [hlen, hl.1], fun _ _ _ _ => rfl⟩ m b r hb hrb
  exact ⟨L, x, e, hx, e1, e2, solve_col hs hr hq hlam (Fp.chol_fit hA hs' hr.pos hq hlam' hr.low hr.top hrec) hrec hbf hX hsol⟩

/-- Several right-hand sides, each with its own bound; the others may be anything. -/
theorem C85_solve_mat (nd : Bool) (mt : MemType) (n : Nat) (l : List (Fp F)) (A : Nat → Nat → Fp F) (hl : Lower mt n l A)
    (hs : Symm n A) (hA : ∀ i j, j ≤ i → i < n → (A i j).IsFin) (lam : ℝ) (hr : FactorRange F n (Fp.mat A))
    (hq : FormAbove n (Fp.mat A) lam) (hlam : 6 * ((n + 1) * gam F.u (6 * (n + 1))) < lam) (m : Mem (Fp F)) (b : MatRef)
    (r : Nat) (hb : b.Wf m) (hn : b.n = n) (hrb : r ≠ b.buf) :
    ∃ L x, Chol.new mt n l = .ok L ∧ x.length = n * b.m ∧
      Chol.solveMutMat nd false mt n L b m = .ok (m.setBuf b.buf x) ∧
      Chol.solveMatAt nd false mt n L b r m = .ok (m.setBuf r x) ∧
      ∀ k X, k < b.m → (∀ i, i < n → (entry b.m (m b.buf) i k).IsFin) →
        SolveRange F n (Fp.mat A) lam (fun i => (entry b.m (m b.buf) i k).val) X →
        CholSolved F n (Fp.mat A) lam X (fun i => entry b.m (m b.buf) i k) (fun i => entry b.m x i k) := by
  have hlam' : 3 * (n * gam F.u (6 * (n + 1))) < lam := by
    have a := gam_nonneg F.u_nonneg F.u_lt_one (6 * (n + 1))
    have : 0 ≤ (n : ℝ) * gam F.u (6 * (n + 1)) := by positivity
    linarith
  have hs' : Symm n (Fp.mat A) := fun i j hi hj => by unfold Fp.mat; rw [hs i j hi hj]
  obtain ⟨L, e, hlen, hrec, _⟩ := C85_factor mt n l A hl hs hA lam hr hq hlam'
  obtain ⟨x, hx, e1, e2, hsol⟩ := C67_chol_solve_mat nd false mt n L (held mt n L)
    ⟨by rw [hlen, hl.1], fun _ _ _ _ => rfl⟩ m b r hb hn hrb
  exact ⟨L, x, e, hx, e1, e2, fun k X hk hbf hX =>
    solve_col hs hr hq hlam (Fp.chol_fit hA hs' hr.pos hq hlam' hr.low hr.top hrec) hrec hbf hX (hsol k hk).1⟩

/-- Symmetric matrices whose diagonal dominates are such matrices. -/
theorem C85_dominant (n : ℕ) (A : ℕ → ℕ → ℝ) (lam : ℝ) (hs : Symm n A)
    (h : ∀ i, i < n → ∑ j ∈ (range n).erase i, |A i j| ≤ (1 - lam) * A i i) : FormAbove n A lam := by
  intro x
  have off : ∀ p ∈ range n, ∀ q ∈ (range n).erase p, -(|A p q| * x p ^ 2 / 2 + |A q p| * x q ^ 2 / 2) ≤ x p * A p q * x q := by
    intro p hp q hq
    rw [hs q p (mem_range.mp (mem_erase.mp hq).2) (mem_range.mp hp)]
    have a := neg_abs_le (A p q)
    have b := le_abs_self (A p q)
    nlinarith [mul_nonneg (abs_nonneg (A p q)) (sq_nonneg (x p + x q)), mul_nonneg (abs_nonneg (A p q)) (sq_nonneg (x p - x q)),
      mul_nonneg (sub_nonneg.mpr b) (sq_nonneg (x p + x q)), mul_nonneg (sub_nonneg.mpr b) (sq_nonneg (x p - x q)),
      mul_nonneg (show 0 ≤ A p q + |A p q| by linarith) (sq_nonneg (x p + x q)),
      mul_nonneg (show 0 ≤ A p q + |A p q| by linarith) (sq_nonneg (x p - x q))]
  have swap : ∑ p ∈ range n, ∑ q ∈ (range n).erase p, |A q p| * x q ^ 2 / 2 =
      ∑ p ∈ range n, ∑ q ∈ (range n).erase p, |A p q| * x p ^ 2 / 2 := by
    refine sum_comm' fun p q => ?_
    simp only [mem_erase]
    tauto
  calc lam * ∑ p ∈ range n, A p p * x p ^ 2
      = ∑ p ∈ range n, (A p p * x p ^ 2 - (1 - lam) * A p p * x p ^ 2) := by
        rw [mul_sum]; exact sum_congr rfl fun p _ => by ring
    _ ≤ ∑ p ∈ range n, (A p p * x p ^ 2 - (∑ q ∈ (range n).erase p, |A p q|) * x p ^ 2) :=
        sum_le_sum fun p hp => by
          have := mul_le_mul_of_nonneg_right (h p (mem_range.mp hp)) (sq_nonneg (x p))
          linarith
    _ = ∑ p ∈ range n, (x p * A p p * x p - ∑ q ∈ (range n).erase p, |A p q| * x p ^ 2 / 2) -
          ∑ p ∈ range n, ∑ q ∈ (range n).erase p, |A p q| * x p ^ 2 / 2 := by
        rw [← sum_sub_distrib]
        refine sum_congr rfl fun p _ => ?_
        rw [← sum_div, ← sum_mul]
        ring
    _ = ∑ p ∈ range n, (x p * A p p * x p + ∑ q ∈ (range n).erase p, -(|A p q| * x p ^ 2 / 2 + |A q p| * x q ^ 2 / 2)) := by
        rw [← swap, ← sum_sub_distrib]
        refine sum_congr rfl fun p _ => ?_
        rw [sum_neg_distrib, sum_add_distrib]
        ring
    _ ≤ ∑ p ∈ range n, ∑ q ∈ range n, x p * A p q * x q := by
        refine sum_le_sum fun p hp => ?_
        rw [← add_sum_erase _ _ hp]
        exact add_le_add le_rfl (sum_le_sum (off p hp))

private noncomputable def two (s : Bool) (e : ℤ) (h1 : binary64.emin ≤ e := by decide) (h2 : e < binary64.emax := by decide) :
    Fp binary64 := .fin s (2 ^ e) (binary64.isMag_pow h1 h2)

/-- `4` on and `-1` beside the diagonal. -/
private noncomputable def band (i j : ℕ) : Fp binary64 :=
  if i = j then two false 2 else if i = j + 1 ∨ j = i + 1 then two true 0 else 0

private theorem band_val (i j : ℕ) : Fp.mat band i j = if i = j then 4 else if i = j + 1 ∨ j = i + 1 then -1 else 0 := by
  unfold Fp.mat band
  split_ifs
  · show (if false then -2 ^ (2 : ℤ) else (2 : ℝ) ^ (2 : ℤ)) = 4; norm_num
  · show (if true then -2 ^ (0 : ℤ) else (2 : ℝ) ^ (0 : ℤ)) = -1; norm_num
  · simp

private theorem band_symm (n : ℕ) : Symm n band := fun i j _ _ => by
  unfold band
  simp only [eq_comm (a := i) (b := j), or_comm (a := i = j + 1)]

private theorem band_fin (i j : ℕ) : (band i j).IsFin := by
  unfold band; split_ifs <;> trivial

private theorem band_form (n : ℕ) : FormAbove n (Fp.mat band) (1 / 4) := by
  refine C85_dominant n _ _ (fun i j _ _ => ?_) fun i hi => ?_
  · simp only [band_val, eq_comm (a := i) (b := j), or_comm (a := i = j + 1)]
  · rw [band_val i i, if_pos rfl]
    calc _ ≤ ∑ j ∈ (range n).erase i, ((if j = i + 1 then (1 : ℝ) else 0) + (if j = i - 1 then 1 else 0)) := by
          refine sum_le_sum fun j hj => ?_
          obtain ⟨h1, h2⟩ := mem_erase.mp hj
          rw [band_val, if_neg (Ne.symm h1)]
          by_cases h3 : j = i + 1
          · rw [if_pos (Or.inr h3), if_pos h3]; split_ifs <;> norm_num
          · by_cases h4 : i = j + 1
            · rw [if_pos (Or.inl h4), if_neg h3, if_pos (by omega)]; norm_num
            · rw [if_neg (by omega), if_neg h3]; split_ifs <;> norm_num
      _ ≤ 2 := by
          rw [sum_add_distrib, sum_ite_eq', sum_ite_eq']
          split_ifs <;> norm_num
      _ ≤ _ := by norm_num

private theorem top64 : (2 : ℝ) ^ 100 < binary64.top := by
  have : binary64.top = (2 : ℝ) ^ (1024 : ℤ) := rfl
  rw [this, show (2 : ℝ) ^ 100 = 2 ^ (100 : ℤ) by norm_num]
  exact zpow_lt_zpow_right₀ (by norm_num) (by norm_num)

private theorem eta64 : binary64.eta ≤ 1 / 2 ^ 100 := by
  have : binary64.eta = (2 : ℝ) ^ (-1074 : ℤ) / 2 := rfl
  rw [this]
  have : (2 : ℝ) ^ (-1074 : ℤ) ≤ 2 ^ (-100 : ℤ) := zpow_le_zpow_right₀ (by norm_num) (by norm_num)
  have e : (2 : ℝ) ^ (-100 : ℤ) = 1 / 2 ^ 100 := by norm_num
  have h0 : 0 < (2 : ℝ) ^ (-1074 : ℤ) := by positivity
  rw [e] at this
  generalize (2 : ℝ) ^ (-1074 : ℤ) = z at this h0
  linarith

private theorem u64 : binary64.u = 1 / 2 ^ 53 := by
  have : binary64.u = (1 / 2 : ℝ) ^ 53 := rfl
  rw [this]; norm_num

private theorem sqrt4 : Real.sqrt 4 = 2 := by
  rw [show (4 : ℝ) = 2 ^ 2 by norm_num]; exact Real.sqrt_sq (by norm_num)

private theorem band_diag (p : ℕ) : Fp.mat band p p = 4 := by rw [band_val, if_pos rfl]

private theorem under64 {n : ℕ} (hn : n < 2 ^ 20) : binary64.eta * (n + 4) ≤ 1 / 2 ^ 79 := by
  have : (n : ℝ) < 2 ^ 20 := by exact_mod_cast hn
  have h := mul_le_mul eta64 (show (n : ℝ) + 4 ≤ 2 ^ 21 by linarith) (by positivity) (by norm_num)
  norm_num at h ⊢
  linarith

private theorem band_range {n : ℕ} (hn : n < 2 ^ 20) : FactorRange binary64 n (Fp.mat band) := by
  refine ⟨fun p _ => ?_, fun p _ => ?_, fun i j _ _ => ?_⟩
  · rw [band_diag]; norm_num
  · rw [band_diag]; have := top64; norm_num at this ⊢; linarith
  · rw [band_diag, band_diag, sqrt4, u64]
    have := under64 hn
    norm_num at this ⊢
    linarith

private theorem band_gam {n : ℕ} (hn : n < 2 ^ 20) : 6 * ((n + 1) * gam binary64.u (6 * (n + 1))) < 1 / 4 := by
  have h : (n : ℝ) + 1 ≤ 2 ^ 20 := by exact_mod_cast hn
  have ku : ((6 * (n + 1) : ℕ) : ℝ) * binary64.u ≤ 1 / 2 ^ 30 := by
    rw [u64]; push_cast; norm_num at h ⊢; linarith
  have k0 : 0 ≤ ((6 * (n + 1) : ℕ) : ℝ) * binary64.u := mul_nonneg (Nat.cast_nonneg _) binary64.u_nonneg
  have g := gam_le binary64.u_nonneg binary64.u_lt_one (k := 6 * (n + 1)) (lt_of_le_of_lt ku (by norm_num))
  have g2 : gam binary64.u (6 * (n + 1)) ≤ 1 / 2 ^ 29 := by
    refine g.trans ?_
    rw [div_le_iff₀ (by norm_num at ku ⊢; linarith)]
    norm_num at ku ⊢
    linarith
  have := mul_le_mul h g2 (gam_nonneg binary64.u_nonneg binary64.u_lt_one _) (by norm_num)
  norm_num at this ⊢
  linarith

private theorem band_solve {n : ℕ} (hn : n < 2 ^ 20) (b : ℕ → ℝ) (hb : ∀ i, i < n → |b i| ≤ 1) :
    SolveRange binary64 n (Fp.mat band) (1 / 4) b (2 ^ 14) := by
  have h : (n : ℝ) + 1 ≤ 2 ^ 20 := by exact_mod_cast hn
  have s : Real.sqrt (1 / 4) = 1 / 2 := by
    rw [show (1 / 4 : ℝ) = (1 / 2) ^ 2 by norm_num]; exact Real.sqrt_sq (by norm_num)
  have t := top64
  have e := under64 hn
  norm_num at t e h
  refine ⟨by norm_num, ?_, ?_, fun p _ => ?_, fun p _ => ?_, fun p _ => ?_, fun p _ => ?_⟩
  · have : ∑ p ∈ range n, b p ^ 2 / Fp.mat band p p ≤ ∑ p ∈ range n, (1 / 4 : ℝ) := by
      refine sum_le_sum fun p hp => ?_
      rw [band_diag]
      have := (sq_le_one_iff_abs_le_one (b p)).mpr (hb p (mem_range.mp hp))
      linarith
    rw [sum_const, card_range, nsmul_eq_mul] at this
    norm_num at this ⊢
    linarith
  · norm_num; linarith
  · rw [band_diag, sqrt4]; norm_num; linarith
  · rw [band_diag, sqrt4]; norm_num; linarith
  · rw [band_diag, sqrt4, s, u64]; norm_num; linarith
  · rw [band_diag, sqrt4, s, u64]; norm_num; linarith

-- any order below 2^20 and any right-hand side between -1 and 1
example (nd : Bool) (n : ℕ) (hn : n < 2 ^ 20) (m : Mem (Fp binary64)) (hb : m.len 0 = n)
    (hf : ∀ i, i < n → (m.val 0 i).IsFin ∧ |(m.val 0 i).val| ≤ 1) :
    ∃ L x, Chol.new .square n ((List.range (n * n)).map fun k => band (k / n) (k % n)) = .ok L ∧
      Chol.solveVecAt nd false .square n L 0 1 m = .ok (m.setBuf 1 x) ∧ ∀ i, i < n → (val0 x i).IsFin := by
  obtain ⟨L, x, e, _, _, e2, h⟩ := C85_solve_vec nd .square n ((List.range (n * n)).map fun k => band (k / n) (k % n)) band
    ⟨by simp [squareLen], fun i j hj hi => by
      have hlt : i * n + j < n * n := by
        calc i * n + j < i * n + n := by omega
          _ = (i + 1) * n := by ring
          _ ≤ n * n := Nat.mul_le_mul_right n hi
      have d : (i * n + j) / n = i := by
        rw [mul_comm, Nat.mul_add_div (by omega), Nat.div_eq_of_lt (by omega), add_zero]
      have r : (i * n + j) % n = j := by
        rw [mul_comm, Nat.mul_add_mod, Nat.mod_eq_of_lt (by omega)]
      simp [held, entry, val0, hlt, d, r]⟩
    (band_symm n) (fun i j _ _ => band_fin i j) (1 / 4) (band_range hn) (band_form n) (band_gam hn) m 0 1 hb (by omega)
    (fun i hi => (hf i hi).1) (2 ^ 14) (band_solve hn _ fun i hi => (hf i hi).2)
  exact ⟨L, x, e, e2, h.fin⟩

/-- `1 + 3 * 2^-28`. -/
private noncomputable def xr : Fp binary64 := .fin false (((2 ^ 28 + 3 : ℤ) : ℝ) * 2 ^ (-28 : ℤ))
  ⟨by positivity, binary64.rnd_fix _ _ (by decide) (by decide), by
    refine lt_trans ?_ top64
    norm_num⟩
/-- `1 + 3 * 2^-27 + 2^-52`. -/
private noncomputable def yr : Fp binary64 := .fin false (((2 ^ 52 + 3 * 2 ^ 25 + 1 : ℤ) : ℝ) * 2 ^ (-52 : ℤ))
  ⟨by positivity, binary64.rnd_fix _ _ (by decide) (by decide), by
    refine lt_trans ?_ top64
    norm_num⟩

private theorem rnd_xr : binary64.rnd (xr.val * xr.val) = yr.val := by
  have e : xr.val * xr.val = (2 ^ 52 + 3 * 2 ^ 25 + 9 / 16) * 2 ^ (-52 : ℤ) := by
    simp only [xr, Fp.val]; norm_num
  have hlog : Int.log 2 |xr.val * xr.val| = 0 := by
    rw [abs_mul_self, e]
    refine le_antisymm ?_ ?_
    · refine Int.lt_add_one_iff.mp ((Int.lt_zpow_iff_log_lt (b := 2) (by norm_num) (by norm_num)).mp ?_)
      norm_num
    · refine (Int.zpow_le_iff_le_log (b := 2) (by norm_num) (by norm_num)).mp ?_
      norm_num
  have hu : binary64.uexp (xr.val * xr.val) = -52 := by unfold Fmt.uexp; rw [hlog]; rfl
  have hfl : ⌊((2 : ℝ) ^ 52 + 3 * 2 ^ 25 + 9 / 16)⌋ = 2 ^ 52 + 3 * 2 ^ 25 := by
    rw [Int.floor_eq_iff]; norm_num
  unfold Fmt.rnd
  rw [hu, e, mul_div_assoc, div_self (by positivity), mul_one]
  have hn : nearestEven ((2 : ℝ) ^ 52 + 3 * 2 ^ 25 + 9 / 16) = 2 ^ 52 + 3 * 2 ^ 25 + 1 := by
    have hf : Int.fract ((2 : ℝ) ^ 52 + 3 * 2 ^ 25 + 9 / 16) = 9 / 16 := by
      unfold Int.fract; rw [hfl]; norm_num
    unfold nearestEven
    rw [hf, hfl]
    norm_num
  rw [hn]
  simp only [yr, Fp.val]
  norm_num

private noncomputable def refused (i j : ℕ) : Fp binary64 := if i = 0 then if j = 0 then 1 else xr else if j = 0 then xr else yr

/-- Positive definite is not enough: this matrix of `double`s is, and the constructor throws, because the second pivot, in truth
`7 / 16` of the distance of neighbouring numbers, is rounded to zero. -/
theorem C85_refused : PosDef 2 (Fp.mat refused) ∧ Symm 2 refused ∧
    Lower .square 2 [1, xr, xr, yr] refused ∧ Chol.new .square 2 [1, xr, xr, yr] = .error (.throw .runtimeError) := by
  have hx : xr.val = 1 + 3 / 2 ^ 28 := by simp only [xr, Fp.val]; norm_num
  have hy : yr.val = 1 + 3 / 2 ^ 27 + 1 / 2 ^ 52 := by simp only [yr, Fp.val]; norm_num
  have hl : Lower .square 2 [1, xr, xr, yr] refused := by
    refine ⟨rfl, fun i j hj hi => ?_⟩
    rcases (by omega : i = 0 ∧ j = 0 ∨ i = 1 ∧ j = 0 ∨ i = 1 ∧ j = 1) with ⟨rfl, rfl⟩ | ⟨rfl, rfl⟩ | ⟨rfl, rfl⟩ <;> rfl
  refine ⟨fun v hv => ?_, fun i j hi hj => ?_, hl, ?_⟩
  · have e : ∑ i ∈ range 2, ∑ j ∈ range 2, v i * Fp.mat refused i j * v j =
        (v 0 + xr.val * v 1) ^ 2 + (yr.val - xr.val ^ 2) * v 1 ^ 2 := by
      simp [sum_range_succ, Fp.mat, refused]
      ring
    rw [e]
    have p : 0 < yr.val - xr.val ^ 2 := by rw [hx, hy]; norm_num
    by_cases h1 : v 1 = 0
    · have h0 : v 0 ≠ 0 := by
        obtain ⟨i, hi, hne⟩ := hv
        rcases (by omega : i = 0 ∨ i = 1) with rfl | rfl
        · exact hne
        · exact absurd h1 hne
      rw [h1]
      have : 0 < v 0 ^ 2 := by positivity
      simpa using this
    · have := mul_pos p (show 0 < v 1 ^ 2 by positivity)
      have := sq_nonneg (v 0 + xr.val * v 1)
      linarith
  · rcases (by omega : i = 0 ∨ i = 1) with rfl | rfl <;> rcases (by omega : j = 0 ∨ j = 1) with rfl | rfl <;> rfl
  · have one : binary64.rnd 1 = 1 := binary64.isMag_one.2.1
    have t := top64
    rcases C68_cholesky .square 2 _ refused hl with h | ⟨L, _, _, ⟨hr, hz⟩ | ⟨_, h, _⟩⟩
    · exact h
    · exfalso
      set G := held .square 2 L
      have g00 : G 0 0 = Sqrt.sqrt (1 : Fp binary64) := (hr 0 (by omega)).2
      have f00 : (G 0 0).IsFin ∧ (G 0 0).val = 1 := by
        rw [g00]
        have f := (Fp.isFin_sqrt (1 : Fp binary64)).mpr ⟨by simp, by simp⟩
        exact ⟨f, by rw [Fp.val_sqrt f]; simp [one]⟩
      have g10 : G 1 0 = xr / G 0 0 := (hr 1 (by omega)).1 0 (by omega)
      have rx : binary64.rnd xr.val = xr.val := Fp.rnd_val xr
      obtain ⟨a1, a2⟩ := Fp.div_ok (F := binary64) (a := xr) (b := G 0 0) trivial f00.1 (by rw [f00.2]; norm_num)
        (by rw [f00.2, div_one, rx, hx]; norm_num at t ⊢; linarith)
      rw [f00.2, div_one, rx, ← g10] at a2
      rw [← g10] at a1
      obtain ⟨b1, b2⟩ := Fp.mul_ok a1 a1 (by rw [a2, rnd_xr, hy]; norm_num at t ⊢; linarith)
      rw [a2, rnd_xr] at b2
      obtain ⟨c1, c2⟩ := Fp.sub_ok (a := yr) (b := G 1 0 * G 1 0) trivial b1 (by
        rw [b2, sub_self, binary64.rnd_zero, abs_zero]; exact binary64.top_pos)
      have g11 : G 1 1 = Sqrt.sqrt (yr - G 1 0 * G 1 0) := (hr 1 (by omega)).2
      refine hz 1 (by omega) ?_
      rw [g11]
      exact Fp.isZ_sqrt ((Fp.isZ_iff _).mpr ⟨c1, by rw [c2, b2, sub_self, binary64.rnd_zero]⟩)
    · exfalso
      rcases h with h | h
      · have := ((Fp.isZ_iff _).mp h).2
        simp [refused] at this
      · have := (Fp.fin_lt (F := binary64) (a := 1) (b := 0) (by simp) Fp.isFin_zero).mp h
        simp at this
        linarith

/-- A matrix for which `C85_solve_vec` applies, and whose entries off the diagonal are not positive. -/
theorem band_instance (n : ℕ) (hn : n < 2 ^ 20) : ∃ A : Nat → Nat → Fp binary64, Symm n A ∧ (∀ i j, (A i j).IsFin) ∧
    FactorRange binary64 n (Fp.mat A) ∧ FormAbove n (Fp.mat A) (1 / 4) ∧
    6 * ((n + 1) * gam binary64.u (6 * (n + 1))) < 1 / 4 ∧ (∀ i j, i ≠ j → (A i j).val ≤ 0) ∧
    ∀ b : ℕ → ℝ, (∀ i, i < n → |b i| ≤ 1) → SolveRange binary64 n (Fp.mat A) (1 / 4) b (2 ^ 14) :=
  ⟨band, band_symm n, band_fin, band_range hn, band_form n, band_gam hn, fun i j h => by
    show Fp.mat band i j ≤ 0
    rw [band_val, if_neg h]; split_ifs <;> norm_num, band_solve hn⟩

end Lalib.Props
