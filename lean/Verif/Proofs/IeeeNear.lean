import Verif.Proofs.IeeeBack
import Verif.Proofs.FloatChol

/-! # Backward errors of the direct solvers over IEEE 754 numbers -/

namespace Lalib

open Finset

theorem NearSolves2.mono {n : ℕ} {A E E' : ℕ → ℕ → ℝ} {e e' x b : ℕ → ℝ} (h : NearSolves2 n A E e x b)
    (hE : ∀ i j, i < n → j < n → E i j ≤ E' i j) (he : ∀ i, i < n → e i ≤ e' i) : NearSolves2 n A E' e' x b := by
  obtain ⟨dA, db, h1, h2, h3⟩ := h
  exact ⟨dA, db, fun i j hi hj => (h1 i j hi hj).trans (hE i j hi hj), fun i hi => (h2 i hi).trans (he i hi), h3⟩

namespace Fp
variable {F : Fmt} {n : Nat}

private theorem sum_S {g η : ℝ} {p S : ℕ → ℝ} :
    ∑ k ∈ range n, (g * |p k| + 0) * (g * η * S k) = g * η * (g * ∑ k ∈ range n, |p k| * S k) := by
  rw [mul_sum, mul_sum]
  exact sum_congr rfl fun k _ => by ring

/-- Cholesky factor and two sweeps. -/
theorem chol_near {A L : Nat → Nat → Fp F} {b x : Nat → Fp F} (hs : Symm n A) (hr : CholRec n A L)
    (hf : ∀ i j, j ≤ i → i < n → (L i j).IsFin) (hz : ∀ i, i < n → ¬ IsZ (L i i)) (h : CholSolveRec false n L b x)
    (hx : ∀ i, i < n → (x i).IsFin) :
    NearSolves2 n (mat A)
      (fun i j => gam F.u (3 * n + 1) * ∑ k ∈ range n, |low (mat L) i k * low (mat L) j k| +
        (1 + gam F.u (n + 1)) * F.eta * (n + |mat L (min i j) (min i j)|))
      (fun i => (1 + gam F.u n) * F.eta *
        (n + |mat L i i| + (1 + gam F.u n) * ∑ k ∈ range n, |low (mat L) i k| * (n + |mat L k k|)))
      (fun i => (x i).val) (fun i => (b i).val) := by
  have h0 := F.u_nonneg
  have h1 := F.u_lt_one
  obtain ⟨y, hfw, hb⟩ := h
  have hy : ∀ i, i < n → (y i).IsFin := fun i hi => (hb.fin hi (hx i hi) (le_refl i) hi).2.1
  have hd : ∀ i, i < n → (L i i).IsFin := fun i hi => hf i i (le_refl _) hi
  obtain ⟨_, ρ, t, hρ, ht, eA⟩ := chol_eta hr hf hz
  obtain ⟨σ, r, hσ, hr', ef⟩ := fwd_eta hfw hy hd
  obtain ⟨τ, s, hτ, hs', eb⟩ := back_eta hb hx hd
  have := two_sweeps_eta h0 h1 (n := n) (A := mat A) (P := low (mat L)) (Q := fun k j => low (mat L) j k)
    (b := fun i => (b i).val) (y := fun i => (y i).val) (x := fun i => (x i).val) (w := fun _ _ => 0)
    (ρ := fun i j k => if j ≤ i then ρ i j k else ρ j i k) (t := fun i j => if j ≤ i then t i j else t j i)
    (σ := σ) (τ := τ) (r := r) (s := s) (W := 0)
    (T := fun i j => (1 + gam F.u (n + 1)) * F.eta * (n + |mat L (min i j) (min i j)|)) (K1 := n) (K2 := n) (K3 := n + 1)
    (fun i j k => by split_ifs <;> exact hρ _ _ _) hσ hτ (fun i k _ _ => by simp)
    (fun i j hi hj => by
      have hp : 0 ≤ (1 + gam F.u (n + 1)) * F.eta :=
        mul_nonneg (by have := gam_nonneg h0 h1 (n + 1); linarith) F.eta_pos.le
      have aux : ∀ i j, j ≤ i → i < n → |t i j| ≤ (1 + gam F.u (n + 1)) * F.eta * (n + |mat L j j|) := by
        intro i j hj hi
        refine (ht i j hj hi).trans (mul_le_mul_of_nonneg_left ?_ hp)
        split_ifs
        · have := abs_nonneg (mat L j j); linarith
        · exact le_rfl
      split_ifs with hij
      · rw [min_eq_right hij]; exact aux i j hij hi
      · rw [min_eq_left (by omega)]; exact aux j i (by omega) hj)
    hr' hs'
    (fun i j hi hj => by
      by_cases hij : j ≤ i
      · simp only [if_pos hij]
        exact eA i j hij hi
      · simp only [if_neg hij]
        rw [show mat A i j = mat A j i by unfold mat; rw [hs i j hi hj]]
        refine (eA j i (by omega) hj).trans (congrArg₂ _ (sum_congr rfl fun k _ => ?_) rfl)
        ring)
    (fun i hi => by simp only [add_zero]; exact ef i hi)
    eb
  rw [show n + n + (n + 1) = 3 * n + 1 by omega] at this
  refine this.mono (fun i j _ _ => ?_) fun i _ => le_of_eq ?_
  · simp
  · rw [sum_S]
    unfold mat
    ring

/-- The products of the factor are bounded by the diagonal of the matrix. -/
theorem chol_prod_le {A L : Nat → Nat → Fp F} (hr : CholRec n A L)
    (hf : ∀ i j, j ≤ i → i < n → (L i j).IsFin) (hz : ∀ i, i < n → ¬ IsZ (L i i)) :
    ∀ i j, i < n → j < n → ∑ k ∈ range n, |low (mat L) i k * low (mat L) j k| ≤ (1 + gam F.u (n + 1)) *
      (Real.sqrt (mat A i i + (1 + gam F.u (n + 1)) * F.eta * n) *
        Real.sqrt (mat A j j + (1 + gam F.u (n + 1)) * F.eta * n)) := by
  have h0 := F.u_nonneg
  have h1 := F.u_lt_one
  obtain ⟨_, ρ, t, hρ, ht, e⟩ := chol_eta hr hf hz
  set g := 1 + gam F.u (n + 1) with hg
  have g1 : 1 ≤ g := by have := gam_nonneg h0 h1 (n + 1); linarith
  have row : ∀ i, i < n → ∑ k ∈ range n, low (mat L) i k * low (mat L) i k ≤ g * (mat A i i + g * F.eta * n) := by
    intro i hi
    have e1 : mat A i i = _ := e i i (le_refl _) hi
    have e2 := ht i i (le_refl _) hi
    rw [if_pos rfl, add_zero] at e2
    have e3 : ∑ k ∈ range n, low (mat L) i k * low (mat L) i k * ρ i i k ≤ mat A i i + g * F.eta * n := by
      rw [e1]; have := (abs_le.mp e2).1; linarith
    refine le_trans ?_ (mul_le_mul_of_nonneg_left e3 (by linarith))
    rw [mul_sum]
    refine sum_le_sum fun k _ => ?_
    have p := pow_pos1 h0 h1 (n + 1)
    have eg : g = 1 / (1 - F.u) ^ (n + 1) := by rw [hg, gam]; ring
    have b : 1 ≤ ρ i i k * g := by
      rw [eg, mul_one_div, le_div_iff₀ p, one_mul]; exact (hρ i i k).1
    have sq := mul_self_nonneg (low (mat L) i k)
    nlinarith
  have pos : ∀ i, i < n → 0 ≤ mat A i i + g * F.eta * n := by
    intro i hi
    have h2 := row i hi
    have h3 : 0 ≤ ∑ k ∈ range n, low (mat L) i k * low (mat L) i k := sum_nonneg fun k _ => mul_self_nonneg _
    by_contra hn
    push Not at hn
    nlinarith
  intro i j hi hj
  have s := Real.mul_self_sqrt (show 0 ≤ g by linarith)
  have key : ∀ i, i < n → ∑ k ∈ range n, low (mat L) i k * low (mat L) i k ≤
      (Real.sqrt g * Real.sqrt (mat A i i + g * F.eta * n)) * (Real.sqrt g * Real.sqrt (mat A i i + g * F.eta * n)) := by
    intro i hi
    have t := Real.mul_self_sqrt (pos i hi)
    calc _ ≤ _ := row i hi
      _ = (Real.sqrt g * Real.sqrt g) * (Real.sqrt (mat A i i + g * F.eta * n) * Real.sqrt (mat A i i + g * F.eta * n)) := by
        rw [s, t]
      _ = _ := by ring
  refine (cs_abs (mul_nonneg (Real.sqrt_nonneg _) (Real.sqrt_nonneg _))
    (mul_nonneg (Real.sqrt_nonneg _) (Real.sqrt_nonneg _)) (key i hi) (key j hj)).trans (le_of_eq ?_)
  calc _ = (Real.sqrt g * Real.sqrt g) * (Real.sqrt (mat A i i + g * F.eta * n) *
        Real.sqrt (mat A j j + g * F.eta * n)) := by ring
    _ = _ := by rw [s]

/-- The modified factor and two sweeps. -/
theorem mod_near {A L : Nat → Nat → Fp F} {b x : Nat → Fp F} (hs : Symm n A) (hr : ModRec n A L)
    (hf : ∀ i j, j ≤ i → i < n → (L i j).IsFin) (hz : ∀ i, i < n → ¬ IsZ (L i i)) (h : CholSolveRec true n L b x)
    (hx : ∀ i, i < n → (x i).IsFin) :
    NearSolves2 n (mat A)
      (fun i j => gam F.u (3 * n + 2) * ∑ k ∈ range n, |low (mat L) i k * low (mat L) j k / mat L k k| +
        (1 + gam F.u (2 * n + 1)) * F.eta * ∑ k ∈ range n, (1 + 1 / |mat L k k| + |low (mat L) j k|))
      (fun i => (1 + gam F.u n) * F.eta * (n + ∑ k ∈ range n,
        ((1 + gam F.u (n + 1)) * |low (mat L) i k / mat L k k| + (1 + gam F.u n) * F.eta) * (n + |mat L k k|)))
      (fun i => (x i).val) (fun i => (b i).val) := by
  have h0 := F.u_nonneg
  have h1 := F.u_lt_one
  obtain ⟨y, hfw, hb⟩ := h
  have hy : ∀ i, i < n → (y i).IsFin := fun i hi => (hb.fin hi (hx i hi) (le_refl i) hi).2.1
  have hd : ∀ i, i < n → (L i i).IsFin := fun i hi => hf i i (le_refl _) hi
  obtain ⟨ρ, t, hρ, ht, eA⟩ := mod_eta hr hf hz
  have hfw' : FwdUnitRec n (fun i j => L i j / L j j) b y := hfw
  obtain ⟨σ, w, r, hσ, hw, hr', ef⟩ := unit_eta (c := fun i j => (L i j).val / (L j j).val) (K := 1) (ω := F.eta) hfw' hy
    F.eta_pos.le (fun i j hji hi => by
      have hq : (L i j / L j j).IsFin := (hfw'.fin hi (hy i hi) (le_refl i)).2.2 j hji
      obtain ⟨φ, ε, a, b, _, c⟩ := div_fac hq (hd j (by omega))
      exact ⟨φ, ε, a, b, c⟩)
  obtain ⟨τ, s, hτ, hs', eb⟩ := back_eta hb hx hd
  have hP : ∀ i k, k < n → unitLow (fun i j => (L i j).val / (L j j).val) i k = low (mat L) i k / mat L k k := by
    intro i k hk
    have := val_ne (hd k hk) (hz k hk)
    unfold unitLow low mat
    split_ifs with q1 q2 q3 q4
    · rfl
    · omega
    · subst q3; field_simp
    · omega
    · omega
    · simp
  have := two_sweeps_eta h0 h1 (n := n) (A := mat A)
    (P := fun i k => low (mat L) i k / mat L k k) (Q := fun k j => low (mat L) j k)
    (b := fun i => (b i).val) (y := fun i => (y i).val) (x := fun i => (x i).val) (w := w)
    (ρ := fun i j k => if j ≤ i then ρ i j k else ρ j i k) (t := fun i j => if j ≤ i then t i j else t j i)
    (σ := σ) (τ := τ) (r := r) (s := s) (W := (1 + gam F.u n) * F.eta)
    (T := fun i j => (1 + gam F.u (n + 1)) * F.eta * ∑ k ∈ range n, (1 + 1 / |mat L k k|))
    (K1 := n + 1) (K2 := n) (K3 := n + 1)
    (fun i j k => by split_ifs <;> exact hρ _ _ _) hσ hτ hw
    (fun i j hi hj => by
      split_ifs with hij
      · exact ht i j hij hi
      · exact ht j i (by omega) hj)
    hr' hs'
    (fun i j hi hj => by
      by_cases hij : j ≤ i
      · simp only [if_pos hij]
        refine (eA i j hij hi).trans (congrArg₂ _ (sum_congr rfl fun k _ => ?_) rfl)
        unfold mat
        ring
      · simp only [if_neg hij]
        rw [show mat A i j = mat A j i by unfold mat; rw [hs i j hi hj]]
        refine (eA j i (by omega) hj).trans (congrArg₂ _ (sum_congr rfl fun k _ => ?_) rfl)
        unfold mat
        ring)
    (fun i hi => by
      refine (ef i hi).trans (congrArg₂ _ (sum_congr rfl fun k hk => ?_) rfl)
      rw [hP i k (mem_range.mp hk)])
    eb
  rw [show n + 1 + n + (n + 1) = 3 * n + 2 by omega] at this
  refine this.mono (fun i j _ _ => ?_) fun i _ => le_of_eq ?_
  · have e : ∑ k ∈ range n, |low (mat L) i k / mat L k k * low (mat L) j k| =
        ∑ k ∈ range n, |low (mat L) i k * low (mat L) j k / mat L k k| :=
      sum_congr rfl fun k _ => by rw [div_mul_eq_mul_div]
    rw [e, add_assoc]
    refine add_le_add le_rfl ?_
    have gn := gam_nonneg h0 h1 n
    have e2 : ∑ k ∈ range n, (1 + 1 / |mat L k k| + |low (mat L) j k|) =
        ∑ k ∈ range n, (1 + 1 / |mat L k k|) + ∑ k ∈ range n, |low (mat L) j k| := sum_add_distrib
    have e3 : 0 ≤ ∑ k ∈ range n, (1 + 1 / |mat L k k|) := sum_nonneg fun k _ => by positivity
    rw [e2, mul_add ((1 + gam F.u (2 * n + 1)) * F.eta)]
    refine add_le_add (mul_le_mul_of_nonneg_right (mul_le_mul_of_nonneg_right ?_ F.eta_pos.le) e3) (mul_le_mul_of_nonneg_right ?_ (sum_nonneg fun k _ => abs_nonneg _))
    · have := gam_mono h0 h1 (show n + 1 ≤ 2 * n + 1 by omega); linarith
    · have g2 := gam_add h0 h1 n n
      have := gam_mono h0 h1 (show n + n ≤ 2 * n + 1 by omega)
      calc _ = (1 + gam F.u n) * (1 + gam F.u n) * F.eta := by ring
        _ ≤ _ := mul_le_mul_of_nonneg_right (by linarith) F.eta_pos.le
  · rw [mul_add, mul_sum]
    refine congrArg₂ _ rfl (sum_congr rfl fun k _ => ?_)
    unfold mat
    ring

/-- Solving with the ILU factors, against their product. -/
theorem ilu_near {G : Nat → Nat → Fp F} {b x : Nat → Fp F} (h : IluSolveRec n G b x)
    (hx : ∀ i, i < n → (x i).IsFin) (hd : ∀ i, i < n → (G i i).IsFin) :
    NearSolves2 n (luProd n (mat G))
      (fun i j => gam F.u (2 * n) * ∑ k ∈ range n, |unitLow (mat G) i k * upper (mat G) k j|)
      (fun i => (1 + gam F.u n) * F.eta *
        (n + (1 + gam F.u n) * ∑ k ∈ range n, |unitLow (mat G) i k| * (n + |mat G k k|)))
      (fun i => (x i).val) (fun i => (b i).val) := by
  have h0 := F.u_nonneg
  have h1 := F.u_lt_one
  obtain ⟨y, hfw, hb⟩ := h
  have hy : ∀ i, i < n → (y i).IsFin := fun i hi => (hb.fin hi (hx i hi) (le_refl i) hi).2.1
  obtain ⟨σ, w, r, hσ, hw, hr', ef⟩ := unit_eta (c := mat G) (K := 0) (ω := 0) hfw hy le_rfl fun i j _ _ =>
    ⟨1, 0, Fac.one h0 h1 0, by simp, by unfold mat; ring⟩
  obtain ⟨τ, s, hτ, hs', eb⟩ := back_eta hb hx hd
  have := two_sweeps_eta h0 h1 (n := n) (A := luProd n (mat G)) (P := unitLow (mat G)) (Q := upper (mat G))
    (b := fun i => (b i).val) (y := fun i => (y i).val) (x := fun i => (x i).val) (w := w) (t := fun _ _ => 0)
    (ρ := fun _ _ _ => 1) (σ := σ) (τ := τ) (r := r) (s := s) (W := 0) (T := fun _ _ => 0)
    (K1 := n) (K2 := n) (K3 := 0)
    (fun i j k => Fac.one h0 h1 0) hσ hτ (fun i j hi hj => by simpa using hw i j hi hj) (fun _ _ _ _ => by simp) hr' hs'
    (fun i j _ _ => by simp only [mul_one, add_zero]; rfl) ef eb
  rw [show n + n + 0 = 2 * n by omega] at this
  refine this.mono (fun i j _ _ => ?_) fun i _ => le_of_eq ?_
  · simp
  · rw [sum_S]
    unfold mat
    ring

end Fp
end Lalib
