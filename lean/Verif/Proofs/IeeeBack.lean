import Verif.Spec.IeeeBack
import Verif.Proofs.IeeeSolve
import Verif.Proofs.FloatSolve

/-! # Backward errors of the sweeps and factorisations over IEEE 754 numbers

As in `Verif/Proofs/FloatSolve.lean`, with the absolute errors of products and quotients that underflow. -/

namespace Lalib

open Finset

section fac
variable {u : ℝ} (h0 : 0 ≤ u) (h1 : u < 1)
include h0 h1

theorem Fac.abs_le {k : ℕ} {ρ : ℝ} (h : Fac u k ρ) : |ρ| ≤ 1 + gam u k := by
  rw [abs_of_pos (h.pos h0 h1)]
  have := (_root_.abs_le.mp (h.sub_one h0 h1)).2
  linarith

/-- Two sweeps with the factors `P` and `Q` of `A`. -/
theorem two_sweeps_eta {n K1 K2 K3 : ℕ} {A P Q w t : ℕ → ℕ → ℝ} {b y x r s : ℕ → ℝ}
    {ρ : ℕ → ℕ → ℕ → ℝ} {σ τ : ℕ → ℕ → ℝ} {W : ℝ} {T : ℕ → ℕ → ℝ} {X S : ℕ → ℝ}
    (hρ : ∀ i j k, Fac u K3 (ρ i j k)) (hσ : ∀ i k, Fac u K1 (σ i k)) (hτ : ∀ k j, Fac u K2 (τ k j))
    (hw : ∀ i k, i < n → k < n → |w i k| ≤ W) (ht : ∀ i j, i < n → j < n → |t i j| ≤ T i j)
    (hr : ∀ i, i < n → |r i| ≤ X i) (hs : ∀ i, i < n → |s i| ≤ S i)
    (hA : ∀ i j, i < n → j < n → A i j = ∑ k ∈ range n, P i k * Q k j * ρ i j k + t i j)
    (hb : ∀ i, i < n → b i = ∑ k ∈ range n, (P i k * σ i k + w i k) * y k + r i)
    (hy : ∀ k, k < n → y k = ∑ j ∈ range n, Q k j * τ k j * x j + s k) :
    NearSolves2 n A
      (fun i j => gam u (K1 + K2 + K3) * ∑ k ∈ range n, |P i k * Q k j| + T i j + W * (1 + gam u K2) * ∑ k ∈ range n, |Q k j|)
      (fun i => X i + ∑ k ∈ range n, ((1 + gam u K1) * |P i k| + W) * S k) x b := by
  have g2 := gam_nonneg h0 h1 K2
  refine ⟨fun i j => ∑ k ∈ range n, P i k * Q k j * (σ i k * τ k j) + ∑ k ∈ range n, w i k * (Q k j * τ k j) - A i j,
    fun i => -(r i + ∑ k ∈ range n, (P i k * σ i k + w i k) * s k), fun i j hi hj => ?_, fun i hi => ?_, fun i hi => ?_⟩
  · beta_reduce
    rw [hA i j hi hj]
    have a1 := prod_fac_le h0 h1 (n := n) (a := fun k => P i k * Q k j) (fun k => (hσ i k).mul h0 h1 (hτ k j)) (hρ i j)
    have a2 := ht i j hi hj
    have a3 : |∑ k ∈ range n, w i k * (Q k j * τ k j)| ≤ W * (1 + gam u K2) * ∑ k ∈ range n, |Q k j| := by
      rw [mul_sum]
      refine (abs_sum_le_sum_abs _ _).trans (sum_le_sum fun k hk => ?_)
      have b1 := hw i k hi (mem_range.mp hk)
      have b2 := (hτ k j).abs_le h0 h1
      rw [abs_mul, abs_mul]
      calc |w i k| * (|Q k j| * |τ k j|) ≤ W * (|Q k j| * (1 + gam u K2)) := by
            refine mul_le_mul b1 (mul_le_mul_of_nonneg_left b2 (abs_nonneg _)) (by positivity) ((abs_nonneg _).trans b1)
        _ = _ := by ring
    generalize ∑ k ∈ range n, w i k * (Q k j * τ k j) = c at *
    generalize ∑ k ∈ range n, P i k * Q k j * (σ i k * τ k j) = c1 at *
    generalize ∑ k ∈ range n, P i k * Q k j * ρ i j k = c2 at *
    rw [abs_le] at *
    constructor <;> linarith
  · beta_reduce
    rw [abs_neg]
    refine (abs_add_le _ _).trans (add_le_add (hr i hi) ?_)
    refine (abs_sum_le_sum_abs _ _).trans (sum_le_sum fun k hk => ?_)
    rw [abs_mul]
    have hk := mem_range.mp hk
    refine mul_le_mul ?_ (hs k hk) (abs_nonneg _) (add_nonneg (mul_nonneg (by have := gam_nonneg h0 h1 K1; linarith)
      (abs_nonneg _)) ((abs_nonneg _).trans (hw i k hi hk)))
    refine (abs_add_le _ _).trans (add_le_add ?_ (hw i k hi hk))
    rw [abs_mul, mul_comm]
    exact mul_le_mul_of_nonneg_right ((hσ i k).abs_le h0 h1) (abs_nonneg _)
  · unfold mulVec
    beta_reduce
    rw [hb i hi]
    have e1 : ∀ k ∈ range n, (P i k * σ i k + w i k) * y k =
        ∑ j ∈ range n, (P i k * Q k j * (σ i k * τ k j) + w i k * (Q k j * τ k j)) * x j +
          (P i k * σ i k + w i k) * s k := by
      intro k hk
      rw [hy k (mem_range.mp hk), mul_add, mul_sum]
      exact congrArg₂ _ (sum_congr rfl fun j _ => by ring) rfl
    rw [sum_congr rfl e1, sum_add_distrib, sum_comm]
    have e2 : ∀ j ∈ range n, (A i j + (∑ k ∈ range n, P i k * Q k j * (σ i k * τ k j) +
        ∑ k ∈ range n, w i k * (Q k j * τ k j) - A i j)) * x j =
        ∑ k ∈ range n, (P i k * Q k j * (σ i k * τ k j) + w i k * (Q k j * τ k j)) * x j := by
      intro j _
      rw [add_sub_cancel, ← sum_add_distrib, sum_mul]
    rw [sum_congr rfl e2]
    ring

end fac

namespace Fp
variable {F : Fmt} {n : Nat}

/-- The rounded difference, solved for the number started with. -/
theorem subUp_fac {g : Nat → Fp F} {t : Fp F} {lo n : Nat} (h : (subUp g lo (lo + n) t).IsFin) :
    ∃ (σ : ℝ) (ρ : ℕ → ℝ), Fac F.u n σ ∧ (∀ k, Fac F.u k (ρ k)) ∧
      t.val = (subUp g lo (lo + n) t).val * σ + ∑ k ∈ range n, (g (lo + k)).val * ρ k := by
  have h0 := F.u_nonneg
  have h1 := F.u_lt_one
  induction n with
  | zero => exact ⟨1, fun _ => 1, Fac.one h0 h1 0, fun k => Fac.one h0 h1 k, by simp [subUp]⟩
  | succ n ih =>
    rw [subUp_succ] at h
    obtain ⟨σ, ρ, hσ, hρ, e⟩ := ih (fin_of_sub _ _ h).1
    obtain ⟨δ, hδ, e'⟩ := sub_fac h
    have hδ0 := hδ.pos h0 h1
    refine ⟨σ / δ, fun k => if k < n then ρ k else σ, hσ.div h0 h1 hδ, fun k => ?_, ?_⟩
    · dsimp only
      split_ifs
      · exact hρ k
      · exact hσ.mono h0 h1 (by omega)
    · rw [subUp_succ, e', e, sum_range_succ]
      simp only [lt_irrefl, if_false]
      have : ∑ k ∈ range n, (g (lo + k)).val * (if k < n then ρ k else σ) =
          ∑ k ∈ range n, (g (lo + k)).val * ρ k :=
        sum_congr rfl fun k hk => by rw [if_pos (mem_range.mp hk)]
      rw [this]
      field_simp
      ring

/-- Terms that are known with a factor and an absolute error. -/
theorem sub_terms {g : Nat → Fp F} {t : Fp F} {lo n K : Nat} (h : (subUp g lo (lo + n) t).IsFin) {c E : ℕ → ℝ}
    (hc : ∀ k, k < n → ∃ φ ε, Fac F.u K φ ∧ |ε| ≤ E k ∧ (g (lo + k)).val = c k * φ + ε) :
    ∃ (σ : ℝ) (ρ : ℕ → ℝ) (r : ℝ), Fac F.u n σ ∧ (∀ k, Fac F.u (k + K) (ρ k)) ∧
      |r| ≤ (1 + gam F.u n) * ∑ k ∈ range n, E k ∧
      t.val = (subUp g lo (lo + n) t).val * σ + ∑ k ∈ range n, c k * ρ k + r := by
  have h0 := F.u_nonneg
  have h1 := F.u_lt_one
  obtain ⟨σ, ρ, hσ, hρ, e⟩ := subUp_fac h
  have : ∀ k, ∃ φ ε, Fac F.u K φ ∧ (k < n → |ε| ≤ E k ∧ (g (lo + k)).val = c k * φ + ε) := by
    intro k
    by_cases hk : k < n
    · obtain ⟨φ, ε, a, b, c⟩ := hc k hk
      exact ⟨φ, ε, a, fun _ => ⟨b, c⟩⟩
    · exact ⟨1, 0, Fac.one h0 h1 K, fun h => absurd h hk⟩
  choose φ ε hφ hε using this
  refine ⟨σ, fun k => φ k * ρ k, ∑ k ∈ range n, ε k * ρ k, hσ, fun k => ?_, ?_, ?_⟩
  · rw [add_comm]; exact (hφ k).mul h0 h1 (hρ k)
  · rw [mul_sum]
    refine (abs_sum_le_sum_abs _ _).trans (sum_le_sum fun k hk => ?_)
    have hk := mem_range.mp hk
    rw [abs_mul, mul_comm]
    exact mul_le_mul (((hρ k).mono h0 h1 (show k ≤ n by omega)).abs_le h0 h1) (hε k hk).1 (abs_nonneg _)
      (by have := gam_nonneg h0 h1 n; linarith)
  · rw [e, add_assoc, ← sum_add_distrib]
    refine congrArg₂ _ rfl (sum_congr rfl fun k hk => ?_)
    rw [(hε k (mem_range.mp hk)).2]; ring

/-- Products as terms. -/
theorem sub_prods {p q : Nat → Fp F} {t : Fp F} {lo n : Nat} (h : (subUp (fun k => p k * q k) lo (lo + n) t).IsFin) :
    ∃ (σ : ℝ) (ρ : ℕ → ℝ) (r : ℝ), Fac F.u n σ ∧ (∀ k, Fac F.u (k + 1) (ρ k)) ∧
      |r| ≤ (1 + gam F.u n) * F.eta * n ∧
      t.val = (subUp (fun k => p k * q k) lo (lo + n) t).val * σ +
        ∑ k ∈ range n, (p (lo + k)).val * (q (lo + k)).val * ρ k + r := by
  obtain ⟨σ, ρ, r, a, b, c, d⟩ := sub_terms (c := fun k => (p (lo + k)).val * (q (lo + k)).val)
    (E := fun _ => F.eta) (K := 1) h fun k hk => by
      obtain ⟨φ, ε, a, b, _, d⟩ := mul_fac ((isFin_subUp h).2 (lo + k) (by omega) (by omega))
      exact ⟨φ, ε, a, b, d⟩
  refine ⟨σ, ρ, r, a, b, c.trans (le_of_eq ?_), d⟩
  rw [sum_const, card_range, nsmul_eq_mul]; ring

theorem val_ne {a : Fp F} (hf : a.IsFin) (hz : ¬ IsZ a) : a.val ≠ 0 := fun h => hz ((isZ_iff a).mpr ⟨hf, h⟩)

/-- A quotient of such a difference. -/
theorem cell {p q : Nat → Fp F} {t d x : Fp F} {lo n : Nat}
    (h : x = subUp (fun k => p k * q k) lo (lo + n) t / d) (hx : x.IsFin) (hd : d.IsFin) :
    ∃ (δ : ℝ) (ρ : ℕ → ℝ) (r : ℝ), Fac F.u (n + 1) δ ∧ (∀ k, Fac F.u (k + 1) (ρ k)) ∧
      |r| ≤ (1 + gam F.u (n + 1)) * F.eta * (n + |d.val|) ∧
      t.val = ∑ k ∈ range n, (p (lo + k)).val * (q (lo + k)).val * ρ k + x.val * d.val * δ + r := by
  have h0 := F.u_nonneg
  have h1 := F.u_lt_one
  rw [h] at hx
  obtain ⟨hS, _, hz⟩ := fin_of_div hx
  obtain ⟨σ, ρ, r, hσ, hρ, hr, e⟩ := sub_prods hS
  obtain ⟨φ, ε, hφ, hε, _, ed⟩ := div_fac hx hd
  rw [← h] at ed
  have hd0 := val_ne hd hz
  have hφ0 := hφ.pos h0 h1
  refine ⟨σ / φ, ρ, r - ε * d.val * (σ / φ), hσ.div h0 h1 hφ, hρ, ?_, ?_⟩
  · have b1 := (hσ.div h0 h1 hφ).abs_le h0 h1
    have b2 : |ε * d.val * (σ / φ)| ≤ F.eta * |d.val| * (1 + gam F.u (n + 1)) := by
      rw [abs_mul, abs_mul]
      exact mul_le_mul (mul_le_mul_of_nonneg_right hε (abs_nonneg _)) b1 (abs_nonneg _)
        (mul_nonneg F.eta_pos.le (abs_nonneg _))
    have b3 : (1 + gam F.u n) * F.eta * n ≤ (1 + gam F.u (n + 1)) * F.eta * n := by
      refine mul_le_mul_of_nonneg_right (mul_le_mul_of_nonneg_right ?_ F.eta_pos.le) (Nat.cast_nonneg _)
      have := gam_mono h0 h1 (show n ≤ n + 1 by omega)
      linarith
    have := abs_sub r (ε * d.val * (σ / φ))
    calc _ ≤ _ := this
      _ ≤ _ := add_le_add (hr.trans b3) b2
      _ = _ := by ring
  · rw [e, ed]
    field_simp
    ring

private theorem tail_sum (f : ℕ → ℝ) (i : ℕ) (hi : i < n) :
    ∑ j ∈ Ico i n, f j = f i + ∑ k ∈ range (n - (i + 1)), f (i + 1 + k) := by
  rw [sum_eq_sum_Ico_succ_bot hi, sum_Ico_eq_sum_range]

private theorem conv_low (L : ℕ → ℕ → ℝ) (f : ℕ → ℝ) {i : ℕ} (hi : i < n) :
    ∑ j ∈ range n, low L i j * f j = ∑ j ∈ range i, L i j * f j + L i i * f i := by
  rw [← sum_range_succ (fun j => L i j * f j)]
  symm
  refine sum_subset_zero_on_sdiff (range_subset_range.mpr hi) (fun j hj => ?_) fun j hj => ?_
  · rw [mem_sdiff, mem_range, mem_range] at hj
    rw [show low L i j = 0 from if_neg (by omega), zero_mul]
  · rw [show low L i j = L i j from if_pos (by have := mem_range.mp hj; omega)]

private theorem conv_up (L : ℕ → ℕ → ℝ) (f : ℕ → ℝ) {i : ℕ} (hi : i < n) :
    ∑ j ∈ range n, upper L i j * f j = L i i * f i + ∑ k ∈ range (n - (i + 1)), L i (i + 1 + k) * f (i + 1 + k) := by
  rw [← tail_sum (fun j => L i j * f j) i hi]
  symm
  refine sum_subset_zero_on_sdiff (fun j hj => mem_range.mpr (mem_Ico.mp hj).2) (fun j hj => ?_) fun j hj => ?_
  · rw [mem_sdiff, mem_range, mem_Ico] at hj
    rw [show upper L i j = 0 from if_neg (by omega), zero_mul]
  · rw [show upper L i j = L i j from if_pos (mem_Ico.mp hj).1]

private theorem eta_mono {k l : ℕ} {a b : ℝ} (hk : k ≤ l) (hab : a ≤ b) (ha : 0 ≤ a) :
    (1 + gam F.u k) * F.eta * a ≤ (1 + gam F.u l) * F.eta * b := by
  have h0 := F.u_nonneg
  have h1 := F.u_lt_one
  have := gam_mono h0 h1 hk
  have := gam_nonneg h0 h1 k
  refine mul_le_mul (mul_le_mul_of_nonneg_right (by linarith) F.eta_pos.le) hab ha
    (mul_nonneg (by linarith) F.eta_pos.le)

theorem back_eta {U : Nat → Nat → Fp F} {y x : Nat → Fp F} (h : BackSubRec n U y x)
    (hx : ∀ i, i < n → (x i).IsFin) (hd : ∀ i, i < n → (U i i).IsFin) :
    ∃ (τ : ℕ → ℕ → ℝ) (r : ℕ → ℝ), (∀ i j, Fac F.u n (τ i j)) ∧
      (∀ i, i < n → |r i| ≤ (1 + gam F.u n) * F.eta * (n + |(U i i).val|)) ∧
      ∀ i, i < n → (y i).val = ∑ j ∈ range n, upper (mat U) i j * τ i j * (x j).val + r i := by
  have h0 := F.u_nonneg
  have h1 := F.u_lt_one
  have key : ∀ i, ∃ (τ : ℕ → ℝ) (r : ℝ), (∀ j, Fac F.u n (τ j)) ∧ (i < n →
      |r| ≤ (1 + gam F.u n) * F.eta * (n + |(U i i).val|) ∧
      (y i).val = ∑ j ∈ range n, upper (mat U) i j * τ j * (x j).val + r) := by
    intro i
    by_cases hi : i < n
    · have e0 := h i hi
      rw [show n = i + 1 + (n - (i + 1)) by omega] at e0
      obtain ⟨δ, ρ, r, hδ, hρ, hr, e⟩ := cell e0 (hx i hi) (hd i hi)
      refine ⟨fun j => if j ≤ i then δ else if j < n then ρ (j - (i + 1)) else 1, r, fun j => ?_, fun _ => ⟨?_, ?_⟩⟩
      · beta_reduce
        split_ifs with q q'
        · exact hδ.mono h0 h1 (by omega)
        · exact (hρ _).mono h0 h1 (by omega)
        · exact Fac.one h0 h1 n
      · refine hr.trans (eta_mono (by omega) ?_ (by positivity))
        have : ((n - (i + 1) : ℕ) : ℝ) ≤ n := by exact_mod_cast Nat.sub_le _ _
        linarith
      · rw [e]
        refine congrArg₂ _ ?_ rfl
        have := conv_up (mat U) (fun j => (if j ≤ i then δ else if j < n then ρ (j - (i + 1)) else 1) * (x j).val) hi
        simp only [← mul_assoc] at this
        rw [this, add_comm, if_pos (le_refl i)]
        refine congrArg₂ _ (by unfold mat; ring) (sum_congr rfl fun k hk => ?_)
        have hk := mem_range.mp hk
        rw [if_neg (by omega), if_pos (by omega), Nat.add_sub_cancel_left]
        unfold mat; ring
    · exact ⟨fun _ => 1, 0, fun _ => Fac.one h0 h1 n, fun h => absurd h hi⟩
  choose τ r hτ e using key
  exact ⟨τ, r, hτ, fun i hi => (e i hi).1, fun i hi => (e i hi).2⟩

theorem fwd_eta {L : Nat → Nat → Fp F} {b y : Nat → Fp F} (h : FwdSubRec n L b y)
    (hy : ∀ i, i < n → (y i).IsFin) (hd : ∀ i, i < n → (L i i).IsFin) :
    ∃ (τ : ℕ → ℕ → ℝ) (r : ℕ → ℝ), (∀ i j, Fac F.u n (τ i j)) ∧
      (∀ i, i < n → |r i| ≤ (1 + gam F.u n) * F.eta * (n + |(L i i).val|)) ∧
      ∀ i, i < n → (b i).val = ∑ j ∈ range n, low (mat L) i j * τ i j * (y j).val + r i := by
  have h0 := F.u_nonneg
  have h1 := F.u_lt_one
  have key : ∀ i, ∃ (τ : ℕ → ℝ) (r : ℝ), (∀ j, Fac F.u n (τ j)) ∧ (i < n →
      |r| ≤ (1 + gam F.u n) * F.eta * (n + |(L i i).val|) ∧
      (b i).val = ∑ j ∈ range n, low (mat L) i j * τ j * (y j).val + r) := by
    intro i
    by_cases hi : i < n
    · have e0 := h i hi
      rw [show subUp (fun j => L i j * y j) 0 i (b i) = subUp (fun j => L i j * y j) 0 (0 + i) (b i) by rw [Nat.zero_add]] at e0
      obtain ⟨δ, ρ, r, hδ, hρ, hr, e⟩ := cell e0 (hy i hi) (hd i hi)
      simp only [Nat.zero_add] at e
      refine ⟨fun j => if j < i then ρ j else δ, r, fun j => ?_, fun _ => ⟨?_, ?_⟩⟩
      · beta_reduce
        split_ifs with q
        · exact (hρ _).mono h0 h1 (by omega)
        · exact hδ.mono h0 h1 (by omega)
      · refine hr.trans (eta_mono (by omega) ?_ (by positivity))
        have : (i : ℝ) ≤ n := by exact_mod_cast hi.le
        linarith
      · rw [e]
        refine congrArg₂ _ ?_ rfl
        have := conv_low (mat L) (fun j => (if j < i then ρ j else δ) * (y j).val) hi
        simp only [← mul_assoc] at this
        rw [this, if_neg (lt_irrefl i)]
        refine congrArg₂ _ (sum_congr rfl fun k hk => ?_) (by unfold mat; ring)
        rw [if_pos (mem_range.mp hk)]
        unfold mat; ring
    · exact ⟨fun _ => 1, 0, fun _ => Fac.one h0 h1 n, fun h => absurd h hi⟩
  choose τ r hτ e using key
  exact ⟨τ, r, hτ, fun i hi => (e i hi).1, fun i hi => (e i hi).2⟩

/-- Forward substitution with a unit triangle; `c i j` is the exact entry, of which `L i j` may be a rounded one. -/
theorem unit_eta {L : Nat → Nat → Fp F} {c : ℕ → ℕ → ℝ} {K : ℕ} {ω : ℝ} {b y : Nat → Fp F} (h : FwdUnitRec n L b y)
    (hy : ∀ i, i < n → (y i).IsFin) (hω : 0 ≤ ω)
    (hc : ∀ i j, j < i → i < n → ∃ ρ ε, Fac F.u K ρ ∧ |ε| ≤ ω ∧ (L i j).val = c i j * ρ + ε) :
    ∃ (τ w : ℕ → ℕ → ℝ) (r : ℕ → ℝ), (∀ i j, Fac F.u (n + K) (τ i j)) ∧
      (∀ i j, i < n → j < n → |w i j| ≤ (1 + gam F.u n) * ω) ∧
      (∀ i, i < n → |r i| ≤ (1 + gam F.u n) * F.eta * n) ∧
      ∀ i, i < n → (b i).val = ∑ j ∈ range n, (unitLow c i j * τ i j + w i j) * (y j).val + r i := by
  have h0 := F.u_nonneg
  have h1 := F.u_lt_one
  have key : ∀ i, ∃ (τ w : ℕ → ℝ) (r : ℝ), (∀ j, Fac F.u (n + K) (τ j)) ∧ (i < n →
      (∀ j, j < n → |w j| ≤ (1 + gam F.u n) * ω) ∧ |r| ≤ (1 + gam F.u n) * F.eta * n ∧
      (b i).val = ∑ j ∈ range n, (unitLow c i j * τ j + w j) * (y j).val + r) := by
    intro i
    by_cases hi : i < n
    · have e0 := h i hi
      rw [show subUp (fun j => L i j * y j) 0 i (b i) = subUp (fun j => L i j * y j) 0 (0 + i) (b i) by rw [Nat.zero_add]] at e0
      obtain ⟨σ, ρ, r, hσ, hρ, hr, e⟩ := sub_prods (e0 ▸ hy i hi)
      rw [← e0] at e
      simp only [Nat.zero_add] at e
      have : ∀ j, ∃ φ ε, Fac F.u K φ ∧ (j < i → |ε| ≤ ω ∧ (L i j).val = c i j * φ + ε) := by
        intro j
        by_cases hj : j < i
        · obtain ⟨φ, ε, a, b, c⟩ := hc i j hj hi
          exact ⟨φ, ε, a, fun _ => ⟨b, c⟩⟩
        · exact ⟨1, 0, Fac.one h0 h1 K, fun h => absurd h hj⟩
      choose φ ε hφ hε using this
      refine ⟨fun j => if j < i then φ j * ρ j else σ, fun j => if j < i then ε j * ρ j else 0, r, fun j => ?_,
        fun _ => ⟨fun j _ => ?_, ?_, ?_⟩⟩
      · beta_reduce
        split_ifs with q
        · exact ((hφ j).mul h0 h1 (hρ j)).mono h0 h1 (by omega)
        · exact hσ.mono h0 h1 (by omega)
      · beta_reduce
        have g := gam_nonneg h0 h1 n
        split_ifs with q
        · rw [abs_mul, mul_comm]
          exact mul_le_mul (((hρ j).mono h0 h1 (show j + 1 ≤ n by omega)).abs_le h0 h1) (hε j q).1 (abs_nonneg _) (by linarith)
        · rw [abs_zero]; exact mul_nonneg (by linarith) hω
      · exact hr.trans (eta_mono (by omega) (by exact_mod_cast hi.le) (by positivity))
      · rw [e]
        refine congrArg₂ _ ?_ rfl
        have s1 : ∑ j ∈ range n, (unitLow c i j * (if j < i then φ j * ρ j else σ) + (if j < i then ε j * ρ j else 0)) * (y j).val
            = ∑ j ∈ range (i + 1), (unitLow c i j * (if j < i then φ j * ρ j else σ) + (if j < i then ε j * ρ j else 0)) * (y j).val := by
          symm
          refine sum_subset (range_subset_range.mpr hi) fun j _ hj => ?_
          have hj : i + 1 ≤ j := by simpa using hj
          rw [show unitLow c i j = 0 by unfold unitLow; rw [if_neg (by omega), if_neg (by omega)], if_neg (show ¬ j < i by omega),
            if_neg (show ¬ j < i by omega)]
          ring
        rw [s1, sum_range_succ, if_neg (lt_irrefl i), if_neg (lt_irrefl i),
          show unitLow c i i = 1 by unfold unitLow; rw [if_neg (lt_irrefl i), if_pos rfl], add_comm]
        refine congrArg₂ _ (sum_congr rfl fun j hj => ?_) (by ring)
        have hj := mem_range.mp hj
        rw [if_pos hj, if_pos hj, show unitLow c i j = c i j from if_pos hj, (hε j hj).2]
        ring
    · exact ⟨fun _ => 1, fun _ => 0, 0, fun _ => Fac.one h0 h1 _, fun h => absurd h hi⟩
  choose τ w r hτ e using key
  exact ⟨τ, w, r, hτ, fun i j hi hj => (e i hi).1 j hj, fun i hi => (e i hi).2.1, fun i hi => (e i hi).2.2⟩

/-- One entry below the diagonal of the Cholesky factor, and of the lower factor of ILU(0). -/
theorem chol_cell {a d x : Fp F} {f g : Nat → Fp F} {j : Nat} (h : x = subUp (fun k => f k * g k) 0 j a / d) (hx : x.IsFin)
    (hd : d.IsFin) :
    ∃ (ρ : ℕ → ℝ) (r : ℝ), (∀ k, k ≤ j → Fac F.u (j + 1) (ρ k)) ∧ |r| ≤ (1 + gam F.u (j + 1)) * F.eta * (j + |d.val|) ∧
      a.val = ∑ k ∈ range j, (f k).val * (g k).val * ρ k + x.val * d.val * ρ j + r := by
  have h0 := F.u_nonneg
  have h1 := F.u_lt_one
  rw [show subUp (fun k => f k * g k) 0 j a = subUp (fun k => f k * g k) 0 (0 + j) a by rw [Nat.zero_add]] at h
  obtain ⟨δ, ρ, r, hδ, hρ, hr, e⟩ := cell h hx hd
  simp only [Nat.zero_add] at e
  refine ⟨fun k => if k < j then ρ k else δ, r, fun k hk => ?_, hr, ?_⟩
  · beta_reduce
    split_ifs with q
    · exact (hρ k).mono h0 h1 (by omega)
    · exact hδ
  · beta_reduce
    rw [e, if_neg (lt_irrefl j)]
    refine congrArg₂ _ (congrArg₂ _ (sum_congr rfl fun k hk => ?_) rfl) rfl
    rw [if_pos (mem_range.mp hk)]

theorem pivot_cell {a : Fp F} {f g : Nat → Fp F} {i : Nat} (h : (subUp (fun k => f k * g k) 0 i a).IsFin) :
    ∃ (σ : ℝ) (ρ : ℕ → ℝ) (r : ℝ), Fac F.u i σ ∧ (∀ k, Fac F.u (k + 1) (ρ k)) ∧ |r| ≤ (1 + gam F.u i) * F.eta * i ∧
      a.val = ∑ k ∈ range i, (f k).val * (g k).val * ρ k + (subUp (fun k => f k * g k) 0 i a).val * σ + r := by
  rw [show subUp (fun k => f k * g k) 0 i a = subUp (fun k => f k * g k) 0 (0 + i) a by rw [Nat.zero_add]] at h ⊢
  obtain ⟨σ, ρ, r, hσ, hρ, hr, e⟩ := sub_prods h
  simp only [Nat.zero_add] at e ⊢
  exact ⟨σ, ρ, r, hσ, hρ, hr, by rw [e]; ring⟩

theorem chol_diag {a x : Fp F} {f : Nat → Fp F} {i : Nat} (hx : x.IsFin) (hz : ¬ IsZ x)
    (h : x = Sqrt.sqrt (subUp (fun k => f k * f k) 0 i a)) :
    ∃ (ρ : ℕ → ℝ) (r : ℝ), (∀ k, k ≤ i → Fac F.u (i + 2) (ρ k)) ∧ 0 < x.val ∧ |r| ≤ (1 + gam F.u i) * F.eta * i ∧
      a.val = ∑ k ∈ range i, (f k).val * (f k).val * ρ k + x.val * x.val * ρ i + r := by
  have h0 := F.u_nonneg
  have h1 := F.u_lt_one
  have hx' := hx
  rw [h] at hx
  obtain ⟨hS', hS0⟩ := (isFin_sqrt _).mp hx
  obtain ⟨σ, ρ, r, hσ, hρ, hr, e⟩ := pivot_cell hS'
  obtain ⟨δ, hδ, es⟩ := sqrt_fac hx
  rw [← h] at es
  generalize subUp (fun k => f k * f k) 0 i a = S at *
  have hδ0 := hδ.pos h0 h1
  have hS : 0 < S.val := by
    by_contra hn
    rw [Real.sqrt_eq_zero_of_nonpos (not_lt.mp hn), zero_mul] at es
    exact val_ne hx' hz es
  have hs := Real.mul_self_sqrt hS.le
  refine ⟨fun k => if k < i then ρ k else σ / (δ * δ), r, fun k hk => ?_,
    by rw [es]; exact mul_pos (Real.sqrt_pos.mpr hS) hδ0, hr, ?_⟩
  · beta_reduce
    split_ifs with q
    · exact (hρ k).mono h0 h1 (by omega)
    · exact hσ.div h0 h1 (hδ.mul h0 h1 hδ)
  · beta_reduce
    rw [if_neg (lt_irrefl i), e, es]
    refine congrArg₂ _ (congrArg₂ _ (sum_congr rfl fun k hk => by rw [if_pos (mem_range.mp hk)]) ?_) rfl
    rw [show Real.sqrt S.val * δ * (Real.sqrt S.val * δ) * (σ / (δ * δ)) =
      (Real.sqrt S.val * Real.sqrt S.val) * (σ * ((δ * δ) / (δ * δ))) by ring, hs, div_self (by positivity)]
    ring

private theorem low_sum (f : ℕ → ℝ) {j n : ℕ} (hj : j < n) (hf : ∀ k, j < k → f k = 0) :
    ∑ k ∈ range n, f k = ∑ k ∈ range j, f k + f j := by
  rw [← sum_range_succ]
  refine (sum_subset (range_subset_range.mpr hj) fun k _ hk => hf k ?_).symm
  simpa using hk

/-- The Cholesky factorisation. -/
theorem chol_eta {A L : Nat → Nat → Fp F} (h : CholRec n A L) (hf : ∀ i j, j ≤ i → i < n → (L i j).IsFin)
    (hz : ∀ i, i < n → ¬ IsZ (L i i)) :
    (∀ i, i < n → 0 < (L i i).val) ∧ ∃ (ρ : ℕ → ℕ → ℕ → ℝ) (t : ℕ → ℕ → ℝ), (∀ i j k, Fac F.u (n + 1) (ρ i j k)) ∧
      (∀ i j, j ≤ i → i < n → |t i j| ≤ (1 + gam F.u (n + 1)) * F.eta * (n + if j = i then 0 else |(L j j).val|)) ∧
      ∀ i j, j ≤ i → i < n → (A i j).val =
        ∑ k ∈ range n, low (mat L) i k * low (mat L) j k * ρ i j k + t i j := by
  have h0 := F.u_nonneg
  have h1 := F.u_lt_one
  have key : ∀ i j, ∃ (ρ : ℕ → ℝ) (t : ℝ), (∀ k, Fac F.u (n + 1) (ρ k)) ∧ (j ≤ i → i < n →
      |t| ≤ (1 + gam F.u (n + 1)) * F.eta * (n + if j = i then 0 else |(L j j).val|) ∧ (A i j).val =
      ∑ k ∈ range n, low (mat L) i k * low (mat L) j k * ρ k + t) := by
    intro i j
    by_cases hij : j ≤ i ∧ i < n
    · obtain ⟨hj, hi⟩ := hij
      have jn : (j : ℝ) ≤ n := by exact_mod_cast (by omega : j ≤ n)
      have fin : ∀ (ρ : ℕ → ℝ) (t : ℝ), (∀ k, k ≤ j → Fac F.u (n + 1) (ρ k)) →
          |t| ≤ (1 + gam F.u (n + 1)) * F.eta * (n + if j = i then 0 else |(L j j).val|) →
          (A i j).val = ∑ k ∈ range j, (L i k).val * (L j k).val * ρ k + (L i j).val * (L j j).val * ρ j + t →
          ∃ (ρ : ℕ → ℝ) (t : ℝ), (∀ k, Fac F.u (n + 1) (ρ k)) ∧ (j ≤ i → i < n →
            |t| ≤ (1 + gam F.u (n + 1)) * F.eta * (n + if j = i then 0 else |(L j j).val|) ∧ (A i j).val =
            ∑ k ∈ range n, low (mat L) i k * low (mat L) j k * ρ k + t) := by
        intro ρ t hρ ht e
        refine ⟨fun k => if k ≤ j then ρ k else 1, t, fun k => ?_, fun _ _ => ⟨ht, ?_⟩⟩
        · beta_reduce
          split_ifs with q
          · exact hρ k q
          · exact Fac.one h0 h1 _
        · beta_reduce
          rw [low_sum _ (show j < n by omega), e]
          · refine congrArg₂ _ (congrArg₂ _ (sum_congr rfl fun k hk => ?_) ?_) rfl
            · have hk := mem_range.mp hk
              rw [if_pos (by omega)]
              unfold low mat
              rw [if_pos (by omega), if_pos (by omega)]
            · rw [if_pos (le_refl _)]
              unfold low mat
              rw [if_pos hj, if_pos (le_refl _)]
          · intro k hk
            rw [show low (mat L) j k = 0 from if_neg (by omega)]
            ring
      rcases Nat.lt_or_eq_of_le hj with hlt | rfl
      · obtain ⟨ρ, t, hρ, ht, e⟩ := chol_cell ((h i hi).1 j hlt) (hf i j hj hi) (hf j j (le_refl _) (by omega))
        refine fin ρ t (fun k hk => (hρ k hk).mono h0 h1 (by omega)) (ht.trans (eta_mono (by omega) ?_ (by positivity))) e
        rw [if_neg (by omega)]
        linarith
      · obtain ⟨ρ, t, hρ, _, ht, e⟩ := chol_diag (hf j j (le_refl _) hi) (hz j hi) (h j hi).2
        refine fin ρ t (fun k hk => (hρ k hk).mono h0 h1 (by omega)) (ht.trans (eta_mono (by omega) ?_ (by positivity))) e
        rw [if_pos rfl]
        linarith
    · exact ⟨fun _ => 1, 0, fun _ => Fac.one h0 h1 _, fun p q => absurd ⟨p, q⟩ hij⟩
  refine ⟨fun i hi => ?_, ?_⟩
  · obtain ⟨_, _, _, p, _⟩ := chol_diag (hf i i (le_refl _) hi) (hz i hi) (h i hi).2
    exact p
  · choose ρ t hρ e using key
    exact ⟨ρ, t, hρ, fun i j hj hi => (e i j hj hi).1, fun i j hj hi => (e i j hj hi).2⟩

/-- The modified factorisation. -/
theorem mod_eta {A L : Nat → Nat → Fp F} (h : ModRec n A L) (hf : ∀ i j, j ≤ i → i < n → (L i j).IsFin)
    (hz : ∀ i, i < n → ¬ IsZ (L i i)) :
    ∃ (ρ : ℕ → ℕ → ℕ → ℝ) (t : ℕ → ℕ → ℝ), (∀ i j k, Fac F.u (n + 1) (ρ i j k)) ∧
      (∀ i j, j ≤ i → i < n → |t i j| ≤ (1 + gam F.u (n + 1)) * F.eta * ∑ k ∈ range n, (1 + 1 / |(L k k).val|)) ∧
      ∀ i j, j ≤ i → i < n → (A i j).val =
        ∑ k ∈ range n, low (mat L) i k * low (mat L) j k / (L k k).val * ρ i j k + t i j := by
  have h0 := F.u_nonneg
  have h1 := F.u_lt_one
  have key : ∀ i j, ∃ (ρ : ℕ → ℝ) (t : ℝ), (∀ k, Fac F.u (n + 1) (ρ k)) ∧ (j ≤ i → i < n →
      |t| ≤ (1 + gam F.u (n + 1)) * F.eta * ∑ k ∈ range n, (1 + 1 / |(L k k).val|) ∧ (A i j).val =
      ∑ k ∈ range n, low (mat L) i k * low (mat L) j k / (L k k).val * ρ k + t) := by
    intro i j
    by_cases hij : j ≤ i ∧ i < n
    · obtain ⟨hj, hi⟩ := hij
      have e0 := h i j hj hi
      have hfin := hf i j hj hi
      rw [e0] at hfin
      have hS := hfin
      rw [show subUp (fun k => L i k * L j k / L k k) 0 j (A i j) =
        subUp (fun k => L i k * L j k / L k k) 0 (0 + j) (A i j) by rw [Nat.zero_add]] at hS
      obtain ⟨σ, ρ, r, hσ, hρ, hr, e⟩ := sub_terms (K := 2) hS
        (c := fun k => (L i k).val * (L j k).val / (L k k).val)
        (E := fun k => (1 + gam F.u 1) * F.eta * (1 + 1 / |(L k k).val|)) fun k hk => by
          have hq := (isFin_subUp hfin).2 k (by omega) hk
          obtain ⟨hp, _, hzk⟩ := fin_of_div hq
          have hdk := hf k k (le_refl _) (by omega)
          have hk0 := val_ne hdk hzk
          obtain ⟨φ, ε, hφ, hε, _, eφ⟩ := mul_fac hp
          obtain ⟨ψ, ε', hψ, hε', _, eψ⟩ := div_fac hq hdk
          refine ⟨φ * ψ, ε * ψ / (L k k).val + ε', hφ.mul h0 h1 hψ, ?_, ?_⟩
          · have g1 := gam_nonneg h0 h1 1
            have b1 : |ε * ψ / (L k k).val| ≤ (1 + gam F.u 1) * F.eta * (1 / |(L k k).val|) := by
              rw [abs_div, abs_mul, div_eq_mul_one_div, mul_comm |ε|]
              exact mul_le_mul_of_nonneg_right (mul_le_mul (hψ.abs_le h0 h1) hε (abs_nonneg _) (by linarith)) (by positivity)
            have b2 : |ε'| ≤ (1 + gam F.u 1) * F.eta := by
              have := F.eta_pos
              nlinarith
            have := abs_add_le (ε * ψ / (L k k).val) ε'
            linarith
          · rw [Nat.zero_add, eψ, eφ]; field_simp; ring
      simp only [Nat.zero_add] at e
      rw [← e0] at e
      refine ⟨fun k => if k < j then ρ k else if k = j then σ else 1, r, fun k => ?_, fun _ _ => ⟨?_, ?_⟩⟩
      · beta_reduce
        split_ifs with q q'
        · exact (hρ k).mono h0 h1 (by omega)
        · exact hσ.mono h0 h1 (by omega)
        · exact Fac.one h0 h1 _
      · refine hr.trans ?_
        rw [← mul_sum, ← mul_assoc, ← mul_assoc]
        have g1 := gam_nonneg h0 h1 1
        have gj := gam_nonneg h0 h1 j
        have gg : (1 + gam F.u j) * (1 + gam F.u 1) ≤ 1 + gam F.u (n + 1) := by
          have := gam_add h0 h1 j 1
          have := gam_mono h0 h1 (show j + 1 ≤ n + 1 by omega)
          linarith
        refine mul_le_mul (mul_le_mul_of_nonneg_right gg F.eta_pos.le) ?_ (sum_nonneg fun k _ => by positivity)
          (mul_nonneg (by have := gam_nonneg h0 h1 (n + 1); linarith) F.eta_pos.le)
        exact sum_le_sum_of_subset_of_nonneg (range_subset_range.mpr (by omega)) fun k _ _ => by positivity
      · have hdj := val_ne (hf j j (le_refl _) (by omega)) (hz j (by omega))
        beta_reduce
        rw [low_sum _ (show j < n by omega), e]
        · refine congrArg₂ _ ?_ rfl
          rw [add_comm]
          refine congrArg₂ _ (sum_congr rfl fun k hk => ?_) ?_
          · have hk := mem_range.mp hk
            rw [if_pos hk]
            unfold low mat
            rw [if_pos (by omega), if_pos (by omega)]
          · rw [if_neg (lt_irrefl j), if_pos rfl]
            unfold low mat
            rw [if_pos hj, if_pos (le_refl _)]
            field_simp
        · intro k hk
          rw [show low (mat L) j k = 0 from if_neg (by omega)]
          ring
    · exact ⟨fun _ => 1, 0, fun _ => Fac.one h0 h1 _, fun p q => absurd ⟨p, q⟩ hij⟩
  choose ρ t hρ e using key
  exact ⟨ρ, t, hρ, fun i j hj hi => (e i j hj hi).1, fun i j hj hi => (e i j hj hi).2⟩

/-- ILU(0): on the pattern of `A`. -/
theorem ilu_eta {A G : Nat → Nat → Fp F} {i j : Nat} (hi : i < n) (hj : j < n) (h : IluCell A G i j) (ha : ¬ IsZ (A i j))
    (hf : (G i j).IsFin) (hd : j < i → (G j j).IsFin) :
    ∃ (ρ : ℕ → ℝ) (t : ℝ), (∀ k, Fac F.u n (ρ k)) ∧
      |t| ≤ (1 + gam F.u n) * F.eta * (n + if j < i then |(G j j).val| else 0) ∧
      (A i j).val = ∑ k ∈ range n, unitLow (mat G) i k * upper (mat G) k j * ρ k + t := by
  have h0 := F.u_nonneg
  have h1 := F.u_lt_one
  rcases Nat.lt_or_ge j i with hji | hij
  · obtain ⟨_, e⟩ := h.2.1 hji ha
    obtain ⟨ρ, t, hρ, ht, e⟩ := chol_cell e hf (hd hji)
    refine ⟨fun k => if k ≤ j then ρ k else 1, t, fun k => ?_, ?_, ?_⟩
    · beta_reduce
      split_ifs with q
      · exact (hρ k q).mono h0 h1 (by omega)
      · exact Fac.one h0 h1 _
    · refine ht.trans (eta_mono (by omega) ?_ (by positivity))
      have : (j : ℝ) ≤ n := by exact_mod_cast hj.le
      rw [if_pos hji]; linarith
    · beta_reduce
      rw [low_sum _ hj, e]
      · refine congrArg₂ _ (congrArg₂ _ (sum_congr rfl fun k hk => ?_) ?_) rfl
        · have hk := mem_range.mp hk
          unfold unitLow upper mat
          rw [if_pos (show k < i by omega), if_pos (show k ≤ j by omega), if_pos (show k ≤ j by omega)]
        · unfold unitLow upper mat
          rw [if_pos hji, if_pos (le_refl j), if_pos (le_refl j)]
      · intro k hk
        rw [show upper (mat G) k j = 0 from if_neg (by omega)]
        ring
  · have e := h.2.2 hij ha
    obtain ⟨σ, ρ, r, hσ, hρ, hr, e'⟩ := pivot_cell (e ▸ hf)
    rw [← e] at e'
    refine ⟨fun k => if k < i then ρ k else if k = i then σ else 1, r, fun k => ?_, ?_, ?_⟩
    · beta_reduce
      split_ifs with q q'
      · exact (hρ k).mono h0 h1 (by omega)
      · exact hσ.mono h0 h1 (by omega)
      · exact Fac.one h0 h1 _
    · refine hr.trans (eta_mono (by omega) ?_ (by positivity))
      have : (i : ℝ) ≤ n := by exact_mod_cast hi.le
      rw [if_neg (by omega)]; linarith
    · beta_reduce
      rw [low_sum _ hi, e']
      · refine congrArg₂ _ (congrArg₂ _ (sum_congr rfl fun k hk => ?_) ?_) rfl
        · have hk := mem_range.mp hk
          unfold unitLow upper mat
          rw [if_pos hk, if_pos hk, if_pos (show k ≤ j by omega)]
        · unfold unitLow upper mat
          rw [if_neg (lt_irrefl i), if_neg (lt_irrefl i), if_pos rfl, if_pos rfl, if_pos hij]
          ring
      · intro k hk
        rw [show unitLow (mat G) i k = 0 by unfold unitLow; rw [if_neg (by omega), if_neg (by omega)]]
        ring

end Fp
end Lalib
