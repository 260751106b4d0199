import Verif.Proofs.CgsRaw
import Verif.Proofs.Float
import Verif.Proofs.IeeeBack
import Verif.Proofs.IeeeGmres

/-! # Gram-Schmidt orthogonalisation with rounding errors -/

namespace Lalib

open Finset

namespace Fl
variable {R : Rounding}

/-- A sum, solved for the number started with. -/
theorem addUpL_fac (g : Nat → Fl R) (t : Fl R) (n : Nat) :
    ∃ (σ : ℝ) (ρ : ℕ → ℝ), Fac R.u n σ ∧ (∀ k, Fac R.u k (ρ k)) ∧
      t.val = (addUpL g n t).val * σ - ∑ k ∈ range n, (g k).val * ρ k := by
  have h0 := R.u_nonneg
  have h1 := R.u_lt_one
  induction n with
  | zero => exact ⟨1, fun _ => 1, Fac.one h0 h1 0, fun k => Fac.one h0 h1 k, by simp [addUpL]⟩
  | succ n ih =>
    obtain ⟨σ, ρ, hσ, hρ, e⟩ := ih
    obtain ⟨δ, hδ, e'⟩ := add_fac (g n) (addUpL g n t)
    have hδ0 := hδ.pos h0 h1
    refine ⟨σ / δ, fun k => if k < n then ρ k else σ, hσ.div h0 h1 hδ, fun k => ?_, ?_⟩
    · dsimp only
      split_ifs
      · exact hρ k
      · exact hσ.mono h0 h1 (by omega)
    · show t.val = (g n + addUpL g n t).val * (σ / δ) - _
      rw [e', e, sum_range_succ]
      simp only [lt_irrefl, if_false]
      have : ∑ k ∈ range n, (g k).val * (if k < n then ρ k else σ) = ∑ k ∈ range n, (g k).val * ρ k :=
        sum_congr rfl fun k hk => by rw [if_pos (mem_range.mp hk)]
      rw [this]
      field_simp
      ring

theorem dotUp_zero {n : Nat} (hn : 0 < n) (x y : Nat → Fl R) : dotUp n x y = addUp (fun k => x k * y k) 0 n 0 := by
  obtain ⟨n, rfl⟩ : ∃ k, n = k + 1 := ⟨n - 1, by omega⟩
  unfold dotUp addUp
  rw [Nat.sub_zero, Nat.add_sub_cancel, List.range'_succ, List.foldl_cons, Fl.zero_add]

theorem dotUp_err {n : Nat} (hn : 0 < n) (x y : Nat → Fl R) :
    |(dotUp n x y).val - ∑ k ∈ range n, (x k).val * (y k).val| ≤ gam R.u n * ∑ k ∈ range n, |(x k).val * (y k).val| := by
  rw [dotUp_zero hn]; exact addUp_prod_err x y n

theorem dotUp_sq {n : Nat} (hn : 0 < n) (x : Nat → Fl R) :
    ∃ τ, Fac R.u n τ ∧ (dotUp n x x).val = (∑ k ∈ range n, (x k).val * (x k).val) * τ := by
  rw [dotUp_zero hn]; exact addUp_sq x n

theorem dotUp_eq_zero {n : Nat} (hn : 0 < n) (x : Nat → Fl R) : dotUp n x x = 0 ↔ ∀ i, i < n → x i = 0 := by
  obtain ⟨τ, hτ, e⟩ := dotUp_sq hn x
  have hp := hτ.pos R.u_nonneg R.u_lt_one
  have e1 : dotUp n x x = 0 ↔ (dotUp n x x).val = 0 := not_iff_not.mp (ne_zero_iff _)
  rw [e1, e, mul_eq_zero, or_iff_left hp.ne', sum_eq_zero_iff_of_nonneg fun k _ => mul_self_nonneg _]
  simp only [mem_range, mul_self_eq_zero]
  exact forall₂_congr fun i _ => (not_iff_not.mp (ne_zero_iff _)).symm

end Fl

section cgs
variable {R : Rounding} {n J : Nat} {a w c : Nat → Nat → Fl R}

/-- Residual of one component: the number started with against the computed combination. -/
theorem cgs_residual (h : CgsRec n J a w c) {j i : Nat} (hj : j < J) (hi : i < n) :
    |(a j i).val - ((w j i).val - ∑ k ∈ range j, (c k j).val * (w k i).val)| ≤
      gam R.u j * (|(w j i).val| + ∑ k ∈ range j, |(c k j).val * (w k i).val|) := by
  have h0 := R.u_nonneg
  have h1 := R.u_lt_one
  obtain ⟨σ, ρ, hσ, hρ, e⟩ := Fl.addUpL_fac (fun k => c k j * w k i) (a j i) j
  choose φ hφ eφ using fun k => Fl.mul_fac (c k j) (w k i)
  rw [← h.vec j hj i hi] at e
  have e1 : ∑ k ∈ range j, (c k j * w k i).val * ρ k = ∑ k ∈ range j, (c k j).val * (w k i).val * (φ k * ρ k) :=
    sum_congr rfl fun k _ => by rw [eφ k]; ring
  rw [e1] at e
  have b1 := term_fac_le h0 h1 (a := (w j i).val) hσ
  have b2 := sum_fac_le h0 h1 (K := j) (s := range j) (a := fun k => (c k j).val * (w k i).val) (ρ := fun k => φ k * ρ k)
    (fun k hk => (((hφ k).mul h0 h1 (hρ k)).mono h0 h1 (by have := mem_range.mp hk; omega)))
  rw [e]
  generalize ∑ k ∈ range j, (c k j).val * (w k i).val * (φ k * ρ k) = s1 at *
  generalize ∑ k ∈ range j, (c k j).val * (w k i).val = s2 at *
  rw [mul_add]
  rw [abs_le] at *
  constructor <;> linarith

theorem divC_of_ok {x y z : Fl R} (h : divC x y = .ok z) : y ≠ 0 ∧ z = x / y := by
  rw [Lalib.divC_eq] at h
  split at h
  · cases h
  · rename_i h'; exact ⟨h', (Except.ok.inj h).symm⟩

/-- The coefficient is nearly the one of the projection. -/
theorem cgs_coef (hn : 0 < n) (h : CgsRec n J a w c) {j k : Nat} (hj : j < J) (hk : k < j) :
    |∑ i ∈ range n, (w k i).val * (a j i).val + (c k j).val * ∑ i ∈ range n, (w k i).val * (w k i).val| ≤
      gam R.u (2 * n + 1) * ∑ i ∈ range n, |(w k i).val * (a j i).val| := by
  have h0 := R.u_nonneg
  have h1 := R.u_lt_one
  obtain ⟨hd, hc⟩ := divC_of_ok (h.coef j hj k hk)
  obtain ⟨τ, hτ, et⟩ := Fl.dotUp_sq hn (w k)
  obtain ⟨δ, hδ, ed⟩ := Fl.div_fac (-dotUp n (w k) (a j)) (dotUp n (w k) (w k))
  have hD := Fl.dotUp_err hn (w k) (a j)
  have hτ0 := hτ.pos h0 h1
  have hN : (dotUp n (w k) (w k)).val ≠ 0 := (Fl.ne_zero_iff _).mp hd
  have hS : ∑ i ∈ range n, (w k i).val * (w k i).val ≠ 0 := fun h => hN (by rw [et, h, zero_mul])
  have ec : (c k j).val * ∑ i ∈ range n, (w k i).val * (w k i).val = -((dotUp n (w k) (a j)).val * (δ / τ)) := by
    rw [hc, ed, et, show (-dotUp n (w k) (a j)).val = -(dotUp n (w k) (a j)).val from rfl]
    generalize ∑ i ∈ range n, (w k i).val * (w k i).val = S at hS
    field_simp
  rw [ec]
  have b1 := term_fac_le h0 h1 (a := (dotUp n (w k) (a j)).val) (hδ.div h0 h1 hτ)
  have g1 := gam_nonneg h0 h1 (1 + n)
  have gg := gam_add h0 h1 (1 + n) n
  rw [show 1 + n + n = 2 * n + 1 by ring] at gg
  have hab := abs_sum_le_sum_abs (fun i => (w k i).val * (a j i).val) (range n)
  generalize ∑ i ∈ range n, |(w k i).val * (a j i).val| = S at *
  generalize ∑ i ∈ range n, (w k i).val * (a j i).val = s at *
  generalize (dotUp n (w k) (a j)).val = D at *
  have b2 : |D| ≤ (1 + gam R.u n) * S := by
    have := abs_add_le (D - s) s
    rw [sub_add_cancel] at this
    linarith
  have b3 : |D * (δ / τ) - D| ≤ gam R.u (1 + n) * ((1 + gam R.u n) * S) := b1.trans (mul_le_mul_of_nonneg_left b2 g1)
  have e2 : gam R.u (2 * n + 1) * S = gam R.u (1 + n) * ((1 + gam R.u n) * S) + gam R.u n * S := by
    have : gam R.u (2 * n + 1) = (1 + gam R.u (1 + n)) * (1 + gam R.u n) - 1 := by linarith
    rw [this]; ring
  rw [e2]
  have := abs_add_le (s - D) (D - D * (δ / τ))
  rw [sub_add_sub_cancel, abs_sub_comm s D, abs_sub_comm D (D * (δ / τ))] at this
  rw [← sub_eq_add_neg]
  linarith

/-- How far two of the computed vectors are from orthogonal. -/
theorem cgs_orth (hn : 0 < n) (h : CgsRec n J a w c) {j k : Nat} (hj : j < J) (hk : k < j) :
    |∑ i ∈ range n, (w k i).val * (w j i).val| ≤
      ∑ p ∈ (range j).erase k, |(c p j).val| * |∑ i ∈ range n, (w k i).val * (w p i).val| +
      gam R.u (2 * n + 1) * ∑ i ∈ range n, |(w k i).val * (a j i).val| +
      gam R.u j * ∑ i ∈ range n, |(w k i).val| * (|(w j i).val| + ∑ p ∈ range j, |(c p j).val * (w p i).val|) := by
  have hr := fun i (hi : i ∈ range n) => cgs_residual h hj (mem_range.mp hi)
  have hc := cgs_coef hn h hj hk
  -- the scalar product, split
  have e : ∑ i ∈ range n, (w k i).val * (w j i).val =
      -(∑ i ∈ range n, (w k i).val * ((a j i).val - ((w j i).val - ∑ p ∈ range j, (c p j).val * (w p i).val))) +
      (∑ i ∈ range n, (w k i).val * (a j i).val + (c k j).val * ∑ i ∈ range n, (w k i).val * (w k i).val) +
      ∑ p ∈ (range j).erase k, (c p j).val * ∑ i ∈ range n, (w k i).val * (w p i).val := by
    have e1 : ∑ p ∈ range j, (c p j).val * ∑ i ∈ range n, (w k i).val * (w p i).val =
        ∑ i ∈ range n, (w k i).val * ∑ p ∈ range j, (c p j).val * (w p i).val := by
      simp only [mul_sum]
      rw [sum_comm]
      exact sum_congr rfl fun i _ => sum_congr rfl fun p _ => by ring
    have e2 := add_sum_erase (range j) (fun p => (c p j).val * ∑ i ∈ range n, (w k i).val * (w p i).val)
      (mem_range.mpr hk)
    rw [add_assoc, add_assoc, e2, e1, ← sum_add_distrib, ← sum_neg_distrib, ← sum_add_distrib]
    exact sum_congr rfl fun i _ => by ring
  have b1 : |∑ i ∈ range n, (w k i).val * ((a j i).val - ((w j i).val - ∑ p ∈ range j, (c p j).val * (w p i).val))| ≤
      gam R.u j * ∑ i ∈ range n, |(w k i).val| * (|(w j i).val| + ∑ p ∈ range j, |(c p j).val * (w p i).val|) := by
    rw [mul_sum]
    refine (abs_sum_le_sum_abs _ _).trans (sum_le_sum fun i hi => ?_)
    rw [abs_mul, mul_left_comm]
    exact mul_le_mul_of_nonneg_left (hr i hi) (abs_nonneg _)
  have b2 : |∑ p ∈ (range j).erase k, (c p j).val * ∑ i ∈ range n, (w k i).val * (w p i).val| ≤
      ∑ p ∈ (range j).erase k, |(c p j).val| * |∑ i ∈ range n, (w k i).val * (w p i).val| :=
    (abs_sum_le_sum_abs _ _).trans (sum_le_sum fun p _ => (abs_mul _ _).le)
  rw [e]
  refine (abs_add_le _ _).trans ?_
  refine (add_le_add (abs_add_le _ _) le_rfl).trans ?_
  rw [abs_neg]
  linarith

end cgs

/-! ## IEEE 754 numbers -/

namespace Fp
variable {F : Fmt}

/-- A finite sum, solved for the number started with, when the terms are known with an absolute error. -/
theorem addUpL_terms {g : Nat → Fp F} {t : Fp F} {n K : Nat} (h : (addUpL g n t).IsFin) {c E : ℕ → ℝ}
    (hc : ∀ k, k < n → ∃ φ ε, Fac F.u K φ ∧ |ε| ≤ E k ∧ (g k).val = c k * φ + ε) :
    ∃ (σ : ℝ) (ρ : ℕ → ℝ) (r : ℝ), Fac F.u n σ ∧ (∀ k, Fac F.u (k + K) (ρ k)) ∧
      |r| ≤ (1 + gam F.u n) * ∑ k ∈ range n, E k ∧
      t.val = (addUpL g n t).val * σ - ∑ k ∈ range n, c k * ρ k - r := by
  have h0 := F.u_nonneg
  have h1 := F.u_lt_one
  induction n with
  | zero => exact ⟨1, fun _ => 1, 0, Fac.one h0 h1 0, fun k => Fac.one h0 h1 _, by simp, by simp [addUpL]⟩
  | succ n ih =>
    have h' : (g n + addUpL g n t).IsFin := h
    obtain ⟨σ, ρ, r, hσ, hρ, hr, e⟩ := ih (fin_of_add _ _ h').2 fun k hk => hc k (by omega)
    obtain ⟨δ, hδ, e'⟩ := add_fac h'
    obtain ⟨φ, ε, hφ, hε, eg⟩ := hc n (by omega)
    have hδ0 := hδ.pos h0 h1
    have hσ0 := hσ.pos h0 h1
    refine ⟨σ / δ, fun k => if k < n then ρ k else if k = n then φ * σ else 1, r + ε * σ, hσ.div h0 h1 hδ,
      fun k => ?_, ?_, ?_⟩
    · dsimp only
      split_ifs with h2 h3
      · exact hρ k
      · rw [h3, Nat.add_comm]; exact hφ.mul h0 h1 hσ
      · exact Fac.one h0 h1 _
    · have hg := gam_mono h0 h1 (Nat.le_succ n)
      have hE : 0 ≤ ∑ k ∈ range n, E k := sum_nonneg fun k hk => by
        obtain ⟨_, ε, _, h, _⟩ := hc k (by have := mem_range.mp hk; omega)
        exact (abs_nonneg ε).trans h
      rw [sum_range_succ, mul_add]
      refine (abs_add_le _ _).trans (add_le_add (hr.trans (mul_le_mul_of_nonneg_right (by linarith) hE)) ?_)
      rw [abs_mul, mul_comm]
      exact mul_le_mul ((hσ.mono h0 h1 (Nat.le_succ n)).abs_le h0 h1) hε (abs_nonneg _)
        (by have := gam_nonneg h0 h1 (n + 1); linarith)
    · show t.val = (g n + addUpL g n t).val * (σ / δ) - _ - _
      rw [e', e, eg, sum_range_succ]
      simp only [lt_irrefl, if_false, if_true]
      have : ∑ k ∈ range n, c k * (if k < n then ρ k else if k = n then φ * σ else 1) = ∑ k ∈ range n, c k * ρ k :=
        sum_congr rfl fun k hk => by rw [if_pos (mem_range.mp hk)]
      rw [this]
      field_simp
      ring

end Fp

section ieee
variable {F : Fmt} {n J : Nat} {a w c : Nat → Nat → Fp F}

theorem isFin_dotUp {x y : Nat → Fp F} (h : (dotUp n x y).IsFin) : ∀ i, i < n → (x i).IsFin ∧ (y i).IsFin := by
  intro i hi
  obtain ⟨h1, h2⟩ := Fp.isFin_addUp h
  by_cases h0 : i = 0
  · rw [h0]; exact Fp.fin_of_mul _ _ h1
  · exact Fp.fin_of_mul _ _ (h2 i (by omega) hi)

theorem addUp_closed {T : Type} [Add T] {P : T → Prop} (hP : ∀ a b : T, P a → P b → P (a + b)) {g : Nat → T} {lo hi : Nat}
    {t : T} (ht : P t) (hg : ∀ i, lo ≤ i → i < hi → P (g i)) : P (addUp g lo hi t) := by
  rcases le_or_gt hi lo with h | h
  · rwa [Fp.addUp_ge _ h]
  obtain ⟨n, rfl⟩ : ∃ n, hi = lo + n := ⟨hi - lo, by omega⟩
  clear h
  induction n with
  | zero => rwa [Fp.addUp_ge _ (by omega)]
  | succ n ih =>
    rw [Fp.addUp_succ]
    exact hP _ _ (ih fun i h1 h2 => hg i h1 (by omega)) (hg _ (by omega) (by omega))

theorem Fp.isZ_mul {x y : Fp F} (hx : IsZ x) (hy : y.IsFin) : IsZ (x * y) := by
  rcases Fp.zero_mul_cases hx y with h | h
  · exact h
  · obtain ⟨t, y', hy', e2⟩ := hy.cases
    obtain ⟨t', x', hx', e3⟩ := ((Fp.isZ_iff _).mp hx).1.cases
    rw [e2, e3] at h
    exact absurd h (Fp.round_ne_nan _ _)

theorem dotUp_isZ (hn : 0 < n) {x : Nat → Fp F} (h : ∀ i, i < n → IsZ (x i)) : IsZ (dotUp n x x) :=
  addUp_closed (fun _ _ => Fp.isZ_add) (Fp.isZ_mul (h 0 hn) ((Fp.isZ_iff _).mp (h 0 hn)).1)
    fun i _ hi => Fp.isZ_mul (h i hi) ((Fp.isZ_iff _).mp (h i hi)).1

theorem dotUp_zero_left (hn : 0 < n) {x : Nat → Fp F} (h : ∀ i, i < n → IsZ (x i)) (y : Nat → Fp F) :
    IsZ (dotUp n x y) ∨ dotUp n x y = .nan := by
  refine addUp_closed (P := fun z : Fp F => IsZ z ∨ z = .nan) (fun a b ha hb => ?_) (Fp.zero_mul_cases (h 0 hn) _)
    fun i _ hi => Fp.zero_mul_cases (h i hi) _
  rcases ha with ha | rfl
  · rcases hb with hb | rfl
    · exact .inl (Fp.isZ_add ha hb)
    · right; cases a <;> rfl
  · exact .inr rfl

theorem CgsRec.div (h : CgsRec n J a w c) {j k : Nat} (hj : j < J) (hk : k < j) :
    c k j = -dotUp n (w k) (a j) / dotUp n (w k) (w k) :=
  (Except.ok.inj (h.coef j hj k hk)).symm

/-- What one finite component tells. -/
theorem cgs_cert (h : CgsRec n J a w c) {j i : Nat} (hj : j < J) (hi : i < n) (hf : (w j i).IsFin) :
    (a j i).IsFin ∧ ∀ k, k < j → (c k j).IsFin ∧ ¬ IsZ (dotUp n (w k) (w k)) ∧ dotUp n (w k) (w k) ≠ .nan ∧
      ∀ l, l < n → (w k l).IsFin ∧ (a j l).IsFin := by
  rw [h.vec j hj i hi] at hf
  obtain ⟨h1, h2⟩ := Fp.isFin_addUpL hf
  refine ⟨h1, fun k hk => ?_⟩
  have hc := (Fp.fin_of_mul _ _ (h2 k hk)).1
  refine ⟨hc, ?_⟩
  rw [h.div hj hk, Fp.isFin_div] at hc
  exact ⟨hc.2.2.1, hc.2.1, isFin_dotUp ((Fp.isFin_neg _).mp hc.1)⟩

/-- Residual of a finite component. -/
theorem cgs_residual_ieee (h : CgsRec n J a w c) {j i : Nat} (hj : j < J) (hi : i < n) (hf : (w j i).IsFin) :
    |(a j i).val - ((w j i).val - ∑ k ∈ range j, (c k j).val * (w k i).val)| ≤
      gam F.u j * (|(w j i).val| + ∑ k ∈ range j, |(c k j).val * (w k i).val|) + (1 + gam F.u j) * (j * F.eta) := by
  have h0 := F.u_nonneg
  have h1 := F.u_lt_one
  have hf' := hf
  rw [h.vec j hj i hi] at hf'
  obtain ⟨σ, ρ, r, hσ, hρ, hr, e⟩ := Fp.addUpL_terms (K := 1) (c := fun k => (c k j).val * (w k i).val)
    (E := fun _ => F.eta) hf' (fun k hk => by
      obtain ⟨φ, ε, h1, h2, _, h3⟩ := Fp.mul_fac ((Fp.isFin_addUpL hf').2 k hk)
      exact ⟨φ, ε, h1, h2, h3⟩)
  rw [← h.vec j hj i hi] at e
  rw [sum_const, card_range, nsmul_eq_mul] at hr
  have b1 := term_fac_le h0 h1 (a := (w j i).val) hσ
  have b2 := sum_fac_le h0 h1 (K := j) (s := range j) (a := fun k => (c k j).val * (w k i).val) (ρ := ρ)
    (fun k hk => ((hρ k).mono h0 h1 (by have := mem_range.mp hk; omega)))
  rw [e]
  generalize ∑ k ∈ range j, (c k j).val * (w k i).val * ρ k = s1 at *
  generalize ∑ k ∈ range j, (c k j).val * (w k i).val = s2 at *
  rw [mul_add]
  rw [abs_le] at *
  constructor <;> linarith

end ieee

end Lalib
