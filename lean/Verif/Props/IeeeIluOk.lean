import Verif.Proofs.IeeeIluOk
import Verif.Props.IluDom
import Verif.Props.IeeeBack

/-! # C86 in IEEE arithmetic: incomplete factorisations that cannot fail -/

namespace Lalib.Props

open Lalib Finset

variable {F : Fmt} {M : Type} {ops : MatOps M (Fp F)} {ok : M → Prop}

private theorem ilu_ieee (hst : Storage ops ok) (n : Nat) (a : M) (A : Nat → Nat → Fp F) (w : ℕ → ℝ) (hok : ok a)
    (hA : Shows ops n a A) (hf : ∀ i j, i < n → j < n → (A i j).IsFin) (hR : IluRange F n (Fp.mat A) w) :
    ∃ f G, Ilu.new ops a = .ok f ∧ ok f ∧ Shows ops n f G ∧ IluRec n A G ∧ ∀ i, i < n → Fp.RowFit n A G w i := by
  obtain ⟨R, hRep, h1, h2⟩ := storage_rep hst n
  rcases Ilu.new_raw Fp.isZ_zero (fun v _ => Fp.divAt v) hRep (h1 a A hok hA) with ⟨G, f, e, hG, hI⟩ | ⟨_, _, hS⟩
  · exact ⟨f, G, e, (h2 f G hG).1, (h2 f G hG).2, hI, Fp.ilu_rows hR hf le_rfl fun r c hr hc => hI r c hr hc⟩
  · exact (Fp.ilu_not_stuck hR hf hS).elim

/-- The constructor does not throw, all entries of the factors are finite and no pivot is zero. -/
theorem C86_ieee_factor (hst : Storage ops ok) (n : Nat) (a : M) (A : Nat → Nat → Fp F) (w : ℕ → ℝ) (hok : ok a)
    (hA : Shows ops n a A) (hf : ∀ i j, i < n → j < n → (A i j).IsFin) (hR : IluRange F n (Fp.mat A) w) :
    ∃ f G, Ilu.new ops a = .ok f ∧ ok f ∧ Shows ops n f G ∧ (∀ i j, i < n → j < n → (G i j).IsFin) ∧
      ∀ i, i < n → (G i i).val ≠ 0 ∧ ieeeGap F n (Fp.mat A) w i ≤ 2 * (|(G i i).val| * w i) ∧
        |(G i i).val| ≤ 3 * |(A i i).val| := by
  obtain ⟨f, G, e, h1, h2, _, h⟩ := ilu_ieee hst n a A w hok hA hf hR
  exact ⟨f, G, e, h1, h2, fun i j hi hj => (h i hi).fin j hj, fun i hi => ⟨(h i hi).nonzero hR hi, (h i hi).gap, (h i hi).size⟩⟩

private theorem ilu_ieee_solve (hst : Storage ops ok) (n : Nat) (f : M) (A G : Nat → Nat → Fp F) (w : ℕ → ℝ) (hok : ok f)
    (hS : Shows ops n f G) (hR : IluRange F n (Fp.mat A) w) (hG : ∀ i, i < n → Fp.RowFit n A G w i) (b : List (Fp F))
    (hb : b.length = n) (hbf : ∀ i, i < n → (val0 b i).IsFin) (s : ℝ)
    (hs : IluRhs F n (Fp.mat A) w (fun i => (val0 b i).val) s) :
    ∃ x, Ilu.solve ops f b = .ok x ∧ x.length = n ∧ (∀ i, i < n → (val0 x i).IsFin ∧ |(val0 x i).val| ≤ s * w i) ∧
      NearSolves2 n (luProd n (Fp.mat G))
        (fun i j => gam F.u (2 * n) * ∑ k ∈ range n, |unitLow (Fp.mat G) i k * upper (Fp.mat G) k j|)
        (fun i => (1 + gam F.u n) * F.eta *
          (n + (1 + gam F.u n) * ∑ k ∈ range n, |unitLow (Fp.mat G) i k| * (n + |Fp.mat G k k|)))
        (fun i => (val0 x i).val) (fun i => (val0 b i).val) := by
  obtain ⟨x, e, hx, ⟨y, hy, hback⟩, _⟩ := C67_ilu_solve hst n f G hok hS b hb
  have h := Fp.ilu_back hR hG hs.pos hs.mul hs.top (Fp.ilu_fwd hR hG hbf hs hy) hback
  exact ⟨x, e, hx, h, Fp.ilu_near ⟨y, hy, hback⟩ (fun i hi => (h i hi).1) fun i hi => (hG i hi).fin i hi⟩

/-- Solving gives finite numbers below `s` times the weights, the exact solution of a system close to the one with the
factors. -/
theorem C86_ieee_solve (hst : Storage ops ok) (n : Nat) (a : M) (A : Nat → Nat → Fp F) (w : ℕ → ℝ) (hok : ok a)
    (hA : Shows ops n a A) (hf : ∀ i j, i < n → j < n → (A i j).IsFin) (hR : IluRange F n (Fp.mat A) w) :
    ∃ f G, Ilu.new ops a = .ok f ∧ Shows ops n f G ∧ ∀ b : List (Fp F), b.length = n → (∀ i, i < n → (val0 b i).IsFin) →
      ∀ s, IluRhs F n (Fp.mat A) w (fun i => (val0 b i).val) s →
        ∃ x, Ilu.solve ops f b = .ok x ∧ x.length = n ∧ (∀ i, i < n → (val0 x i).IsFin ∧ |(val0 x i).val| ≤ s * w i) ∧
          NearSolves2 n (luProd n (Fp.mat G))
            (fun i j => gam F.u (2 * n) * ∑ k ∈ range n, |unitLow (Fp.mat G) i k * upper (Fp.mat G) k j|)
            (fun i => (1 + gam F.u n) * F.eta *
              (n + (1 + gam F.u n) * ∑ k ∈ range n, |unitLow (Fp.mat G) i k| * (n + |Fp.mat G k k|)))
            (fun i => (val0 x i).val) (fun i => (val0 b i).val) := by
  obtain ⟨f, G, e, h1, h2, _, h⟩ := ilu_ieee hst n a A w hok hA hf hR
  exact ⟨f, G, e, h2, fun b hb hbf s hs => ilu_ieee_solve hst n f A G w h1 h2 hR h b hb hbf s hs⟩

theorem IluRange.dom {n : ℕ} {A : ℕ → ℕ → ℝ} {w : ℕ → ℝ} (h : IluRange F n A w) : WeightDom n A w := by
  refine ⟨h.pos, fun i hi => lt_of_lt_of_le (h.gap i hi) ?_⟩
  have g := gam_nonneg F.u_nonneg F.u_lt_one (6 * (n + 1))
  have O0 : 0 ≤ ∑ j ∈ (range n).erase i, |A i j| * w j :=
    sum_nonneg fun j hj => mul_nonneg (abs_nonneg _) (h.pos j (mem_range.mp (mem_erase.mp hj).2)).le
  have E0 : 0 ≤ 4 * (F.eta * ∑ j ∈ range n, (n + |A j j|) * w j) := mul_nonneg (by norm_num)
    (mul_nonneg F.eta_pos.le (sum_nonneg fun j hj => mul_nonneg (by positivity) (h.pos j (mem_range.mp hj)).le))
  have := mul_nonneg g O0
  have := mul_nonneg g E0
  rw [ieeeGap, rowGap, iluFac]
  linarith

/-- Where the pattern has room for the whole factorisation the solver is accurate: the residual is a small multiple of the
diagonal entry, and so is the distance from the solution of the system. -/
theorem C86_ieee_error (hst : Storage ops ok) (n : Nat) (a : M) (A : Nat → Nat → Fp F) (w : ℕ → ℝ) (hok : ok a)
    (hA : Shows ops n a A) (hf : ∀ i j, i < n → j < n → (A i j).IsFin) (hR : IluRange F n (Fp.mat A) w)
    (hN : NoFill n (Fp.mat A)) (b : List (Fp F)) (hb : b.length = n) (hbf : ∀ i, i < n → (val0 b i).IsFin) (s : ℝ)
    (hs : IluRhs F n (Fp.mat A) w (fun i => (val0 b i).val) s) (hF : IluFine F n (Fp.mat A) w s) :
    ∃ f x, Ilu.new ops a = .ok f ∧ Ilu.solve ops f b = .ok x ∧ x.length = n ∧ (∀ i, i < n → (val0 x i).IsFin) ∧
      (∀ i, i < n → |mulVec n (Fp.mat A) (fun j => (val0 x j).val) i - (val0 b i).val| ≤
        (2 * n + 6) * gam F.u (3 * n + 1) * (s * (|(A i i).val| * w i))) ∧
      ∀ z, Solves n (Fp.mat A) z (fun i => (val0 b i).val) → ∀ t : ℝ,
        (∀ i, i < n → (2 * n + 6) * gam F.u (3 * n + 1) * (s * (|(A i i).val| * w i)) ≤ t * rowGap n (Fp.mat A) w i) →
          ∀ i, i < n → |(val0 x i).val - z i| ≤ t * w i := by
  obtain ⟨f, G, e, h1, h2, hI, h⟩ := ilu_ieee hst n a A w hok hA hf hR
  obtain ⟨x, ex, hx, hb', hn⟩ := ilu_ieee_solve hst n f A G w h1 h2 hR h b hb hbf s hs
  have res := Fp.ilu_residual hR hf hI h hN (b := fun i => (val0 b i).val) (x := fun i => (val0 x i).val) hs.pos hF
    (fun i hi => (hb' i hi).2) fun i hi => C71_residual n _ _ _ _ _ hn i hi
  refine ⟨f, x, e, ex, hx, fun i hi => (hb' i hi).1, res, fun z hz t ht => ?_⟩
  refine dom_bound (IluRange.dom hR) (x := fun i => (val0 x i).val - z i)
    (b := fun i => mulVec n (Fp.mat A) (fun j => (val0 x j).val) i - (val0 b i).val) (fun i hi => ?_)
    fun i hi => (res i hi).trans (ht i hi)
  have := hz i hi
  beta_reduce at this ⊢
  rw [← this]
  unfold mulVec
  simp only [mul_sub, sum_sub_distrib]

/-! ## Concrete cases: binary64, any order below `2 ^ 20` and any pattern -/

private noncomputable def two (s : Bool) (e : ℤ) (h1 : binary64.emin ≤ e := by decide) (h2 : e < binary64.emax := by decide) :
    Fp binary64 := .fin s (2 ^ e) (binary64.isMag_pow h1 h2)

/-- `2 ^ 22` on the diagonal, `-1` where the pattern says so. -/
private noncomputable def patt (P : ℕ → ℕ → Bool) (i j : ℕ) : Fp binary64 :=
  if i = j then two false 22 else if P i j then two true 0 else 0

private theorem patt_val (P : ℕ → ℕ → Bool) (i j : ℕ) :
    Fp.mat (patt P) i j = if i = j then 2 ^ 22 else if P i j then -1 else 0 := by
  unfold Fp.mat patt
  split_ifs
  · show (if false then -2 ^ (22 : ℤ) else (2 : ℝ) ^ (22 : ℤ)) = 2 ^ 22; norm_num
  · show (if true then -2 ^ (0 : ℤ) else (2 : ℝ) ^ (0 : ℤ)) = -1; norm_num
  · simp

private theorem patt_fin (P : ℕ → ℕ → Bool) (i j : ℕ) : (patt P i j).IsFin := by
  unfold patt; split_ifs <;> trivial

private theorem patt_diag (P : ℕ → ℕ → Bool) (i : ℕ) : |Fp.mat (patt P) i i| = 2 ^ 22 := by
  rw [patt_val, if_pos rfl]; norm_num

private theorem patt_row (P : ℕ → ℕ → Bool) {n : ℕ} (hn : n < 2 ^ 20) (i : ℕ) :
    ∑ j ∈ (range n).erase i, |Fp.mat (patt P) i j| * 1 ≤ 2 ^ 20 := by
  have : (n : ℝ) < 2 ^ 20 := by exact_mod_cast hn
  calc _ ≤ ∑ j ∈ (range n).erase i, (1 : ℝ) := by
        refine sum_le_sum fun j hj => ?_
        rw [patt_val, if_neg (Ne.symm (mem_erase.mp hj).1)]
        split_ifs <;> norm_num
    _ ≤ ∑ j ∈ range n, (1 : ℝ) := sum_le_sum_of_subset_of_nonneg (erase_subset _ _) fun _ _ _ => zero_le_one
    _ ≤ 2 ^ 20 := by rw [sum_const, card_range, nsmul_eq_mul, mul_one]; exact this.le

private theorem top64 : (2 : ℝ) ^ 100 < binary64.top := by
  have : binary64.top = (2 : ℝ) ^ (1024 : ℤ) := rfl
  rw [this, show (2 : ℝ) ^ 100 = 2 ^ (100 : ℤ) by norm_num]
  exact zpow_lt_zpow_right₀ (by norm_num) (by norm_num)

private theorem eta64 : binary64.eta ≤ 1 / 2 ^ 150 := by
  have : binary64.eta = (2 : ℝ) ^ (-1074 : ℤ) / 2 := rfl
  rw [this]
  have : (2 : ℝ) ^ (-1074 : ℤ) ≤ 2 ^ (-150 : ℤ) := zpow_le_zpow_right₀ (by norm_num) (by norm_num)
  have e : (2 : ℝ) ^ (-150 : ℤ) = 1 / 2 ^ 150 := by norm_num
  have h0 : 0 < (2 : ℝ) ^ (-1074 : ℤ) := by positivity
  rw [e] at this
  generalize (2 : ℝ) ^ (-1074 : ℤ) = z at this h0
  linarith

private theorem u64 : binary64.u = 1 / 2 ^ 53 := by
  have : binary64.u = (1 / 2 : ℝ) ^ 53 := rfl
  rw [this]; norm_num

private theorem patt_under (P : ℕ → ℕ → Bool) {n : ℕ} (hn : n < 2 ^ 20) (i : ℕ) :
    binary64.eta * (n + |Fp.mat (patt P) i i|) ≤ 1 / 2 ^ 127 := by
  have : (n : ℝ) < 2 ^ 20 := by exact_mod_cast hn
  rw [patt_diag]
  have h := mul_le_mul eta64 (show (n : ℝ) + 2 ^ 22 ≤ 2 ^ 23 by linarith [show (2 : ℝ) ^ 23 = 2 ^ 20 + 2 ^ 22 + 3 * 2 ^ 20 by norm_num, show (0 : ℝ) < 2 ^ 20 by norm_num]) (by positivity) (by norm_num)
  norm_num at h ⊢
  linarith

private theorem patt_unders (P : ℕ → ℕ → Bool) {n : ℕ} (hn : n < 2 ^ 20) :
    4 * (binary64.eta * ∑ j ∈ range n, (n + |Fp.mat (patt P) j j|) * 1) ≤ 1 / 2 ^ 100 := by
  have h : (n : ℝ) < 2 ^ 20 := by exact_mod_cast hn
  have : binary64.eta * ∑ j ∈ range n, (n + |Fp.mat (patt P) j j|) * 1 ≤ ∑ j ∈ range n, (1 / 2 ^ 127 : ℝ) := by
    rw [mul_sum]
    exact sum_le_sum fun j _ => by rw [mul_one]; exact patt_under P hn j
  rw [sum_const, card_range, nsmul_eq_mul] at this
  have := this.trans (mul_le_mul_of_nonneg_right h.le (by norm_num))
  norm_num at this ⊢
  linarith

private theorem gam64 {n : ℕ} (hn : n < 2 ^ 20) : gam binary64.u (6 * (n + 1)) ≤ 1 / 2 ^ 29 := by
  have h : (n : ℝ) + 1 ≤ 2 ^ 20 := by exact_mod_cast hn
  have ku : ((6 * (n + 1) : ℕ) : ℝ) * binary64.u ≤ 1 / 2 ^ 30 := by
    rw [u64]; push_cast; norm_num at h ⊢; linarith
  have k0 : 0 ≤ ((6 * (n + 1) : ℕ) : ℝ) * binary64.u := mul_nonneg (Nat.cast_nonneg _) binary64.u_nonneg
  refine (gam_le binary64.u_nonneg binary64.u_lt_one (k := 6 * (n + 1)) (lt_of_le_of_lt ku (by norm_num))).trans ?_
  rw [div_le_iff₀ (by norm_num at ku ⊢; linarith)]
  norm_num at ku ⊢
  linarith

private theorem patt_gap (P : ℕ → ℕ → Bool) {n : ℕ} (hn : n < 2 ^ 20) (i : ℕ) :
    2 ^ 21 ≤ ieeeGap binary64 n (Fp.mat (patt P)) (fun _ => 1) i := by
  have g := gam64 hn
  have g0 := gam_nonneg binary64.u_nonneg binary64.u_lt_one (6 * (n + 1))
  rw [ieeeGap, iluFac, patt_diag]
  have h1 := patt_row P hn i
  have h2 := patt_unders P hn
  have hO : 0 ≤ ∑ j ∈ (range n).erase i, |Fp.mat (patt P) i j| * 1 + 4 * (binary64.eta * ∑ j ∈ range n, (n + |Fp.mat (patt P) j j|) * 1) := by
    have := binary64.eta_pos
    positivity
  set O := ∑ j ∈ (range n).erase i, |Fp.mat (patt P) i j| * 1
  set E := 4 * (binary64.eta * ∑ j ∈ range n, (n + |Fp.mat (patt P) j j|) * 1)
  have := mul_le_mul_of_nonneg_right g hO
  norm_num at this h1 h2 ⊢
  linarith

private theorem patt_range (P : ℕ → ℕ → Bool) {n : ℕ} (hn : n < 2 ^ 20) :
    IluRange binary64 n (Fp.mat (patt P)) (fun _ => 1) := by
  have t := top64
  refine ⟨(gam64 hn).trans (by norm_num), fun _ _ => zero_lt_one, fun i _ => lt_of_lt_of_le (by norm_num) (patt_gap P hn i),
    fun i j _ _ => ?_, fun i j _ _ => ?_⟩
  · rw [patt_diag]; norm_num at t ⊢; linarith
  · rw [patt_diag]
    have := mul_le_mul_of_nonneg_left (patt_gap P hn j) binary64.top_pos.le
    norm_num at t this ⊢
    linarith

private theorem patt_rhs (P : ℕ → ℕ → Bool) {n : ℕ} (hn : n < 2 ^ 20) (b : ℕ → ℝ) (hb : ∀ i, i < n → |b i| ≤ 1) :
    IluRhs binary64 n (Fp.mat (patt P)) (fun _ => 1) b 1 := by
  have t := top64
  have g := gam64 hn
  have g0 := gam_nonneg binary64.u_nonneg binary64.u_lt_one (6 * (n + 1))
  refine ⟨zero_lt_one, fun i hi => ?_, fun i _ => ?_, fun i _ => ?_⟩
  · have h1 := patt_under P hn i
    have h2 := patt_gap P hn i
    have h3 := hb i hi
    have h4 : 0 ≤ |b i| + 16 * (binary64.eta * (n + |Fp.mat (patt P) i i|)) := by
      have := binary64.eta_pos
      positivity
    have h5 : iluFac binary64 n ≤ 2 := by rw [iluFac]; norm_num at g ⊢; linarith
    have h6 := mul_le_mul_of_nonneg_right h5 h4
    norm_num at h1 h2 ⊢
    linarith
  · rw [patt_diag]; norm_num at t ⊢; linarith
  · norm_num at t ⊢; linarith

private theorem patt_fine (P : ℕ → ℕ → Bool) {n : ℕ} (hn : n < 2 ^ 20) :
    IluFine binary64 n (Fp.mat (patt P)) (fun _ => 1) 1 := by
  refine ⟨fun i _ => ?_, fun i _ => ?_⟩
  · have := patt_unders P hn
    rw [patt_diag, u64]
    norm_num at this ⊢
    linarith
  · have h1 := patt_under P hn i
    have h2 := patt_gap P hn i
    rw [u64]
    norm_num at h1 h2 ⊢
    linarith

-- the constructor and the solver, for each storage class
example {M : Type} {ops : MatOps M (Fp binary64)} {ok : M → Prop} (hst : Storage ops ok) (P : ℕ → ℕ → Bool) (n : ℕ)
    (hn : n < 2 ^ 20) (a : M) (hok : ok a) (hA : Shows ops n a (patt P)) (b : List (Fp binary64)) (hb : b.length = n)
    (hbf : ∀ i, i < n → (val0 b i).IsFin) (hb1 : ∀ i, i < n → |(val0 b i).val| ≤ 1) :
    ∃ f x, Ilu.new ops a = .ok f ∧ Ilu.solve ops f b = .ok x ∧ ∀ i, i < n → (val0 x i).IsFin ∧ |(val0 x i).val| ≤ 1 := by
  obtain ⟨f, G, e, _, h⟩ := C86_ieee_solve hst n a (patt P) (fun _ => 1) hok hA (fun i j _ _ => patt_fin P i j) (patt_range P hn)
  obtain ⟨x, ex, _, hx, _⟩ := h b hb hbf 1 (patt_rhs P hn _ hb1)
  exact ⟨f, x, e, ex, fun i hi => by have := hx i hi; rwa [mul_one] at this⟩

-- a pattern without room for fill: beside the diagonal only
example : NoFill 1000 (Fp.mat (patt fun i j => i == j + 1 || j == i + 1)) := by
  intro i j k _ _ hk hk' h1 h2
  rw [patt_val] at h1 h2 ⊢
  rw [if_neg (by omega)] at h1
  rw [if_neg (by omega)] at h2
  have e1 : i = k + 1 := by by_contra hc; exact h1 (by simp; omega)
  have e2 : j = k + 1 := by by_contra hc; exact h2 (by simp; omega)
  rw [if_pos (by omega)]; norm_num

-- and its errors
example (n : ℕ) (hn : n < 2 ^ 20) (b : List (Fp binary64)) (hb : b.length = n) (hbf : ∀ i, i < n → (val0 b i).IsFin)
    (hb1 : ∀ i, i < n → |(val0 b i).val| ≤ 1) (P : ℕ → ℕ → Bool) (hN : NoFill n (Fp.mat (patt P))) (a : DMat (Fp binary64))
    (hok : a.elems.length = a.n * a.m) (hA : Shows dOps n a (patt P)) :
    ∃ f x, Ilu.new dOps a = .ok f ∧ Ilu.solve dOps f b = .ok x ∧
      ∀ z, Solves n (Fp.mat (patt P)) z (fun i => (val0 b i).val) →
        ∀ i, i < n → |(val0 x i).val - z i| ≤ 2 * ((2 * n + 6) * gam binary64.u (3 * n + 1)) := by
  obtain ⟨f, x, e, ex, _, _, _, h⟩ := C86_ieee_error Storage.dense n a (patt P) (fun _ => 1) hok hA (fun i j _ _ => patt_fin P i j)
    (patt_range P hn) hN b hb hbf 1 (patt_rhs P hn _ hb1) (patt_fine P hn)
  refine ⟨f, x, e, ex, fun z hz i hi => ?_⟩
  have := h z hz (2 * ((2 * n + 6) * gam binary64.u (3 * n + 1))) (fun i hi => ?_) i hi
  · rwa [mul_one] at this
  · have r := patt_row P hn i
    have d : |(patt P i i).val| = 2 ^ 22 := patt_diag P i
    have g := gam_nonneg binary64.u_nonneg binary64.u_lt_one (3 * n + 1)
    have k : (0 : ℝ) ≤ (2 * n + 6) * gam binary64.u (3 * n + 1) := by positivity
    rw [rowGap, patt_diag, d]
    have : (2 : ℝ) ^ 21 ≤ 2 ^ 22 * 1 - ∑ j ∈ (range n).erase i, |Fp.mat (patt P) i j| * 1 := by
      norm_num at r ⊢; linarith
    have := mul_le_mul_of_nonneg_left this k
    norm_num at this ⊢
    linarith

end Lalib.Props
