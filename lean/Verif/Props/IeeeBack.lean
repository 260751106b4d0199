import Verif.Proofs.IeeeTdma
import Verif.Props.IeeeSolve
import Verif.Props.IeeeInv

/-! # Property C71: backward errors of the direct solvers over IEEE 754 numbers

Unlike C58 to C61, which assume that no operation overflows or underflows, nothing is assumed about the operations: a finite
first component of the solution tells that there was no harmful overflow, and underflow is part of the bounds (`F.eta` is half
the smallest positive number). -/

namespace Lalib

namespace Fp
variable {F : Fmt}

/-- Subtracting a square does not lead to plus infinity. -/
theorem sub_sq_ne {a : Fp F} (h : a ≠ inf false) (t : Fp F) : a - t * t ≠ inf false := by
  by_cases ht : t = nan
  · subst ht
    rw [sub_eq]
    cases a <;> simp [add_eq, mul_eq, mul, add, Neg.neg]
  · rcases pos_mul_self ht with hp | ⟨hp, hv⟩
    · rw [hp, sub_eq, neg_inf]
      cases a with
      | nan => simp [add_eq, add]
      | inf s => cases s <;> simp_all [add_eq, add]
      | fin s x hx => simp [add_eq, add]
    · obtain ⟨s', y, hy, e⟩ := hp.cases
      rw [e] at hv ⊢
      rw [sub_eq, neg_fin]
      cases a with
      | nan => simp [add_eq, add]
      | inf s => cases s <;> simp_all [add_eq, add]
      | fin s x hx =>
        rw [add_eq]
        simp only [add]
        set r := (fin s x hx : Fp F).val + (fin (!s') y hy : Fp F).val with hr
        have h1 : r ≤ x := by
          have : (fin (!s') y hy : Fp F).val = -(fin s' y hy : Fp F).val := by cases s' <;> simp [val]
          have h2 : (fin s x hx : Fp F).val ≤ x := by
            have := hx.1
            cases s <;> (simp [val]; try linarith)
          rw [hr, this]; linarith
        unfold round
        by_cases hlt : F.rnd |r| < F.top
        · rw [dif_pos hlt]; simp
        · rw [dif_neg hlt]
          intro hc
          injection hc with hc
          have h0 : 0 ≤ r := not_lt.mp (of_decide_eq_false hc)
          rw [abs_of_nonneg h0] at hlt
          have := F.rnd_mono h1
          rw [hx.2.1] at this
          exact hlt (lt_of_le_of_lt this hx.2.2)

theorem subUp_sq_ne {a : Fp F} (g : Nat → Fp F) (h : a ≠ inf false) :
    ∀ i, subUp (fun k => g k * g k) 0 i a ≠ inf false := by
  intro i
  induction i with
  | zero => simpa [subUp] using h
  | succ i ih =>
    have := subUp_succ (fun k => g k * g k) 0 i a
    rw [Nat.zero_add, Nat.zero_add] at this
    rw [this]
    exact sub_sq_ne ih _

/-- A root is infinite only at plus infinity. -/
theorem fin_sqrt_of {a : Fp F} (h : a ≠ inf false) (hn : (Sqrt.sqrt a) ≠ nan) : (Sqrt.sqrt a).IsFin := by
  rw [isFin_sqrt]
  cases a with
  | nan => exact absurd rfl hn
  | inf s =>
    cases s
    · exact absurd rfl h
    · exact absurd rfl hn
  | fin s x hx =>
    refine ⟨trivial, ?_⟩
    have := hx.1
    cases s
    · simpa [val] using this
    · simp only [sqrt_eq, sqrt] at hn
      by_cases hx0 : x = 0
      · simp [val, hx0]
      · rw [if_neg hx0] at hn; exact absurd rfl hn

/-- A little more than the root of a diagonal entry of the matrix. -/
noncomputable def scale (n : Nat) (A : Nat → Nat → Fp F) (i : Nat) : ℝ :=
  Real.sqrt ((1 + gam F.u (n + 1)) * ((A i i).val + (1 + gam F.u (n + 1)) * F.eta * n))

end Fp

namespace Props

open Lalib Finset

variable {F : Fmt}

/-- What a near solution is worth: its residual. -/
theorem C71_residual (n : ℕ) (A E : ℕ → ℕ → ℝ) (e x b : ℕ → ℝ) (h : NearSolves2 n A E e x b) (i : ℕ) (hi : i < n) :
    |mulVec n A x i - b i| ≤ ∑ j ∈ range n, E i j * |x j| + e i := by
  obtain ⟨dA, db, hd, hb, hs⟩ := h
  have e1 : mulVec n A x i - b i = db i - ∑ j ∈ range n, dA i j * x j := by
    have := hs i hi
    unfold mulVec at this ⊢
    simp only [add_mul, sum_add_distrib] at this
    linarith
  rw [e1]
  refine (abs_sub _ _).trans ?_
  rw [add_comm]
  refine add_le_add ((abs_sum_le_sum_abs _ _).trans (sum_le_sum fun j hj => ?_)) (hb i hi)
  rw [abs_mul]
  exact mul_le_mul_of_nonneg_right (hd i j hi (mem_range.mp hj)) (abs_nonneg _)

/-- Back substitution. -/
theorem C71_back_sub (a : UTri (Fp F)) (R : Nat → Nat → Fp F) (y : List (Fp F)) (hy : y.length = a.n)
    (hR : ∀ i j, i < a.n → j < a.n → a.get i j = .ok (R i j)) (hd : ∀ i, i < a.n → (R i i).IsFin) :
    ∃ x, a.backSub y = .ok x ∧ x.length = a.n ∧ ((0 < a.n → (val0 x 0).IsFin) →
      NearSolves2 a.n (Fp.mat R) (fun i j => gam F.u a.n * |Fp.mat R i j|)
        (fun i => (1 + gam F.u a.n) * F.eta * (a.n + |Fp.mat R i i|)) (fun i => (val0 x i).val)
        (fun i => (val0 y i).val)) := by
  have h0 := F.u_nonneg
  have h1 := F.u_lt_one
  obtain ⟨x, e, hx, h, hf, _⟩ := C67_back_sub a R y hy hR
  refine ⟨x, e, hx, fun hx0 => ?_⟩
  obtain ⟨τ, s, hτ, hs, et⟩ := Fp.back_eta h
    (fun i hi => (hf 0 (by omega) (hx0 (by omega)) i (Nat.zero_le _) hi).1) hd
  have up : ∀ i j, i < a.n → j < a.n → upper (Fp.mat R) i j = Fp.mat R i j := by
    intro i j hi hj
    unfold upper
    split_ifs with hij
    · rfl
    · have := hR i j hi hj
      have z : a.get i j = .ok 0 := by unfold UTri.get; rw [if_neg hij]
      rw [z] at this
      injection this with this
      unfold Fp.mat
      rw [← this]; simp
  refine ⟨fun i j => Fp.mat R i j * τ i j - Fp.mat R i j, fun i => -s i, fun i j _ _ => term_fac_le h0 h1 (hτ i j),
    fun i hi => by rw [abs_neg]; exact hs i hi, fun i hi => ?_⟩
  have et : (val0 y i).val = _ := et i hi
  beta_reduce
  rw [et, add_neg_cancel_right]
  unfold mulVec
  refine sum_congr rfl fun j hj => ?_
  beta_reduce
  rw [up i j hi (mem_range.mp hj), add_sub_cancel]

/-! ## Cholesky -/

section chol
variable {mt : MemType} {n : Nat} {l L : List (Fp F)} {A : Nat → Nat → Fp F}

private theorem chol_ok (hl : Lower mt n l A) (h0 : 0 < n → 0 < (A 0 0).val) (e : Chol.new mt n l = .ok L) :
    L.length = l.length ∧ CholRec n A (held mt n L) ∧ ∀ i, i < n → ¬ IsZ (held mt n L i i) := by
  rcases C68_cholesky mt n l A hl with e' | ⟨L', e', hlen, h | ⟨hn, h, _⟩⟩
  · rw [e] at e'; cases e'
  · rw [e] at e'; injection e' with e'; subst e'; exact ⟨hlen, h⟩
  · exfalso
    have p := h0 hn
    rcases h with h | h
    · have := ((Fp.isZ_iff _).mp h).2; linarith
    · have hfin : (A 0 0).IsFin := by
        cases hA : A 0 0 with
        | nan => rw [hA] at p; simp [Fp.val] at p
        | inf s => rw [hA] at p; simp [Fp.val] at p
        | fin s x hx => trivial
      have := (Fp.fin_lt hfin Fp.isFin_zero).mp h
      simp at this
      linarith

private theorem chol_fin {L : Nat → Nat → Fp F} {b x : Nat → Fp F} (hA : ∀ i, i < n → (A i i).IsFin)
    (hr : CholRec n A L) (h : CholShows n L b x) (h0 : 0 < n → (x 0).IsFin) :
    (∀ i j, j ≤ i → i < n → (L i j).IsFin) ∧ ∀ i, i < n → (x i).IsFin := by
  refine ⟨fun i j hj hi => ?_, fun i hi => (h.1 0 (by omega) (h0 (by omega))).1 i (Nat.zero_le _) hi⟩
  obtain ⟨_, h2⟩ := h.1 0 (by omega) (h0 (by omega))
  obtain ⟨_, h4, _, h6⟩ := h2 i hi
  rcases Nat.lt_or_eq_of_le hj with hlt | rfl
  · exact h6 j hlt
  · rw [(hr j hi).2] at h4 ⊢
    refine Fp.fin_sqrt_of (Fp.subUp_sq_ne _ (fun hc => ?_) _) h4
    have := hA j hi
    rw [hc] at this
    exact this

private theorem chol_bound {L : Nat → Nat → Fp F} {b x : Nat → Fp F} (hs : Symm n A) (hr : CholRec n A L)
    (hz : ∀ i, i < n → ¬ IsZ (L i i)) (hf : ∀ i j, j ≤ i → i < n → (L i j).IsFin) (hx : ∀ i, i < n → (x i).IsFin)
    (h : CholSolveRec false n L b x) :
    NearSolves2 n (Fp.mat A)
      (fun i j => gam F.u (3 * n + 1) * (Fp.scale n A i * Fp.scale n A j) +
        (1 + gam F.u (n + 1)) * F.eta * (n + Fp.scale n A (min i j)))
      (fun i => (1 + gam F.u n) * F.eta * (n + Fp.scale n A i +
        (1 + gam F.u n) * ∑ k ∈ range n, Fp.scale n A i * (n + Fp.scale n A k)))
      (fun i => (x i).val) (fun i => (b i).val) := by
  have u0 := F.u_nonneg
  have u1 := F.u_lt_one
  have hη := F.eta_pos.le
  have g1 := gam_nonneg u0 u1 (n + 1)
  have g0 := gam_nonneg u0 u1 n
  have prod : ∀ i j, i < n → j < n → ∑ k ∈ range n, |low (Fp.mat L) i k * low (Fp.mat L) j k| ≤
      Fp.scale n A i * Fp.scale n A j := by
    intro i j hi hj
    refine (Fp.chol_prod_le hr hf hz i j hi hj).trans (le_of_eq ?_)
    unfold Fp.scale Fp.mat
    rw [Real.sqrt_mul (by linarith), Real.sqrt_mul (by linarith)]
    have := Real.mul_self_sqrt (show 0 ≤ 1 + gam F.u (n + 1) by linarith)
    linear_combination (-(Real.sqrt ((A i i).val + (1 + gam F.u (n + 1)) * F.eta * n) *
      Real.sqrt ((A j j).val + (1 + gam F.u (n + 1)) * F.eta * n))) * this
  have entry_le : ∀ i k, i < n → k < n → |low (Fp.mat L) i k| ≤ Fp.scale n A i := by
    intro i k hi hk
    refine abs_le_of_sq_le_sq ?_ (Real.sqrt_nonneg _)
    have h1 := prod i i hi hi
    have h2 := single_le_sum (f := fun k => |low (Fp.mat L) i k * low (Fp.mat L) i k|) (fun k _ => abs_nonneg _)
      (mem_range.mpr hk)
    simp only [abs_mul_self] at h2 h1
    rw [pow_two, pow_two]
    linarith
  have diag_le : ∀ i, i < n → |Fp.mat L i i| ≤ Fp.scale n A i := by
    intro i hi
    have := entry_le i i hi hi
    simpa [low] using this
  refine (Fp.chol_near hs hr hf hz h hx).mono (fun i j hi hj => ?_) fun i hi => ?_
  · exact add_le_add (mul_le_mul_of_nonneg_left (prod i j hi hj) (gam_nonneg u0 u1 _))
      (mul_le_mul_of_nonneg_left (add_le_add le_rfl (diag_le _ (by omega))) (mul_nonneg (by linarith) hη))
  · refine mul_le_mul_of_nonneg_left (add_le_add (add_le_add le_rfl (diag_le i hi))
      (mul_le_mul_of_nonneg_left (sum_le_sum fun k hk => ?_) (by linarith))) (mul_nonneg (by linarith) hη)
    have hk := mem_range.mp hk
    exact mul_le_mul (entry_le i k hi hk) (add_le_add le_rfl (diag_le k hk))
      (add_nonneg (Nat.cast_nonneg n) (abs_nonneg _)) (Real.sqrt_nonneg _)

/-- The factor, where it is finite. -/
theorem C71_chol_factor (mt : MemType) (n : Nat) (l L : List (Fp F)) (A : Nat → Nat → Fp F) (hl : Lower mt n l A)
    (h0 : 0 < n → 0 < (A 0 0).val) (e : Chol.new mt n l = .ok L)
    (hf : ∀ i j, j ≤ i → i < n → (held mt n L i j).IsFin) :
    (∀ i, i < n → 0 < (held mt n L i i).val) ∧
    ∀ i j, j ≤ i → i < n →
      |∑ k ∈ range n, low (Fp.mat (held mt n L)) i k * low (Fp.mat (held mt n L)) j k - (A i j).val| ≤
        gam F.u (n + 1) * ∑ k ∈ range n, |low (Fp.mat (held mt n L)) i k * low (Fp.mat (held mt n L)) j k| +
          (1 + gam F.u (n + 1)) * F.eta * (n + |Fp.mat (held mt n L) j j|) := by
  have u0 := F.u_nonneg
  have u1 := F.u_lt_one
  obtain ⟨_, hr, hz⟩ := chol_ok hl h0 e
  obtain ⟨hp, ρ, t, hρ, ht, eA⟩ := Fp.chol_eta hr hf hz
  refine ⟨hp, fun i j hj hi => ?_⟩
  rw [eA i j hj hi, abs_sub_comm, add_sub_right_comm]
  refine (abs_add_le _ _).trans (add_le_add (sum_fac_le u0 u1 fun k _ => hρ i j k) ((ht i j hj hi).trans ?_))
  refine mul_le_mul_of_nonneg_left ?_ (mul_nonneg (by have := gam_nonneg u0 u1 (n + 1); linarith) F.eta_pos.le)
  split_ifs
  · have := abs_nonneg (Fp.mat (held mt n L) j j); linarith
  · exact le_rfl

/-- Solving, one right-hand side.  The bounds are in terms of the matrix alone. -/
theorem C71_chol_solve_vec (nd : Bool) (mt : MemType) (n : Nat) (l L : List (Fp F)) (A : Nat → Nat → Fp F)
    (hl : Lower mt n l A) (hs : Symm n A) (hA : ∀ i, i < n → (A i i).IsFin) (h0 : 0 < n → 0 < (A 0 0).val)
    (e : Chol.new mt n l = .ok L) (m : Mem (Fp F)) (b r : Nat) (hb : m.len b = n) (hr : r ≠ b) :
    ∃ x, x.length = n ∧ Chol.solveMutVec nd false mt n L b m = .ok (m.setBuf b x) ∧
      Chol.solveVecAt nd false mt n L b r m = .ok (m.setBuf r x) ∧ ((0 < n → (val0 x 0).IsFin) →
      NearSolves2 n (Fp.mat A)
        (fun i j => gam F.u (3 * n + 1) * (Fp.scale n A i * Fp.scale n A j) +
          (1 + gam F.u (n + 1)) * F.eta * (n + Fp.scale n A (min i j)))
        (fun i => (1 + gam F.u n) * F.eta * (n + Fp.scale n A i +
          (1 + gam F.u n) * ∑ k ∈ range n, Fp.scale n A i * (n + Fp.scale n A k)))
        (fun i => (val0 x i).val) (fun i => (m.val b i).val)) := by
  obtain ⟨hlen, hrec, hz⟩ := chol_ok hl h0 e
  obtain ⟨x, hx, hsol, e1, e2, hsh⟩ := C67_chol_solve_vec nd false mt n L (held mt n L)
    ⟨by rw [hlen, hl.1], fun _ _ _ _ => rfl⟩ m b r hb hr
  refine ⟨x, hx, e1, e2, fun hx0 => ?_⟩
  obtain ⟨hf, hxf⟩ := chol_fin hA hrec hsh hx0
  exact chol_bound hs hrec hz hf hxf hsol

/-- Several right-hand sides, column by column. -/
theorem C71_chol_solve_mat (nd : Bool) (mt : MemType) (n : Nat) (l L : List (Fp F)) (A : Nat → Nat → Fp F)
    (hl : Lower mt n l A) (hs : Symm n A) (hA : ∀ i, i < n → (A i i).IsFin) (h0 : 0 < n → 0 < (A 0 0).val)
    (e : Chol.new mt n l = .ok L) (m : Mem (Fp F)) (b : MatRef) (r : Nat) (hb : b.Wf m) (hn : b.n = n)
    (hr : r ≠ b.buf) :
    ∃ x, x.length = n * b.m ∧ Chol.solveMutMat nd false mt n L b m = .ok (m.setBuf b.buf x) ∧
      Chol.solveMatAt nd false mt n L b r m = .ok (m.setBuf r x) ∧ ∀ k, k < b.m →
      (0 < n → (entry b.m x 0 k).IsFin) → NearSolves2 n (Fp.mat A)
        (fun i j => gam F.u (3 * n + 1) * (Fp.scale n A i * Fp.scale n A j) +
          (1 + gam F.u (n + 1)) * F.eta * (n + Fp.scale n A (min i j)))
        (fun i => (1 + gam F.u n) * F.eta * (n + Fp.scale n A i +
          (1 + gam F.u n) * ∑ k ∈ range n, Fp.scale n A i * (n + Fp.scale n A k)))
        (fun i => (entry b.m x i k).val) (fun i => (entry b.m (m b.buf) i k).val) := by
  obtain ⟨hlen, hrec, hz⟩ := chol_ok hl h0 e
  obtain ⟨x, hx, e1, e2, hsol⟩ := C67_chol_solve_mat nd false mt n L (held mt n L)
    ⟨by rw [hlen, hl.1], fun _ _ _ _ => rfl⟩ m b r hb hn hr
  refine ⟨x, hx, e1, e2, fun k hk hx0 => ?_⟩
  obtain ⟨hf, hxf⟩ := chol_fin hA hrec (hsol k hk).2 hx0
  exact chol_bound hs hrec hz hf hxf (hsol k hk).1

/-- The modified factorisation; its pivots can overflow (`C71_mod_false`), so they are assumed finite, and the bounds are in
terms of the factor. -/
theorem C71_mod (nd : Bool) (mt : MemType) (n : Nat) (l L : List (Fp F)) (A : Nat → Nat → Fp F)
    (hl : Lower mt n l A) (hs : Symm n A) (e : Chol.modNew mt n l = .ok L)
    (hd : ∀ i, i < n → (held mt n L i i).IsFin) (m : Mem (Fp F)) (b r : Nat) (hb : m.len b = n) (hr : r ≠ b) :
    ∃ x, x.length = n ∧ Chol.solveMutVec nd true mt n L b m = .ok (m.setBuf b x) ∧
      Chol.solveVecAt nd true mt n L b r m = .ok (m.setBuf r x) ∧ ((0 < n → (val0 x 0).IsFin) →
      NearSolves2 n (Fp.mat A)
        (fun i j => gam F.u (3 * n + 2) * ∑ k ∈ range n,
            |low (Fp.mat (held mt n L)) i k * low (Fp.mat (held mt n L)) j k / (held mt n L k k).val| +
          (1 + gam F.u (2 * n + 1)) * F.eta * ∑ k ∈ range n,
            (1 + 1 / |(held mt n L k k).val| + |low (Fp.mat (held mt n L)) j k|))
        (fun i => (1 + gam F.u n) * F.eta * (n + ∑ k ∈ range n,
          ((1 + gam F.u (n + 1)) * |low (Fp.mat (held mt n L)) i k / (held mt n L k k).val| +
            (1 + gam F.u n) * F.eta) * (n + |(held mt n L k k).val|)))
        (fun i => (val0 x i).val) (fun i => (m.val b i).val)) := by
  rcases C68_mod_cholesky mt n l A hl with e' | ⟨L', e', hlen, hz, hrec⟩
  · rw [e] at e'; cases e'
  · rw [e] at e'; injection e' with e'; subst e'
    obtain ⟨x, hx, hsol, e1, e2, hsh⟩ := C67_chol_solve_vec nd true mt n L (held mt n L)
      ⟨by rw [hlen, hl.1], fun _ _ _ _ => rfl⟩ m b r hb hr
    refine ⟨x, hx, e1, e2, fun hx0 => ?_⟩
    refine Fp.mod_near hs hrec (fun i j hj hi => ?_) hz hsol fun i hi =>
      (hsh.1 0 (by omega) (hx0 (by omega))).1 i (Nat.zero_le _) hi
    rcases Nat.lt_or_eq_of_le hj with hlt | rfl
    · exact ((hsh.1 0 (by omega) (hx0 (by omega))).2 i hi).2.2.2 j hlt
    · exact hd j hi

end chol

/-! ## Tri-diagonal systems -/

/-- What a column of a tri-diagonal system is worth; `D` are the pivots. -/
def TdmaNear (n : Nat) (a : TriDiag (Fp F)) (b x D P : Nat → Fp F) : Prop :=
  NearSolves2 n (Fp.mat (triFull a))
    (fun i j => gam F.u 4 * (if i = j then |(D i).val| +
        (if 0 < i then |(val0 a.dl (i - 1)).val * (P (i - 1)).val| else 0) else |Fp.mat (triFull a) i j|) +
      (if i = j then F.eta else if i + 1 = j then (1 + gam F.u 3) * F.eta * |(D i).val| else 0))
    (fun i => (1 + gam F.u 3) * F.eta * (2 * |(D i).val| + (if 0 < i then |(val0 a.dl (i - 1)).val| else 0) + 1))
    (fun i => (x i).val) (fun i => (b i).val)

/-- One right-hand side, `b = x` allowed. -/
theorem C71_tdma_vec (nd : Bool) (a : TriDiag (Fp F)) (n : Nat) (hw : TriWf a n) (hn : 2 ≤ n) (b x : Nat)
    (m : Mem (Fp F)) (hb : m.len b = n) (hx : m.len x = n) :
    ∃ l m' D P Q, Tdma.solveVec nd a b x m = .ok m' ∧ Stores m m' x l ∧ l.length = n ∧
      TdmaEq n a (val0 (m b)) (val0 l) D P Q ∧
      ((val0 l 0).IsFin → (∀ i, i < n → (D i).IsFin) → TdmaNear n a (val0 (m b)) (val0 l) D P) := by
  obtain ⟨l, m', D, P, Q, e, hs, hl, hq, hsh⟩ := C67_tdma_vec nd a n hw hn b x m hb hx
  exact ⟨l, m', D, P, Q, e, hs, hl, hq, fun h0 hD =>
    Fp.tdma_near hq (fun i hi => ((hsh.1 0 (by omega) h0).2 i (Nat.zero_le _) hi).1) hD⟩

/-- Several right-hand sides. -/
theorem C71_tdma_mat (nd : Bool) (a : TriDiag (Fp F)) (n : Nat) (hw : TriWf a n) (hn : 2 ≤ n) (b x : MatRef)
    (m : Mem (Fp F)) (hbw : b.Wf m) (hxw : x.Wf m) (hbn : b.n = n) (hxn : x.n = n) (hxm : x.m = b.m) :
    ∃ l m' D P, Tdma.solveMat nd a b x m = .ok m' ∧ Stores m m' x.buf l ∧ l.length = n * b.m ∧
      ∀ k, k < b.m → (∃ Q, TdmaEq n a (fun i => entry b.m (m b.buf) i k) (fun i => entry b.m l i k) D P Q) ∧
        ((entry b.m l 0 k).IsFin → (∀ i, i < n → (D i).IsFin) →
          TdmaNear n a (fun i => entry b.m (m b.buf) i k) (fun i => entry b.m l i k) D P) := by
  obtain ⟨l, m', D, P, e, hs, hl, hq⟩ := C67_tdma_mat nd a n hw hn b x m hbw hxw hbn hxn hxm
  refine ⟨l, m', D, P, e, hs, hl, fun k hk => ?_⟩
  obtain ⟨Q, hq, hsh⟩ := hq k hk
  exact ⟨⟨Q, hq⟩, fun h0 hD =>
    Fp.tdma_near hq (fun i hi => ((hsh.1 0 (by omega) h0).2 i (Nat.zero_le _) hi).1) hD⟩

/-! ## Incomplete LU -/

section ilu
variable {M : Type} {ops : MatOps M (Fp F)} {ok : M → Prop}

/-- The factors, where they are finite: on the pattern of `A` their product is `A` up to rounding errors. -/
theorem C71_ilu_factor (hst : Storage ops ok) (n : Nat) (a f : M) (A : Nat → Nat → Fp F) (hok : ok a)
    (hA : Shows ops n a A) (e : Ilu.new ops a = .ok f) :
    ∃ G, ok f ∧ Shows ops n f G ∧ (∀ i j, i < n → j < n → IsZ (A i j) → IsZ (G i j)) ∧
      (∀ i j, i < n → j < n → ¬ IsZ (A i j) → (G i j).IsFin → (j < i → (G j j).IsFin) →
        |luProd n (Fp.mat G) i j - (A i j).val| ≤
          gam F.u n * ∑ k ∈ range n, |unitLow (Fp.mat G) i k * upper (Fp.mat G) k j| +
            (1 + gam F.u n) * F.eta * (n + if j < i then |Fp.mat G j j| else 0)) := by
  rcases C68_ilu hst hst n a a A hok hok hA hA with ⟨e', _⟩ | ⟨f', _, G, e', _, hf, _, hG, _, hr⟩
  · rw [e] at e'; cases e'
  · rw [e] at e'; injection e' with e'; subst e'
    refine ⟨G, hf, hG, fun i j hi hj h => by rw [(hr i j hi hj).1 h]; exact h,
      fun i j hi hj ha hf1 hf2 => ?_⟩
    obtain ⟨ρ, t, hρ, ht, ee⟩ := Fp.ilu_eta hi hj (hr i j hi hj) ha hf1 hf2
    rw [show (A i j).val = _ from ee, abs_sub_comm, add_sub_right_comm]
    exact (abs_add_le _ _).trans (add_le_add (sum_fac_le F.u_nonneg F.u_lt_one fun k _ => hρ k) ht)

/-- Solving with the factors (their diagonal finite, see `C71_tdma_false`), against their product. -/
theorem C71_ilu_solve (hst : Storage ops ok) (n : Nat) (a : M) (G : Nat → Nat → Fp F) (hok : ok a)
    (hG : Shows ops n a G) (hd : ∀ i, i < n → (G i i).IsFin) (b : List (Fp F)) (hb : b.length = n) :
    ∃ x, Ilu.solve ops a b = .ok x ∧ x.length = n ∧ ((0 < n → (val0 x 0).IsFin) →
      NearSolves2 n (luProd n (Fp.mat G))
        (fun i j => gam F.u (2 * n) * ∑ k ∈ range n, |unitLow (Fp.mat G) i k * upper (Fp.mat G) k j|)
        (fun i => (1 + gam F.u n) * F.eta *
          (n + (1 + gam F.u n) * ∑ k ∈ range n, |unitLow (Fp.mat G) i k| * (n + |Fp.mat G k k|)))
        (fun i => (val0 x i).val) (fun i => (val0 b i).val)) := by
  obtain ⟨x, e, hx, h, hsh, _⟩ := C67_ilu_solve hst n a G hok hG b hb
  exact ⟨x, e, hx, fun h0 => Fp.ilu_near h
    (fun i hi => ((hsh 0 (by omega) (h0 (by omega))).2 i (Nat.zero_le _) hi).1) hd⟩

end ilu

/-! ## Pivots that overflow

A finite solution is not enough: a pivot that overflows is not seen, its quotients are zero. -/

/-- A power of two. -/
noncomputable def pw (F : Fmt) (e : ℤ) (h : F.emin ≤ e ∧ e < F.emax) : Fp F := .fin false (2 ^ e) (F.isMag_pow h.1 h.2)

theorem pw_val (e : ℤ) (h : F.emin ≤ e ∧ e < F.emax) : (pw F e h).val = 2 ^ e := by simp [pw, Fp.val]

theorem mul_over {a b : Fp F} (ha : a.IsFin) (hb : b.IsFin) (h : F.top ≤ |a.val * b.val|) :
    ∃ s, a * b = .inf s := by
  cases e : a * b with
  | nan =>
    obtain ⟨s, x, hx, rfl⟩ := ha.cases
    obtain ⟨t, y, hy, rfl⟩ := hb.cases
    exact absurd e (Fp.round_ne_nan _ _)
  | inf s => exact ⟨s, rfl⟩
  | fin s x hx =>
    have hf : (a * b).IsFin := by rw [e]; trivial
    have h1 := ((Fp.isFin_mul _ _).mp hf).2.2
    have h2 := F.rnd_mono h
    rw [F.rnd_top] at h2
    linarith

private theorem add_over {a : Fp F} (ha : a.IsFin) (s : Bool) : a + .inf s = .inf s := by
  obtain ⟨t, y, hy, rfl⟩ := ha.cases
  rfl

private theorem div_one_fin {a : Fp F} (ha : a.IsFin) : (a / 1).IsFin ∧ (a / 1).val = a.val := by
  obtain ⟨t, y, hy, rfl⟩ := ha.cases
  have hr : F.rnd |(Fp.fin t y hy : Fp F).val| = y := by
    have : |(Fp.fin t y hy : Fp F).val| = y := by cases t <;> simp [Fp.val, abs_of_nonneg hy.1]
    rw [this, hy.2.1]
  have hr' : F.rnd (Fp.fin t y hy : Fp F).val = (Fp.fin t y hy : Fp F).val := by
    cases t
    · simp [Fp.val, hy.2.1]
    · simp [Fp.val, F.rnd_neg, hy.2.1]
  have h1 : ((Fp.fin t y hy : Fp F) / 1).IsFin := (Fp.isFin_div _ _).mpr
    ⟨trivial, by simp [Fp.one_eq], by rw [Fp.isZ_iff]; simp, fun _ => by
      rw [Fp.val_one, div_one, hr]; exact hy.2.2⟩
  exact ⟨h1, by rw [Fp.val_div h1 Fp.isFin_one, Fp.val_one, div_one, hr']⟩

private theorem div_one_zero {a : Fp F} (ha : IsZ a) : IsZ (a / 1) := by
  obtain ⟨h1, h2⟩ := (Fp.isZ_iff _).mp ha
  obtain ⟨h3, h4⟩ := div_one_fin h1
  exact (Fp.isZ_iff _).mpr ⟨h3, by rw [h4, h2]⟩

theorem mul_zero_fin {a z : Fp F} (ha : a.IsFin) (hz : IsZ z) : IsZ (a * z) := by
  obtain ⟨h1, h2⟩ := (Fp.isZ_iff _).mp hz
  have : (a * z).IsFin := (Fp.isFin_mul _ _).mpr ⟨ha, h1, by rw [h2, mul_zero, abs_zero, F.rnd_zero]; exact F.top_pos⟩
  exact (Fp.isZ_iff _).mpr ⟨this, by rw [Fp.val_mul this, h2, mul_zero, F.rnd_zero]⟩

private theorem sub_zero_fin {a z : Fp F} (ha : a.IsFin) (hz : IsZ z) : (a - z).IsFin ∧ (a - z).val = a.val := by
  rw [Fp.sub_eq]; exact Fp.add_zero_val ha (Fp.isZ_neg hz)

/-- Rows `(1, -w)`, `(2, 0)` with `w` the largest power of two and `b = (0, w)`: the solution is `(w/2, 1/2)`, all numbers
are in the format, and the solver returns zeros. -/
theorem C71_tdma_false (h1 : 2 ≤ F.emax) (h2 : F.emin ≤ -1) :
    ∃ (a : TriDiag (Fp F)) (b z : List (Fp F)), TriWf a 2 ∧ b.length = 2 ∧ (∀ i, i < 2 → (val0 z i).IsFin) ∧
      Solves 2 (Fp.mat (triFull a)) (fun i => (val0 z i).val) (fun i => (val0 b i).val) ∧
      (∀ i, i < 2 → (val0 z i).val ≠ 0) ∧
      ∀ nd, ∃ l m', Tdma.solveVec nd a 0 0 (Mem.ofList [b]) = .ok m' ∧ Stores (Mem.ofList [b]) m' 0 l ∧ l.length = 2 ∧
        ∀ i, i < 2 → IsZ (val0 l i) := by
  have hp := F.p_le
  have hp1 := F.one_le_p
  have q1 : F.emin ≤ F.emax - 1 ∧ F.emax - 1 < F.emax := by omega
  have q2 : F.emin ≤ F.emax - 2 ∧ F.emax - 2 < F.emax := by omega
  have q3 : F.emin ≤ 1 ∧ 1 < F.emax := by omega
  have q4 : F.emin ≤ -1 ∧ -1 < F.emax := by omega
  set w := pw F (F.emax - 1) q1 with hw
  set a : TriDiag (Fp F) := ⟨[pw F 1 q3], [1, 0], [-w]⟩ with ha
  have ew : (2 : ℝ) ^ (F.emax - 1) = 2 * 2 ^ (F.emax - 2) := by
    rw [show F.emax - 1 = 1 + (F.emax - 2) by ring, zpow_add₀ (by norm_num), zpow_one]
  have wv : w.val = 2 ^ (F.emax - 1) := pw_val _ _
  have wf : TriWf a 2 := ⟨rfl, rfl, rfl, by decide⟩
  refine ⟨a, [0, w], [pw F (F.emax - 2) q2, pw F (-1) q4], wf, rfl, fun i hi => ?_, fun i hi => ?_, fun i hi => ?_,
    fun nd => ?_⟩
  · interval_cases i <;> exact Fp.isFin_fin _ _ _
  · have p : (2 : ℝ) ^ (-1 : ℤ) = 1 / 2 := by norm_num
    interval_cases i
    · simp [mulVec, sum_range_succ, Fp.mat, triFull, ha, val0, pw_val, wv, ew]
      ring
    · simp [mulVec, sum_range_succ, Fp.mat, triFull, ha, val0, pw_val, wv, ew]
  · interval_cases i
    · simp only [val0, List.getD_cons_zero, pw_val]; positivity
    · simp [val0, pw_val]
  · obtain ⟨l, m', D, P, Q, e, hs, hl, hq, hsh⟩ := C67_tdma_vec nd a 2 wf (by omega) 0 0
      (Mem.ofList [[0, w]]) rfl rfl
    have d0 : D 0 = 1 := hq.d0
    have p0 : P 0 = -(-w) / 1 := by have := hq.p 0 (by omega); rw [d0] at this; exact this
    have wfin : w.IsFin := Fp.isFin_fin _ _ _
    obtain ⟨pf, pv⟩ := div_one_fin ((Fp.isFin_neg _).mpr ((Fp.isFin_neg _).mpr wfin))
    rw [← p0, Fp.val_neg, Fp.val_neg, neg_neg] at pv
    rw [← p0] at pf
    obtain ⟨s, hs1⟩ := mul_over (a := pw F 1 q3) (b := P 0) (Fp.isFin_fin _ _ _) pf (by
      rw [pv, pw_val, wv, abs_of_pos (by positivity), ← zpow_add₀ (by norm_num)]
      unfold Fmt.top
      rw [show 1 + (F.emax - 1) = F.emax by ring])
    have d1 : D 1 = .inf s := by
      have : D 1 = 0 + pw F 1 q3 * P 0 := hq.d 0 (by omega)
      rw [this, hs1]; exact add_over Fp.isFin_zero s
    have z0 : IsZ (Q 0) := by
      have : Q 0 = 0 / D 0 := hq.q0
      rw [this, d0]; exact div_one_zero Fp.isZ_zero
    have z1 : IsZ (Q 1) := by
      have : Q 1 = (w - pw F 1 q3 * Q 0) / D 1 := hq.q 0 (by omega)
      rw [this, d1]
      exact Fp.div_inf (sub_zero_fin wfin (mul_zero_fin (Fp.isFin_fin _ _ _) z0)).1 s
    have x1 : IsZ (val0 l 1) := by have : val0 l 1 = Q 1 := hq.last; rw [this]; exact z1
    refine ⟨l, m', e, hs, hl, fun i hi => ?_⟩
    interval_cases i
    · rw [hq.back 0 (by omega)]
      exact Fp.isZ_add (mul_zero_fin pf x1) z0
    · exact x1

/-- Rows `(1, w)`, `(w, 0)` and `b = (0, w)`: the solution is `(1, -1/w)`, and the modified Cholesky solver returns zeros. -/
theorem C71_mod_false (h1 : 2 ≤ F.emax) (h2 : F.emin + F.emax ≤ 1) (nd : Bool) (mt : MemType) (l : List (Fp F))
    (hl : Lower mt 2 l fun i j => if i = j then (if i = 0 then 1 else 0) else
      pw F (F.emax - 1) ⟨by have := F.p_le; have := F.one_le_p; omega, by omega⟩) :
    let w := pw F (F.emax - 1) ⟨by have := F.p_le; have := F.one_le_p; omega, by omega⟩
    (∃ z : List (Fp F), (∀ i, i < 2 → (val0 z i).IsFin) ∧ (∀ i, i < 2 → (val0 z i).val ≠ 0) ∧
      Solves 2 (Fp.mat fun i j => if i = j then (if i = 0 then 1 else 0) else w) (fun i => (val0 z i).val)
        (fun i => (val0 [0, w] i).val)) ∧
    ∃ L x, Chol.modNew mt 2 l = .ok L ∧ x.length = 2 ∧
      Chol.solveMutVec nd true mt 2 L 0 (Mem.ofList [[0, w]]) = .ok ((Mem.ofList [[0, w]]).setBuf 0 x) ∧
      ∀ i, i < 2 → IsZ (val0 x i) := by
  intro w
  have wv : w.val = 2 ^ (F.emax - 1) := pw_val _ _
  have wfin : w.IsFin := Fp.isFin_fin _ _ _
  have wnz : ¬ IsZ w := by
    rw [Fp.isZ_iff]; rintro ⟨_, h⟩; rw [wv] at h; exact absurd h (by positivity)
  refine ⟨⟨[1, -pw F (1 - F.emax) ⟨by omega, by omega⟩], fun i hi => ?_, fun i hi => ?_, fun i hi => ?_⟩, ?_⟩
  · interval_cases i
    · exact Fp.isFin_one
    · exact (Fp.isFin_neg _).mpr (Fp.isFin_fin _ _ _)
  · interval_cases i
    · simp [val0]
    · simp only [val0, List.getD_cons_succ, List.getD_cons_zero, Fp.val_neg, pw_val]
      have : (0 : ℝ) < 2 ^ (1 - F.emax) := by positivity
      linarith
  · have e : (2 : ℝ) ^ (F.emax - 1) * 2 ^ (1 - F.emax) = 1 := by
      rw [← zpow_add₀ (by norm_num), show F.emax - 1 + (1 - F.emax) = 0 by ring, zpow_zero]
    interval_cases i
    · simp [mulVec, sum_range_succ, Fp.mat, val0, pw_val, wv]
      linarith
    · simp [mulVec, sum_range_succ, Fp.mat, val0, wv]
  · have fac : ∀ {L : Nat → Nat → Fp F} {r : Nat}, (∀ i j, j ≤ i → i ≤ r → L i j =
        subUp (fun k => L i k * L j k / L k k) 0 j (if i = j then (if i = 0 then 1 else 0) else w)) →
        L 0 0 = 1 ∧ (1 ≤ r → L 1 0 = w ∧ ∃ s, L 1 1 = .inf s) := by
      intro L r h
      have e0 : L 0 0 = 1 := by simpa [subUp] using h 0 0 (le_refl _) (Nat.zero_le _)
      refine ⟨e0, fun hr => ?_⟩
      have e1 : L 1 0 = w := by simpa [subUp] using h 1 0 (Nat.zero_le _) hr
      have e2 : L 1 1 = 0 - w * w / 1 := by simpa [subUp, e0, e1] using h 1 1 (le_refl _) hr
      obtain ⟨s, hs⟩ := mul_over wfin wfin (by
        rw [wv, abs_of_pos (by positivity), ← zpow_add₀ (by norm_num)]
        exact zpow_le_zpow_right₀ (by norm_num) (by omega))
      obtain ⟨t, ht⟩ := Fp.inf_div_fin s (b := (1 : Fp F)) Fp.isFin_one
      exact ⟨e1, !t, by rw [e2, hs, ht, Fp.sub_eq, Fp.neg_inf]; exact add_over Fp.isFin_zero _⟩
    have raw := Chol.modNew_raw (fun v _ => Fp.divAt v) mt 2 l hl.len.ge
    rcases C68_mod_cholesky mt 2 l _ hl with e | ⟨L, e, hlen, hz, hr⟩
    · exfalso
      rw [e] at raw
      obtain ⟨_, r, L, hS⟩ := raw
      have hlt := hS.lt
      obtain ⟨f0, f1⟩ := fac (L := fun a b => val0 L (cIndex mt 2 a b)) (r := r) fun i j hj hi => by
        rw [hS.fac i j hj hi, hl.val i j hj (by omega)]
      have z := hS.zero
      interval_cases r
      · rw [show val0 L (cIndex mt 2 0 0) = 1 from f0, Fp.isZ_iff] at z; simp at z
      · obtain ⟨_, s, h⟩ := f1 (le_refl _)
        rw [show val0 L (cIndex mt 2 1 1) = _ from h, Fp.isZ_iff] at z; exact z.1
    · obtain ⟨f0, f1⟩ := fac (L := held mt 2 L) (r := 1) fun i j hj hi => hr i j hj (by omega)
      obtain ⟨f1, s, f2⟩ := f1 (le_refl _)
      obtain ⟨x, hx, ⟨y, hfw, hb⟩, ex, _⟩ := C67_chol_solve_vec nd true mt 2 L (held mt 2 L)
        ⟨by rw [hlen, hl.1], fun _ _ _ _ => rfl⟩ (Mem.ofList [[0, w]]) 0 1 rfl (by omega)
      refine ⟨L, x, e, hx, ex, ?_⟩
      have hfw : FwdUnitRec 2 (fun i j => held mt 2 L i j / held mt 2 L j j) _ y := hfw
      have y0 : y 0 = 0 := by simpa [subUp, Mem.ofList, val0] using hfw 0 (by omega)
      have y1 : (y 1).IsFin := by
        have h : y 1 = w - w / 1 * 0 := by
          simpa [subUp, Mem.ofList, val0, f0, f1, y0] using hfw 1 (by omega)
        rw [h]
        exact (sub_zero_fin wfin (mul_zero_fin (div_one_fin wfin).1 Fp.isZ_zero)).1
      have x1 : IsZ (val0 x 1) := by
        have h : val0 x 1 = y 1 / .inf s := by simpa [subUp, f2] using hb 1 (by omega)
        rw [h]; exact Fp.div_inf y1 s
      have x0 : IsZ (val0 x 0) := by
        have h : val0 x 0 = (0 - w * val0 x 1) / 1 := by simpa [subUp, f0, f1, y0] using hb 0 (by omega)
        rw [h]; exact div_one_zero (Fp.isZ_sub Fp.isZ_zero (mul_zero_fin wfin x1))
      intro i hi
      interval_cases i
      · exact x0
      · exact x1

/-! ## Concrete cases -/

example := C71_tdma_false (F := binary64) (by decide) (by decide)
example := C71_tdma_false (F := binary32) (by decide) (by decide)
example (nd : Bool) := C71_mod_false (F := binary64) (by decide) (by decide) nd .square
  [1, pw _ (binary64.emax - 1) (by decide), pw _ (binary64.emax - 1) (by decide), 0] ⟨rfl, by
    intro i j hj hi
    interval_cases i <;> interval_cases j <;> rfl⟩

-- the identity: everything is finite, so the bounds hold
example : ∃ l m', Tdma.solveVec true (⟨[0], [1, 1], [0]⟩ : TriDiag (Fp F)) 0 0 (Mem.ofList [[1, 1]]) = .ok m' ∧
    Stores (Mem.ofList [[1, 1]]) m' 0 l ∧ ∃ D P, TdmaNear 2 (⟨[0], [1, 1], [0]⟩ : TriDiag (Fp F)) (val0 [1, 1]) (val0 l) D P := by
  obtain ⟨l, m', D, P, Q, e, hs, hl, hq, h⟩ := C71_tdma_vec true (⟨[0], [1, 1], [0]⟩ : TriDiag (Fp F)) 2
    ⟨rfl, rfl, rfl, by decide⟩ (by omega) 0 0 (Mem.ofList [[1, 1]]) rfl rfl
  have d0 : D 0 = 1 := hq.d0
  have p0 : IsZ (P 0) := by
    have : P 0 = -0 / D 0 := hq.p 0 (by omega)
    rw [this, d0]; exact div_one_zero (Fp.isZ_neg Fp.isZ_zero)
  have d1 : (D 1).IsFin ∧ (D 1).val = 1 := by
    have : D 1 = 1 + 0 * P 0 := hq.d 0 (by omega)
    rw [this]
    have := Fp.add_zero_val (a := (1 : Fp F)) Fp.isFin_one (mul_zero_fin Fp.isFin_zero p0)
    simpa using this
  have q0 : (Q 0).IsFin := by
    have : Q 0 = 1 / D 0 := hq.q0
    rw [this, d0]; exact (div_one_fin Fp.isFin_one).1
  have q1 : (Q 1).IsFin := by
    have : Q 1 = (1 - 0 * Q 0) / D 1 := hq.q 0 (by omega)
    have hm : IsZ (0 * Q 0) := (Fp.zero_mul_cases Fp.isZ_zero _).resolve_right fun hn => by
      have := (Fp.isFin_mul (0 : Fp F) (Q 0)).mpr ⟨Fp.isFin_zero, q0, by simp [F.rnd_zero, F.top_pos]⟩
      rw [hn] at this; exact this
    obtain ⟨s1, s2⟩ := sub_zero_fin (a := (1 : Fp F)) Fp.isFin_one hm
    rw [this, Fp.isFin_div]
    refine ⟨s1, fun hc => ?_, fun hc => ?_, fun _ => ?_⟩
    · rw [hc] at d1; exact d1.1
    · have := ((Fp.isZ_iff _).mp hc).2; rw [d1.2] at this; exact one_ne_zero this
    · rw [s2, d1.2, Fp.val_one, div_one, abs_one, F.isMag_one.2.1]; exact F.isMag_one.2.2
  have x1 : (val0 l 1).IsFin := by have : val0 l 1 = Q 1 := hq.last; rw [this]; exact q1
  have x0 : (val0 l 0).IsFin := by
    rw [hq.back 0 (by omega)]
    have hz : IsZ (P 0 * val0 l 1) := (Fp.zero_mul_cases p0 _).resolve_right fun hn => by
      have := (Fp.isFin_mul (P 0) (val0 l 1)).mpr ⟨((Fp.isZ_iff _).mp p0).1, x1, by
        simp [((Fp.isZ_iff _).mp p0).2, F.rnd_zero, F.top_pos]⟩
      rw [hn] at this; exact this
    rw [Fp.isFin_add]
    refine ⟨((Fp.isZ_iff _).mp hz).1, q0, ?_⟩
    rw [((Fp.isZ_iff _).mp hz).2, zero_add]
    obtain ⟨t, y, hy, e⟩ := q0.cases
    rw [e]
    have : |(Fp.fin t y hy : Fp F).val| = y := by cases t <;> simp [Fp.val, abs_of_nonneg hy.1]
    rw [this, hy.2.1]; exact hy.2.2
  exact ⟨l, m', e, hs, D, P, h x0 fun i hi => by
    interval_cases i
    · rw [d0]; exact Fp.isFin_one
    · exact d1.1⟩

-- a matrix with one entry is accepted, its factor and the solution of `x = 1` are finite
example : ∃ L x, Chol.new .square 1 [(1 : Fp F)] = .ok L ∧
    Chol.solveMutVec true false .square 1 L 0 (Mem.ofList [[1]]) = .ok ((Mem.ofList [[1]]).setBuf 0 x) ∧
    (val0 x 0).IsFin ∧ (val0 x 0).val = 1 := by
  have rt : Sqrt.sqrt (1 : Fp F) = 1 := by
    rw [Fp.sqrt_eq, Fp.one_eq]
    simp only [Fp.sqrt, if_neg (one_ne_zero (α := ℝ)), Real.sqrt_one]
    exact Fp.round_val false 1 F.isMag_one
  have dv : (1 : Fp F) / 1 = 1 := by
    rw [Fp.div_eq, Fp.one_eq]
    simp only [Fp.div, if_neg (one_ne_zero (α := ℝ))]
    rw [show (Fp.fin false 1 F.isMag_one : Fp F).val / (Fp.fin false 1 F.isMag_one : Fp F).val =
      (Fp.fin false 1 F.isMag_one : Fp F).val by simp [Fp.val]]
    exact Fp.round_val false 1 F.isMag_one
  have hl : Lower .square 1 [(1 : Fp F)] (fun _ _ => 1) := ⟨rfl, by
    intro i j hj hi
    interval_cases i
    interval_cases j
    rfl⟩
  obtain ⟨L, hL⟩ : ∃ L, Chol.new .square 1 [(1 : Fp F)] = .ok L := by
    obtain ⟨⟨c, L⟩, e, h | h⟩ := Chol.decomp_raw Fp.sq_ok .square 1 [(1 : Fp F)] hl.len.ge
    · obtain ⟨hc, _⟩ := h
      simp only at hc
      subst hc
      exact ⟨L, by simp [Chol.new, e]⟩
    · have hlt := h.lt
      obtain rfl : c = 0 := by simp only at hlt; omega
      exact ⟨L, by simp [Chol.new, e]⟩
  obtain ⟨hlen, hrec, _⟩ := chol_ok hl (fun _ => by simp) hL
  obtain ⟨x, hx, ⟨y, hfw, hb⟩, e1, _⟩ := C67_chol_solve_vec true false .square 1 L (held .square 1 L)
    ⟨by rw [hlen, hl.1], fun _ _ _ _ => rfl⟩ (Mem.ofList [[1]]) 0 1 rfl (by omega)
  have l0 : held .square 1 L 0 0 = 1 := by
    have := (hrec 0 (by omega)).2
    simpa [subUp, rt] using this
  have y0 : y 0 = 1 := by
    have hfw : FwdSubRec 1 (held .square 1 L) _ y := hfw
    simpa [subUp, l0, dv, Mem.ofList, val0] using hfw 0 (by omega)
  have x0 : val0 x 0 = 1 := by simpa [subUp, l0, y0, dv] using hb 0 (by omega)
  exact ⟨L, x, hL, e1, by rw [x0]; exact ⟨Fp.isFin_one, Fp.val_one⟩⟩

end Props
end Lalib
