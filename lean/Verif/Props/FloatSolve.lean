import Verif.Proofs.FloatChol
import Verif.Proofs.FloatTdma
import Verif.Proofs.Binary
import Verif.Props.Eval

/-! # Properties C58 to C61: the solvers in rounded arithmetic

Every solver returns the exact solution of a system whose matrix differs from the given one by rounding errors only
(`NearSolves`, `Verif/Spec/Float.lean`); the bounds are explicit. -/

namespace Lalib.Props

open Lalib Finset

variable {R : Rounding}

/-! ## C58: triangular systems -/

/-- What a near solution is worth: its residual. -/
theorem C58_residual (n : ℕ) (A E : ℕ → ℕ → ℝ) (x b : ℕ → ℝ) (h : NearSolves n A E x b) (i : ℕ) (hi : i < n) :
    |mulVec n A x i - b i| ≤ ∑ j ∈ range n, E i j * |x j| := by
  obtain ⟨dA, hd, hs⟩ := h
  have e : mulVec n A x i - b i = -∑ j ∈ range n, dA i j * x j := by
    rw [← hs i hi]
    unfold mulVec
    rw [← sum_sub_distrib, ← sum_neg_distrib]
    exact sum_congr rfl fun j _ => by ring
  rw [e, abs_neg]
  refine (abs_sum_le_sum_abs _ _).trans (sum_le_sum fun j hj => ?_)
  rw [abs_mul]
  exact mul_le_mul_of_nonneg_right (hd i j hi (mem_range.mp hj)) (abs_nonneg _)

/-- Back substitution: every entry of the matrix is changed by a relative error of at most `gam n`. -/
theorem C58_back_sub (a : UTri (Fl R)) (U : Nat → Nat → Fl R) (y : List (Fl R)) (hy : y.length = a.n)
    (hU : ∀ i j, i < a.n → j < a.n → a.get i j = .ok (U i j)) (hd : ∀ i, i < a.n → U i i ≠ 0) :
    ∃ x, a.backSub y = .ok x ∧ x.length = a.n ∧
      NearSolves a.n (Fl.mat U) (fun i j => gam R.u a.n * |Fl.mat U i j|) (fun i => (val0 x i).val)
        (fun i => (val0 y i).val) := by
  have h0 := R.u_nonneg
  have h1 := R.u_lt_one
  obtain ⟨x, e, hx, hr⟩ := C55_back_sub a U y hy hU hd
  obtain ⟨τ, hτ, et⟩ := Fl.back_near hr hd
  have up : ∀ i j, i < a.n → j < a.n → upper (Fl.mat U) i j = Fl.mat U i j := by
    intro i j hi hj
    unfold upper
    split_ifs with hij
    · rfl
    · have := hU i j hi hj
      have z : a.get i j = .ok 0 := by unfold UTri.get; rw [if_neg hij]
      rw [z] at this
      injection this with this
      show 0 = (U i j).val
      rw [← this]; rfl
  refine ⟨x, e, hx, fun i j => Fl.mat U i j * τ i j - Fl.mat U i j, fun i j _ _ => term_fac_le h0 h1 (hτ i j),
    fun i hi => ?_⟩
  have et := et i hi
  show mulVec _ _ _ _ = (val0 y i).val
  rw [et]
  unfold mulVec
  refine sum_congr rfl fun j hj => ?_
  beta_reduce
  rw [up i j hi (mem_range.mp hj), add_sub_cancel]

/-! ## C59: Cholesky factorisation -/

/-- Both factorisations take a matrix by its lower triangle. -/
private theorem chol_ok {mt : MemType} {n : Nat} {l L : List (Fl R)} {A : Nat → Nat → Fl R} (hl : Lower mt n l A)
    (h0 : 0 < (A 0 0).val) (e : Chol.new mt n l = .ok L) :
    L.length = l.length ∧ (∀ i, i < n → held mt n L i i ≠ 0) ∧ CholRec n A (held mt n L) := by
  rcases C55_cholesky Fl.sqrt_ne_zero mt n l A hl (not_lt.mpr h0.le) ((Fl.ne_zero_iff _).mpr h0.ne') with
    ⟨L', e', h⟩ | e'
  · rw [e] at e'; injection e' with e'; subst e'; exact h
  · rw [e] at e'; cases e'

/-- The computed factor: positive diagonal, and its product with its transpose is `A` up to rounding errors.  The second
bound is in terms of `A` alone. -/
theorem C59_factor (mt : MemType) (n : Nat) (l L : List (Fl R)) (A : Nat → Nat → Fl R) (hl : Lower mt n l A)
    (hs : Symm n A) (h0 : 0 < (A 0 0).val) (e : Chol.new mt n l = .ok L) :
    (∀ i, i < n → 0 < (held mt n L i i).val) ∧
    ∀ i j, i < n → j < n →
      |∑ k ∈ range n, low (Fl.mat (held mt n L)) i k * low (Fl.mat (held mt n L)) j k - (A i j).val| ≤
        gam R.u (n + 1) * ∑ k ∈ range n, |low (Fl.mat (held mt n L)) i k * low (Fl.mat (held mt n L)) j k| ∧
      |∑ k ∈ range n, low (Fl.mat (held mt n L)) i k * low (Fl.mat (held mt n L)) j k - (A i j).val| ≤
        gam R.u (2 * n + 2) * (Real.sqrt (A i i).val * Real.sqrt (A j j).val) := by
  have u0 := R.u_nonneg
  have u1 := R.u_lt_one
  obtain ⟨_, hd, hr⟩ := chol_ok hl h0 e
  refine ⟨(Fl.chol_fac hr hd).1, fun i j hi hj => ?_⟩
  have b := Fl.chol_prod_err hs hr hd i j hi hj
  refine ⟨b, b.trans ?_⟩
  refine (mul_le_mul_of_nonneg_left ((Fl.chol_prod_le hr hd).2 i j hi hj) (gam_nonneg u0 u1 _)).trans ?_
  rw [← mul_assoc]
  refine mul_le_mul_of_nonneg_right ?_ (mul_nonneg (Real.sqrt_nonneg _) (Real.sqrt_nonneg _))
  have := gam_mul_le u0 u1 (n + 1) (n + 1)
  rwa [show n + 1 + (n + 1) = 2 * n + 2 by omega] at this

/-- When the constructor must succeed: `x^T A x ≥ lam * sum_p A_pp x_p^2` for all `x`, with `lam` larger than `n`
times the constant for `6 (n+1)` roundings. -/
theorem C59_accepts (mt : MemType) (n : Nat) (l : List (Fl R)) (A : Nat → Nat → Fl R) (hl : Lower mt n l A)
    (hs : Symm n A) (hp : ∀ p, p < n → 0 < (A p p).val) (lam : ℝ) (hlam : n * gam R.u (6 * (n + 1)) < lam)
    (hq : ∀ x : ℕ → ℝ, lam * ∑ p ∈ range n, (A p p).val * x p ^ 2 ≤
      ∑ p ∈ range n, ∑ q ∈ range n, x p * (A p q).val * x q) :
    ∃ L, Chol.new mt n l = .ok L := by
  have u0 := R.u_nonneg
  have u1 := R.u_lt_one
  obtain ⟨⟨c, L⟩, e, h | h⟩ := Chol.decomp_raw (sq_ok Fl.sqrt_ne_zero) mt n l hl.len.ge
  · obtain ⟨hc, _⟩ := h
    simp only at hc
    subst hc
    exact ⟨L, by simp [Chol.new, e]⟩
  · simp only at h
    exfalso
    have hU := h.upto hl.val (le_refl c)
    have hlt := h.lt
    have dne : ∀ r, r < c → val0 L (cIndex mt n r r) ≠ 0 := fun r hr => by
      rw [h.diag r hr]; exact Fl.sqrt_ne_zero _ (h.pos r hr).1 (h.pos r hr).2
    have main := chol_breakdown u0 u1 (n := n) (K := n + 1) (i := c) (A := Fl.mat A)
      (L := fun i j => (val0 L (cIndex mt n i j)).val) (lam := lam) hlt
      (fun i j hi hj => by unfold Fl.mat; rw [hs i j hi hj]) hp
      (le_trans (mul_nonneg (Nat.cast_nonneg n) (gam_nonneg u0 u1 _)) hlam.le) hq
      (fun r hr => by
        obtain ⟨_, _, p, _⟩ := Fl.chol_diag (dne r hr) (hU.diag r hr)
        exact p)
      (fun r s hsr hr hsc => by
        rcases Nat.lt_or_eq_of_le hsr with hlt' | rfl
        · obtain ⟨ρ, hρ, e⟩ := Fl.chol_cell (dne s hsc) (hU.off r s hlt' hr)
          refine ⟨ρ, fun k hk => (hρ k hk).mono u0 u1 (by omega), ?_⟩
          rw [sum_range_succ]
          exact e
        · obtain ⟨ρ, hρ, _, e⟩ := Fl.chol_diag (dne s hsc) (hU.diag s hsc)
          refine ⟨ρ, fun k hk => (hρ k hk).mono u0 u1 (by omega), ?_⟩
          rw [sum_range_succ]
          exact e)
      (by
        obtain ⟨σ, ρ, hσ, hρ, e⟩ := Fl.pivot_fac (A c c) (fun k => val0 L (cIndex mt n c k)) c
        refine ⟨ρ, fun k hk => (hρ k).mono u0 u1 (by omega), ?_⟩
        have pv := h.piv
        unfold Chol.pivot at pv
        rw [hl.val c c (le_refl _) hlt] at pv
        have pv' : (subUp (fun k => val0 L (cIndex mt n c k) * val0 L (cIndex mt n c k)) 0 c (A c c)).val ≤ 0 := by
          rcases pv with pv | pv
          · rw [pv]; exact le_refl _
          · exact le_of_lt pv
        show (A c c).val ≤ _
        rw [e]
        have := mul_nonpos_of_nonpos_of_nonneg pv' (hσ.pos u0 u1).le
        linarith)
    exact absurd hlam (not_lt.mpr main)

/-- When it must throw (positive first pivot, see `C36_false`): the matrix is farther from positive definite than
rounding errors can account for. -/
theorem C59_rejects (mt : MemType) (n : Nat) (l : List (Fl R)) (A : Nat → Nat → Fl R) (hl : Lower mt n l A)
    (hs : Symm n A) (h0 : 0 < (A 0 0).val) (x : ℕ → ℝ)
    (hx : ∑ p ∈ range n, ∑ q ∈ range n, x p * (A p q).val * x q <
      -(n * gam R.u (2 * n + 2)) * ∑ p ∈ range n, (A p p).val * x p ^ 2) :
    Chol.new mt n l = .error (.throw .runtimeError) := by
  rcases C55_cholesky Fl.sqrt_ne_zero mt n l A hl (not_lt.mpr h0.le) ((Fl.ne_zero_iff _).mpr h0.ne') with
    ⟨L, e, _, hd, hr⟩ | e
  · exact absurd hx (not_lt.mpr (Fl.chol_almost hs hr hd x))
  · exact e

private theorem chol_bound {n : Nat} {A L : Nat → Nat → Fl R} {b x : Nat → Fl R} (hs : Symm n A) (hr : CholRec n A L)
    (hd : ∀ i, i < n → L i i ≠ 0) (h : CholSolveRec false n L b x) :
    NearSolves n (Fl.mat A) (fun i j => gam R.u (4 * n + 2) * (Real.sqrt (A i i).val * Real.sqrt (A j j).val))
      (fun i => (x i).val) (fun i => (b i).val) := by
  have u0 := R.u_nonneg
  have u1 := R.u_lt_one
  obtain ⟨dA, hb, hsol⟩ := Fl.chol_near hs hr hd h
  refine ⟨dA, fun i j hi hj => (hb i j hi hj).trans ?_, hsol⟩
  refine (mul_le_mul_of_nonneg_left ((Fl.chol_prod_le hr hd).2 i j hi hj) (gam_nonneg u0 u1 _)).trans ?_
  rw [← mul_assoc]
  refine mul_le_mul_of_nonneg_right ?_ (mul_nonneg (Real.sqrt_nonneg _) (Real.sqrt_nonneg _))
  have := gam_mul_le u0 u1 (3 * n + 1) (n + 1)
  rwa [show 3 * n + 1 + (n + 1) = 4 * n + 2 by omega] at this

/-- Solving, one right-hand side. -/
theorem C59_solve_vec (nd : Bool) (mt : MemType) (n : Nat) (l L : List (Fl R)) (A : Nat → Nat → Fl R)
    (hl : Lower mt n l A) (hs : Symm n A) (h0 : 0 < (A 0 0).val) (e : Chol.new mt n l = .ok L) (m : Mem (Fl R))
    (b r : Nat) (hb : m.len b = n) (hr : r ≠ b) :
    ∃ x, x.length = n ∧ Chol.solveMutVec nd false mt n L b m = .ok (m.setBuf b x) ∧
      Chol.solveVecAt nd false mt n L b r m = .ok (m.setBuf r x) ∧
      NearSolves n (Fl.mat A) (fun i j => gam R.u (4 * n + 2) * (Real.sqrt (A i i).val * Real.sqrt (A j j).val))
        (fun i => (val0 x i).val) (fun i => (m.val b i).val) := by
  obtain ⟨hlen, hd, hrec⟩ := chol_ok hl h0 e
  obtain ⟨x, hx, hsol, e1, e2⟩ := C55_chol_solve_vec nd false mt n L (held mt n L)
    ⟨by rw [hlen, hl.1], fun _ _ _ _ => rfl⟩ hd m b r hb hr
  exact ⟨x, hx, e1, e2, chol_bound hs hrec hd hsol⟩

/-- Several right-hand sides, column by column. -/
theorem C59_solve_mat (nd : Bool) (mt : MemType) (n : Nat) (l L : List (Fl R)) (A : Nat → Nat → Fl R)
    (hl : Lower mt n l A) (hs : Symm n A) (h0 : 0 < (A 0 0).val) (e : Chol.new mt n l = .ok L) (m : Mem (Fl R))
    (b : MatRef) (r : Nat) (hb : b.Wf m) (hn : b.n = n) (hr : r ≠ b.buf) :
    ∃ x, x.length = n * b.m ∧ Chol.solveMutMat nd false mt n L b m = .ok (m.setBuf b.buf x) ∧
      Chol.solveMatAt nd false mt n L b r m = .ok (m.setBuf r x) ∧ ∀ k, k < b.m →
      NearSolves n (Fl.mat A) (fun i j => gam R.u (4 * n + 2) * (Real.sqrt (A i i).val * Real.sqrt (A j j).val))
        (fun i => (entry b.m x i k).val) (fun i => (entry b.m (m b.buf) i k).val) := by
  obtain ⟨hlen, hd, hrec⟩ := chol_ok hl h0 e
  obtain ⟨x, hx, hsol, e1, e2⟩ := C55_chol_solve_mat nd false mt n L (held mt n L)
    ⟨by rw [hlen, hl.1], fun _ _ _ _ => rfl⟩ hd m b r hb hn hr
  exact ⟨x, hx, e1, e2, fun k hk => chol_bound hs hrec hd (hsol k hk)⟩

/-- The modified factorisation: no roots, no condition on signs; the bounds are in terms of the factor. -/
theorem C59_mod (nd : Bool) (mt : MemType) (n : Nat) (l L : List (Fl R)) (A : Nat → Nat → Fl R)
    (hl : Lower mt n l A) (hs : Symm n A) (e : Chol.modNew mt n l = .ok L) (m : Mem (Fl R))
    (b r : Nat) (hb : m.len b = n) (hr : r ≠ b) :
    ∃ x, x.length = n ∧ Chol.solveMutVec nd true mt n L b m = .ok (m.setBuf b x) ∧
      Chol.solveVecAt nd true mt n L b r m = .ok (m.setBuf r x) ∧
      NearSolves n (Fl.mat A)
        (fun i j => gam R.u (3 * n + 2) * ∑ k ∈ range n,
          |low (Fl.mat (held mt n L)) i k * low (Fl.mat (held mt n L)) j k / (held mt n L k k).val|)
        (fun i => (val0 x i).val) (fun i => (m.val b i).val) := by
  rcases C55_mod_cholesky mt mt n l l A hl hl with ⟨e', _⟩ | ⟨L', L'', e', _, hlen, _, hd, hrec, _⟩
  · rw [e] at e'; cases e'
  · rw [e] at e'; injection e' with e'; subst e'
    obtain ⟨x, hx, hsol, e1, e2⟩ := C55_chol_solve_vec nd true mt n L (held mt n L)
      ⟨by rw [hlen, hl.1], fun _ _ _ _ => rfl⟩ hd m b r hb hr
    exact ⟨x, hx, e1, e2, Fl.mod_near hs hrec hd hsol⟩

/-! ## C60: tri-diagonal systems -/

/-- Whenever the solver finishes (it stops only at a zero pivot); `b = x` allowed. -/
theorem C60_tdma (nd : Bool) (a : TriDiag (Fl R)) (n : Nat) (hw : TriWf a n) (hn : 2 ≤ n) (b x : Nat)
    (m : Mem (Fl R)) (hb : m.len b = n) (hx : m.len x = n) :
    (∃ l m' D P Q, Tdma.solveVec nd a b x m = .ok m' ∧ Stores m m' x l ∧ l.length = n ∧
      TdmaRec n a (val0 (m b)) (val0 l) D P Q ∧
      NearSolves n (Fl.mat (triFull a)) (fun i j => gam R.u 4 * (if i = j then |(D i).val| +
          (if 0 < i then |(val0 a.dl (i - 1)).val * (P (i - 1)).val| else 0) else |Fl.mat (triFull a) i j|))
        (fun i => (val0 l i).val) (fun i => (m.val b i).val)) ∨
    Tdma.solveVec nd a b x m = .error .nonFinite := by
  rcases C55_tdma_vec nd a n hw hn b x m hb hx with ⟨l, m', D, P, Q, e, h1, h2, h3⟩ | h
  · exact .inl ⟨l, m', D, P, Q, e, h1, h2, h3, Fl.tdma_near h3⟩
  · exact .inr h

private theorem dom_bound {a : TriDiag (Fl R)} {n : Nat} {b x : Nat → Fl R}
    (hd : ∀ i, i < n → ∑ j ∈ (range n).erase i, |Fl.mat (triFull a) i j| < (1 - R.u) ^ 2 * |Fl.mat (triFull a) i i|)
    (h : TdmaRec n a b x (Tdma.D a) (Tdma.P a) (Tdma.Q a b)) :
    NearSolves n (Fl.mat (triFull a)) (fun i j => 3 * gam R.u 5 * |Fl.mat (triFull a) i j|)
      (fun i => (x i).val) (fun i => (b i).val) := by
  have u0 := R.u_nonneg
  have u1 := R.u_lt_one
  obtain ⟨dA, hb, hs⟩ := Fl.tdma_near h
  refine ⟨dA, fun i j hi hj => (hb i j hi hj).trans ?_, hs⟩
  have g4 := gam_nonneg u0 u1 4
  have g1 := gam_nonneg u0 u1 1
  have g5 := gam_mul_le u0 u1 4 1
  have g45 := gam_mono u0 u1 (show 4 ≤ 5 by omega)
  beta_reduce
  by_cases hij : i = j
  · subst hij
    rw [if_pos rfl]
    obtain ⟨_, p1, p2, _⟩ := Fl.dom_pivots hd i hi
    set d := |Fl.mat (triFull a) i i|
    have dn : 0 ≤ d := abs_nonneg _
    have p2' : (if 0 < i then |(val0 a.dl (i - 1)).val * (Tdma.P a (i - 1)).val| else 0) ≤ d := by
      split_ifs with hi0
      · exact p2 hi0
      · exact dn
    have q1 : gam R.u 4 * (2 * (1 + gam R.u 1) * d + d) ≤ 3 * gam R.u 5 * d := by
      have : 2 * (1 + gam R.u 1) * d + d ≤ 3 * (1 + gam R.u 1) * d := by nlinarith
      calc _ ≤ gam R.u 4 * (3 * (1 + gam R.u 1) * d) := mul_le_mul_of_nonneg_left this g4
        _ = 3 * (gam R.u 4 * (1 + gam R.u 1)) * d := by ring
        _ ≤ 3 * gam R.u 5 * d := mul_le_mul_of_nonneg_right (by linarith) dn
    exact (mul_le_mul_of_nonneg_left (add_le_add p1 p2') g4).trans q1
  · rw [if_neg hij]
    exact mul_le_mul_of_nonneg_right (by linarith) (abs_nonneg _)

/-- A matrix that is diagonally dominant, with a margin for two roundings: the solver finishes and every entry of the
matrix is changed by a relative error of at most `3 gam 5`, whatever `n`. -/
theorem C60_dominant (nd : Bool) (a : TriDiag (Fl R)) (n : Nat) (hw : TriWf a n) (hn : 2 ≤ n) (b x : Nat)
    (m : Mem (Fl R)) (hb : m.len b = n) (hx : m.len x = n)
    (hd : ∀ i, i < n → ∑ j ∈ (range n).erase i, |Fl.mat (triFull a) i j| <
      (1 - R.u) ^ 2 * |Fl.mat (triFull a) i i|) :
    ∃ l m', Tdma.solveVec nd a b x m = .ok m' ∧ Stores m m' x l ∧ l.length = n ∧
      NearSolves n (Fl.mat (triFull a)) (fun i j => 3 * gam R.u 5 * |Fl.mat (triFull a) i j|)
        (fun i => (val0 l i).val) (fun i => (m.val b i).val) := by
  have hs : Tdma.Sizes a n 1 m b x := ⟨hn, hw.1, hw.2.1, hw.2.2.1, by omega, by omega⟩
  obtain ⟨m', e, l, rfl, hl, hq, _, hD⟩ := Ok.exists (Sat.mono (Tdma.tdma_raw hs) (fun _ h => h)
    (fun e h => by obtain ⟨i, hi, h0⟩ := h.2; exact (Fl.dom_pivots hd i hi).1 (not_divAt.mp h0)))
  refine ⟨l, _, ?_, stores_setBuf _ _ _, by omega, ?_⟩
  · unfold Tdma.solveVec
    have : a.shape.1 = n := hw.1
    rw [this, hb]
    simp [e]
  · have := hq 0 (by omega)
    simp only [entry, Nat.mul_one, Nat.add_zero] at this
    exact dom_bound hd (Tdma.rec_of this fun i hi => divAt_iff.mp (hD (by omega) i hi))

/-- Several right-hand sides. -/
theorem C60_dominant_mat (nd : Bool) (a : TriDiag (Fl R)) (n : Nat) (hw : TriWf a n) (hn : 2 ≤ n) (b x : MatRef)
    (m : Mem (Fl R)) (hbw : b.Wf m) (hxw : x.Wf m) (hbn : b.n = n) (hxn : x.n = n) (hxm : x.m = b.m)
    (hd : ∀ i, i < n → ∑ j ∈ (range n).erase i, |Fl.mat (triFull a) i j| <
      (1 - R.u) ^ 2 * |Fl.mat (triFull a) i i|) :
    ∃ l m', Tdma.solveMat nd a b x m = .ok m' ∧ Stores m m' x.buf l ∧ l.length = n * b.m ∧ ∀ k, k < b.m →
      NearSolves n (Fl.mat (triFull a)) (fun i j => 3 * gam R.u 5 * |Fl.mat (triFull a) i j|)
        (fun i => (entry b.m l i k).val) (fun i => (entry b.m (m b.buf) i k).val) := by
  have h1 : m.len b.buf = n * b.m := by rw [hbw, hbn]
  have h2 : m.len x.buf = n * b.m := by rw [hxw, hxn, hxm]
  have hs : Tdma.Sizes a n b.m m b.buf x.buf := ⟨hn, hw.1, hw.2.1, hw.2.2.1, h1.ge, h2.ge⟩
  obtain ⟨m', e, l, rfl, hl, hq, _, hD⟩ := Ok.exists (Sat.mono (Tdma.tdma_raw hs) (fun _ h => h)
    (fun e h => by obtain ⟨i, hi, h0⟩ := h.2; exact (Fl.dom_pivots hd i hi).1 (not_divAt.mp h0)))
  refine ⟨l, _, ?_, stores_setBuf _ _ _, by omega, fun k hk => 
    dom_bound hd (Tdma.rec_of (hq k hk) fun i hi => divAt_iff.mp (hD (by omega) i hi))⟩
  unfold Tdma.solveMat
  have : a.shape.1 = n := hw.1
  rw [this, hbn, hxn, hxm]
  simp [e]

/-! ## C61: incomplete LU -/

section ilu
variable {M : Type} {ops : MatOps M (Fl R)} {ok : M → Prop}

/-- The computed factors: on the pattern of `A` their product is `A` up to rounding errors, elsewhere they are zero.
Dense, COO and CSR storage. -/
theorem C61_factor (hst : Storage ops ok) (n : Nat) (a f : M) (A : Nat → Nat → Fl R) (hok : ok a)
    (hA : Shows ops n a A) (e : Ilu.new ops a = .ok f) :
    ∃ F, ok f ∧ Shows ops n f F ∧ ∀ i j, i < n → j < n → (A i j = 0 → F i j = 0) ∧ (A i j ≠ 0 →
      |luProd n (Fl.mat F) i j - (A i j).val| ≤
        gam R.u n * ∑ k ∈ range n, |unitLow (Fl.mat F) i k * upper (Fl.mat F) k j|) := by
  rcases C55_ilu hst hst n a a A hok hok hA hA with ⟨e', _⟩ | ⟨f', _, F, e', _, hf, _, hF, _, hr⟩
  · rw [e] at e'; cases e'
  · rw [e] at e'; injection e' with e'; subst e'
    refine ⟨F, hf, hF, fun i j hi hj => ⟨fun h => ((hr i j hi hj).1 h).trans h, fun ha => ?_⟩⟩
    obtain ⟨ρ, hρ, ee⟩ := Fl.ilu_fac hi hj (hr i j hi hj) ha
    rw [ee, abs_sub_comm]
    exact sum_fac_le R.u_nonneg R.u_lt_one fun k _ => hρ k

/-- Solving with the factors (no zero on their diagonal). -/
theorem C61_solve (hst : Storage ops ok) (n : Nat) (a : M) (F : Nat → Nat → Fl R) (hok : ok a)
    (hF : Shows ops n a F) (hd : ∀ i, i < n → F i i ≠ 0) (b : List (Fl R)) (hb : b.length = n) :
    ∃ x, Ilu.solve ops a b = .ok x ∧ x.length = n ∧
      NearSolves n (luProd n (Fl.mat F))
        (fun i j => gam R.u (2 * n) * ∑ k ∈ range n, |unitLow (Fl.mat F) i k * upper (Fl.mat F) k j|)
        (fun i => (val0 x i).val) (fun i => (val0 b i).val) := by
  obtain ⟨x, e, hx, hs⟩ := C55_ilu_solve hst n a F hok hF hd b hb
  exact ⟨x, e, hx, Fl.ilu_near hd hs⟩

end ilu

/-! ## Concrete cases, in double precision -/

/-- A small integer, as a double. -/
private noncomputable def dbl (z : ℤ) (h : |z| ≤ 2 ^ 53) : Fl (binary 53 (by norm_num)) :=
  ⟨z, rndBin_int 53 (by norm_num) z h⟩

private theorem dbl_u : (binary 53 (by norm_num)).u = (1 / 2) ^ 53 := rfl

-- the constant for a 2 x 2 matrix is small
example : 2 * gam (binary 53 (by norm_num)).u (6 * (2 + 1)) < 1 / 2 := by
  have h := gam_le (u := (binary 53 (by norm_num)).u) (Rounding.u_nonneg _) (Rounding.u_lt_one _) (k := 18)
    (by rw [dbl_u]; norm_num)
  rw [dbl_u] at *
  refine lt_of_le_of_lt (mul_le_mul_of_nonneg_left h (by norm_num)) ?_
  norm_num

-- the matrix with rows (2, 1), (1, 2) meets the conditions of `C59_accepts` with `lam = 1/2`
example (x : ℕ → ℝ) : (1 / 2 : ℝ) * ∑ p ∈ range 2, (if p = p then (2 : ℝ) else 1) * x p ^ 2 ≤
    ∑ p ∈ range 2, ∑ q ∈ range 2, x p * (if p = q then 2 else 1) * x q := by
  simp only [sum_range_succ, range_zero, sum_empty, zero_add, if_true, Nat.zero_ne_one, Nat.one_ne_zero, if_false]
  nlinarith [sq_nonneg (x 0 + x 1)]

example : ∃ L, Chol.new .triangle 2 [dbl 2 (by norm_num), dbl 1 (by norm_num), dbl 2 (by norm_num)] = .ok L := by
  refine C59_accepts .triangle 2 _ (fun i j => if i = j then dbl 2 (by norm_num) else dbl 1 (by norm_num))
    ⟨rfl, fun i j hj hi => ?_⟩ (fun i j _ _ => by simp only [eq_comm]) (fun p _ => by simp [dbl]) (1 / 2) ?_ ?_
  · interval_cases i <;> interval_cases j <;> rfl
  · have h := gam_le (u := (binary 53 (by norm_num)).u) (Rounding.u_nonneg _) (Rounding.u_lt_one _) (k := 18)
      (by rw [dbl_u]; norm_num)
    refine lt_of_le_of_lt (mul_le_mul_of_nonneg_left h (by norm_num)) ?_
    rw [dbl_u]
    norm_num
  · intro x
    simp only [sum_range_succ, range_zero, sum_empty, zero_add, if_true, Nat.zero_ne_one, Nat.one_ne_zero, if_false, dbl]
    push_cast
    nlinarith [sq_nonneg (x 0 + x 1)]

-- rows (1, 2), (2, 1): rejected, by the vector (1, -1)
example : Chol.new .square 2 [dbl 1 (by norm_num), dbl 2 (by norm_num), dbl 2 (by norm_num), dbl 1 (by norm_num)] =
    .error (.throw .runtimeError) := by
  refine C59_rejects .square 2 _ (fun i j => if i = j then dbl 1 (by norm_num) else dbl 2 (by norm_num))
    ⟨rfl, fun i j hj hi => ?_⟩ (fun i j _ _ => by simp only [eq_comm]) (by simp [dbl]) (fun i => if i = 0 then 1 else -1) ?_
  · interval_cases i <;> interval_cases j <;> rfl
  · have h := gam_le (u := (binary 53 (by norm_num)).u) (Rounding.u_nonneg _) (Rounding.u_lt_one _) (k := 6)
      (by rw [dbl_u]; norm_num)
    rw [dbl_u] at h
    norm_num at h
    simp only [sum_range_succ, range_zero, sum_empty, zero_add, if_true, Nat.zero_ne_one, Nat.one_ne_zero, if_false, dbl]
    norm_num [dbl_u]
    linarith

-- rows (3, 1), (1, 3): dominant with the margin
example (i : ℕ) (hi : i < 2) : ∑ j ∈ (range 2).erase i, |Fl.mat (triFull
      (⟨[dbl 1 (by norm_num)], [dbl 3 (by norm_num), dbl 3 (by norm_num)], [dbl 1 (by norm_num)]⟩ :
        TriDiag (Fl (binary 53 (by norm_num))))) i j| <
    (1 - (binary 53 (by norm_num)).u) ^ 2 * |Fl.mat (triFull
      (⟨[dbl 1 (by norm_num)], [dbl 3 (by norm_num), dbl 3 (by norm_num)], [dbl 1 (by norm_num)]⟩ :
        TriDiag (Fl (binary 53 (by norm_num))))) i i| := by
  have e0 : (range 2).erase 0 = {1} := by decide
  have e1 : (range 2).erase 1 = {0} := by decide
  interval_cases i
  · rw [e0, sum_singleton, dbl_u]; simp [Fl.mat, triFull, val0, dbl]; norm_num
  · rw [e1, sum_singleton, dbl_u]; simp [Fl.mat, triFull, val0, dbl]; norm_num

end Lalib.Props
