import Verif.Props.Order
import Verif.Props.IeeeTdmaOk
import Verif.Props.IeeeCholOk

/-! # Property C89, continued: systems of IEEE 754 numbers

For the classes of systems of C84 and C85 nothing has to be assumed about the computed factors: they are known to be finite,
and the pivots to be positive.  With `A' = A` and `b' = b` the theorems say that the computed solution has no negative
component; with `A` above `A'` that it is below the computed solution of the other system. -/

namespace Lalib.Props

open Lalib Finset

variable {F : Fmt}

/-- The pivots of a weakly dominant matrix with a positive diagonal and nothing positive beside it are positive. -/
theorem order_pivots {a : TriDiag (Fp F)} {n : Nat} (hn : 2 ≤ n) (hw : TriWf a n)
    (hf : ∀ i j, i < n → j < n → (triFull a i j).IsFin) (hd : WeakDom n (Fp.mat (triFull a)))
    (hr : HalfRange F n (Fp.mat (triFull a))) (h0 : ∀ i, i < n → 0 < (val0 a.d i).val)
    (hu : ∀ i, i + 1 < n → (val0 a.du i).val ≤ 0) (hl : ∀ i, i + 1 < n → (val0 a.dl i).val ≤ 0) :
    ∀ i, i < n → (Fp.ordArith F).Pos (triPivot a i) := by
  obtain ⟨l, m', D, P, Q, -, -, -, hq, hD, -⟩ := C84_dominant true a n hw hn 0 0 (Mem.ofList [List.replicate n 0])
    (by simp [Mem.len, Mem.ofList]) (by simp [Mem.len, Mem.ofList]) hf hd hr
  have eD : ∀ i, i < n → triPivot a i = D i := by
    intro i
    induction i with
    | zero => exact fun _ => hq.d0.symm
    | succ i ih =>
      intro hi
      show val0 a.d (i + 1) + val0 a.dl i * (-val0 a.du i / triPivot a i) = _
      rw [ih (by omega), ← hq.p i hi, ← hq.d i hi]
  have key : ∀ i, i < n → 0 < (D i).val := by
    intro i
    induction i with
    | zero => exact fun h => by rw [hq.d0]; exact h0 0 h
    | succ i ih =>
      intro hi
      have d0 := ih (by omega)
      obtain ⟨d1, -, dp⟩ := hD i (by omega)
      obtain ⟨p1, p2⟩ := dp hi
      have eP := hq.p i hi
      have p0 : 0 ≤ (P i).val := by
        rw [eP] at p1 ⊢
        rw [Fp.val_div p1 d1, Fp.val_neg]
        have := F.rnd_mono (div_nonneg (neg_nonneg.mpr (hu i hi)) d0.le)
        rwa [F.rnd_zero] at this
      obtain ⟨e1, e2, -⟩ := hD (i + 1) hi
      have e3 : (D (i + 1)).val ≠ 0 := fun h => e2 ((Fp.isZ_iff _).mpr ⟨e1, h⟩)
      have eD' := hq.d i hi
      rw [eD'] at e1 e3 ⊢
      obtain ⟨-, f2, -⟩ := (Fp.isFin_add _ _).mp e1
      rw [Fp.val_add e1, Fp.val_mul f2] at e3 ⊢
      have s1 : (val0 a.dl i).val ≤ F.rnd ((val0 a.dl i).val * (P i).val) := by
        rw [← Fp.rnd_val (val0 a.dl i)]
        refine F.rnd_mono ?_
        rw [Fp.rnd_val]
        nlinarith [hl i hi, (abs_le.mp p2).2]
      have s2 : |(val0 a.dl i).val| ≤ (val0 a.d (i + 1)).val := by
        have h1 := (hd (i + 1) hi).2.le
        rw [Fp.tri_diag, abs_of_pos (h0 (i + 1) hi)] at h1
        exact Fp.tri_left.trans h1
      have s3 : 0 ≤ F.rnd ((val0 a.d (i + 1)).val + F.rnd ((val0 a.dl i).val * (P i).val)) := by
        rw [← F.rnd_zero]
        refine F.rnd_mono ?_
        have := neg_abs_le (val0 a.dl i).val
        linarith
      exact lt_of_le_of_ne s3 (Ne.symm e3)
  intro i hi
  rw [eD i hi]
  exact ⟨(hD i hi).1, key i hi⟩

/-- Tri-diagonal systems.  That the first component of the second solution be finite is all that is asked of the
results. -/
theorem C89_tdma_ieee (nd : Bool) (a a' : TriDiag (Fp F)) (n : Nat) (hw : TriWf a n) (hw' : TriWf a' n) (hn : 2 ≤ n)
    (b x b' x' : Nat) (m m' : Mem (Fp F)) (hb : m.len b = n) (hx : m.len x = n) (hb' : m'.len b' = n) (hx' : m'.len x' = n)
    (hf : ∀ i j, i < n → j < n → (triFull a' i j).IsFin) (hd : WeakDom n (Fp.mat (triFull a')))
    (hr : HalfRange F n (Fp.mat (triFull a'))) (h0 : ∀ i, i < n → 0 < (val0 a'.d i).val)
    (ha : (Fp.ordArith F).MTri n a a') (hB : ∀ i, i < n → (Fp.ordArith F).Nn (val0 (m b) i) (val0 (m' b') i)) :
    ∃ o o', Tdma.solveVec nd a b x m = .ok o ∧ Tdma.solveVec nd a' b' x' m' = .ok o' ∧
      ((val0 (o' x') 0).IsFin → ∀ i, i < n → (val0 (o x) i).IsFin ∧ (val0 (o' x') i).IsFin ∧
        0 ≤ (val0 (o x) i).val ∧ (val0 (o x) i).val ≤ (val0 (o' x') i).val) := by
  obtain ⟨-, o, o', e, e', -, -, h⟩ := C89_tdma_vec (Fp.ordArith F) nd a a' n hw hw' hn b x b' x' m m' hb hx hb' hx' ha
    (order_pivots hn hw' hf hd hr h0 (fun i hi => (ha.du i hi).le.trans (ha.du i hi).np)
      fun i hi => (ha.dl i hi).le.trans (ha.dl i hi).np) hB
  obtain ⟨l, o2, D, P, Q, e2, hs, -, -, -, hfin⟩ := C84_dominant nd a' n hw' hn b' x' m' hb' hx' hf hd hr
  rw [e'] at e2
  obtain rfl : o' = o2 := Except.ok.inj e2
  refine ⟨o, o', e, e', fun hz => ?_⟩
  rw [hs.1] at hz h ⊢
  intro i hi
  have := h (hfin hz).1 i hi
  exact ⟨this.fin, this.fin', this.nn, this.le⟩

/-- Positive definite systems: the matrix `A'` as in C85, nothing positive off its diagonal, `A` any matrix above it with
nothing positive off the diagonal; then the constructor accepts `A` as well, and the solutions are in order. -/
theorem C89_chol_ieee (nd : Bool) (mt mt' : MemType) (n : Nat) (l l' : List (Fp F)) (A A' : Nat → Nat → Fp F)
    (hl : Lower mt n l A) (hl' : Lower mt' n l' A') (hs : Symm n A') (lam : ℝ)
    (hr : FactorRange F n (Fp.mat A')) (hq : FormAbove n (Fp.mat A') lam)
    (hlam : 6 * ((n + 1) * gam F.u (6 * (n + 1))) < lam) (hA : (Fp.ordArith F).MLow n A A')
    (m m' : Mem (Fp F)) (b r b' r' : Nat) (hb : m.len b = n) (hb' : m'.len b' = n) (hrb : r ≠ b) (hrb' : r' ≠ b') (X : ℝ)
    (hX : SolveRange F n (Fp.mat A') lam (fun i => (m'.val b' i).val) X)
    (hB : ∀ i, i < n → (Fp.ordArith F).Nn (m.val b i) (m'.val b' i)) :
    ∃ L x L' x', Chol.new mt n l = .ok L ∧ Chol.solveVecAt nd false mt n L b r m = .ok (m.setBuf r x) ∧
      Chol.solveMutVec nd false mt n L b m = .ok (m.setBuf b x) ∧
      Chol.new mt' n l' = .ok L' ∧ Chol.solveVecAt nd false mt' n L' b' r' m' = .ok (m'.setBuf r' x') ∧
      Chol.solveMutVec nd false mt' n L' b' m' = .ok (m'.setBuf b' x') ∧
      ∀ i, i < n → (val0 x i).IsFin ∧ (val0 x' i).IsFin ∧ 0 ≤ (val0 x i).val ∧ (val0 x i).val ≤ (val0 x' i).val := by
  have hlam' : 3 * (n * gam F.u (6 * (n + 1))) < lam := by
    have a := gam_nonneg F.u_nonneg F.u_lt_one (6 * (n + 1))
    have : 0 ≤ (n : ℝ) * gam F.u (6 * (n + 1)) := by positivity
    linarith
  have hAf : ∀ i j, j ≤ i → i < n → (A' i j).IsFin := by
    intro i j hj hi
    rcases Nat.lt_or_eq_of_le hj with h | rfl
    · exact (hA.off i j h hi).fin'
    · exact (hA.diag j hi).fin'
  obtain ⟨L', e', hlen', -, f1, f2, -⟩ := C85_factor mt' n l' A' hl' hs hAf lam hr hq hlam'
  obtain ⟨L, e, hlen, hF⟩ := C89_cholesky (Fp.ordArith F) mt mt' n l l' L' A A' hl hl' hA e'
    (fun i j hj hi => f1 i j hj.le hi) fun i hi => ⟨f1 i i le_rfl hi, f2 i hi⟩
  obtain ⟨x, x', e1, e2, e3, e4, -, -, h⟩ := C89_chol_solve_vec (Fp.ordArith F) nd false mt mt' n L L' _ _
    ⟨by rw [hlen, hl.1], fun _ _ _ _ => rfl⟩ ⟨by rw [hlen', hl'.1], fun _ _ _ _ => rfl⟩ hF
    (fun i hi => ⟨f1 i i le_rfl hi, f2 i hi⟩) m m' b b' r r' hb hb' hrb hrb' hB
  obtain ⟨L2, x2, e5, -, -, e6, hsol⟩ := C85_solve_vec nd mt' n l' A' hl' hs hAf lam hr hq hlam m' b' r' hb' hrb'
    (fun i hi => (hB i hi).fin') X hX
  rw [e'] at e5
  obtain rfl : L' = L2 := Except.ok.inj e5
  rw [e4] at e6
  have ex : x' = x2 := by
    have := congrFun (Except.ok.inj e6) r'
    rwa [Mem.setBuf_self, Mem.setBuf_self] at this
  subst ex
  refine ⟨L, x, L', x', e, e2, e1, e', e4, e3, fun i hi => ?_⟩
  have := h hsol.fin i hi
  exact ⟨this.fin, this.fin', this.nn, this.le⟩

/-! ## Examples -/

-- the second difference of any order: if the right-hand side has no negative entry and the first component of the computed
-- solution is finite, then no component is negative
example (nd : Bool) (n : ℕ) (hn : 2 ≤ n) (hn' : n < 2 ^ 64) : ∃ a : TriDiag (Fp binary64), TriWf a n ∧
    (∀ i, i < n → (val0 a.d i).val = 2) ∧ ∀ (m : Mem (Fp binary64)) (b : Nat), m.len b = n →
      (∀ i, i < n → (m.val b i).IsFin ∧ 0 ≤ (m.val b i).val) →
      ∃ o, Tdma.solveVec nd a b b m = .ok o ∧ ((val0 (o b) 0).IsFin → ∀ i, i < n → (val0 (o b) i).IsFin ∧ 0 ≤ (val0 (o b) i).val) := by
  obtain ⟨a, hw, hf, hd, hr, d, dl, du⟩ := second_difference n hn hn'
  refine ⟨a, hw, d, fun m b hb hB => ?_⟩
  obtain ⟨f1, f2, f3⟩ := Fp.tri_fin hf
  obtain ⟨o, o', e, e', h⟩ := C89_tdma_ieee nd a a n hw hw hn b b b b m m hb hb hb hb hf hd hr
    (fun i hi => by rw [d i hi]; norm_num)
    ⟨fun i hi => ⟨f1 i hi, f1 i hi, le_refl _⟩, fun i hi => ⟨f2 i hi, f2 i hi, by show (val0 a.dl i).val ≤ 0; rw [dl i hi]; norm_num, le_refl _⟩,
      fun i hi => ⟨f3 i hi, f3 i hi, by show (val0 a.du i).val ≤ 0; rw [du i hi]; norm_num, le_refl _⟩⟩
    fun i hi => ⟨(hB i hi).1, (hB i hi).1, (hB i hi).2, le_refl _⟩
  rw [e] at e'
  obtain rfl : o = o' := Except.ok.inj e'
  exact ⟨o, e, fun hz i hi => ⟨(h hz i hi).1, (h hz i hi).2.2.1⟩⟩

-- a matrix with `4` on and `-1` beside the diagonal: every right-hand side between `0` and `1` has a solution which is not
-- negative
example (nd : Bool) (n : ℕ) (hn : n < 2 ^ 20) : ∃ (A : Nat → Nat → Fp binary64), ∀ (mt : MemType) (l : List (Fp binary64)),
    Lower mt n l A → ∀ (m : Mem (Fp binary64)), m.len 0 = n →
      (∀ i, i < n → (m.val 0 i).IsFin ∧ 0 ≤ (m.val 0 i).val ∧ (m.val 0 i).val ≤ 1) →
      ∃ L x, Chol.new mt n l = .ok L ∧ Chol.solveVecAt nd false mt n L 0 1 m = .ok (m.setBuf 1 x) ∧
        ∀ i, i < n → (val0 x i).IsFin ∧ 0 ≤ (val0 x i).val := by
  obtain ⟨A, hs, hf, hr, hq, hg, h0, hX⟩ := band_instance n hn
  refine ⟨A, fun mt l hl m hb hB => ?_⟩
  obtain ⟨L, x, L', x', e, e1, -, -, -, -, h⟩ := C89_chol_ieee nd mt mt n l l A A hl hl hs (1 / 4) hr hq hg
    ⟨fun i _ => ⟨hf i i, hf i i, le_refl _⟩, fun i j hj _ => ⟨hf i j, hf i j, h0 i j (by omega), le_refl _⟩⟩ m m 0 1 0 1 hb hb
    (by omega) (by omega) (2 ^ 14) (hX _ fun i hi => abs_le.mpr ⟨by linarith [(hB i hi).2.1], (hB i hi).2.2⟩)
    fun i hi => ⟨(hB i hi).1, (hB i hi).1, (hB i hi).2.1, le_refl _⟩
  exact ⟨L, x, e, e1, fun i hi => ⟨(h i hi).1, (h i hi).2.2.1⟩⟩

end Lalib.Props
