import Verif.Props.LogRel
import Verif.Props.Cholesky
import Verif.Props.Tdma
import Verif.Props.Struct
import Verif.Proofs.Binary
import Mathlib.Analysis.Calculus.Deriv.Mul

/-! # Property C93: continuity, precision, derivatives and intervals

The theorems of `Props/LogRel.lean` for the four ways to describe a family of numbers. -/

namespace Lalib.Props

open Lalib Filter Topology

variable {ι : Type} {l : Filter ι}

/-- Factorise and solve: one of the two Cholesky solvers built from the matrix data `a`, then `solve_mut` on the vector `b`. -/
def cholSystem {T : Type} [Zero T] [Sub T] [Mul T] [CDiv T] [CZero T] [CSqrt T] [LT T] [DecidableLT T] (nd md : Bool)
    (mt : MemType) (n : Nat) (a : List T) (b : Nat) (m : Mem T) : Res (Mem T) :=
  (if md then Chol.modNew mt n a else Chol.new mt n a) >>= fun L => Chol.solveMutVec nd md mt n L b m

section
variable {T : ι → Type} {T' : Type} [∀ i, Zero (T i)] [∀ i, One (T i)] [∀ i, Neg (T i)]
    [∀ i, Add (T i)] [∀ i, Sub (T i)] [∀ i, Mul (T i)] [∀ i, CDiv (T i)] [∀ i, CZero (T i)] [∀ i, CSqrt (T i)]
    [∀ i, LT (T i)] [∀ i, DecidableLT (T i)]

/-- Building a solver and solving, one call after the other. -/
theorem C93_chol_system [Zero T'] [One T'] [Neg T'] [Add T'] [Sub T'] [Mul T'] [CDiv T'] [CZero T'] [CSqrt T'] [LT T']
    [DecidableLT T'] (S : LogRel l T T') (nd md : Bool) (mt : MemType) (n : Nat) (a : ∀ i, List (T i)) (a' : List T')
    (ha : S.Buf a a') (h0 : md = false → 0 < n → ¬ IsZ (val0 a' 0) ∧ ¬ val0 a' 0 < 0) {P : Nat → Prop} {m : ∀ i, Mem (T i)}
    {m' : Mem T'} (h : S.Bufs P m m') (b : Nat) (hb : P b) :
    Lim l (S.Bufs P) (fun i => cholSystem nd md mt n (a i) b (m i)) (cholSystem nd md mt n a' b m') := by
  unfold cholSystem
  have hf : Lim l S.Buf (fun i => if md then Chol.modNew mt n (a i) else Chol.new mt n (a i))
      (if md then Chol.modNew mt n a' else Chol.new mt n a') := by
    cases md with
    | true => exact C93_mod_cholesky S mt n a a' ha
    | false => exact C93_cholesky S mt n a a' ha (h0 rfl)
  exact hf.bind fun L L' hL => ((C93_chol_solve S nd md mt n L L' hL h 0).1 b hb).1

theorem cholSystem_factor {T : Type} [Zero T] [Sub T] [Mul T] [CDiv T] [CZero T] [CSqrt T] [LT T] [DecidableLT T]
    {nd md : Bool} {mt : MemType} {n : Nat} {a : List T} {b : Nat} {m m1 : Mem T}
    (e : cholSystem nd md mt n a b m = .ok m1) : ∃ L, (if md then Chol.modNew mt n a else Chol.new mt n a) = .ok L := by
  unfold cholSystem at e
  cases h : (if md then Chol.modNew mt n a else Chol.new mt n a) with
  | error x => rw [h] at e; exact nomatch e
  | ok L => exact ⟨L, rfl⟩

/-- What the solvers do with real numbers. -/
theorem cholSystem_real (nd md : Bool) (mt : MemType) (n : Nat) (a : List ℝ) (A : Nat → Nat → ℝ) (hl : Lower mt n a A)
    (hs : Symm n A) (hp : if md then Regular A n else PosDef n A) (b : Nat) (m : Mem ℝ) (hb : m.len b = n) :
    ∃ x, x.length = n ∧ Solves n A (val0 x) (val0 (m b)) ∧ cholSystem nd md mt n a b m = .ok (m.setBuf b x) := by
  cases md with
  | true =>
    obtain ⟨L, e, -⟩ := C38_factor mt n a A hl hs hp
    obtain ⟨x, h1, h2, h3, -⟩ := C39_vec nd mt n a L A hl hs e m b (b + 1) hb (by omega)
    refine ⟨x, h1, h2, ?_⟩
    unfold cholSystem
    rw [if_pos rfl, e, ok_bind]
    exact h3
  | false =>
    obtain ⟨L, e, -⟩ := C35_factor mt n a A hl hs hp
    obtain ⟨x, h1, h2, h3, -⟩ := C37_vec nd mt n a L A hl hs hp e m b (b + 1) hb (by omega)
    refine ⟨x, h1, h2, ?_⟩
    unfold cholSystem
    rw [if_neg (by simp), e, ok_bind]
    exact h3

theorem posDef_first {n : Nat} {A : Nat → Nat → ℝ} (hp : PosDef n A) (hn : 0 < n) : 0 < A 0 0 := by
  have := hp (fun i => if i = 0 then 1 else 0) ⟨0, hn, by simp⟩
  rw [Finset.sum_eq_single 0 (fun i _ hi => by simp [hi]) (by simp; omega),
    Finset.sum_eq_single 0 (fun i _ hi => by simp [hi]) (by simp; omega)] at this
  simpa using this

/-- If the constructor returns, the matrix is one that the solver is for. -/
theorem cholSystem_takes (md : Bool) (mt : MemType) (n : Nat) (a L : List ℝ) (A : Nat → Nat → ℝ) (hl : Lower mt n a A)
    (hs : Symm n A) (h0 : md = false → 0 < n → 0 < A 0 0)
    (e : (if md then Chol.modNew mt n a else Chol.new mt n a) = .ok L) : if md then Regular A n else PosDef n A := by
  cases md with
  | true =>
    show Regular A n
    by_contra hc
    rw [if_pos rfl, (C38_throws mt n a A hl hs).mpr hc] at e
    exact nomatch e
  | false =>
    show PosDef n A
    by_contra hc
    rcases Nat.eq_zero_or_pos n with rfl | hn
    · exact hc fun x ⟨i, hi, _⟩ => absurd hi (by omega)
    · rw [if_neg (by simp), C36_rejects_partial mt n a A hl hs (h0 rfl hn) hc] at e
      exact nomatch e

/-- A family described by real numbers: the exact solution describes the family of computed solutions. -/
theorem cholSystem_lim (S : LogRel l T ℝ) (nd md : Bool) (mt : MemType) (n : Nat) (a : ∀ i, List (T i)) (a' : List ℝ)
    (A : Nat → Nat → ℝ) (hl : Lower mt n a' A) (hs : Symm n A) (hp : if md then Regular A n else PosDef n A)
    (ha : S.Buf a a') (b : Nat) (m : ∀ i, Mem (T i)) (v : List ℝ) (hv : v.length = n) (hm : S.Buf (fun i => m i b) v) :
    ∃ x : List ℝ, x.length = n ∧ Solves n A (val0 x) (val0 v) ∧ ∃ m1 : ∀ i, Mem (T i),
      (∀ᶠ i in l, cholSystem nd md mt n (a i) b (m i) = .ok (m1 i)) ∧ S.Buf (fun i => m1 i b) x := by
  obtain ⟨x, h1, h2, h3⟩ := cholSystem_real nd md mt n a' A hl hs hp b (fun _ => v) (by simpa [Mem.len] using hv)
  refine ⟨x, h1, h2, ?_⟩
  obtain ⟨m1, e, hm1⟩ := C93_chol_system S nd md mt n a a' ha (fun hmd hn => by
      subst hmd
      have h00 : val0 a' 0 = A 0 0 := by
        rw [← hl.val 0 0 (Nat.le_refl _) hn]
        cases mt <;> simp [cIndex]
      have := posDef_first hp hn
      rw [h00]
      exact ⟨this.ne', this.not_gt⟩) (P := (· = b)) (m := m) (m' := fun _ => v) (fun p hp => by subst hp; exact hm) b rfl _ h3
  refine ⟨m1, e, ?_⟩
  have := hm1 b rfl
  rwa [Mem.setBuf_self] at this

omit [∀ i, DecidableLT (T i)] in
/-- The same for tri-diagonal systems. -/
theorem tdma_lim (S : LogRel l T ℝ) (nd : Bool) (n : Nat) (hn : 2 ≤ n) (a : ∀ i, TriDiag (T i)) (a' : TriDiag ℝ)
    (hw : TriWf a' n) (hr : Regular (triFull a') n) (ha : LogTri S a a') (b : Nat) (m : ∀ i, Mem (T i)) (v : List ℝ)
    (hv : v.length = n) (hm : S.Buf (fun i => m i b) v) :
    ∃ x : List ℝ, x.length = n ∧ Solves n (triFull a') (val0 x) (val0 v) ∧ ∃ m1 : ∀ i, Mem (T i),
      (∀ᶠ i in l, Tdma.solveVec nd (a i) b b (m i) = .ok (m1 i)) ∧ S.Buf (fun i => m1 i b) x := by
  obtain ⟨x, m1', e, hst, h1, h2⟩ := C34_vec_partial nd a' n hw hn b b (fun _ => v) hv hv hr
  refine ⟨x, h1, h2, ?_⟩
  obtain ⟨m1, e, hm1⟩ := (C93_tdma S a a' ha (P := (· = b)) (m := m) (m' := fun _ => v) (fun p hp => by subst hp; exact hm) nd).1
    b b rfl rfl _ e
  refine ⟨m1, e, ?_⟩
  have := hm1 b rfl
  rwa [hst.1] at this

omit [∀ i, DecidableLT (T i)] in
/-- The same for triangular systems. -/
theorem backSub_lim (S : LogRel l T ℝ) (a : ∀ i, UTri (T i)) (a' : UTri ℝ) (R : Nat → Nat → ℝ) (hn : ∀ i, (a i).n = a'.n)
    (ha : S.Buf (fun i => (a i).u) a'.u) (hR : ∀ i j, i < a'.n → j < a'.n → a'.get i j = .ok (R i j))
    (hd : ∀ i, i < a'.n → R i i ≠ 0) (y : ∀ i, List (T i)) (v : List ℝ) (hv : v.length = a'.n) (hy : S.Buf y v) :
    ∃ x : List ℝ, x.length = a'.n ∧ Solves a'.n R (val0 x) (val0 v) ∧ ∃ x1 : ∀ i, List (T i),
      (∀ᶠ i in l, (a i).backSub (y i) = .ok (x1 i)) ∧ S.Buf x1 x := by
  obtain ⟨x, e, h1, h2, -⟩ := C22_solves a' R v hv hR hd
  obtain ⟨x1, e1, hx⟩ := C93_back_sub S a a' hn ha y v hy x e
  exact ⟨x, h1, h2, x1, e1, hx⟩

end

/-! ## Continuity -/

/-- Lists of one length that converge entry by entry. -/
def ListLim (l : Filter ι) (a : ι → List ℝ) (a' : List ℝ) : Prop :=
  (∀ i, (a i).length = a'.length) ∧ ∀ k, k < a'.length → Tendsto (fun i => val0 (a i) k) l (𝓝 (val0 a' k))

/-- The Cholesky solvers, in exact arithmetic: if the data converge to those of a positive definite (for the modified
factorisation: regular) matrix, then from some point on the calls return, and the solutions converge to the solution. -/
theorem C93_continuous_cholesky (nd md : Bool) (mt : MemType) (n : Nat) (a : ι → List ℝ) (a' : List ℝ) (A : Nat → Nat → ℝ)
    (hl : Lower mt n a' A) (hs : Symm n A) (hp : if md then Regular A n else PosDef n A) (ha : ListLim l a a') (b : Nat)
    (m : ι → Mem ℝ) (v : List ℝ) (hv : v.length = n) (hm : ListLim l (fun i => m i b) v) :
    ∃ x : List ℝ, x.length = n ∧ Solves n A (val0 x) (val0 v) ∧ ∃ m1 : ι → Mem ℝ,
      (∀ᶠ i in l, cholSystem nd md mt n (a i) b (m i) = .ok (m1 i)) ∧ ListLim l (fun i => m1 i b) x :=
  cholSystem_lim (limRel l) nd md mt n a a' A hl hs hp ha b m v hv hm

/-- Tri-diagonal systems. -/
theorem C93_continuous_tdma (nd : Bool) (n : Nat) (hn : 2 ≤ n) (a : ι → TriDiag ℝ) (a' : TriDiag ℝ) (hw : TriWf a' n)
    (hr : Regular (triFull a') n) (hd : ListLim l (fun i => (a i).d) a'.d) (hdl : ListLim l (fun i => (a i).dl) a'.dl)
    (hdu : ListLim l (fun i => (a i).du) a'.du) (b : Nat) (m : ι → Mem ℝ) (v : List ℝ) (hv : v.length = n)
    (hm : ListLim l (fun i => m i b) v) :
    ∃ x : List ℝ, x.length = n ∧ Solves n (triFull a') (val0 x) (val0 v) ∧ ∃ m1 : ι → Mem ℝ,
      (∀ᶠ i in l, Tdma.solveVec nd (a i) b b (m i) = .ok (m1 i)) ∧ ListLim l (fun i => m1 i b) x :=
  tdma_lim (limRel l) nd n hn a a' hw hr ⟨hd, hdl, hdu⟩ b m v hv hm

/-- Incomplete LU jumps where an entry becomes zero, so the condition on the zeros in `C93_ilu` is needed: the factor of
`[1 1; 1 e]` has the last entry `e - 1`, that of `[1 1; 1 0]` the last entry `0`. -/
theorem C93_ilu_jump :
    (∀ e : ℝ, e ≠ 0 → Ilu.new dOps (⟨2, 2, [1, 1, 1, e]⟩ : DMat ℝ) = .ok ⟨2, 2, [1, 1, 1, e - 1]⟩) ∧
    Ilu.new dOps (⟨2, 2, [1, 1, 1, 0]⟩ : DMat ℝ) = .ok ⟨2, 2, [1, 1, 1, 0]⟩ ∧
    ¬ Tendsto (fun e : ℝ => e - 1) (𝓝[≠] 0) (𝓝 0) := by
  refine ⟨fun e he => ?_, ?_, fun h => ?_⟩
  · simp [Ilu.new, Ilu.decomp, dOps, forRet, forUpRet, Ilu.row, forRange, forUp, Ilu.upCell, Ilu.lowCell, DMat.get, DMat.set,
      Ilu.reduce, lrd, lwr, he, divC_eq, throwIf]
  · simp [Ilu.new, Ilu.decomp, dOps, forRet, forUpRet, Ilu.row, forRange, forUp, Ilu.upCell, Ilu.lowCell, DMat.get, DMat.set,
      Ilu.reduce, lrd, lwr, divC_eq, throwIf]
  · have h1 : Tendsto (fun e : ℝ => e - 1) (𝓝[≠] 0) (𝓝 (0 - 1)) :=
      ((continuous_id.sub continuous_const).tendsto 0).mono_left nhdsWithin_le_nhds
    have := tendsto_nhds_unique h h1
    norm_num at this

/-! ## Precision -/

/-- Lists of rounded numbers, of one length, whose values converge. -/
def FlLim (l : Filter ι) (R : ι → Rounding) (a : ∀ i, List (Fl (R i))) (a' : List ℝ) : Prop :=
  (∀ i, (a i).length = a'.length) ∧ ∀ k, k < a'.length → Tendsto (fun i => (val0 (a i) k).val) l (𝓝 (val0 a' k))

/-- The Cholesky solvers with higher and higher precision: from some precision on the calls return, and the computed
solutions converge to the exact one.  The matrix may be as badly conditioned as it likes. -/
theorem C93_precision_cholesky (R : ι → Rounding) (hu : Tendsto (fun i => (R i).u) l (𝓝 0)) (nd md : Bool) (mt : MemType)
    (n : Nat) (a : ∀ i, List (Fl (R i))) (a' : List ℝ) (A : Nat → Nat → ℝ) (hl : Lower mt n a' A) (hs : Symm n A)
    (hp : if md then Regular A n else PosDef n A) (ha : FlLim l R a a') (b : Nat) (m : ∀ i, Mem (Fl (R i))) (v : List ℝ)
    (hv : v.length = n) (hm : FlLim l R (fun i => m i b) v) :
    ∃ x : List ℝ, x.length = n ∧ Solves n A (val0 x) (val0 v) ∧ ∃ m1 : ∀ i, Mem (Fl (R i)),
      (∀ᶠ i in l, cholSystem nd md mt n (a i) b (m i) = .ok (m1 i)) ∧ FlLim l R (fun i => m1 i b) x :=
  cholSystem_lim (precRel l R hu) nd md mt n a a' A hl hs hp ha b m v hv hm

/-- Tri-diagonal systems. -/
theorem C93_precision_tdma (R : ι → Rounding) (hu : Tendsto (fun i => (R i).u) l (𝓝 0)) (nd : Bool) (n : Nat) (hn : 2 ≤ n)
    (a : ∀ i, TriDiag (Fl (R i))) (a' : TriDiag ℝ) (hw : TriWf a' n) (hr : Regular (triFull a') n)
    (hd : FlLim l R (fun i => (a i).d) a'.d) (hdl : FlLim l R (fun i => (a i).dl) a'.dl)
    (hdu : FlLim l R (fun i => (a i).du) a'.du) (b : Nat) (m : ∀ i, Mem (Fl (R i))) (v : List ℝ) (hv : v.length = n)
    (hm : FlLim l R (fun i => m i b) v) :
    ∃ x : List ℝ, x.length = n ∧ Solves n (triFull a') (val0 x) (val0 v) ∧ ∃ m1 : ∀ i, Mem (Fl (R i)),
      (∀ᶠ i in l, Tdma.solveVec nd (a i) b b (m i) = .ok (m1 i)) ∧ FlLim l R (fun i => m1 i b) x :=
  tdma_lim (precRel l R hu) nd n hn a a' hw hr ⟨hd, hdl, hdu⟩ b m v hv hm

/-- Triangular systems. -/
theorem C93_precision_back_sub (R : ι → Rounding) (hu : Tendsto (fun i => (R i).u) l (𝓝 0)) (a : ∀ i, UTri (Fl (R i)))
    (a' : UTri ℝ) (U : Nat → Nat → ℝ) (hn : ∀ i, (a i).n = a'.n) (ha : FlLim l R (fun i => (a i).u) a'.u)
    (hR : ∀ i j, i < a'.n → j < a'.n → a'.get i j = .ok (U i j)) (hd : ∀ i, i < a'.n → U i i ≠ 0)
    (y : ∀ i, List (Fl (R i))) (v : List ℝ) (hv : v.length = a'.n) (hy : FlLim l R y v) :
    ∃ x : List ℝ, x.length = a'.n ∧ Solves a'.n U (val0 x) (val0 v) ∧ ∃ x1 : ∀ i, List (Fl (R i)),
      (∀ᶠ i in l, (a i).backSub (y i) = .ok (x1 i)) ∧ FlLim l R x1 x :=
  backSub_lim (precRel l R hu) a a' U hn ha hR hd y v hv hy

/-- Rounding the data. -/
theorem flLim_round (R : ι → Rounding) (hu : Tendsto (fun i => (R i).u) l (𝓝 0)) (a : List ℝ) :
    FlLim l R (fun i => a.map fun x => ⟨(R i).rnd x, (R i).idem x⟩) a := by
  refine ⟨fun i => by simp, fun k hk => ?_⟩
  have : ∀ i, (val0 (a.map fun x => (⟨(R i).rnd x, (R i).idem x⟩ : Fl (R i))) k).val = (R i).rnd (val0 a k) := fun i => by
    simp [val0, List.getElem?_eq_getElem hk]
  simp only [this]
  exact Rounding.tendsto hu tendsto_const_nhds

-- the Cholesky solvers with `p + 1` bits, `p` growing, for any positive definite matrix
example (mt : MemType) (n : Nat) (a : List ℝ) (A : Nat → Nat → ℝ) (hl : Lower mt n a A) (hs : Symm n A) (hp : PosDef n A)
    (v : List ℝ) (hv : v.length = n) :
    ∃ x : List ℝ, x.length = n ∧ Solves n A (val0 x) (val0 v) ∧ ∃ m1 : ∀ p, Mem (Fl (binary (p + 1) (by omega))),
      (∀ᶠ p in atTop, cholSystem true false mt n (a.map fun x => ⟨(binary (p + 1) (by omega)).rnd x, (binary (p + 1) (by omega)).idem x⟩) 0
        (fun _ => v.map fun x => ⟨(binary (p + 1) (by omega)).rnd x, (binary (p + 1) (by omega)).idem x⟩) = .ok (m1 p)) ∧
      FlLim atTop (fun p => binary (p + 1) (by omega)) (fun p => m1 p 0) x := by
  have hu : Tendsto (fun p : ℕ => (binary (p + 1) (by omega)).u) atTop (𝓝 0) :=
    (tendsto_pow_atTop_nhds_zero_of_lt_one (r := (1 / 2 : ℝ)) (by norm_num) (by norm_num)).comp (tendsto_add_atTop_nat 1)
  exact C93_precision_cholesky (fun p => binary (p + 1) (by omega)) hu true false mt n _ a A hl hs hp (flLim_round _ hu a) 0 _ v hv
    (flLim_round _ hu v)

/-! ## Derivatives -/

/-- Differentiating `A(t) x(t) = v(t)`. -/
theorem solves_deriv {n : Nat} {t₀ : ℝ} {A : ℝ → Nat → Nat → ℝ} {A1 : Nat → Nat → ℝ} {x v : ℝ → Nat → ℝ} {x1 v1 : Nat → ℝ}
    (h : ∀ᶠ t in 𝓝 t₀, Solves n (A t) (x t) (v t))
    (hA : ∀ i j, i < n → j < n → HasDerivAt (fun t => A t i j) (A1 i j) t₀)
    (hx : ∀ k, k < n → HasDerivAt (fun t => x t k) (x1 k) t₀) (hv : ∀ k, k < n → HasDerivAt (fun t => v t k) (v1 k) t₀) :
    ∀ i, i < n → mulVec n (A t₀) x1 i + mulVec n A1 (x t₀) i = v1 i := by
  intro i hi
  have h1 : HasDerivAt (fun t => ∑ j ∈ Finset.range n, A t i j * x t j)
      (∑ j ∈ Finset.range n, (A1 i j * x t₀ j + A t₀ i j * x1 j)) t₀ :=
    HasDerivAt.fun_sum fun j hj => (hA i j hi (Finset.mem_range.mp hj)).mul (hx j (Finset.mem_range.mp hj))
  have h2 := (hv i hi).congr_of_eventuallyEq (h.mono fun t ht => ht i hi)
  have := h1.unique h2
  rw [← this]
  unfold mulVec
  rw [Finset.sum_add_distrib, add_comm]

theorem val0_zipDual {a a1 : List ℝ} (h : a1.length = a.length) {k : Nat} (hk : k < a.length) :
    val0 (List.zipWith Dual.mk a a1) k = ⟨val0 a k, val0 a1 k⟩ := by
  simp [val0, List.getElem?_zipWith, List.getElem?_eq_getElem hk, List.getElem?_eq_getElem (h ▸ hk)]

theorem zip_dual (d : List Dual) : d = List.zipWith Dual.mk (d.map (·.re)) (d.map (·.eps)) := by
  induction d with
  | nil => rfl
  | cons a d ih => simp [← ih]

/-- Lists that depend on `t`, and the list of their derivatives at `t₀`. -/
def ListDeriv (t₀ : ℝ) (a : ℝ → List ℝ) (a1 : List ℝ) : Prop :=
  (∀ t, (a t).length = a1.length) ∧ ∀ k, k < a1.length → HasDerivAt (fun t => val0 (a t) k) (val0 a1 k) t₀

theorem ListDeriv.buf {t₀ : ℝ} {a : ℝ → List ℝ} {a1 : List ℝ} (h : ListDeriv t₀ a a1) :
    (dualRel t₀).Buf a (List.zipWith Dual.mk (a t₀) a1) := by
  have hl : (List.zipWith Dual.mk (a t₀) a1).length = a1.length := by simp [h.1]
  refine ⟨fun t => by rw [hl, h.1], fun k hk => ?_⟩
  rw [hl] at hk
  rw [val0_zipDual (h.1 t₀).symm (by rw [h.1]; exact hk)]
  exact ⟨rfl, h.2 k hk⟩

theorem ListDeriv.of_buf {t₀ : ℝ} {a : ℝ → List ℝ} {d : List Dual} (h : (dualRel t₀).Buf a d) :
    a t₀ = d.map (·.re) ∧ ListDeriv t₀ a (d.map (·.eps)) := by
  have hv : ∀ k, val0 (d.map (·.re)) k = (val0 d k).re ∧ val0 (d.map (·.eps)) k = (val0 d k).eps := by
    intro k
    by_cases hk : k < d.length
    · simp [val0, List.getElem?_eq_getElem hk]
    · simp [val0, List.getElem?_eq_none (not_lt.mp hk)]
      exact ⟨rfl, rfl⟩
  refine ⟨list_ext_val0 (by simp [h.1]) fun k hk => ?_, by simp [h.1], fun k hk => ?_⟩
  · rw [(hv k).1]
    exact (h.2 k (by rw [h.1] at hk; exact hk)).1
  · rw [(hv k).2]
    exact (h.2 k (by simpa using hk)).2

/-- The Cholesky solvers, called with dual numbers, compute derivatives: where the data are differentiable at `t₀` and the
matrix there is positive definite (regular), the calls with the data for `t` near `t₀` return the solution `x t`, the call
with dual numbers returns `x t₀` together with the derivative `x1`, and `A x1 + A1 x = v1`. -/
theorem C93_derivative_cholesky (nd md : Bool) (mt : MemType) (n : Nat) (t₀ : ℝ) (a : ℝ → List ℝ) (a1 : List ℝ)
    (A : ℝ → Nat → Nat → ℝ) (A1 : Nat → Nat → ℝ) (hl : ∀ t, Lower mt n (a t) (A t)) (hs : ∀ t, Symm n (A t))
    (hp : if md then Regular (A t₀) n else PosDef n (A t₀)) (ha : ListDeriv t₀ a a1)
    (hA : ∀ i j, i < n → j < n → HasDerivAt (fun t => A t i j) (A1 i j) t₀) (b : Nat) (m : ℝ → Mem ℝ) (v1 : List ℝ)
    (hn : v1.length = n) (hv : ListDeriv t₀ (fun t => m t b) v1) (s : Mem Dual)
    (hd : s b = List.zipWith Dual.mk (m t₀ b) v1) :
    ∃ (x : ℝ → List ℝ) (x1 : List ℝ) (s1 : Mem Dual),
      (∀ᶠ t in 𝓝 t₀, Solves n (A t) (val0 (x t)) (val0 (m t b)) ∧
        cholSystem nd md mt n (a t) b (m t) = .ok ((m t).setBuf b (x t))) ∧
      cholSystem nd md mt n (List.zipWith Dual.mk (a t₀) a1) b s = .ok s1 ∧
      s1 b = List.zipWith Dual.mk (x t₀) x1 ∧ x1.length = n ∧ ListDeriv t₀ x x1 ∧
      ∀ i, i < n → mulVec n (A t₀) (val0 x1) i + mulVec n A1 (val0 (x t₀)) i = val0 v1 i := by
  -- the values
  have hlz : (List.zipWith Dual.mk (a t₀) a1).length = (a t₀).length := by simp [ha.1]
  have hlv : (List.zipWith Dual.mk (m t₀ b) v1).length = (m t₀ b).length := by simp [hv.1]
  obtain ⟨x0, hx0, hsol, s1, es, hs1⟩ := cholSystem_lim dualVal nd md mt n (fun _ => List.zipWith Dual.mk (a t₀) a1) (a t₀) (A t₀)
    (hl t₀) (hs t₀) hp ⟨fun _ => hlz, fun k hk => by
      show (val0 (List.zipWith Dual.mk (a t₀) a1) k).re = _
      rw [val0_zipDual (ha.1 t₀).symm hk]⟩ b (fun _ => s) (m t₀ b) ((hv.1 t₀).trans hn) ⟨fun _ => by rw [hd, hlv], fun k hk => by
      show (val0 (s b) k).re = _
      rw [hd, val0_zipDual (hv.1 t₀).symm hk]⟩
  have es' : cholSystem nd md mt n (List.zipWith Dual.mk (a t₀) a1) b s = .ok (s1 ()) := (eventually_top.mp es) ()
  -- a positive first entry
  have h00 : md = false → 0 < n → ∀ᶠ t in 𝓝 t₀, 0 < A t 0 0 := by
    intro hmd hn
    subst hmd
    exact (hA 0 0 hn hn).continuousAt.eventually (lt_mem_nhds (posDef_first hp hn))
  have hre : md = false → 0 < n → 0 < (val0 (List.zipWith Dual.mk (a t₀) a1) 0).re := by
    intro hmd hn
    have hk : val0 (a t₀) 0 = A t₀ 0 0 := by
      rw [← (hl t₀).val 0 0 (Nat.le_refl _) hn]
      cases mt <;> simp [cIndex]
    have h0 : 0 < (a t₀).length := by
      rw [(hl t₀).len]
      cases mt <;> simp [storeLen] <;> nlinarith
    rw [val0_zipDual (ha.1 t₀).symm h0]
    show 0 < val0 (a t₀) 0
    rw [hk]
    exact (h00 hmd hn).self_of_nhds
  obtain ⟨m1, e1, hm1⟩ := C93_chol_system (dualRel t₀) nd md mt n a _ ha.buf (fun hmd hn => by
      have := hre hmd hn
      exact ⟨this.ne', this.not_gt⟩) (P := (· = b)) (m := m) (m' := s) (fun p hp => by subst hp; rw [hd]; exact hv.buf) b rfl _ es'
  obtain ⟨h1, h2⟩ := ListDeriv.of_buf (hm1 b rfl)
  have hxn : (s1 () b).length = n := by
    have := hs1.1 ()
    rw [this, hx0]
  have hev : ∀ᶠ t in 𝓝 t₀, Solves n (A t) (val0 (m1 t b)) (val0 (m t b)) ∧
      cholSystem nd md mt n (a t) b (m t) = .ok ((m t).setBuf b (m1 t b)) := by
    have h0 : ∀ᶠ t in 𝓝 t₀, md = false → 0 < n → 0 < A t 0 0 := by
      by_cases h : md = false ∧ 0 < n
      · exact (h00 h.1 h.2).mono fun t ht _ _ => ht
      · exact .of_forall fun t h1 h2 => absurd ⟨h1, h2⟩ h
    filter_upwards [e1, h0] with t ht h0
    obtain ⟨L, hL⟩ := cholSystem_factor ht
    have htk := cholSystem_takes md mt n (a t) L (A t) (hl t) (hs t) h0 hL
    obtain ⟨x, k1, k2, k3⟩ := cholSystem_real nd md mt n (a t) (A t) (hl t) (hs t) htk b (m t) ((hv.1 t).trans hn)
    have he : m1 t = (m t).setBuf b x := Except.ok.inj (ht.symm.trans k3)
    rw [he, Mem.setBuf_self]
    exact ⟨k2, k3⟩
  refine ⟨fun t => m1 t b, (s1 () b).map (·.eps), s1 (), hev, es', ?_, by simpa using hxn, h2, ?_⟩
  · show s1 () b = List.zipWith Dual.mk (m1 t₀ b) _
    rw [h1]; exact zip_dual _
  · exact solves_deriv (hev.mono fun t ht => ht.1) hA (fun k hk => h2.2 k (by simpa [hxn] using hk)) fun k hk => hv.2 k (by omega)

/-- Tri-diagonal systems with dual numbers. -/
theorem C93_derivative_tdma (nd : Bool) (n : Nat) (hn : 2 ≤ n) (t₀ : ℝ) (a : ℝ → TriDiag ℝ) (a1 : TriDiag ℝ)
    (hw : ∀ t, TriWf (a t) n) (hr : Regular (triFull (a t₀)) n) (hd : ListDeriv t₀ (fun t => (a t).d) a1.d)
    (hdl : ListDeriv t₀ (fun t => (a t).dl) a1.dl) (hdu : ListDeriv t₀ (fun t => (a t).du) a1.du) (b : Nat) (m : ℝ → Mem ℝ)
    (v1 : List ℝ) (hnv : v1.length = n) (hv : ListDeriv t₀ (fun t => m t b) v1) (s : Mem Dual)
    (hs : s b = List.zipWith Dual.mk (m t₀ b) v1) :
    ∃ (x : ℝ → List ℝ) (x1 : List ℝ) (s1 : Mem Dual),
      (∀ᶠ t in 𝓝 t₀, Solves n (triFull (a t)) (val0 (x t)) (val0 (m t b)) ∧
        ∃ m1, Tdma.solveVec nd (a t) b b (m t) = .ok m1 ∧ Stores (m t) m1 b (x t)) ∧
      Tdma.solveVec nd ⟨List.zipWith Dual.mk (a t₀).dl a1.dl, List.zipWith Dual.mk (a t₀).d a1.d,
        List.zipWith Dual.mk (a t₀).du a1.du⟩ b b s = .ok s1 ∧
      s1 b = List.zipWith Dual.mk (x t₀) x1 ∧ x1.length = n ∧ ListDeriv t₀ x x1 ∧
      ∀ i, i < n → mulVec n (triFull (a t₀)) (val0 x1) i + mulVec n (triFull a1) (val0 (x t₀)) i = val0 v1 i := by
  have hz : ∀ {c : ℝ → List ℝ} {c1 : List ℝ}, ListDeriv t₀ c c1 →
      dualVal.Buf (fun _ => List.zipWith Dual.mk (c t₀) c1) (c t₀) := fun {c c1} h =>
    ⟨fun _ => by simp [h.1], fun k hk => by
      show (val0 (List.zipWith Dual.mk (c t₀) c1) k).re = _
      rw [val0_zipDual (h.1 t₀).symm hk]⟩
  obtain ⟨x0, hx0, hsol, s1, es, hs1⟩ := tdma_lim dualVal nd n hn (fun _ => ⟨List.zipWith Dual.mk (a t₀).dl a1.dl,
    List.zipWith Dual.mk (a t₀).d a1.d, List.zipWith Dual.mk (a t₀).du a1.du⟩) (a t₀) (hw t₀) hr ⟨hz hd, hz hdl, hz hdu⟩ b
    (fun _ => s) (m t₀ b) ((hv.1 t₀).trans hnv) (by simp only [hs]; exact hz hv)
  have es' := eventually_top.mp es ()
  obtain ⟨m1, e1, hm1⟩ := (C93_tdma (dualRel t₀) a ⟨List.zipWith Dual.mk (a t₀).dl a1.dl, List.zipWith Dual.mk (a t₀).d a1.d,
    List.zipWith Dual.mk (a t₀).du a1.du⟩ ⟨hd.buf, hdl.buf, hdu.buf⟩ (P := (· = b)) (m := m) (m' := s)
    (fun p hp => by subst hp; rw [hs]; exact hv.buf) nd).1 b b rfl rfl _ es'
  obtain ⟨h1, h2⟩ := ListDeriv.of_buf (hm1 b rfl)
  have hxn : (s1 () b).length = n := by
    have := hs1.1 ()
    rw [this, hx0]
  have hev : ∀ᶠ t in 𝓝 t₀, Solves n (triFull (a t)) (val0 (m1 t b)) (val0 (m t b)) ∧
      ∃ m2, Tdma.solveVec nd (a t) b b (m t) = .ok m2 ∧ Stores (m t) m2 b (m1 t b) := by
    filter_upwards [e1] with t ht
    have hl := (hv.1 t).trans hnv
    have hreg : Regular (triFull (a t)) n := by
      by_contra hc
      rw [C34_singular nd (a t) n (hw t) hn b b (m t) hl hl hc] at ht
      exact nomatch ht
    obtain ⟨x, m2, k1, k2, k3, k4⟩ := C34_vec_partial nd (a t) n (hw t) hn b b (m t) hl hl hreg
    have he : m1 t = m2 := Except.ok.inj (ht.symm.trans k1)
    rw [he, k2.1]
    exact ⟨k4, m2, k1, k2⟩
  refine ⟨fun t => m1 t b, (s1 () b).map (·.eps), s1 (), hev, es', ?_, by simpa using hxn, h2, ?_⟩
  · show s1 () b = List.zipWith Dual.mk (m1 t₀ b) _
    rw [h1]; exact zip_dual _
  · refine solves_deriv (hev.mono fun t ht => ht.1) (fun i j hi hj => ?_) (fun k hk => h2.2 k (by simpa [hxn] using hk))
      fun k hk => hv.2 k (by omega)
    have l1 : a1.d.length = n := by rw [← hd.1 t₀, (hw t₀).1]
    have l2 : a1.dl.length + 1 = n := by rw [← hdl.1 t₀, (hw t₀).2.1]
    have l3 : a1.du.length + 1 = n := by rw [← hdu.1 t₀, (hw t₀).2.2.1]
    unfold triFull
    by_cases c1 : i = j
    · simp only [if_pos c1]; exact hd.2 i (by omega)
    · by_cases c2 : i + 1 = j
      · simp only [if_neg c1, if_pos c2]; exact hdu.2 i (by omega)
      · by_cases c3 : i = j + 1
        · simp only [if_neg c1, if_neg c2, if_pos c3]; exact hdl.2 j (by omega)
        · simp only [if_neg c1, if_neg c2, if_neg c3]; exact hasDerivAt_const _ _

/-! ## Intervals -/

/-- Lists of intervals that contain the numbers of a list. -/
def Encloses {D : Directed} (I : List (Iv D)) (a : List ℝ) : Prop :=
  a.length = I.length ∧ ∀ k, k < I.length → (val0 I k).Has (val0 a k)

/-- The Cholesky solvers, called with intervals.  If the calls return (for the unmodified factorisation: and the first entry is
positive), then every symmetric matrix in the interval matrix is positive definite (regular), every system with a right-hand
side in the interval vector has its solution in the computed interval vector, and the solver with real numbers returns it. -/
theorem C93_interval_cholesky (D : Directed) (nd md : Bool) (mt : MemType) (n : Nat) (I : List (Iv D))
    (h0 : md = false → 0 < n → 0 < (val0 I 0).lo) (b : Nat) (s s1 : Mem (Iv D)) (hb : s.len b = n)
    (e : cholSystem nd md mt n I b s = .ok s1) (a : List ℝ) (A : Nat → Nat → ℝ) (hl : Lower mt n a A) (hs : Symm n A)
    (ha : Encloses I a) :
    (if md then Regular A n else PosDef n A) ∧ ∀ m : Mem ℝ, Encloses (s b) (m b) →
      ∃ x, Encloses (s1 b) x ∧ Solves n A (val0 x) (val0 (m b)) ∧ cholSystem nd md mt n a b m = .ok (m.setBuf b x) := by
  have hpos : md = false → 0 < n → ¬ IsZ (val0 I 0) ∧ ¬ val0 I 0 < 0 := fun hmd hn => by
    have := h0 hmd hn
    exact ⟨fun h => absurd h.1 (not_le.mpr this), fun h => absurd (show (val0 I 0).lo < 0 from h) this.not_gt⟩
  have hrun : ∀ m : Mem ℝ, Encloses (s b) (m b) → ∃ m1, cholSystem nd md mt n a b m = .ok m1 ∧ Encloses (s1 b) (m1 b) := by
    intro m hm
    obtain ⟨m1, e1, h1⟩ := C93_chol_system (ivRel D) nd md mt n (fun _ => a) I ⟨fun _ => ha.1, ha.2⟩ hpos
      (P := (· = b)) (m := fun _ => m) (m' := s) (fun p hp => by subst hp; exact ⟨fun _ => hm.1, hm.2⟩) b rfl _ e
    have h2 := h1 b rfl
    exact ⟨m1 (), eventually_top.mp e1 (), h2.1 (), h2.2⟩
  have hA0 : md = false → 0 < n → 0 < A 0 0 := by
    intro hmd hn
    have hk : val0 a 0 = A 0 0 := by
      rw [← hl.val 0 0 (Nat.le_refl _) hn]
      cases mt <;> simp [cIndex]
    have hlen : 0 < I.length := by
      rw [← ha.1, hl.len]
      cases mt <;> simp [storeLen] <;> nlinarith
    rw [← hk]
    exact (h0 hmd hn).trans_le (ha.2 0 hlen).1
  have htk : if md then Regular A n else PosDef n A := by
    obtain ⟨L', hL'⟩ := cholSystem_factor e
    cases md with
    | true =>
      obtain ⟨L, e1, -⟩ := C93_mod_cholesky (ivRel D) mt n (fun _ => a) I ⟨fun _ => ha.1, ha.2⟩ L' hL'
      exact cholSystem_takes true mt n a (L ()) A hl hs hA0 (eventually_top.mp e1 ())
    | false =>
      obtain ⟨L, e1, -⟩ := C93_cholesky (ivRel D) mt n (fun _ => a) I ⟨fun _ => ha.1, ha.2⟩ (fun hn => hpos rfl hn) L' hL'
      exact cholSystem_takes false mt n a (L ()) A hl hs hA0 (eventually_top.mp e1 ())
  refine ⟨htk, fun m hm => ?_⟩
  obtain ⟨m1, e1, h1⟩ := hrun m hm
  obtain ⟨x, k1, k2, k3⟩ := cholSystem_real nd md mt n a A hl hs htk b m (hm.1.trans hb)
  have he : m1 = m.setBuf b x := Except.ok.inj (e1.symm.trans k3)
  rw [he, Mem.setBuf_self] at h1
  exact ⟨x, h1, k2, k3⟩

/-- Tri-diagonal systems with intervals. -/
theorem C93_interval_tdma (D : Directed) (nd : Bool) (n : Nat) (hn : 2 ≤ n) (I : TriDiag (Iv D)) (b : Nat) (s s1 : Mem (Iv D))
    (hb : s.len b = n) (hne : ∃ v, Encloses (s b) v) (e : Tdma.solveVec nd I b b s = .ok s1) (a : TriDiag ℝ) (hw : TriWf a n)
    (hd : Encloses I.d a.d) (hdl : Encloses I.dl a.dl) (hdu : Encloses I.du a.du) :
    Regular (triFull a) n ∧ ∀ m : Mem ℝ, Encloses (s b) (m b) →
      ∃ x, Encloses (s1 b) x ∧ Solves n (triFull a) (val0 x) (val0 (m b)) ∧ Tdma.solveVec nd a b b m = .ok (m.setBuf b x) := by
  have hrun : ∀ m : Mem ℝ, Encloses (s b) (m b) → ∃ m1, Tdma.solveVec nd a b b m = .ok m1 ∧ Encloses (s1 b) (m1 b) := by
    intro m hm
    obtain ⟨m1, e1, h1⟩ := (C93_tdma (ivRel D) (fun _ => a) I ⟨⟨fun _ => hd.1, hd.2⟩, ⟨fun _ => hdl.1, hdl.2⟩, fun _ => hdu.1, hdu.2⟩
      (P := (· = b)) (m := fun _ => m) (m' := s) (fun p hp => by subst hp; exact ⟨fun _ => hm.1, hm.2⟩) nd).1 b b rfl rfl _ e
    have h2 := h1 b rfl
    exact ⟨m1 (), eventually_top.mp e1 (), h2.1 (), h2.2⟩
  have hreg : Regular (triFull a) n := by
    obtain ⟨v, hv⟩ := hne
    obtain ⟨m1, e1, -⟩ := hrun (fun _ => v) hv
    by_contra hc
    rw [C34_singular nd a n hw hn b b _ (hv.1.trans hb) (hv.1.trans hb) hc] at e1
    exact nomatch e1
  refine ⟨hreg, fun m hm => ?_⟩
  obtain ⟨m1, e1, h1⟩ := hrun m hm
  obtain ⟨x, m2, k1, k2, k3, k4⟩ := C34_vec_partial nd a n hw hn b b m (hm.1.trans hb) (hm.1.trans hb) hreg
  have he : m1 = m2 := Except.ok.inj (e1.symm.trans k1)
  rw [he, k2.1] at h1
  refine ⟨x, h1, k4, ?_⟩
  rw [k1]
  congr 1
  funext q
  by_cases hq : q = b
  · subst hq; rw [Mem.setBuf_self]; exact k2.1
  · rw [Mem.setBuf_other _ hq]; exact k2.2 q hq

/-! ## Examples -/

theorem Dual.isZ_iff (a : Dual) : IsZ a ↔ a.re = 0 := Iff.rfl

theorem Dual.divC_mk (a b : Dual) : divC a b =
    if b.re = 0 then .error .nonFinite else .ok ⟨a.re / b.re, (a.eps * b.re - a.re * b.eps) / b.re ^ 2⟩ := rfl

-- `t x = 1` at `t = 2`: the solution is `1 / 2`, its derivative `- 1 / 4`
example : ∃ s1, cholSystem true true .square 1 [⟨2, 1⟩] 0 (fun _ => [(⟨1, 0⟩ : Dual)]) = .ok s1 ∧ s1 0 = [⟨1 / 2, -1 / 4⟩] := by
  have h : divC (⟨1, 0⟩ : Dual) ⟨2, 1⟩ = .ok ⟨1 / 2, -1 / 4⟩ := by rw [Dual.divC_mk]; norm_num
  simp [cholSystem, Chol.modNew, Chol.modRow, Chol.solveMutVec, Chol.kernel, Chol.modLinear, Chol.modFwdRow, Chol.bwdRow,
    Chol.divCell, forRange, forUp, forDown, lrd, cIndex, Dual.isZ_iff, throwIf, cassert, Mem.len, Mem.rd, Mem.wr, Mem.upd, h]

theorem Iv.isZ_iff {D : Directed} (a : Iv D) : IsZ a ↔ a.lo ≤ 0 ∧ 0 ≤ a.hi := Iff.rfl

/-- Exact end points. -/
def exactEnds : Directed := ⟨id, id, fun _ => le_refl _, fun _ => le_refl _⟩

-- every symmetric matrix with diagonal entries in `[2, 3]` and the other entry in `[0, 1]` is accepted
example : ∃ L, Chol.modNew .square 2 [(⟨2, 3⟩ : Iv exactEnds), 0, ⟨0, 1⟩, ⟨2, 3⟩] = .ok L := by
  have h1 : (⟨0, 1⟩ * ⟨0, 1⟩ : Iv exactEnds) = ⟨0, 1⟩ := by
    show (⟨min (min (0 * 0) (0 * 1)) (min (1 * 0) (1 * 1)), max (max (0 * 0) (0 * 1)) (max (1 * 0) (1 * 1))⟩ : Iv exactEnds) = _
    norm_num
  have h2 : divC (⟨0, 1⟩ : Iv exactEnds) ⟨2, 3⟩ = .ok ⟨0, 1 / 2⟩ := by
    show (if (2 : ℝ) ≤ 0 ∧ (0 : ℝ) ≤ 3 then _ else Except.ok (⟨min (min (0 / 2) (0 / 3)) (min (1 / 2) (1 / 3)),
      max (max (0 / 2) (0 / 3)) (max (1 / 2) (1 / 3))⟩ : Iv exactEnds)) = _
    norm_num
  have h3 : (⟨2, 3⟩ - ⟨0, 2⁻¹⟩ : Iv exactEnds) = ⟨3 / 2, 3⟩ := by
    show (⟨2 - 2⁻¹, 3 - 0⟩ : Iv exactEnds) = _
    norm_num
  refine ⟨[⟨2, 3⟩, 0, ⟨0, 1⟩, ⟨3 / 2, 3⟩], ?_⟩
  simp [Chol.modNew, Chol.modRow, Chol.modSub, forRange, forUp, lrd, lwr, cIndex, throwIf, Iv.isZ_iff, h1, h2]
  rw [h3]
  norm_num

end Lalib.Props
