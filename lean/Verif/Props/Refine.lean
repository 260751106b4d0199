import Verif.Proofs.Refine
import Verif.Props.Forward
import Verif.Props.Vec

/-! # Property C92: iterative refinement with the calls of the library

Residual by `mul(-1, A, x, 1, r)`, correction by a solver, `axpy(1, d, x)`. -/

namespace Lalib.Props

open Lalib Finset

variable {R : Rounding}

/-- The objects of the program: which of them may coincide, and their sizes. -/
structure RefineObjs (n : ℕ) (a : MatRef) (b x r d : ℕ) (m : Mem (Fl R)) : Prop where
  wf : a.Wf m
  an : a.n = n
  am : a.m = n
  lb : m.len b = n
  lx : m.len x = n
  ld : m.len d = n
  xr : x ≠ r
  xd : x ≠ d
  rd : r ≠ d
  ax : a.buf ≠ x
  ar : a.buf ≠ r
  ad : a.buf ≠ d
  bx : b ≠ x
  br : b ≠ r
  bd : b ≠ d

/-- One step: the program runs through, changes `x`, `r` and `d` only, and the error of `x` shrinks by the factor `refRate`,
down to a rest. -/
theorem C92_step (nd : Bool) (n : ℕ) (a : MatRef) (b x r d : ℕ) (m : Mem (Fl R)) (ho : RefineObjs n a b x r d m)
    (sv : Mem (Fl R) → Res (Mem (Fl R))) (E : ℕ → ℕ → ℝ) (hs : SolverFor n (Fl.mat (entry n (m a.buf))) E r d sv)
    (K S c : ℝ) (hK : InvBound n (Fl.mat (entry n (m a.buf))) K) (hS : RowLe n (Fl.mat (entry n (m a.buf))) S)
    (hE : ∀ i, i < n → ∑ j ∈ range n, E i j ≤ c) (hKc : K * c < 1) (z : ℕ → ℝ) (e Z : ℝ)
    (hz : Solves n (Fl.mat (entry n (m a.buf))) z (fun i => (m.val b i).val)) (hZ : MaxLe n z Z)
    (he : MaxLe n (fun i => (m.val x i).val - z i) e) :
    ∃ m', refineStep nd a sv b x r d m = .ok m' ∧ m'.len x = n ∧ m'.len d = n ∧
      (∀ q, q ≠ x → q ≠ r → q ≠ d → m' q = m q) ∧
      MaxLe n (fun i => (m'.val x i).val - z i)
        (refRate R.u K S c (gam R.u (n + 2)) * e + refRest R.u K S c (gam R.u (n + 2)) * Z) := by
  obtain ⟨wf, an, am, lb, lx, ld, xr, xd, rd, ax, ar, ad, bx, br, bd⟩ := ho
  -- the copy
  have c1 : ∀ q, q ≠ r → (m.setBuf r (m b)) q = m q := fun q hq => Mem.setBuf_other _ hq _
  have c2 : (m.setBuf r (m b)) r = m b := Mem.setBuf_self _ _ _
  set m1 := m.setBuf r (m b) with hm1
  -- the residual
  have wf1 : a.Wf m1 := by show (m1 a.buf).length = _; rw [c1 _ ar]; exact wf
  obtain ⟨m2, e2, _, _, l2, k2, h2⟩ := C57_gemv nd (-1) 1 a x r m1 wf1
    (by show (m1 x).length = _; rw [c1 _ xr, am]; exact lx) (by show (m1 r).length = _; rw [c2, an]; exact lb) ar
  rw [an] at l2 h2
  rw [am] at h2
  have vx : ∀ i, m1.val x i = m.val x i := fun i => by show val0 (m1 x) i = val0 (m x) i; rw [c1 _ xr]
  have vr : ∀ i, m1.val r i = m.val b i := fun i => by show val0 (m1 r) i = val0 (m b) i; rw [c2]
  rw [c1 _ ar] at h2
  have h3 : ∀ i, i < n → |(m2.val r i).val - ((m.val b i).val - mulVec n (Fl.mat (entry n (m a.buf))) (fun k => (m.val x k).val) i)| ≤
      gam R.u (n + 2) * (|(m.val b i).val| + ∑ k ∈ range n, |Fl.mat (entry n (m a.buf)) i k * (m.val x k).val|) := by
    intro i hi
    have := h2 i hi
    simp only [Fl.val_one, Fl.val_neg, one_mul, neg_mul, abs_neg, sum_neg_distrib, vx, vr] at this
    rw [← sub_eq_add_neg] at this
    exact this
  -- the correction
  obtain ⟨l, e3, hl, h4⟩ := hs m2 l2 (by show (m2 d).length = n; rw [k2 _ rd.symm, c1 _ rd.symm]; exact ld)
  have d1 : (m2.setBuf d l) d = l := Mem.setBuf_self _ _ _
  have d2 : ∀ q, q ≠ d → (m2.setBuf d l) q = m2 q := fun q hq => Mem.setBuf_other _ hq _
  set m3 := m2.setBuf d l with hm3
  have x3 : m3 x = m x := by rw [d2 _ xd, k2 _ xr, c1 _ xr]
  -- the update
  obtain ⟨m4, e4, _, s4, k4⟩ := C01_axpy 1 m3 d x (by
    show (m3 x).length = (m3 d).length
    rw [x3, d1, hl]; exact lx)
  have lx' : (m x).length = n := lx
  refine ⟨m4, ?_, ?_, ?_, ?_, ?_⟩
  · unfold refineStep
    simp only [← hm1, e2, ok_bind, e3, e4]
  · show (m4 x).length = n
    rw [s4, x3, d1]; simp [lx', hl]
  · show (m4 d).length = n
    rw [k4 _ xd.symm, d1, hl]
  · intro q h1 h5 h6
    rw [k4 _ h1, d2 _ h6, k2 _ h5, c1 _ h5]
  · refine refine_err (d := fun i => (val0 l i).val) (r := fun i => (m2.val r i).val) (x := fun i => (m.val x i).val) R.u_nonneg
      (gam_nonneg R.u_nonneg R.u_lt_one _) hK hS hE hKc hz h3 h4 (fun i hi => ?_) he hZ
    have e5 : m4.val x i = 1 * val0 l i + m.val x i := by
      show val0 (m4 x) i = 1 * val0 l i + val0 (m x) i
      rw [s4, x3, d1, val0_of_lt (by simp [lx', hl, hi]), val0_of_lt (by omega), val0_of_lt (by omega), List.getElem_zipWith]
    rw [e5, Fl.one_mul]
    exact R.err _

/-- `k` steps. -/
theorem C92_refine (nd : Bool) (n : ℕ) (a : MatRef) (b x r d : ℕ) (m : Mem (Fl R)) (ho : RefineObjs n a b x r d m)
    (sv : Mem (Fl R) → Res (Mem (Fl R))) (E : ℕ → ℕ → ℝ) (hs : SolverFor n (Fl.mat (entry n (m a.buf))) E r d sv)
    (K S c : ℝ) (hK : InvBound n (Fl.mat (entry n (m a.buf))) K) (hS : RowLe n (Fl.mat (entry n (m a.buf))) S)
    (hE : ∀ i, i < n → ∑ j ∈ range n, E i j ≤ c) (hKc : K * c < 1) (z : ℕ → ℝ) (e Z : ℝ)
    (hz : Solves n (Fl.mat (entry n (m a.buf))) z (fun i => (m.val b i).val)) (hZ : MaxLe n z Z)
    (he : MaxLe n (fun i => (m.val x i).val - z i) e) (k : ℕ) :
    ∃ m', refineTimes nd a sv b x r d k m = .ok m' ∧ m'.len x = n ∧ (∀ q, q ≠ x → q ≠ r → q ≠ d → m' q = m q) ∧
      MaxLe n (fun i => (m'.val x i).val - z i) (refRate R.u K S c (gam R.u (n + 2)) ^ k * e +
        refRest R.u K S c (gam R.u (n + 2)) * Z * ∑ j ∈ range k, refRate R.u K S c (gam R.u (n + 2)) ^ j) := by
  suffices h : ∀ k, ∃ m', refineTimes nd a sv b x r d k m = .ok m' ∧ m'.len x = n ∧ m'.len d = n ∧
      (∀ q, q ≠ x → q ≠ r → q ≠ d → m' q = m q) ∧
      MaxLe n (fun i => (m'.val x i).val - z i) (refRate R.u K S c (gam R.u (n + 2)) ^ k * e +
        refRest R.u K S c (gam R.u (n + 2)) * Z * ∑ j ∈ range k, refRate R.u K S c (gam R.u (n + 2)) ^ j) by
    obtain ⟨m', h1, h2, _, h3, h4⟩ := h k
    exact ⟨m', h1, h2, h3, h4⟩
  intro k
  induction k with
  | zero => exact ⟨m, rfl, ho.lx, ho.ld, fun _ _ _ _ => rfl, by simpa using he⟩
  | succ k ih =>
    obtain ⟨m1, e1, l1, ld1, k1, h1⟩ := ih
    have ka := k1 a.buf ho.ax ho.ar ho.ad
    have kb := k1 b ho.bx ho.br ho.bd
    have ho1 : RefineObjs n a b x r d m1 :=
      { ho with
        wf := by show (m1 a.buf).length = _; rw [ka]; exact ho.wf
        lb := by show (m1 b).length = _; rw [kb]; exact ho.lb
        lx := l1
        ld := ld1 }
    have vb : ∀ i, m1.val b i = m.val b i := fun i => by show val0 (m1 b) i = val0 (m b) i; rw [kb]
    obtain ⟨m2, e2, l2, ld2, k2, h2⟩ := C92_step nd n a b x r d m1 ho1 sv E (by rw [ka]; exact hs) K S c
      (by rw [ka]; exact hK) (by rw [ka]; exact hS) hE hKc z _ Z (by simp only [ka, vb]; exact hz) hZ h1
    refine ⟨m2, ?_, l2, ld2, fun q q1 q2 q3 => (k2 q q1 q2 q3).trans (k1 q q1 q2 q3), ?_⟩
    · show (refineTimes nd a sv b x r d k m >>= fun m => refineStep nd a sv b x r d m) = _
      rw [e1, ok_bind, e2]
    · intro i hi
      refine (h2 i hi).trans (le_of_eq ?_)
      rw [sum_range_succ' (fun j => refRate R.u K S c (gam R.u (n + 2)) ^ j)]
      have : ∑ j ∈ range k, refRate R.u K S c (gam R.u (n + 2)) ^ (j + 1) =
          refRate R.u K S c (gam R.u (n + 2)) * ∑ j ∈ range k, refRate R.u K S c (gam R.u (n + 2)) ^ j := by
        rw [mul_sum]; exact sum_congr rfl fun j _ => by ring
      rw [this]
      ring

private theorem geom_rest (q f e Z : ℝ) (h0 : 0 ≤ q) (h1 : q < 1) (hf : 0 ≤ f) (hZ : 0 ≤ Z) (k : ℕ) :
    q ^ k * e + f * Z * ∑ j ∈ range k, q ^ j ≤ q ^ k * e + f * Z / (1 - q) := by
  have p : 0 < 1 - q := by linarith
  have hs : ∑ j ∈ range k, q ^ j ≤ 1 / (1 - q) := by
    have h2 : (∑ j ∈ range k, q ^ j) * (1 - q) = 1 - q ^ k := by
      have := geom_sum_mul q k
      linarith
    rw [le_div_iff₀ p, h2]
    have := pow_nonneg h0 k
    linarith
  have := mul_le_mul_of_nonneg_left hs (mul_nonneg hf hZ)
  rw [mul_one_div] at this
  linarith

/-- If the factor is below one: what `k` steps achieve, in a closed form. -/
theorem C92_limit (nd : Bool) (n : ℕ) (a : MatRef) (b x r d : ℕ) (m : Mem (Fl R)) (ho : RefineObjs n a b x r d m)
    (sv : Mem (Fl R) → Res (Mem (Fl R))) (E : ℕ → ℕ → ℝ) (hs : SolverFor n (Fl.mat (entry n (m a.buf))) E r d sv)
    (K S c : ℝ) (hn : 0 < n) (hK : InvBound n (Fl.mat (entry n (m a.buf))) K)
    (hS : RowLe n (Fl.mat (entry n (m a.buf))) S) (hE : ∀ i, i < n → ∑ j ∈ range n, E i j ≤ c) (h0 : 0 ≤ c) (hKc : K * c < 1)
    (z : ℕ → ℝ) (e Z : ℝ) (hz : Solves n (Fl.mat (entry n (m a.buf))) z (fun i => (m.val b i).val)) (hZ : MaxLe n z Z)
    (he : MaxLe n (fun i => (m.val x i).val - z i) e) (hq : refRate R.u K S c (gam R.u (n + 2)) < 1) (k : ℕ) :
    ∃ m', refineTimes nd a sv b x r d k m = .ok m' ∧ m'.len x = n ∧ (∀ q, q ≠ x → q ≠ r → q ≠ d → m' q = m q) ∧
      MaxLe n (fun i => (m'.val x i).val - z i) (refRate R.u K S c (gam R.u (n + 2)) ^ k * e +
        refRest R.u K S c (gam R.u (n + 2)) * Z / (1 - refRate R.u K S c (gam R.u (n + 2)))) := by
  obtain ⟨m', h1, h2, h3, h4⟩ := C92_refine nd n a b x r d m ho sv E hs K S c hK hS hE hKc z e Z hz hZ he k
  have u0 := R.u_nonneg
  have g0 := gam_nonneg R.u_nonneg R.u_lt_one (n + 2)
  have k0 := hK.1
  have s0 : 0 ≤ S := (sum_nonneg fun _ _ => abs_nonneg _).trans (hS 0 hn)
  have z0 : 0 ≤ Z := (abs_nonneg _).trans (hZ 0 hn)
  have p : 0 < 1 - K * c := by linarith
  refine ⟨m', h1, h2, h3, fun i hi => (h4 i hi).trans (geom_rest _ _ e Z ?_ hq ?_ z0 k)⟩
  · unfold refRate; positivity
  · unfold refRest; positivity

/-! ## Solvers that may be used -/

/-- The tri-diagonal solver for a matrix whose diagonal dominates. -/
theorem C92_tdma (nd : Bool) (t : TriDiag (Fl R)) (n : ℕ) (hw : TriWf t n) (hn : 2 ≤ n) (r d : ℕ)
    (hd : ∀ i, i < n → ∑ j ∈ (range n).erase i, |Fl.mat (triFull t) i j| <
      (1 - R.u) ^ 2 * |Fl.mat (triFull t) i i|) (A : ℕ → ℕ → ℝ)
    (hA : ∀ i j, i < n → j < n → A i j = Fl.mat (triFull t) i j) :
    SolverFor n A (fun i j => 3 * gam R.u 5 * |A i j|) r d (Tdma.solveVec nd t r d) := by
  intro m hr hd'
  obtain ⟨l, m', e, hl, h1, dA, h2, h3⟩ := C60_dominant nd t n hw hn r d m hr hd' hd
  refine ⟨l, by rw [e, hl.eq], h1, dA, fun i j hi hj => by beta_reduce; rw [hA i j hi hj]; exact h2 i j hi hj, fun i hi => ?_⟩
  rw [← h3 i hi]
  unfold mulVec
  exact sum_congr rfl fun j hj => by beta_reduce; rw [hA i j hi (mem_range.mp hj)]

/-- The solver of a Cholesky object. -/
theorem C92_chol (nd : Bool) (mt : MemType) (n : ℕ) (l L : List (Fl R)) (B : Nat → Nat → Fl R) (hl : Lower mt n l B)
    (hs : Symm n B) (h0 : 0 < (B 0 0).val) (e : Chol.new mt n l = .ok L) (r d : ℕ) (hrd : r ≠ d) (A : ℕ → ℕ → ℝ)
    (hA : ∀ i j, i < n → j < n → A i j = (B i j).val) :
    SolverFor n A (fun i j => gam R.u (4 * n + 2) * (Real.sqrt (A i i) * Real.sqrt (A j j))) r d
      (Chol.solveVecAt nd false mt n L r d) := by
  intro m hr _
  obtain ⟨x, h1, _, e2, dA, h2, h3⟩ := C59_solve_vec nd mt n l L B hl hs h0 e m r d hr hrd.symm
  refine ⟨x, e2, h1, dA, fun i j hi hj => by beta_reduce; rw [hA i i hi hi, hA j j hj hj]; exact h2 i j hi hj, fun i hi => ?_⟩
  rw [← h3 i hi]
  unfold mulVec
  exact sum_congr rfl fun j hj => by beta_reduce; rw [hA i j hi (mem_range.mp hj)]; rfl

section
variable {M : Type} {ops : MatOps M (Fl R)} {ok : M → Prop}

/-- An incomplete factorisation of any matrix (then the method is the preconditioned Richardson iteration): the backward error
contains what the factorisation has dropped. -/
theorem C92_ilu (hst : Storage ops ok) (n : ℕ) (f : M) (G : Nat → Nat → Fl R) (hok : ok f) (hG : Shows ops n f G)
    (hd : ∀ i, i < n → G i i ≠ 0) (r d : ℕ) (A : ℕ → ℕ → ℝ) :
    SolverFor n A (fun i j => |luProd n (Fl.mat G) i j - A i j| +
        gam R.u (2 * n) * ∑ k ∈ range n, |unitLow (Fl.mat G) i k * upper (Fl.mat G) k j|) r d
      (fun m => (Ilu.solve ops f (m r)).map fun x => m.setBuf d x) := by
  intro m hr _
  obtain ⟨x, e, hx, dA, h2, h3⟩ := C61_solve hst n f G hok hG hd (m r) hr
  refine ⟨x, by simp only [e]; rfl, hx, fun i j => dA i j + (luProd n (Fl.mat G) i j - A i j), fun i j hi hj => ?_, fun i hi => ?_⟩
  · beta_reduce
    rw [add_comm]
    exact (abs_add_le _ _).trans (add_le_add le_rfl (h2 i j hi hj))
  · beta_reduce
    refine Eq.trans ?_ (h3 i hi)
    unfold mulVec
    exact sum_congr rfl fun j _ => by ring

end

/-! ## Examples -/

-- objects as required
example (R : Rounding) : RefineObjs 1 ⟨0, 1, 1⟩ 1 2 3 4 (Mem.ofList [[1], [1], [0], [0], [0]] : Mem (Fl R)) := by
  constructor <;> simp [MatRef.Wf, Mem.len, Mem.ofList]

-- the exact solver is one
example (R : Rounding) : SolverFor 1 (fun _ _ => 1) (fun _ _ => 0) 3 4 (fun m : Mem (Fl R) => .ok (m.setBuf 4 (m 3))) := by
  intro m h _
  exact ⟨m 3, rfl, h, fun _ _ => 0, fun _ _ _ _ => by simp, fun i hi => by
    obtain rfl : i = 0 := by omega
    simp [mulVec, Mem.val]⟩

-- roundoff `2^-53`, condition number `K S = 4000`, solver with a relative backward error of `2^-20`: three digits per step
example : refRate (1 / 2 ^ 53) 1000 4 (4 / 2 ^ 20) (1 / 2 ^ 45) < 1 / 250 := by unfold refRate; norm_num

end Lalib.Props
