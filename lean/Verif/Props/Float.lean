import Verif.Proofs.Float
import Verif.Proofs.Binary
import Verif.Props.Eval
import Verif.Props.Vec

/-! # Properties C56, C57: rounding errors of the products

The functions of the model run on `Fl R`: numbers whose operations are rounded with a relative error of at most `R.u`
(`Verif/Spec/Float.lean`).  `gam u k = 1/(1-u)^k - 1` is the usual bound for `k` roundings, see `C56_gam`.
The right-hand sides are written with the real numbers which the data stand for. -/

namespace Lalib.Props

open Lalib Finset

variable {R : Rounding}

/-! ## C56: inner products and norms -/

/-- The constant is at most `k u / (1 - k u)`. -/
theorem C56_gam (k : ℕ) (hk : k * R.u < 1) : 0 ≤ gam R.u k ∧ gam R.u k ≤ k * R.u / (1 - k * R.u) :=
  ⟨gam_nonneg R.u_nonneg R.u_lt_one k, gam_le R.u_nonneg R.u_lt_one hk⟩

/-- The error of an inner product of `n` terms is at most `gam n` times the sum of the absolute values of the terms. -/
theorem C56_dot (m : Mem (Fl R)) (x y : Nat) (h : m.len y = m.len x) (h0 : 0 < m.len x) :
    ∃ r, dynDot m x y = .ok r ∧ dotDD m x y = .ok r ∧ dotSS (m.len x) m x y = .ok r ∧
      sizedDotDyn (m.len x) m x y = .ok r ∧
      |r.val - ∑ i ∈ range (m.len x), (m.val x i).val * (m.val y i).val| ≤
        gam R.u (m.len x) * ∑ i ∈ range (m.len x), |(m.val x i).val * (m.val y i).val| := by
  have e := dotCore_raw (m := m) (x := x) (y := y) (n := m.len x) h0 (le_refl _) h.ge
  refine ⟨addUp (fun i => m.val x i * m.val y i) 1 (m.len x) (m.val x 0 * m.val y 0), ?_, ?_, ?_, ?_, ?_⟩
  rotate_left 4
  · obtain ⟨n, hn⟩ : ∃ n, m.len x = n + 1 := ⟨m.len x - 1, by omega⟩
    have := Fl.addUp_err (R := R) (g := fun i => m.val x i * m.val y i) (t := m.val x 0 * m.val y 0) (lo := 1)
      (n := n) (K := 1) (e := fun k => (m.val x (k + 1)).val * (m.val y (k + 1)).val)
      (e' := (m.val x 0).val * (m.val y 0).val)
      (fun k _ => by rw [Nat.add_comm 1 k]; exact Fl.mul_fac _ _) (Fl.mul_fac _ _)
    rw [hn, sum_range_succ', sum_range_succ', add_comm _ ((m.val x 0).val * (m.val y 0).val),
      add_comm _ |(m.val x 0).val * (m.val y 0).val|]
    rw [Nat.add_comm 1 n] at this
    exact this
  · unfold dynDot; rw [h, checkSize_self, ok_bind, e]
  · unfold dotDD; rw [h, checkSize_self, ok_bind, e]; rfl
  · unfold dotSS; rw [e]; rfl
  · unfold sizedDotDyn; rw [e]; rfl

/-- The same bound whatever the shape of the SIMD reduction. -/
theorem C56_dot_any_order (m : Mem (Fl R)) (x y : Nat) (h : m.len y = m.len x) (h0 : 0 < m.len x) (t : RedTree)
    (ht : t.leaves.Perm (List.range' 1 (m.len x - 1))) :
    ∃ r, dotCoreTree t m x y = .ok r ∧
      |r.val - ∑ i ∈ range (m.len x), (m.val x i).val * (m.val y i).val| ≤
        gam R.u (m.len x) * ∑ i ∈ range (m.len x), |(m.val x i).val * (m.val y i).val| := by
  have u0 := R.u_nonneg
  have u1 := R.u_lt_one
  have hl : ∀ i ∈ t.leaves, i < m.len x ∧ i < m.len y := by
    intro i hi
    have := List.mem_range'_1.mp (ht.mem_iff.mp hi)
    omega
  obtain ⟨v, hv, hb⟩ := Fl.tree_err t hl
  refine ⟨_, by unfold dotCoreTree; rw [Mem.rd_ok (by omega), ok_bind, Mem.rd_ok (by omega), ok_bind, hv, ok_bind], ?_⟩
  rw [(ht.map _).sum_eq, (ht.map _).sum_eq, ht.length_eq, List.length_range'] at hb
  obtain ⟨n, hn⟩ : ∃ n, m.len x = n + 1 := ⟨m.len x - 1, by omega⟩
  have conv : ∀ f : ℕ → ℝ, ((List.range' 1 n).map f).sum = ∑ k ∈ range n, f (k + 1) := by
    intro f
    rw [list_sum_eq_range]
    simp only [List.length_map, List.length_range']
    refine sum_congr rfl fun i hi => ?_
    have := mem_range.mp hi
    simp [val0, this, Nat.add_comm 1 i]
  rw [hn, Nat.add_sub_cancel, conv, conv] at hb
  rw [hn, sum_range_succ', sum_range_succ', add_comm _ ((m.val x 0).val * (m.val y 0).val),
      add_comm _ |(m.val x 0).val * (m.val y 0).val|]
  show |R.rnd ((m.val x 0 * m.val y 0).val + v.val) - _| ≤ _
  obtain ⟨ρ, hρ, e⟩ := Fl.mul_fac (m.val x 0) (m.val y 0)
  by_cases h1 : n = 0
  · -- no leaves: the reduction contributes zero
    subst h1
    have hv0 : v = 0 := by
      have : t.leaves = [] := by
        have := ht.length_eq
        rw [List.length_range'] at this
        exact List.length_eq_zero_iff.mp (by omega)
      rw [Fl.tree_empty t this] at hv
      injection hv with hv
      exact hv.symm
    subst hv0
    have e0 : R.rnd ((m.val x 0 * m.val y 0).val + (0 : Fl R).val) = (m.val x 0 * m.val y 0).val := by
      rw [Fl.val_zero, add_zero, (m.val x 0 * m.val y 0).rep]
    rw [e0, e]
    simpa using term_fac_le u0 u1 (a := (m.val x 0).val * (m.val y 0).val) hρ
  · refine Fl.add_err (k := 1) (l := n) (by omega) (by omega) (le_refl _) (abs_sum_le_sum_abs _ _) ?_ hb
    rw [e]
    exact term_fac_le u0 u1 hρ

/-- The norm of a vector of `n` numbers, with a relative error of at most `gam (n+1)`; it is never the root of a
negative number. -/
theorem C56_norm2 (m : Mem (Fl R)) (x : Nat) :
    ∃ r, vecNorm2 m x = .ok r ∧
      |r.val - Real.sqrt (∑ i ∈ range (m.len x), (m.val x i).val ^ 2)| ≤
        gam R.u (m.len x + 1) * Real.sqrt (∑ i ∈ range (m.len x), (m.val x i).val ^ 2) := by
  obtain ⟨τ, hτ, e⟩ := Fl.addUp_sq (m.val x) (m.len x)
  simp only [pow_two]
  obtain ⟨h1, h2⟩ := Fl.sqrt_err (sum_nonneg fun i _ => mul_self_nonneg _) hτ e
  refine ⟨_, ?_, h2⟩
  unfold vecNorm2
  rw [norm2Core_raw (le_refl _), h1]
  rfl

/-- The same bound whatever the shape of the SIMD reduction. -/
theorem C56_norm2_any_order (m : Mem (Fl R)) (x : Nat) (t : RedTree) (ht : t.leaves.Perm (List.range (m.len x))) :
    ∃ r, norm2CoreTree t m x = .ok r ∧
      |r.val - Real.sqrt (∑ i ∈ range (m.len x), (m.val x i).val ^ 2)| ≤
        gam R.u (m.len x + 1) * Real.sqrt (∑ i ∈ range (m.len x), (m.val x i).val ^ 2) := by
  obtain ⟨v, hv, τ, hτ, e⟩ := Fl.tree_sq (m := m) (x := x) t fun i hi => List.mem_range.mp (ht.mem_iff.mp hi)
  have conv : (t.leaves.map fun i => (m.val x i).val * (m.val x i).val).sum =
      ∑ i ∈ range (m.len x), (m.val x i).val * (m.val x i).val := by
    rw [(ht.map _).sum_eq, list_sum_eq_range]
    simp only [List.length_map, List.length_range]
    refine sum_congr rfl fun i hi => ?_
    have := mem_range.mp hi
    simp [val0, this]
  rw [conv] at e
  rw [ht.length_eq, List.length_range] at hτ
  simp only [pow_two]
  obtain ⟨h1, h2⟩ := Fl.sqrt_err (sum_nonneg fun i _ => mul_self_nonneg _) hτ e
  refine ⟨_, ?_, h2⟩
  unfold norm2CoreTree
  rw [hv, ok_bind, Fl.zero_add, h1]

-- a reduction with two lanes over four products, and some numbers
example : (RedTree.node (.node .zero (.leaf 2)) (.node (.leaf 1) (.leaf 3))).leaves.Perm (List.range' 1 (4 - 1)) := by
  decide

/-! ## C57: matrix products -/

/-- `y := alpha A x + beta y`. -/
theorem C57_gemv (nd : Bool) (alpha beta : Fl R) (a : MatRef) (x y : Nat) (s : Mem (Fl R))
    (ha : a.Wf s) (hx : s.len x = a.m) (hy : s.len y = a.n) (hay : a.buf ≠ y) :
    ∃ s', gemvDD nd alpha a x beta y s = .ok s' ∧ gemvSD nd alpha a x beta y s = .ok s' ∧
      gemvSS alpha a x beta y s = .ok s' ∧ s'.len y = a.n ∧ (∀ q, q ≠ y → s' q = s q) ∧ ∀ i, i < a.n →
      |(s'.val y i).val - (beta.val * (s.val y i).val +
          ∑ k ∈ range a.m, alpha.val * (entry a.m (s a.buf) i k).val * (s.val x k).val)| ≤
        gam R.u (a.m + 2) * (|beta.val * (s.val y i).val| +
          ∑ k ∈ range a.m, |alpha.val * (entry a.m (s a.buf) i k).val * (s.val x k).val|) := by
  obtain ⟨s', h1, h2, h3, h4, h5⟩ := C55_gemv nd alpha beta a x y s ha hx hy hay
  refine ⟨s', h1, h2, h3, by show (s' y).length = _; rw [h4]; simp, h5, fun i hi => ?_⟩
  have hu := R.u_nonneg
  have hu' := R.u_lt_one
  have e : s'.val y i = addUp (fun k => alpha * entry a.m (s a.buf) i k * val0 (s x) k) 0 a.m
      (beta * val0 (s y) i) := by
    show val0 (s' y) i = _
    rw [h4, val0_map_range, if_pos hi]
  rw [e]
  have := Fl.addUp_err (R := R) (g := fun k => alpha * entry a.m (s a.buf) i k * val0 (s x) k)
    (t := beta * val0 (s y) i) (lo := 0) (n := a.m) (K := 2)
    (e := fun k => alpha.val * (entry a.m (s a.buf) i k).val * (s.val x k).val)
    (e' := beta.val * (s.val y i).val) (fun k _ => by rw [Nat.zero_add]; exact Fl.mul3_fac _ _ _)
    (by
      obtain ⟨ρ, hρ, e⟩ := Fl.mul_fac beta (val0 (s y) i)
      exact ⟨ρ, hρ.mono hu hu' (by omega), e⟩)
  rwa [Nat.zero_add] at this

/-- `A x` returned by the operator: no rounding of the scaling by one and of the first addition. -/
theorem C57_mat_vec (nd : Bool) (a : MatRef) (x r : Nat) (s : Mem (Fl R)) (ha : a.Wf s) (hx : s.len x = a.m)
    (har : a.buf ≠ r) (hxr : x ≠ r) :
    ∃ s', matVecAt nd s a x r = .ok s' ∧ s'.len r = a.n ∧ (∀ q, q ≠ r → s' q = s q) ∧ ∀ i, i < a.n →
      |(s'.val r i).val - ∑ k ∈ range a.m, (entry a.m (s a.buf) i k).val * (s.val x k).val| ≤
        gam R.u a.m * ∑ k ∈ range a.m, |(entry a.m (s a.buf) i k).val * (s.val x k).val| := by
  have e1 : ∀ l, s.setBuf r l a.buf = s a.buf := fun l => Mem.setBuf_other _ har _
  have e2 : ∀ l, s.setBuf r l x = s x := fun l => Mem.setBuf_other _ hxr _
  have e : matVecAt nd s a x r = .ok (s.setBuf r ((List.range a.n).map fun i =>
      addUp (fun k => entry a.m (s a.buf) i k * val0 (s x) k) 0 a.m 0)) := by
    unfold matVecAt
    rw [hx]
    simp only [beq_self_eq_true, cassert_true, ok_bind]
    rw [gemvCore_raw (by simp only [Mem.len, e1]; exact ha.ge) (by simp only [Mem.len, e2]; exact hx.ge)
      (by simp [Mem.len]) har, e1, e2, Mem.setBuf_setBuf, Lalib.noexcept_ok]
    simp only [Fl.one_mul, Fl.zero_mul]
  refine ⟨_, e, by simp [Mem.len], fun q hq => Mem.setBuf_other _ hq _, fun i hi => ?_⟩
  have e' : (s.setBuf r ((List.range a.n).map fun i =>
      addUp (fun k => entry a.m (s a.buf) i k * val0 (s x) k) 0 a.m 0)).val r i =
      addUp (fun k => entry a.m (s a.buf) i k * val0 (s x) k) 0 a.m 0 := by
    show val0 (s.setBuf r _ r) i = _
    rw [Mem.setBuf_self, val0_map_range, if_pos hi]
  rw [e']
  exact Fl.addUp_prod_err _ _ _

/-- `C := alpha A B + beta C`; any sharing of storage. -/
theorem C57_gemm (nd : Bool) (alpha beta : Fl R) (a b c : MatRef) (s : Mem (Fl R)) (ha : a.Wf s) (hb : b.Wf s)
    (hc : c.Wf s) (h1 : a.n = c.n) (h2 : b.m = c.m) (h3 : a.m = b.n) :
    ∃ s', gemmDDD nd alpha a b beta c s = .ok s' ∧ gemmSSS alpha a b beta c s = .ok s' ∧
      gemmDSS nd alpha a b beta c s = .ok s' ∧ gemmSDS nd alpha a b beta c s = .ok s' ∧
      gemmDDS nd alpha a b beta c s = .ok s' ∧ gemmDSD nd alpha a b beta c s = .ok s' ∧
      gemmSDD nd alpha a b beta c s = .ok s' ∧ s'.len c.buf = c.n * c.m ∧ (∀ q, q ≠ c.buf → s' q = s q) ∧
      ∀ i j, i < c.n → j < c.m →
      |(entry c.m (s' c.buf) i j).val - (beta.val * (entry c.m (s c.buf) i j).val +
          ∑ k ∈ range a.m, alpha.val * (entry a.m (s a.buf) i k).val * (entry c.m (s b.buf) k j).val)| ≤
        gam R.u (a.m + 2) * (|beta.val * (entry c.m (s c.buf) i j).val| +
          ∑ k ∈ range a.m, |alpha.val * (entry a.m (s a.buf) i k).val * (entry c.m (s b.buf) k j).val|) := by
  obtain ⟨s', g1, g2, g3, g4, g5, g6, g7, g8, g9⟩ := C55_gemm nd alpha beta a b c s ha hb hc h1 h2 h3
  refine ⟨s', g1, g2, g3, g4, g5, g6, g7, by show (s' c.buf).length = _; rw [g8]; simp [matOf], g9,
    fun i j hi hj => ?_⟩
  have hu := R.u_nonneg
  have hu' := R.u_lt_one
  rw [g8, entry_matOf _ hi hj]
  have := Fl.addUp_err (R := R) (g := fun k => alpha * entry a.m (s a.buf) i k * entry c.m (s b.buf) k j)
    (t := gemmStart (a.buf = c.buf ∨ b.buf = c.buf) beta (entry c.m (s c.buf) i j)) (lo := 0) (n := a.m) (K := 2)
    (e := fun k => alpha.val * (entry a.m (s a.buf) i k).val * (entry c.m (s b.buf) k j).val)
    (e' := beta.val * (entry c.m (s c.buf) i j).val) (fun k _ => by rw [Nat.zero_add]; exact Fl.mul3_fac _ _ _)
    (by
      obtain ⟨ρ, hρ, e⟩ := Fl.mul_fac beta (entry c.m (s c.buf) i j)
      refine ⟨ρ, hρ.mono hu hu' (by omega), ?_⟩
      rw [C55_gemm_start Fl.mul_comm _ true]
      exact e)
  rwa [Nat.zero_add] at this

/-- `A B` returned by the operator. -/
theorem C57_mat_mul (nd : Bool) (a b : MatRef) (r : Nat) (s : Mem (Fl R)) (ha : a.Wf s) (hb : b.Wf s)
    (hab : a.m = b.n) (har : a.buf ≠ r) (hbr : b.buf ≠ r) :
    ∃ s', matMulAt nd s a b r = .ok s' ∧ s'.len r = a.n * b.m ∧ (∀ q, q ≠ r → s' q = s q) ∧
      ∀ i j, i < a.n → j < b.m →
      |(entry b.m (s' r) i j).val -
          ∑ k ∈ range a.m, (entry a.m (s a.buf) i k).val * (entry b.m (s b.buf) k j).val| ≤
        gam R.u a.m * ∑ k ∈ range a.m, |(entry a.m (s a.buf) i k).val * (entry b.m (s b.buf) k j).val| := by
  have e1 : ∀ l, s.setBuf r l a.buf = s a.buf := fun l => Mem.setBuf_other _ har _
  have e2 : ∀ l, s.setBuf r l b.buf = s b.buf := fun l => Mem.setBuf_other _ hbr _
  have e : matMulAt nd s a b r = .ok (s.setBuf r (matOf a.n b.m fun i j =>
      addUp (fun k => entry a.m (s a.buf) i k * entry b.m (s b.buf) k j) 0 a.m 0)) := by
    unfold matMulAt gemmDDD
    rw [hab]
    simp only [beq_self_eq_true, cassert_true, ok_bind]
    rw [gemmCore_raw (by simp only [Mem.len, e1]; rw [← hab]; exact ha.ge)
      (by simp only [Mem.len, e2]; exact hb.ge)
      (by simp [Mem.len, DMat.uninit]), e1, e2, Mem.setBuf_setBuf, Lalib.noexcept_ok, Lalib.noexcept_ok]
    refine congrArg (fun l => Except.ok (s.setBuf r l)) (matOf_congr fun i j _ _ => ?_)
    rw [C55_gemm_start Fl.mul_comm _ true]
    simp only [Fl.one_mul, gemmStart, Fl.zero_mul, if_true]
  refine ⟨_, e, by simp [Mem.len, matOf], fun q hq => Mem.setBuf_other _ hq _, fun i j hi hj => ?_⟩
  rw [Mem.setBuf_self, entry_matOf _ hi hj]
  exact Fl.addUp_prod_err _ _ _

/-- The sparse product: the number of stored elements of the row takes the place of the number of columns. -/
theorem C57_spmv (nd : Bool) (alpha beta : Fl R) (a : Csr (Fl R)) (hw : a.Wf) (hd : a.Distinct)
    (A : Nat → Nat → Fl R) (m x y : Nat) (s : Mem (Fl R)) (hsh : a.shape = .ok (a.nrows, m))
    (hA : ∀ i j, i < a.nrows → j < m → a.get i j = .ok (A i j)) (hx : s.len x = m)
    (hy : s.len y = a.nrows) (hxy : x ≠ y) :
    ∃ s', Csr.mul nd alpha a x beta y s = .ok s' ∧ s'.len y = a.nrows ∧ (∀ q, q ≠ y → s' q = s q) ∧
      ∀ i, i < a.nrows →
      |(s'.val y i).val - (beta.val * (s.val y i).val +
          ∑ j ∈ range m, alpha.val * (A i j).val * (s.val x j).val)| ≤
        gam R.u (a.rowPtr.getD (i + 1) 0 - a.rowPtr.getD i 0 + 2) * (|beta.val * (s.val y i).val| +
          ∑ j ∈ range m, |alpha.val * (A i j).val * (s.val x j).val|) := by
  have hc := Csr.col_lt hw hsh
  obtain ⟨s', h1, h4, h5⟩ := C55_spmv nd alpha beta a hw m x y s hsh hc hx hy hxy
  refine ⟨s', h1, by show (s' y).length = _; rw [h4]; simp, h5, fun i hi => ?_⟩
  have hu := R.u_nonneg
  have hu' := R.u_lt_one
  obtain ⟨p1, p2, p3⟩ := hw.ptr_le hi
  set lo := a.rowPtr.getD i 0
  set hi' := a.rowPtr.getD (i + 1) 0
  have e : s'.val y i = addUp (fun k => alpha * val0 a.val k * val0 (s x) (a.col.getD k 0)) lo (lo + (hi' - lo))
      (beta * val0 (s y) i) := by
    show val0 (s' y) i = _
    rw [h4, val0_map_range, if_pos hi, Nat.add_sub_cancel' (by omega)]
  rw [e]
  have := Fl.addUp_err (R := R) (g := fun k => alpha * val0 a.val k * val0 (s x) (a.col.getD k 0))
    (t := beta * val0 (s y) i) (lo := lo) (n := hi' - lo) (K := 2)
    (e := fun k => alpha.val * (val0 a.val (lo + k)).val * (s.val x (a.col.getD (lo + k) 0)).val)
    (e' := beta.val * (s.val y i).val) (fun k _ => Fl.mul3_fac _ _ _)
    (by
      obtain ⟨ρ, hρ, e⟩ := Fl.mul_fac beta (val0 (s y) i)
      exact ⟨ρ, hρ.mono hu hu' (by omega), e⟩)
  have c1 := Csr.row_sum_map hw hd hc hi (fun j hj => hA i j hi hj)
    (fun v j => alpha.val * v.val * (s.val x j).val) (fun j => by simp)
  have c2 := Csr.row_sum_map hw hd hc hi (fun j hj => hA i j hi hj)
    (fun v j => |alpha.val * v.val * (s.val x j).val|) (fun j => by simp)
  rw [sum_Ico_eq_sum_range] at c1 c2
  rw [← c1, ← c2]
  exact this

end Lalib.Props
