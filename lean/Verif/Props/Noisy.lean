import Verif.Proofs.NoisyTdma
import Verif.Proofs.NoisyChol
import Verif.Proofs.Binary
import Verif.Proofs.IeeeSolve
import Verif.Props.Eval
import Verif.Props.Vec

/-! # Property C87: the error bounds for any accurate arithmetic, contraction included

The bounds of C56 to C61 for the arithmetic `Nz N` of `Verif/Spec/Noisy.lean`, of which nothing is known but that each
operation has a relative error of at most `N.u`.  Sums that start with zero cost one more rounding than in C56, C57,
since `0 + a` need not be `a`; the solvers have the same constants. -/

namespace Lalib.Props

open Lalib Finset

variable {N : Noisy}

/-! ## Products -/

/-- The error of an inner product of `n` terms is at most `gam n` times the sum of the absolute values of the terms. -/
theorem C87_dot (m : Mem (Nz N)) (x y : Nat) (h : m.len y = m.len x) (h0 : 0 < m.len x) :
    ∃ r, dynDot m x y = .ok r ∧ dotDD m x y = .ok r ∧ dotSS (m.len x) m x y = .ok r ∧
      sizedDotDyn (m.len x) m x y = .ok r ∧
      |r.val - ∑ i ∈ range (m.len x), (m.val x i).val * (m.val y i).val| ≤
        gam N.u (m.len x) * ∑ i ∈ range (m.len x), |(m.val x i).val * (m.val y i).val| := by
  have e := dotCore_raw (m := m) (x := x) (y := y) (n := m.len x) h0 (le_refl _) h.ge
  refine ⟨addUp (fun i => m.val x i * m.val y i) 1 (m.len x) (m.val x 0 * m.val y 0), ?_, ?_, ?_, ?_, ?_⟩
  rotate_left 4
  · obtain ⟨n, hn⟩ : ∃ n, m.len x = n + 1 := ⟨m.len x - 1, by omega⟩
    have := Nz.addUp_err (g := fun i => m.val x i * m.val y i) (t := m.val x 0 * m.val y 0) (lo := 1)
      (n := n) (K := 1) (e := fun k => (m.val x (k + 1)).val * (m.val y (k + 1)).val)
      (e' := (m.val x 0).val * (m.val y 0).val)
      (fun k _ => by rw [Nat.add_comm 1 k]; exact Nz.mul_fac _ _) (Nz.mul_fac _ _)
    rw [hn, sum_range_succ', sum_range_succ', add_comm _ ((m.val x 0).val * (m.val y 0).val),
      add_comm _ |(m.val x 0).val * (m.val y 0).val|]
    rw [Nat.add_comm 1 n] at this
    exact this
  · unfold dynDot; rw [h, checkSize_self, ok_bind, e]
  · unfold dotDD; rw [h, checkSize_self, ok_bind, e]; rfl
  · unfold dotSS; rw [e]; rfl
  · unfold sizedDotDyn; rw [e]; rfl

private theorem zip_sum (a : List ℕ) (f : List ℝ) (hf : f.length = a.length) (K : ℕ) (h : ∀ ρ ∈ f, Fac N.u K ρ)
    (t : ℕ → ℝ) : |((a.zip f).map fun p => t p.1 * p.2).sum - (a.map t).sum| ≤ gam N.u K * (a.map fun i => |t i|).sum := by
  induction a generalizing f with
  | nil => simp
  | cons i a ih =>
    cases f with
    | nil => simp at hf
    | cons ρ f =>
      have := ih f (by simpa using hf) (fun σ hσ => h σ (by simp [hσ]))
      simp only [List.zip_cons_cons, List.map_cons, List.sum_cons]
      rw [add_sub_add_comm, mul_add]
      exact (abs_add_le _ _).trans (add_le_add (term_fac_le N.u_nonneg N.u_lt_one (h ρ (by simp))) this)

/-- A SIMD reduction of any shape: the depth of the tree takes the place of the length. -/
theorem C87_dot_any_order (m : Mem (Nz N)) (x y : Nat) (h : m.len y = m.len x) (h0 : 0 < m.len x) (t : RedTree)
    (ht : t.leaves.Perm (List.range' 1 (m.len x - 1))) :
    ∃ r, dotCoreTree t m x y = .ok r ∧
      |r.val - ∑ i ∈ range (m.len x), (m.val x i).val * (m.val y i).val| ≤
        gam N.u (t.depth + 2) * ∑ i ∈ range (m.len x), |(m.val x i).val * (m.val y i).val| := by
  have u0 := N.u_nonneg
  have u1 := N.u_lt_one
  have hl : ∀ i ∈ t.leaves, i < m.len x ∧ i < m.len y := by
    intro i hi
    have := List.mem_range'_1.mp (ht.mem_iff.mp hi)
    omega
  obtain ⟨v, hv, f, lf, hf, ev⟩ := Nz.tree_fac t hl
  refine ⟨_, by unfold dotCoreTree; rw [Mem.rd_ok (by omega), ok_bind, Mem.rd_ok (by omega), ok_bind, hv, ok_bind], ?_⟩
  obtain ⟨δ, hδ, e⟩ := Nz.add_fac (m.val x 0 * m.val y 0) v
  obtain ⟨ρ, hρ, e0⟩ := Nz.mul_fac (m.val x 0) (m.val y 0)
  have key := zip_sum (N := N) (0 :: t.leaves) (ρ * δ :: f.map (· * δ)) (by simp [lf]) (t.depth + 2)
    (by
      intro σ hσ
      rcases List.mem_cons.mp hσ with rfl | hσ
      · exact (hρ.mul u0 u1 hδ).mono u0 u1 (by omega)
      · obtain ⟨τ, hτ, rfl⟩ := List.mem_map.mp hσ
        exact (hf τ hτ).mul u0 u1 hδ)
    (fun i => (m.val x i).val * (m.val y i).val)
  have sc : ∀ (a : List ℕ) (b : List ℝ), ((a.zip (b.map (· * δ))).map fun p =>
      (m.val x p.1).val * (m.val y p.1).val * p.2).sum =
      ((a.zip b).map fun p => (m.val x p.1).val * (m.val y p.1).val * p.2).sum * δ := by
    intro a
    induction a with
    | nil => simp
    | cons i a ih =>
      intro b
      cases b with
      | nil => simp
      | cons s b =>
        simp only [List.map_cons, List.zip_cons_cons, List.sum_cons, ih]; ring
  have perm : ((0 :: t.leaves).Perm (List.range (m.len x))) := by
    obtain ⟨n, hn⟩ : ∃ n, m.len x = n + 1 := ⟨m.len x - 1, by omega⟩
    rw [hn, Nat.add_sub_cancel] at ht
    rw [hn, List.range_eq_range', List.range'_succ]
    exact List.Perm.cons 0 ht
  have conv : ∀ f : ℕ → ℝ, ((0 :: t.leaves).map f).sum = ∑ k ∈ range (m.len x), f k := by
    intro f
    rw [(perm.map f).sum_eq, list_sum_eq_range]
    simp only [List.length_map, List.length_range]
    refine sum_congr rfl fun i hi => ?_
    have := mem_range.mp hi
    simp [val0, this]
  rw [conv, conv] at key
  simp only [List.zip_cons_cons, List.map_cons, List.sum_cons, sc] at key
  rw [e, e0, ev, add_mul, mul_assoc _ ρ δ]
  exact key

/-- The norm: `n + 1` roundings in the sum, one for the root. -/
theorem C87_norm2 (m : Mem (Nz N)) (x : Nat) :
    ∃ r, vecNorm2 m x = .ok r ∧
      |r.val - Real.sqrt (∑ i ∈ range (m.len x), (m.val x i).val ^ 2)| ≤
        gam N.u (m.len x + 2) * Real.sqrt (∑ i ∈ range (m.len x), (m.val x i).val ^ 2) := by
  obtain ⟨τ, hτ, e⟩ := Nz.addUp_sq (m.val x) (m.len x)
  simp only [pow_two]
  obtain ⟨h1, h2⟩ := Nz.sqrt_err (sum_nonneg fun i _ => mul_self_nonneg _) hτ e
  refine ⟨_, ?_, h2⟩
  unfold vecNorm2
  rw [norm2Core_raw (le_refl _), h1]
  rfl

/-- The norm by a SIMD reduction of any shape. -/
theorem C87_norm2_any_order (m : Mem (Nz N)) (x : Nat) (t : RedTree) (ht : t.leaves.Perm (List.range (m.len x))) :
    ∃ r, norm2CoreTree t m x = .ok r ∧
      |r.val - Real.sqrt (∑ i ∈ range (m.len x), (m.val x i).val ^ 2)| ≤
        gam N.u (t.depth + 3) * Real.sqrt (∑ i ∈ range (m.len x), (m.val x i).val ^ 2) := by
  have u0 := N.u_nonneg
  have u1 := N.u_lt_one
  obtain ⟨v, hv, τ, hτ, e⟩ := Nz.tree_sq (m := m) (x := x) t fun i hi => List.mem_range.mp (ht.mem_iff.mp hi)
  have conv : (t.leaves.map fun i => (m.val x i).val * (m.val x i).val).sum =
      ∑ i ∈ range (m.len x), (m.val x i).val * (m.val x i).val := by
    rw [(ht.map _).sum_eq, list_sum_eq_range]
    simp only [List.length_map, List.length_range]
    refine sum_congr rfl fun i hi => ?_
    have := mem_range.mp hi
    simp [val0, this]
  rw [conv] at e
  simp only [pow_two]
  obtain ⟨δ, hδ, e'⟩ := Nz.add_fac 0 v
  rw [Nz.val_zero, zero_add, e, mul_assoc] at e'
  obtain ⟨h1, h2⟩ := Nz.sqrt_err (sum_nonneg fun i _ => mul_self_nonneg _) (hτ.mul u0 u1 hδ) e'
  refine ⟨_, ?_, h2⟩
  unfold norm2CoreTree
  rw [hv, ok_bind, h1]

/-- The cross product of 2-vectors. -/
theorem C87_cross2 (nd dx dy : Bool) (m : Mem (Nz N)) (x y : Nat) (hx : m.len x = 2) (hy : m.len y = 2) :
    ∃ r, cross2 nd dx dy m x y = .ok r ∧
      |r.val - ((m.val x 0).val * (m.val y 1).val - (m.val x 1).val * (m.val y 0).val)| ≤
        gam N.u 2 * (|(m.val x 0).val * (m.val y 1).val| + |(m.val x 1).val * (m.val y 0).val|) := by
  have u0 := N.u_nonneg
  have u1 := N.u_lt_one
  refine ⟨m.val x 0 * m.val y 1 - m.val y 0 * m.val x 1, ?_, ?_⟩
  · simp only [cross2, cross2Core, hx, hy, beq_self_eq_true, Bool.or_true, cassert_true, ok_bind,
      Mem.rd_ok (show 0 < m.len x by omega), Mem.rd_ok (show 1 < m.len x by omega),
      Mem.rd_ok (show 0 < m.len y by omega), Mem.rd_ok (show 1 < m.len y by omega), Lalib.noexcept_ok]
  · obtain ⟨ρ, hρ, e1⟩ := Nz.mul_fac (m.val x 0) (m.val y 1)
    obtain ⟨σ, hσ, e2⟩ := Nz.mul_fac (m.val y 0) (m.val x 1)
    obtain ⟨δ, hδ, e⟩ := Nz.sub_fac (m.val x 0 * m.val y 1) (m.val y 0 * m.val x 1)
    rw [e, e1, e2, mul_comm (m.val y 0).val, sub_mul, mul_assoc _ ρ, mul_assoc _ σ, sub_sub_sub_comm, mul_add]
    exact (abs_sub _ _).trans (add_le_add (term_fac_le u0 u1 (hρ.mul u0 u1 hδ)) (term_fac_le u0 u1 (hσ.mul u0 u1 hδ)))

/-- `y := alpha A x + beta y`. -/
theorem C87_gemv (nd : Bool) (alpha beta : Nz N) (a : MatRef) (x y : Nat) (s : Mem (Nz N))
    (ha : a.Wf s) (hx : s.len x = a.m) (hy : s.len y = a.n) (hay : a.buf ≠ y) :
    ∃ s', gemvDD nd alpha a x beta y s = .ok s' ∧ gemvSD nd alpha a x beta y s = .ok s' ∧
      gemvSS alpha a x beta y s = .ok s' ∧ s'.len y = a.n ∧ (∀ q, q ≠ y → s' q = s q) ∧ ∀ i, i < a.n →
      |(s'.val y i).val - (beta.val * (s.val y i).val +
          ∑ k ∈ range a.m, alpha.val * (entry a.m (s a.buf) i k).val * (s.val x k).val)| ≤
        gam N.u (a.m + 2) * (|beta.val * (s.val y i).val| +
          ∑ k ∈ range a.m, |alpha.val * (entry a.m (s a.buf) i k).val * (s.val x k).val|) := by
  obtain ⟨s', h1, h2, h3, h4, h5⟩ := C55_gemv nd alpha beta a x y s ha hx hy hay
  refine ⟨s', h1, h2, h3, by show (s' y).length = _; rw [h4]; simp, h5, fun i hi => ?_⟩
  have hu := N.u_nonneg
  have hu' := N.u_lt_one
  have e : s'.val y i = addUp (fun k => alpha * entry a.m (s a.buf) i k * val0 (s x) k) 0 a.m
      (beta * val0 (s y) i) := by
    show val0 (s' y) i = _
    rw [h4, val0_map_range, if_pos hi]
  rw [e]
  have := Nz.addUp_err (g := fun k => alpha * entry a.m (s a.buf) i k * val0 (s x) k)
    (t := beta * val0 (s y) i) (lo := 0) (n := a.m) (K := 2)
    (e := fun k => alpha.val * (entry a.m (s a.buf) i k).val * (s.val x k).val)
    (e' := beta.val * (s.val y i).val) (fun k _ => by rw [Nat.zero_add]; exact Nz.mul3_fac _ _ _)
    (by
      obtain ⟨ρ, hρ, e⟩ := Nz.mul_fac beta (val0 (s y) i)
      exact ⟨ρ, hρ.mono hu hu' (by omega), e⟩)
  rwa [Nat.zero_add] at this

/-- `C := alpha A B + beta C`; any sharing of storage. -/
theorem C87_gemm (nd : Bool) (alpha beta : Nz N) (a b c : MatRef) (s : Mem (Nz N)) (ha : a.Wf s) (hb : b.Wf s)
    (hc : c.Wf s) (h1 : a.n = c.n) (h2 : b.m = c.m) (h3 : a.m = b.n) :
    ∃ s', gemmDDD nd alpha a b beta c s = .ok s' ∧ gemmSSS alpha a b beta c s = .ok s' ∧
      gemmDSS nd alpha a b beta c s = .ok s' ∧ gemmSDS nd alpha a b beta c s = .ok s' ∧
      gemmDDS nd alpha a b beta c s = .ok s' ∧ gemmDSD nd alpha a b beta c s = .ok s' ∧
      gemmSDD nd alpha a b beta c s = .ok s' ∧ s'.len c.buf = c.n * c.m ∧ (∀ q, q ≠ c.buf → s' q = s q) ∧
      ∀ i j, i < c.n → j < c.m →
      |(entry c.m (s' c.buf) i j).val - (beta.val * (entry c.m (s c.buf) i j).val +
          ∑ k ∈ range a.m, alpha.val * (entry a.m (s a.buf) i k).val * (entry c.m (s b.buf) k j).val)| ≤
        gam N.u (a.m + 2) * (|beta.val * (entry c.m (s c.buf) i j).val| +
          ∑ k ∈ range a.m, |alpha.val * (entry a.m (s a.buf) i k).val * (entry c.m (s b.buf) k j).val|) := by
  obtain ⟨s', g1, g2, g3, g4, g5, g6, g7, g8, g9⟩ := C55_gemm nd alpha beta a b c s ha hb hc h1 h2 h3
  refine ⟨s', g1, g2, g3, g4, g5, g6, g7, by show (s' c.buf).length = _; rw [g8]; simp [matOf], g9,
    fun i j hi hj => ?_⟩
  have hu := N.u_nonneg
  have hu' := N.u_lt_one
  rw [g8, entry_matOf _ hi hj]
  have := Nz.addUp_err (g := fun k => alpha * entry a.m (s a.buf) i k * entry c.m (s b.buf) k j)
    (t := gemmStart (a.buf = c.buf ∨ b.buf = c.buf) beta (entry c.m (s c.buf) i j)) (lo := 0) (n := a.m) (K := 2)
    (e := fun k => alpha.val * (entry a.m (s a.buf) i k).val * (entry c.m (s b.buf) k j).val)
    (e' := beta.val * (entry c.m (s c.buf) i j).val) (fun k _ => by rw [Nat.zero_add]; exact Nz.mul3_fac _ _ _)
    (by
      unfold gemmStart
      split_ifs
      · obtain ⟨ρ, hρ, e⟩ := Nz.mul_fac beta (entry c.m (s c.buf) i j)
        exact ⟨ρ, hρ.mono hu hu' (by omega), e⟩
      · obtain ⟨ρ, hρ, e⟩ := Nz.mul_fac (entry c.m (s c.buf) i j) beta
        exact ⟨ρ, hρ.mono hu hu' (by omega), by rw [e]; ring⟩)
  rwa [Nat.zero_add] at this

/-- The sparse product: the number of stored elements of the row takes the place of the number of columns. -/
theorem C87_spmv (nd : Bool) (alpha beta : Nz N) (a : Csr (Nz N)) (hw : a.Wf) (hd : a.Distinct)
    (A : Nat → Nat → Nz N) (m x y : Nat) (s : Mem (Nz N)) (hsh : a.shape = .ok (a.nrows, m))
    (hA : ∀ i j, i < a.nrows → j < m → a.get i j = .ok (A i j)) (hx : s.len x = m)
    (hy : s.len y = a.nrows) (hxy : x ≠ y) :
    ∃ s', Csr.mul nd alpha a x beta y s = .ok s' ∧ s'.len y = a.nrows ∧ (∀ q, q ≠ y → s' q = s q) ∧
      ∀ i, i < a.nrows →
      |(s'.val y i).val - (beta.val * (s.val y i).val +
          ∑ j ∈ range m, alpha.val * (A i j).val * (s.val x j).val)| ≤
        gam N.u (a.rowPtr.getD (i + 1) 0 - a.rowPtr.getD i 0 + 2) * (|beta.val * (s.val y i).val| +
          ∑ j ∈ range m, |alpha.val * (A i j).val * (s.val x j).val|) := by
  have hc := Csr.col_lt hw hsh
  obtain ⟨s', h1, h4, h5⟩ := C55_spmv nd alpha beta a hw m x y s hsh hc hx hy hxy
  refine ⟨s', h1, by show (s' y).length = _; rw [h4]; simp, h5, fun i hi => ?_⟩
  have hu := N.u_nonneg
  have hu' := N.u_lt_one
  obtain ⟨p1, p2, p3⟩ := hw.ptr_le hi
  set lo := a.rowPtr.getD i 0
  set hi' := a.rowPtr.getD (i + 1) 0
  have e : s'.val y i = addUp (fun k => alpha * val0 a.val k * val0 (s x) (a.col.getD k 0)) lo (lo + (hi' - lo))
      (beta * val0 (s y) i) := by
    show val0 (s' y) i = _
    rw [h4, val0_map_range, if_pos hi, Nat.add_sub_cancel' (by omega)]
  rw [e]
  have := Nz.addUp_err (g := fun k => alpha * val0 a.val k * val0 (s x) (a.col.getD k 0))
    (t := beta * val0 (s y) i) (lo := lo) (n := hi' - lo) (K := 2)
    (e := fun k => alpha.val * (val0 a.val (lo + k)).val * (s.val x (a.col.getD (lo + k) 0)).val)
    (e' := beta.val * (s.val y i).val) (fun k _ => Nz.mul3_fac _ _ _)
    (by
      obtain ⟨ρ, hρ, e⟩ := Nz.mul_fac beta (val0 (s y) i)
      exact ⟨ρ, hρ.mono hu hu' (by omega), e⟩)
  have c1 := Csr.row_sum_map hw hd hc hi (fun j hj => hA i j hi hj)
    (fun v j => alpha.val * v.val * (s.val x j).val) (fun j => by simp)
  have c2 := Csr.row_sum_map hw hd hc hi (fun j hj => hA i j hi hj)
    (fun v j => |alpha.val * v.val * (s.val x j).val|) (fun j => by simp)
  rw [sum_Ico_eq_sum_range] at c1 c2
  rw [← c1, ← c2]
  exact this

/-- `operator*(SpMat, DynVec)`: the value of `A x`. -/
theorem C87_spmv_op (nd : Bool) (a : Csr (Nz N)) (hw : a.Wf) (hd : a.Distinct) (A : Nat → Nat → Nz N) (m : Nat)
    (x : List (Nz N)) (hsh : a.shape = .ok (a.nrows, m))
    (hA : ∀ i j, i < a.nrows → j < m → a.get i j = .ok (A i j)) (hx : x.length = m) :
    ∃ y, Csr.mulVec nd a x = .ok y ∧ y.length = a.nrows ∧ ∀ i, i < a.nrows →
      |(val0 y i).val - ∑ j ∈ range m, (A i j).val * (val0 x j).val| ≤
        gam N.u (a.rowPtr.getD (i + 1) 0 - a.rowPtr.getD i 0 + 2) *
          ∑ j ∈ range m, |(A i j).val * (val0 x j).val| := by
  set s : Mem (Nz N) := (Mem.ofList [x]).setBuf 1 (List.replicate a.nrows 0) with hs
  have s0 : s 0 = x := by simp [hs, Mem.setBuf, Mem.ofList]
  have s1 : s 1 = List.replicate a.nrows 0 := by simp [hs]
  have h0 : s.len 0 = m := by rw [Mem.len, s0, hx]
  have h1 : s.len 1 = a.nrows := by rw [Mem.len, s1, List.length_replicate]
  obtain ⟨s', e1, e2, _, e4⟩ := C87_spmv nd 1 0 a hw hd A m 0 1 s hsh hA h0 h1 (by decide)
  have hm : Csr.mulVecAt nd a (Mem.ofList [x]) 0 1 = .ok s' := by
    rw [← e1]
    unfold Csr.mulVecAt Csr.mul
    have hl : (Mem.ofList [x]).len 0 = m := by simpa [Mem.len, Mem.ofList] using hx
    simp only [hsh, ok_bind, hl, h0, h1, beq_self_eq_true, cassert_true]
    rfl
  refine ⟨s' 1, by unfold Csr.mulVec; rw [hm]; rfl, e2, fun i hi => ?_⟩
  have := e4 i hi
  simp only [Nz.val_zero, Nz.val_one, zero_mul, one_mul, abs_zero, zero_add] at this
  have hv : ∀ j, s.val 0 j = val0 x j := fun j => by rw [Mem.val, s0]
  simp only [hv] at this
  exact this

/-! ## Triangular systems -/

/-- Back substitution: every entry of the matrix is changed by a relative error of at most `gam n`. -/
theorem C87_back_sub (a : UTri (Nz N)) (U : Nat → Nat → Nz N) (y : List (Nz N)) (hy : y.length = a.n)
    (hU : ∀ i j, i < a.n → j < a.n → a.get i j = .ok (U i j)) (hd : ∀ i, i < a.n → (U i i).val ≠ 0) :
    ∃ x, a.backSub y = .ok x ∧ x.length = a.n ∧
      NearSolves a.n (Nz.mat U) (fun i j => gam N.u a.n * |Nz.mat U i j|) (fun i => (val0 x i).val)
        (fun i => (val0 y i).val) := by
  have h0 := N.u_nonneg
  have h1 := N.u_lt_one
  obtain ⟨x, e, hx, hr⟩ := backSub_raw a hy hU fun i hi => Nz.divAt (hd i hi)
  obtain ⟨τ, hτ, et⟩ := Nz.back_near hr hd
  have up : ∀ i j, i < a.n → j < a.n → upper (Nz.mat U) i j = Nz.mat U i j := by
    intro i j hi hj
    unfold upper
    split_ifs with hij
    · rfl
    · have := hU i j hi hj
      have z : a.get i j = .ok 0 := by unfold UTri.get; rw [if_neg hij]
      rw [z] at this
      injection this with this
      show 0 = (U i j).val
      rw [← this]; exact Nz.val_zero.symm
  refine ⟨x, e, hx, fun i j => Nz.mat U i j * τ i j - Nz.mat U i j, fun i j _ _ => term_fac_le h0 h1 (hτ i j),
    fun i hi => ?_⟩
  have et := et i hi
  show mulVec _ _ _ _ = (val0 y i).val
  rw [et]
  unfold mulVec
  refine sum_congr rfl fun j hj => ?_
  beta_reduce
  rw [up i j hi (mem_range.mp hj), add_sub_cancel]

/-! ## Cholesky factorisation -/

private theorem noisy_chol (mt : MemType) (n : Nat) (l : List (Nz N)) (A : Nat → Nat → Nz N) (hl : Lower mt n l A)
    (h0 : 0 < (A 0 0).val) :
    (∃ L, Chol.new mt n l = .ok L ∧ L.length = l.length ∧ (∀ i, i < n → (held mt n L i i).val ≠ 0) ∧
      CholRec n A (held mt n L)) ∨
    Chol.new mt n l = .error (.throw .runtimeError) := by
  obtain ⟨⟨c, L⟩, e, h | h⟩ := Chol.decomp_raw Nz.sq_ok mt n l hl.len.ge
  · obtain ⟨hc, hI⟩ := h
    simp only at hc hI
    subst hc
    refine .inl ⟨L, by simp [Chol.new, e], hI.len, ?_, ?_⟩
    · intro i hi
      rw [held_eq]
      show (val0 L (cIndex mt n i i)).val ≠ 0
      rw [hI.diag i hi]
      exact Nz.divAt_iff.mp (Nz.sq_ok _ (hI.pos i hi).1 (hI.pos i hi).2).2
    · rw [held_eq]; exact hI.cholRec hl.val
  · simp only at h
    by_cases hc : c = 0
    · subst hc
      have hp : Chol.pivot (cIndex mt n) l L 0 = A 0 0 := by
        rw [← hl.val 0 0 (Nat.le_refl _) h.lt]; rfl
      exfalso
      have pv := h.piv
      rw [hp] at pv
      rcases pv with pv | pv
      · exact h0.ne' pv
      · have pv : (A 0 0).val < (0 : Nz N).val := pv
        rw [Nz.val_zero] at pv
        exact absurd h0 (not_lt.mpr pv.le)
    · exact .inr (by simp [Chol.new, e, throwIf_ne hc])

private theorem noisy_ok {mt : MemType} {n : Nat} {l L : List (Nz N)} {A : Nat → Nat → Nz N} (hl : Lower mt n l A)
    (h0 : 0 < (A 0 0).val) (e : Chol.new mt n l = .ok L) :
    L.length = l.length ∧ (∀ i, i < n → (held mt n L i i).val ≠ 0) ∧ CholRec n A (held mt n L) := by
  rcases noisy_chol mt n l A hl h0 with ⟨L', e', h⟩ | e'
  · rw [e] at e'; injection e' with e'; subst e'; exact h
  · rw [e] at e'; cases e'

/-- The computed factor: positive diagonal, and its product with its transpose is `A` up to rounding errors.  The second
bound is in terms of `A` alone. -/
theorem C87_chol_factor (mt : MemType) (n : Nat) (l L : List (Nz N)) (A : Nat → Nat → Nz N) (hl : Lower mt n l A)
    (hs : Symm n A) (h0 : 0 < (A 0 0).val) (e : Chol.new mt n l = .ok L) :
    (∀ i, i < n → 0 < (held mt n L i i).val) ∧
    ∀ i j, i < n → j < n →
      |∑ k ∈ range n, low (Nz.mat (held mt n L)) i k * low (Nz.mat (held mt n L)) j k - (A i j).val| ≤
        gam N.u (n + 1) * ∑ k ∈ range n, |low (Nz.mat (held mt n L)) i k * low (Nz.mat (held mt n L)) j k| ∧
      |∑ k ∈ range n, low (Nz.mat (held mt n L)) i k * low (Nz.mat (held mt n L)) j k - (A i j).val| ≤
        gam N.u (2 * n + 2) * (Real.sqrt (A i i).val * Real.sqrt (A j j).val) := by
  have u0 := N.u_nonneg
  have u1 := N.u_lt_one
  obtain ⟨_, hd, hr⟩ := noisy_ok hl h0 e
  refine ⟨(Nz.chol_fac hr hd).1, fun i j hi hj => ?_⟩
  have b := Nz.chol_prod_err hs hr hd i j hi hj
  refine ⟨b, b.trans ?_⟩
  refine (mul_le_mul_of_nonneg_left ((Nz.chol_prod_le hr hd).2 i j hi hj) (gam_nonneg u0 u1 _)).trans ?_
  rw [← mul_assoc]
  refine mul_le_mul_of_nonneg_right ?_ (mul_nonneg (Real.sqrt_nonneg _) (Real.sqrt_nonneg _))
  have := gam_mul_le u0 u1 (n + 1) (n + 1)
  rwa [show n + 1 + (n + 1) = 2 * n + 2 by omega] at this

/-- When the constructor must succeed: `x^T A x ≥ lam * sum_p A_pp x_p^2` for all `x`, with `lam` larger than `n`
times the constant for `6 (n+1)` roundings. -/
theorem C87_chol_accepts (mt : MemType) (n : Nat) (l : List (Nz N)) (A : Nat → Nat → Nz N) (hl : Lower mt n l A)
    (hs : Symm n A) (hp : ∀ p, p < n → 0 < (A p p).val) (lam : ℝ) (hlam : n * gam N.u (6 * (n + 1)) < lam)
    (hq : ∀ x : ℕ → ℝ, lam * ∑ p ∈ range n, (A p p).val * x p ^ 2 ≤
      ∑ p ∈ range n, ∑ q ∈ range n, x p * (A p q).val * x q) :
    ∃ L, Chol.new mt n l = .ok L := by
  have u0 := N.u_nonneg
  have u1 := N.u_lt_one
  obtain ⟨⟨c, L⟩, e, h | h⟩ := Chol.decomp_raw Nz.sq_ok mt n l hl.len.ge
  · obtain ⟨hc, _⟩ := h
    simp only at hc
    subst hc
    exact ⟨L, by simp [Chol.new, e]⟩
  · simp only at h
    exfalso
    have hU := h.upto hl.val (le_refl c)
    have hlt := h.lt
    have dne : ∀ r, r < c → (val0 L (cIndex mt n r r)).val ≠ 0 := fun r hr => by
      rw [h.diag r hr]; exact Nz.divAt_iff.mp (Nz.sq_ok _ (h.pos r hr).1 (h.pos r hr).2).2
    have main := chol_breakdown u0 u1 (n := n) (K := n + 1) (i := c) (A := Nz.mat A)
      (L := fun i j => (val0 L (cIndex mt n i j)).val) (lam := lam) hlt
      (fun i j hi hj => by unfold Nz.mat; rw [hs i j hi hj]) hp
      (le_trans (mul_nonneg (Nat.cast_nonneg n) (gam_nonneg u0 u1 _)) hlam.le) hq
      (fun r hr => by
        obtain ⟨_, _, p, _⟩ := Nz.chol_diag (dne r hr) (hU.diag r hr)
        exact p)
      (fun r s hsr hr hsc => by
        rcases Nat.lt_or_eq_of_le hsr with hlt' | rfl
        · obtain ⟨ρ, hρ, e⟩ := Nz.chol_cell (dne s hsc) (hU.off r s hlt' hr)
          refine ⟨ρ, fun k hk => (hρ k hk).mono u0 u1 (by omega), ?_⟩
          rw [sum_range_succ]
          exact e
        · obtain ⟨ρ, hρ, _, e⟩ := Nz.chol_diag (dne s hsc) (hU.diag s hsc)
          refine ⟨ρ, fun k hk => (hρ k hk).mono u0 u1 (by omega), ?_⟩
          rw [sum_range_succ]
          exact e)
      (by
        obtain ⟨σ, ρ, hσ, hρ, e⟩ := Nz.pivot_fac (A c c) (fun k => val0 L (cIndex mt n c k)) c
        refine ⟨ρ, fun k hk => (hρ k).mono u0 u1 (by omega), ?_⟩
        have pv := h.piv
        unfold Chol.pivot at pv
        rw [hl.val c c (le_refl _) hlt] at pv
        have pv' : (subUp (fun k => val0 L (cIndex mt n c k) * val0 L (cIndex mt n c k)) 0 c (A c c)).val ≤ 0 := by
          rcases pv with pv | pv
          · exact le_of_eq pv
          · have pv := le_of_lt (show _ < (0 : Nz N).val from pv)
            rwa [Nz.val_zero] at pv
        show (A c c).val ≤ _
        rw [e]
        have := mul_nonpos_of_nonpos_of_nonneg pv' (hσ.pos u0 u1).le
        linarith)
    exact absurd hlam (not_lt.mpr main)

/-- When it must throw (positive first pivot, see `C36_false`): the matrix is farther from positive definite than
rounding errors can account for. -/
theorem C87_chol_rejects (mt : MemType) (n : Nat) (l : List (Nz N)) (A : Nat → Nat → Nz N) (hl : Lower mt n l A)
    (hs : Symm n A) (h0 : 0 < (A 0 0).val) (x : ℕ → ℝ)
    (hx : ∑ p ∈ range n, ∑ q ∈ range n, x p * (A p q).val * x q <
      -(n * gam N.u (2 * n + 2)) * ∑ p ∈ range n, (A p p).val * x p ^ 2) :
    Chol.new mt n l = .error (.throw .runtimeError) := by
  rcases noisy_chol mt n l A hl h0 with ⟨L, e, _, hd, hr⟩ | e
  · exact absurd hx (not_lt.mpr (Nz.chol_almost hs hr hd x))
  · exact e

private theorem noisy_bound {n : Nat} {A L : Nat → Nat → Nz N} {b x : Nat → Nz N} (hs : Symm n A) (hr : CholRec n A L)
    (hd : ∀ i, i < n → (L i i).val ≠ 0) (h : CholSolveRec false n L b x) :
    NearSolves n (Nz.mat A) (fun i j => gam N.u (4 * n + 2) * (Real.sqrt (A i i).val * Real.sqrt (A j j).val))
      (fun i => (x i).val) (fun i => (b i).val) := by
  have u0 := N.u_nonneg
  have u1 := N.u_lt_one
  obtain ⟨dA, hb, hsol⟩ := Nz.chol_near hs hr hd h
  refine ⟨dA, fun i j hi hj => (hb i j hi hj).trans ?_, hsol⟩
  refine (mul_le_mul_of_nonneg_left ((Nz.chol_prod_le hr hd).2 i j hi hj) (gam_nonneg u0 u1 _)).trans ?_
  rw [← mul_assoc]
  refine mul_le_mul_of_nonneg_right ?_ (mul_nonneg (Real.sqrt_nonneg _) (Real.sqrt_nonneg _))
  have := gam_mul_le u0 u1 (3 * n + 1) (n + 1)
  rwa [show 3 * n + 1 + (n + 1) = 4 * n + 2 by omega] at this

private theorem noisy_solve_vec (nd md : Bool) (mt : MemType) (n : Nat) (L : List (Nz N)) (F : Nat → Nat → Nz N)
    (hL : Lower mt n L F) (hd : ∀ i, i < n → (F i i).val ≠ 0) (m : Mem (Nz N)) (b r : Nat) (hb : m.len b = n)
    (hr : r ≠ b) :
    ∃ x, x.length = n ∧ CholSolveRec md n F (val0 (m b)) (val0 x) ∧
      Chol.solveMutVec nd md mt n L b m = .ok (m.setBuf b x) ∧
      Chol.solveVecAt nd md mt n L b r m = .ok (m.setBuf r x) := by
  obtain ⟨x, hx, hs, e, e'⟩ := Chol.solve_raw md mt n L hL.len
    (fun i hi => by rw [hL.val i i (Nat.le_refl _) hi]; exact Nz.divAt (hd i hi)) m b r 1 (by omega) hr
  refine ⟨x, by omega, ?_, ?_, ?_⟩
  · have := (hs 0 (by omega)).congr hL.val fun _ _ => rfl
    simpa [entry] using this
  · unfold Chol.solveMutVec; rw [hb]; simp [e]
  · unfold Chol.solveVecAt; rw [hb]; simp [e']

private theorem noisy_solve_mat (nd md : Bool) (mt : MemType) (n : Nat) (L : List (Nz N)) (F : Nat → Nat → Nz N)
    (hL : Lower mt n L F) (hd : ∀ i, i < n → (F i i).val ≠ 0) (m : Mem (Nz N)) (b : MatRef) (r : Nat) (hb : b.Wf m)
    (hn : b.n = n) (hr : r ≠ b.buf) :
    ∃ x, x.length = n * b.m ∧
      (∀ k, k < b.m → CholSolveRec md n F (fun i => entry b.m (m b.buf) i k) (fun i => entry b.m x i k)) ∧
      Chol.solveMutMat nd md mt n L b m = .ok (m.setBuf b.buf x) ∧
      Chol.solveMatAt nd md mt n L b r m = .ok (m.setBuf r x) := by
  obtain ⟨x, hx, hs, e, e'⟩ := Chol.solve_raw md mt n L hL.len
    (fun i hi => by rw [hL.val i i (Nat.le_refl _) hi]; exact Nz.divAt (hd i hi)) m b.buf r b.m (by rw [hb, hn]) hr
  refine ⟨x, by omega, fun k hk => (hs k hk).congr hL.val fun _ _ => rfl, ?_, ?_⟩
  · unfold Chol.solveMutMat; rw [hn]; simp [e]
  · unfold Chol.solveMatAt; rw [hn]; simp [e']

/-- Solving, one right-hand side. -/
theorem C87_chol_solve_vec (nd : Bool) (mt : MemType) (n : Nat) (l L : List (Nz N)) (A : Nat → Nat → Nz N)
    (hl : Lower mt n l A) (hs : Symm n A) (h0 : 0 < (A 0 0).val) (e : Chol.new mt n l = .ok L) (m : Mem (Nz N))
    (b r : Nat) (hb : m.len b = n) (hr : r ≠ b) :
    ∃ x, x.length = n ∧ Chol.solveMutVec nd false mt n L b m = .ok (m.setBuf b x) ∧
      Chol.solveVecAt nd false mt n L b r m = .ok (m.setBuf r x) ∧
      NearSolves n (Nz.mat A) (fun i j => gam N.u (4 * n + 2) * (Real.sqrt (A i i).val * Real.sqrt (A j j).val))
        (fun i => (val0 x i).val) (fun i => (m.val b i).val) := by
  obtain ⟨hlen, hd, hrec⟩ := noisy_ok hl h0 e
  obtain ⟨x, hx, hsol, e1, e2⟩ := noisy_solve_vec nd false mt n L (held mt n L)
    ⟨by rw [hlen, hl.1], fun _ _ _ _ => rfl⟩ hd m b r hb hr
  exact ⟨x, hx, e1, e2, noisy_bound hs hrec hd hsol⟩

/-- Several right-hand sides, column by column. -/
theorem C87_chol_solve_mat (nd : Bool) (mt : MemType) (n : Nat) (l L : List (Nz N)) (A : Nat → Nat → Nz N)
    (hl : Lower mt n l A) (hs : Symm n A) (h0 : 0 < (A 0 0).val) (e : Chol.new mt n l = .ok L) (m : Mem (Nz N))
    (b : MatRef) (r : Nat) (hb : b.Wf m) (hn : b.n = n) (hr : r ≠ b.buf) :
    ∃ x, x.length = n * b.m ∧ Chol.solveMutMat nd false mt n L b m = .ok (m.setBuf b.buf x) ∧
      Chol.solveMatAt nd false mt n L b r m = .ok (m.setBuf r x) ∧ ∀ k, k < b.m →
      NearSolves n (Nz.mat A) (fun i j => gam N.u (4 * n + 2) * (Real.sqrt (A i i).val * Real.sqrt (A j j).val))
        (fun i => (entry b.m x i k).val) (fun i => (entry b.m (m b.buf) i k).val) := by
  obtain ⟨hlen, hd, hrec⟩ := noisy_ok hl h0 e
  obtain ⟨x, hx, hsol, e1, e2⟩ := noisy_solve_mat nd false mt n L (held mt n L)
    ⟨by rw [hlen, hl.1], fun _ _ _ _ => rfl⟩ hd m b r hb hn hr
  exact ⟨x, hx, e1, e2, fun k hk => noisy_bound hs hrec hd (hsol k hk)⟩

/-- The modified factorisation: no roots, no condition on signs; the bounds are in terms of the factor. -/
theorem C87_mod_chol (nd : Bool) (mt : MemType) (n : Nat) (l L : List (Nz N)) (A : Nat → Nat → Nz N)
    (hl : Lower mt n l A) (hs : Symm n A) (e : Chol.modNew mt n l = .ok L) (m : Mem (Nz N))
    (b r : Nat) (hb : m.len b = n) (hr : r ≠ b) :
    ∃ x, x.length = n ∧ Chol.solveMutVec nd true mt n L b m = .ok (m.setBuf b x) ∧
      Chol.solveVecAt nd true mt n L b r m = .ok (m.setBuf r x) ∧
      NearSolves n (Nz.mat A)
        (fun i j => gam N.u (3 * n + 2) * ∑ k ∈ range n,
          |low (Nz.mat (held mt n L)) i k * low (Nz.mat (held mt n L)) j k / (held mt n L k k).val|)
        (fun i => (val0 x i).val) (fun i => (m.val b i).val) := by
  rcases Chol.modNew_same (fun _ h => Nz.divAt h) mt mt n hl.len.ge hl.len.ge hl.val hl.val with
    ⟨e', _⟩ | ⟨L', L'', e', _, hlen, _, hd, hrec, _⟩
  · rw [e] at e'; cases e'
  · rw [e] at e'; injection e' with e'; subst e'
    rw [← held_eq] at hrec
    have hd : ∀ i, i < n → (held mt n L i i).val ≠ 0 := by rw [held_eq]; exact hd
    obtain ⟨x, hx, hsol, e1, e2⟩ := noisy_solve_vec nd true mt n L (held mt n L)
      ⟨by rw [hlen, hl.1], fun _ _ _ _ => rfl⟩ hd m b r hb hr
    exact ⟨x, hx, e1, e2, Nz.mod_near hs hrec hd hsol⟩

/-! ## Tri-diagonal systems -/

/-- Whenever the solver finishes (it stops only at a zero pivot); `b = x` allowed. -/
theorem C87_tdma (nd : Bool) (a : TriDiag (Nz N)) (n : Nat) (hw : TriWf a n) (hn : 2 ≤ n) (b x : Nat)
    (m : Mem (Nz N)) (hb : m.len b = n) (hx : m.len x = n) :
    (∃ l m' D P Q, Tdma.solveVec nd a b x m = .ok m' ∧ Stores m m' x l ∧ l.length = n ∧
      TdmaEq n a (val0 (m b)) (val0 l) D P Q ∧ (∀ i, i < n → (D i).val ≠ 0) ∧
      NearSolves n (Nz.mat (triFull a)) (fun i j => gam N.u 4 * (if i = j then |(D i).val| +
          (if 0 < i then |(val0 a.dl (i - 1)).val * (P (i - 1)).val| else 0) else |Nz.mat (triFull a) i j|))
        (fun i => (val0 l i).val) (fun i => (m.val b i).val)) ∨
    Tdma.solveVec nd a b x m = .error .nonFinite := by
  have hs : Tdma.Sizes a n 1 m b x := ⟨hn, hw.1, hw.2.1, hw.2.2.1, by omega, by omega⟩
  have hd : a.shape.1 = n := hw.1
  have h := Tdma.tdma_raw hs
  have hbx : Tdma.solveVec nd a b x m = noexcept (Tdma.tdma a n 1 b x m) := by
    unfold Tdma.solveVec
    rw [hd, hb]
    simp
  rw [hbx]
  cases e : Tdma.tdma a n 1 b x m with
  | error f => rw [e] at h; rw [h.1]; exact .inr rfl
  | ok m' =>
    rw [e] at h
    obtain ⟨l, rfl, hl, hq, _, hD⟩ := h
    have := hq 0 (by omega)
    simp only [entry, Nat.mul_one, Nat.add_zero] at this
    have hD' : ∀ i, i < n → (Tdma.D a i).val ≠ 0 := fun i hi => Nz.divAt_iff.mp (hD (by omega) i hi)
    exact .inl ⟨l, _, Tdma.D a, Tdma.P a, Tdma.Q a (val0 (m b)), rfl, stores_setBuf _ _ _, by omega, Tdma.eq_of this,
      hD', Nz.tdma_near (Tdma.eq_of this) hD'⟩

private theorem noisy_dom {a : TriDiag (Nz N)} {n : Nat} {b x : Nat → Nz N}
    (hd : ∀ i, i < n → ∑ j ∈ (range n).erase i, |Nz.mat (triFull a) i j| < (1 - N.u) ^ 2 * |Nz.mat (triFull a) i i|)
    (h : TdmaEq n a b x (Tdma.D a) (Tdma.P a) (Tdma.Q a b)) (hD : ∀ i, i < n → (Tdma.D a i).val ≠ 0) :
    NearSolves n (Nz.mat (triFull a)) (fun i j => 3 * gam N.u 5 * |Nz.mat (triFull a) i j|)
      (fun i => (x i).val) (fun i => (b i).val) := by
  have u0 := N.u_nonneg
  have u1 := N.u_lt_one
  obtain ⟨dA, hb, hs⟩ := Nz.tdma_near h hD
  refine ⟨dA, fun i j hi hj => (hb i j hi hj).trans ?_, hs⟩
  have g4 := gam_nonneg u0 u1 4
  have g1 := gam_nonneg u0 u1 1
  have g5 := gam_mul_le u0 u1 4 1
  have g45 := gam_mono u0 u1 (show 4 ≤ 5 by omega)
  beta_reduce
  by_cases hij : i = j
  · subst hij
    rw [if_pos rfl]
    obtain ⟨_, p1, p2, _⟩ := Nz.dom_pivots hd i hi
    set d := |Nz.mat (triFull a) i i|
    have dn : 0 ≤ d := abs_nonneg _
    have p2' : (if 0 < i then |(val0 a.dl (i - 1)).val * (Tdma.P a (i - 1)).val| else 0) ≤ d := by
      split_ifs with hi0
      · exact p2 hi0
      · exact dn
    have q1 : gam N.u 4 * (2 * (1 + gam N.u 1) * d + d) ≤ 3 * gam N.u 5 * d := by
      have : 2 * (1 + gam N.u 1) * d + d ≤ 3 * (1 + gam N.u 1) * d := by nlinarith
      calc _ ≤ gam N.u 4 * (3 * (1 + gam N.u 1) * d) := mul_le_mul_of_nonneg_left this g4
        _ = 3 * (gam N.u 4 * (1 + gam N.u 1)) * d := by ring
        _ ≤ 3 * gam N.u 5 * d := mul_le_mul_of_nonneg_right (by linarith) dn
    exact (mul_le_mul_of_nonneg_left (add_le_add p1 p2') g4).trans q1
  · rw [if_neg hij]
    exact mul_le_mul_of_nonneg_right (by linarith) (abs_nonneg _)

/-- A matrix that is diagonally dominant, with a margin for two roundings: the solver finishes and every entry of the
matrix is changed by a relative error of at most `3 gam 5`, whatever `n`. -/
theorem C87_tdma_dominant (nd : Bool) (a : TriDiag (Nz N)) (n : Nat) (hw : TriWf a n) (hn : 2 ≤ n) (b x : Nat)
    (m : Mem (Nz N)) (hb : m.len b = n) (hx : m.len x = n)
    (hd : ∀ i, i < n → ∑ j ∈ (range n).erase i, |Nz.mat (triFull a) i j| <
      (1 - N.u) ^ 2 * |Nz.mat (triFull a) i i|) :
    ∃ l m', Tdma.solveVec nd a b x m = .ok m' ∧ Stores m m' x l ∧ l.length = n ∧
      NearSolves n (Nz.mat (triFull a)) (fun i j => 3 * gam N.u 5 * |Nz.mat (triFull a) i j|)
        (fun i => (val0 l i).val) (fun i => (m.val b i).val) := by
  have hs : Tdma.Sizes a n 1 m b x := ⟨hn, hw.1, hw.2.1, hw.2.2.1, by omega, by omega⟩
  obtain ⟨m', e, l, rfl, hl, hq, _, hD⟩ := Ok.exists (Sat.mono (Tdma.tdma_raw hs) (fun _ h => h)
    (fun e h => by obtain ⟨i, hi, h0⟩ := h.2; exact h0 (Nz.divAt (Nz.dom_pivots hd i hi).1)))
  refine ⟨l, _, ?_, stores_setBuf _ _ _, by omega, ?_⟩
  · unfold Tdma.solveVec
    have : a.shape.1 = n := hw.1
    rw [this, hb]
    simp [e]
  · have := hq 0 (by omega)
    simp only [entry, Nat.mul_one, Nat.add_zero] at this
    exact noisy_dom hd (Tdma.eq_of this) fun i hi => Nz.divAt_iff.mp (hD (by omega) i hi)

/-- Several right-hand sides. -/
theorem C87_tdma_dominant_mat (nd : Bool) (a : TriDiag (Nz N)) (n : Nat) (hw : TriWf a n) (hn : 2 ≤ n) (b x : MatRef)
    (m : Mem (Nz N)) (hbw : b.Wf m) (hxw : x.Wf m) (hbn : b.n = n) (hxn : x.n = n) (hxm : x.m = b.m)
    (hd : ∀ i, i < n → ∑ j ∈ (range n).erase i, |Nz.mat (triFull a) i j| <
      (1 - N.u) ^ 2 * |Nz.mat (triFull a) i i|) :
    ∃ l m', Tdma.solveMat nd a b x m = .ok m' ∧ Stores m m' x.buf l ∧ l.length = n * b.m ∧ ∀ k, k < b.m →
      NearSolves n (Nz.mat (triFull a)) (fun i j => 3 * gam N.u 5 * |Nz.mat (triFull a) i j|)
        (fun i => (entry b.m l i k).val) (fun i => (entry b.m (m b.buf) i k).val) := by
  have h1 : m.len b.buf = n * b.m := by rw [hbw, hbn]
  have h2 : m.len x.buf = n * b.m := by rw [hxw, hxn, hxm]
  have hs : Tdma.Sizes a n b.m m b.buf x.buf := ⟨hn, hw.1, hw.2.1, hw.2.2.1, h1.ge, h2.ge⟩
  obtain ⟨m', e, l, rfl, hl, hq, _, hD⟩ := Ok.exists (Sat.mono (Tdma.tdma_raw hs) (fun _ h => h)
    (fun e h => by obtain ⟨i, hi, h0⟩ := h.2; exact h0 (Nz.divAt (Nz.dom_pivots hd i hi).1)))
  refine ⟨l, _, ?_, stores_setBuf _ _ _, by omega, fun k hk =>
    noisy_dom hd (Tdma.eq_of (hq k hk)) fun i hi => Nz.divAt_iff.mp (hD (by omega) i hi)⟩
  unfold Tdma.solveMat
  have : a.shape.1 = n := hw.1
  rw [this, hbn, hxn, hxm]
  simp [e]

/-! ## Incomplete LU -/

section ilu
variable {M : Type} {ops : MatOps M (Nz N)} {ok : M → Prop}

/-- The computed factors: on the pattern of `A` their product is `A` up to rounding errors, elsewhere they are zero.
Dense, COO and CSR storage. -/
theorem C87_ilu_factor (hst : Storage ops ok) (n : Nat) (a f : M) (A : Nat → Nat → Nz N) (hok : ok a)
    (hA : Shows ops n a A) (e : Ilu.new ops a = .ok f) :
    ∃ F, ok f ∧ Shows ops n f F ∧ ∀ i j, i < n → j < n → ((A i j).val = 0 → (F i j).val = 0) ∧ ((A i j).val ≠ 0 →
      |luProd n (Nz.mat F) i j - (A i j).val| ≤
        gam N.u n * ∑ k ∈ range n, |unitLow (Nz.mat F) i k * upper (Nz.mat F) k j|) := by
  obtain ⟨R, hR, h1, h2⟩ := storage_rep hst n
  rcases Ilu.new_raw Nz.isZ_zero (fun _ h => Nz.divAt h) hR (h1 a A hok hA) with ⟨F, f', e', hF, hr⟩ | ⟨e', _⟩
  rotate_left
  · rw [e] at e'; cases e'
  · rw [e] at e'; injection e' with e'; subst e'
    refine ⟨F, (h2 f F hF).1, (h2 f F hF).2, fun i j hi hj => ⟨fun h => ?_, fun ha => ?_⟩⟩
    · rw [(hr i j hi hj).1 h]; exact h
    obtain ⟨ρ, hρ, ee⟩ := Nz.ilu_fac hi hj (hr i j hi hj) ha
    rw [ee, abs_sub_comm]
    exact sum_fac_le N.u_nonneg N.u_lt_one fun k _ => hρ k

/-- Solving with the factors (no zero on their diagonal). -/
theorem C87_ilu_solve (hst : Storage ops ok) (n : Nat) (a : M) (F : Nat → Nat → Nz N) (hok : ok a)
    (hF : Shows ops n a F) (hd : ∀ i, i < n → (F i i).val ≠ 0) (b : List (Nz N)) (hb : b.length = n) :
    ∃ x, Ilu.solve ops a b = .ok x ∧ x.length = n ∧
      NearSolves n (luProd n (Nz.mat F))
        (fun i j => gam N.u (2 * n) * ∑ k ∈ range n, |unitLow (Nz.mat F) i k * upper (Nz.mat F) k j|)
        (fun i => (val0 x i).val) (fun i => (val0 b i).val) := by
  obtain ⟨R, hR, h1, h2⟩ := storage_rep hst n
  obtain ⟨x, e, hx, hs⟩ := Ilu.solve_raw hR (h1 a F hok hF) (fun i hi => Nz.divAt (hd i hi)) hb
  exact ⟨x, e, hx, Nz.ilu_near hd hs⟩

end ilu

/-! ## Contraction is such an arithmetic -/

section fma
variable {R : Rounding} {fuse : Hist → Hist → Bool}

/-- A chosen product is combined with a sum or difference in one rounding, another one in two; all else is as in `Fl`. -/
theorem C87_fma (a b c : Nz (contracted R fuse)) :
    (fuse a.2 b.2 = true → (a * b + c).val = R.rnd (a.val * b.val + c.val) ∧
      (c + a * b).val = R.rnd (c.val + a.val * b.val) ∧ (a * b - c).val = R.rnd (a.val * b.val - c.val) ∧
      (c - a * b).val = R.rnd (c.val - a.val * b.val)) ∧
    (fuse a.2 b.2 = false → (a * b + c).val = R.rnd (R.rnd (a.val * b.val) + c.val) ∧
      (c + a * b).val = R.rnd (c.val + R.rnd (a.val * b.val)) ∧
      (a * b - c).val = R.rnd (R.rnd (a.val * b.val) - c.val) ∧
      (c - a * b).val = R.rnd (c.val - R.rnd (a.val * b.val))) ∧
    (a + b).val = R.rnd (a.val + b.val) ∧ (a - b).val = R.rnd (a.val - b.val) ∧ (contracted R fuse).u = R.u := by
  have e : (a * b).val = if fuse a.2 b.2 then a.val * b.val else R.rnd (a.val * b.val) := rfl
  have ad : ∀ p q : Nz (contracted R fuse), (p + q).val = R.rnd (p.val + q.val) := fun _ _ => rfl
  have su : ∀ p q : Nz (contracted R fuse), (p - q).val = R.rnd (p.val - q.val) := fun _ _ => rfl
  refine ⟨fun h => ?_, fun h => ?_, ad a b, su a b, rfl⟩
  · simp only [h, if_true] at e
    simp only [ad, su, e, and_self]
  · simp only [h, Bool.false_eq_true, if_false] at e
    simp only [ad, su, e, and_self]

end fma

/-! ## What contraction does not keep

In double precision, `a = 2^27 + 1`: the square `2^54 + 2^28 + 1` is not a double.  The products `a * a` are formed
twice; if one of them is fused and the other one is not, their difference is `1`. -/

/-- The first of two equal products is fused, the second is rounded. -/
private def firstOnly : Hist → Hist → Bool
  | .lit 2, .lit 3 => true
  | _, _ => false

private noncomputable abbrev D53 : Noisy := contracted (binary 53 (by norm_num)) firstOnly

/-- The number `2^27 + 1`, in the variable number `i`. -/
private noncomputable def big (i : Nat) : Nz D53 := ((2 ^ 27 + 1 : ℝ), Hist.lit i)

private theorem big_val (i : Nat) : (big i).val = 2 ^ 27 + 1 := rfl

private theorem rnd_sq : rndBin 53 ((2 ^ 27 + 1) * (2 ^ 27 + 1)) = 2 ^ 54 + 2 ^ 28 := by
  have l : Int.log 2 |((2 : ℝ) ^ 27 + 1) * (2 ^ 27 + 1)| = 54 := by
    rw [abs_of_pos (by positivity)]
    have h1 : (54 : ℤ) ≤ Int.log 2 (((2 : ℝ) ^ 27 + 1) * (2 ^ 27 + 1)) := by
      rw [← Int.zpow_le_iff_le_log (by norm_num) (by positivity)]
      norm_num
    have h2 : Int.log 2 (((2 : ℝ) ^ 27 + 1) * (2 ^ 27 + 1)) < 55 := by
      rw [← Int.lt_zpow_iff_log_lt (by norm_num) (by positivity)]
      norm_num
    omega
  have u : ulp 53 (((2 : ℝ) ^ 27 + 1) * (2 ^ 27 + 1)) = 4 := by
    unfold ulp
    rw [l]
    norm_num
  unfold rndBin
  rw [u]
  have f : ⌊((2 : ℝ) ^ 27 + 1) * (2 ^ 27 + 1) / 4⌋ = 2 ^ 52 + 2 ^ 26 := by
    rw [Int.floor_eq_iff]
    push_cast
    constructor <;> norm_num
  have fr : Int.fract (((2 : ℝ) ^ 27 + 1) * (2 ^ 27 + 1) / 4) = 1 / 4 := by
    unfold Int.fract
    rw [f]
    push_cast
    norm_num
  have e : nearestEven (((2 : ℝ) ^ 27 + 1) * (2 ^ 27 + 1) / 4) = 2 ^ 52 + 2 ^ 26 := by
    unfold nearestEven
    rw [fr, if_pos (by norm_num), f]
  rw [e]
  push_cast
  norm_num

private theorem diff_val (i j : Nat) (h : firstOnly (.lit i) (.lit j) = false) :
    (big 2 * big 3 - big i * big j).val = 1 := by
  have e1 : (big 2 * big 3).val = (2 ^ 27 + 1) * (2 ^ 27 + 1) := rfl
  have e2 : (big i * big j).val = 2 ^ 54 + 2 ^ 28 := by
    have : (big i * big j).val = if firstOnly (.lit i) (.lit j) then ((2 : ℝ) ^ 27 + 1) * (2 ^ 27 + 1) else
      rndBin 53 ((2 ^ 27 + 1) * (2 ^ 27 + 1)) := rfl
    rw [this, h]
    simp only [Bool.false_eq_true, if_false]
    exact rnd_sq
  show rndBin 53 ((big 2 * big 3).val - (big i * big j).val) = 1
  rw [e1, e2, show ((2 : ℝ) ^ 27 + 1) * (2 ^ 27 + 1) - (2 ^ 54 + 2 ^ 28) = ((1 : ℤ) : ℝ) by norm_num,
    rndBin_int 53 (by norm_num) 1 (by norm_num)]
  norm_num

section
variable {T : Type} [Zero T] [One T] [Neg T] [Sub T] [Mul T] [CDiv T]

theorem invert22_ops {s : Mem T} {a r : Nat} {p q u v : T} (ha : s a = [p, q, u, v]) (hr : s.len r = 4) :
    invert22 a r s = (do
      let d ← divC 1 (p * v - q * u)
      .ok (s.setBuf r [d * v, d * (if a = r then q * -1 else -q), d * (if a = r then u * -1 else -u), d * p])) := by
  obtain ⟨r0, r1, r2, r3, hr4⟩ := list4 (show (s r).length = 4 from hr)
  have key : ∀ (x q' u' : T) (s' : Mem T), s' = s.setBuf r [v, q', u', p] →
      (do let d ← divC 1 x; matScale d ⟨r, 2, 2⟩ s') = (do
        let d ← divC 1 x
        .ok (s.setBuf r [d * v, d * q', d * u', d * p])) := by
    rintro x q' u' s' rfl
    rcases divC 1 x with f | d
    · rfl
    · rw [ok_bind, ok_bind, matScale_eq (by simp [MatRef.Wf, Mem.len]), Mem.setBuf_self, Mem.setBuf_setBuf]
      rfl
  unfold invert22
  by_cases h : a = r
  · subst h
    rw [if_neg (by simp)]
    simp only [rd22, wr22, Mem.rd, ha, lrd, Nat.zero_mul, Nat.one_mul, Nat.reduceAdd, ok_bind,
      List.getElem?_cons_zero, List.getElem?_cons_succ]
    rw [← s.setBuf_same a, ha]
    simp only [Mem.setBuf_wr s a (show 0 < [p, q, u, v].length by simp), ok_bind, Mem.setBuf_self,
      List.set_cons_zero, List.set_cons_succ, List.getElem?_cons_zero, List.getElem?_cons_succ,
      Mem.setBuf_wr s a (show 3 < [v, q, u, v].length by simp),
      Mem.setBuf_wr s a (show 1 < [v, q, u, p].length by simp),
      Mem.setBuf_wr s a (show 2 < [v, q * -1, u, p].length by simp), Mem.setBuf_setBuf, if_true]
    exact key _ _ _ _ rfl
  · rw [if_pos h]
    simp only [rd22, wr22, Mem.rd, ha, lrd, Nat.zero_mul, Nat.one_mul, Nat.reduceAdd, ok_bind,
      List.getElem?_cons_zero, List.getElem?_cons_succ]
    rw [← s.setBuf_same r, hr4]
    simp only [Mem.setBuf_wr s r (show 0 < [r0, r1, r2, r3].length by simp), ok_bind,
      Mem.setBuf_other s h, ha,
      List.set_cons_zero, List.set_cons_succ, List.getElem?_cons_zero, List.getElem?_cons_succ,
      Mem.setBuf_wr s r (show 3 < [v, r1, r2, r3].length by simp),
      Mem.setBuf_wr s r (show 1 < [v, r1, r2, p].length by simp),
      Mem.setBuf_wr s r (show 2 < [v, -q, r2, p].length by simp), Mem.setBuf_setBuf, if_neg h]
    exact key _ _ _ _ rfl

end

private theorem fl_sub_self {R : Rounding} (a : Fl R) : a - a = 0 := by
  ext
  rw [Fl.val_sub, sub_self, R.rnd_zero, Fl.val_zero]

/-- The singular matrix with four equal entries: without contraction the determinant is exactly zero and the inverse
divides by it; with one of the two products fused all three forms of `invert` return a matrix. -/
theorem C87_singular_false :
    ∃ (R : Rounding) (fuse : Hist → Hist → Bool) (s : Mem (Nz (contracted R fuse))) (v : ℝ),
      s.len 0 = 4 ∧ (∀ i, i < 4 → (s.val 0 i).val = v) ∧ (∃ s', invert22 0 1 (s.setBuf 1 (s 0)) = .ok s') ∧
      (∃ s', invertInPlace 0 s = .ok s') ∧ (∃ s', invertedAt s 0 1 = .ok s') ∧
      ∀ (s : Mem (Fl R)) (a : Fl R), s 0 = [a, a, a, a] → invertInPlace 0 s = .error .nonFinite ∧
        invertedAt s 0 1 = .error .nonFinite := by
  have hd : divC (1 : Nz D53) (big 2 * big 3 - big 4 * big 5) = .ok (1 / (big 2 * big 3 - big 4 * big 5)) :=
    Nz.divAt (by rw [diff_val 4 5 rfl]; norm_num) _
  refine ⟨binary 53 (by norm_num), firstOnly, Mem.ofList [[big 2, big 4, big 5, big 3]], 2 ^ 27 + 1, rfl, ?_, ?_, ?_, ?_,
    ?_⟩
  · intro i hi
    interval_cases i <;> rfl
  · rw [invert22_ops (p := big 2) (q := big 4) (u := big 5) (v := big 3) rfl rfl, hd]
    exact ⟨_, rfl⟩
  · unfold invertInPlace
    rw [invert22_ops (p := big 2) (q := big 4) (u := big 5) (v := big 3) rfl rfl, hd]
    exact ⟨_, rfl⟩
  · unfold invertedAt
    rw [invert22_ops (p := big 2) (q := big 4) (u := big 5) (v := big 3) rfl rfl, hd]
    exact ⟨_, rfl⟩
  · intro s a ha
    have z : divC (1 : Fl (binary 53 (by norm_num))) (a * a - a * a) = .error .nonFinite := by
      rw [fl_sub_self]
      exact divC_zero _
    refine ⟨?_, ?_⟩
    · unfold invertInPlace
      rw [invert22_ops ha (by rw [Mem.len, ha]; rfl), z]
      rfl
    · unfold invertedAt
      rw [invert22_ops (p := a) (q := a) (u := a) (v := a) (by rw [Mem.setBuf_other _ (by decide), ha]) (by simp [Mem.len]), z]
      rfl

/-- `cross(x, y)` of two equal vectors: exactly zero without contraction, not so when one of the products is fused. -/
theorem C87_cross_equal_false :
    ∃ (R : Rounding) (fuse : Hist → Hist → Bool) (m : Mem (Nz (contracted R fuse))) (r : Nz (contracted R fuse)),
      m.len 0 = 2 ∧ m.len 1 = 2 ∧ (∀ i, i < 2 → (m.val 0 i).val = (m.val 1 i).val) ∧
      cross2 true true true m 0 1 = .ok r ∧ r.val = 1 ∧
      ∀ (m : Mem (Fl R)), m.len 0 = 2 → m 1 = m 0 → ∃ r, cross2 true true true m 0 1 = .ok r ∧ r.val = 0 := by
  refine ⟨binary 53 (by norm_num), firstOnly, Mem.ofList [[big 2, big 5], [big 4, big 3]],
    big 2 * big 3 - big 4 * big 5, rfl, rfl, ?_, rfl, diff_val 4 5 rfl, ?_⟩
  · intro i hi
    interval_cases i <;> rfl
  · intro m h0 h1
    have h1' : m.len 1 = 2 := by rw [Mem.len, h1]; exact h0
    refine ⟨m.val 0 0 * m.val 1 1 - m.val 1 0 * m.val 0 1, ?_, ?_⟩
    · simp only [cross2, cross2Core, h0, h1', beq_self_eq_true, Bool.or_true, cassert_true, ok_bind,
        Mem.rd_ok (show 0 < m.len 0 by omega), Mem.rd_ok (show 1 < m.len 0 by omega),
        Mem.rd_ok (show 0 < m.len 1 by omega), Mem.rd_ok (show 1 < m.len 1 by omega), Lalib.noexcept_ok]
    · have e : ∀ i, m.val 1 i = m.val 0 i := fun i => by unfold Mem.val; rw [h1]
      rw [e, e, fl_sub_self, Fl.val_zero]

/-! ## Examples: double precision, with any choice of the products that are fused -/

section
variable (fuse : Hist → Hist → Bool)

private noncomputable def num (x : ℝ) (i : Nat) : Nz (contracted (binary 53 (by norm_num)) fuse) := (x, Hist.lit i)

private theorem num_val (x : ℝ) (i : Nat) : (num fuse x i).val = x := rfl

private theorem con_u : (contracted (binary 53 (by norm_num)) fuse).u = (1 / 2) ^ 53 := rfl

-- rows (2, 1), (1, 2): accepted
example : ∃ L, Chol.new .triangle 2 [num fuse 2 2, num fuse 1 3, num fuse 2 4] = .ok L := by
  refine C87_chol_accepts .triangle 2 _
    (fun i j => if i = j then (if i = 0 then num fuse 2 2 else num fuse 2 4) else num fuse 1 3)
    ⟨rfl, fun i j hj hi => ?_⟩ (fun i j _ _ => ?_) (fun p _ => ?_) (1 / 2) ?_ ?_
  · interval_cases i <;> interval_cases j <;> rfl
  · by_cases h : i = j
    · subst h; rfl
    · simp only [if_neg h, if_neg (Ne.symm h)]
  · simp only [if_true]
    split_ifs <;> rw [num_val] <;> norm_num
  · have h := gam_le (u := (1 / 2 : ℝ) ^ 53) (by norm_num) (by norm_num) (k := 18) (by norm_num)
    rw [con_u]
    refine lt_of_le_of_lt (mul_le_mul_of_nonneg_left h (by norm_num)) ?_
    norm_num
  · intro x
    simp only [sum_range_succ, range_zero, sum_empty, zero_add, if_true, Nat.zero_ne_one, Nat.one_ne_zero, if_false,
      num_val]
    nlinarith [sq_nonneg (x 0 + x 1)]

-- rows (1, 2), (2, 1): rejected
example : Chol.new .square 2 [num fuse 1 2, num fuse 2 3, num fuse 2 3, num fuse 1 4] =
    .error (.throw .runtimeError) := by
  refine C87_chol_rejects .square 2 _
    (fun i j => if i = j then (if i = 0 then num fuse 1 2 else num fuse 1 4) else num fuse 2 3)
    ⟨rfl, fun i j hj hi => ?_⟩ (fun i j _ _ => ?_) ?_ (fun i => if i = 0 then 1 else -1) ?_
  · interval_cases i <;> interval_cases j <;> rfl
  · by_cases h : i = j
    · subst h; rfl
    · simp only [if_neg h, if_neg (Ne.symm h)]
  · simp only [if_true, num_val]; norm_num
  · have h := gam_le (u := (1 / 2 : ℝ) ^ 53) (by norm_num) (by norm_num) (k := 6) (by norm_num)
    norm_num at h
    rw [con_u]
    simp only [sum_range_succ, range_zero, sum_empty, zero_add, if_true, Nat.zero_ne_one, Nat.one_ne_zero, if_false,
      num_val]
    norm_num
    linarith

-- rows (3, 1), (1, 3): dominant with the margin, so every right-hand side is solved
example (nd : Bool) (m : Mem (Nz (contracted (binary 53 (by norm_num)) fuse))) (hb : m.len 0 = 2) (hx : m.len 1 = 2) :
    ∃ m', Tdma.solveVec nd ⟨[num fuse 1 2], [num fuse 3 3, num fuse 3 4], [num fuse 1 5]⟩ 0 1 m = .ok m' := by
  obtain ⟨_, m', h, _⟩ := C87_tdma_dominant nd
    (⟨[num fuse 1 2], [num fuse 3 3, num fuse 3 4], [num fuse 1 5]⟩ : TriDiag _) 2 ⟨rfl, rfl, rfl, by norm_num⟩ (le_refl _)
    0 1 m hb hx (fun i hi => by
      have e0 : (range 2).erase 0 = {1} := by decide
      have e1 : (range 2).erase 1 = {0} := by decide
      interval_cases i
      · rw [e0, sum_singleton, con_u]; simp [Nz.mat, triFull, val0, num_val]; norm_num
      · rw [e1, sum_singleton, con_u]; simp [Nz.mat, triFull, val0, num_val]; norm_num)
  exact ⟨m', h⟩

-- a reduction in pairs: depth 2 for four products
example : (RedTree.node (.node (.leaf 0) (.leaf 1)) (.node (.leaf 2) (.leaf 3))).depth = 2 ∧
    (RedTree.node (.node (.leaf 0) (.leaf 1)) (.node (.leaf 2) (.leaf 3))).leaves.Perm (List.range 4) := by
  decide

end

end Lalib.Props
