import Verif.Proofs.FloatInt
import Verif.Props.Float

/-! # Property C62: integer data

In binary floating point with `p` bits (`p = 53`: double) the products of integer vectors and matrices are exact as long
as the sums of the absolute values stay within `2^p`. -/

namespace Lalib.Props

open Lalib Finset

variable {p : ℕ} {hp : 1 ≤ p}

private theorem val_int {m : Mem (Fl (binary p hp))} {x : Nat} (h : ∀ i, i < m.len x → (m.val x i).IsInt) (i : Nat) :
    (m.val x i).IsInt := by
  by_cases hi : i < m.len x
  · exact h i hi
  · refine ⟨0, ?_⟩
    have : m.val x i = 0 := by
      show val0 (m x) i = 0
      unfold val0
      have : (m x).length ≤ i := not_lt.mp hi
      simp [this]
    rw [this]; simp

private theorem int_mul {a b : Fl (binary p hp)} (ha : a.IsInt) (hb : b.IsInt) : ∃ z : ℤ, a.val * b.val = z := by
  obtain ⟨z, hz⟩ := ha
  obtain ⟨w, hw⟩ := hb
  exact ⟨z * w, by rw [hz, hw]; push_cast; ring⟩

private theorem int_mul3 {a b c : Fl (binary p hp)} (ha : a.IsInt) (hb : b.IsInt) (hc : c.IsInt) :
    ∃ z : ℤ, a.val * b.val * c.val = z := by
  obtain ⟨z, hz⟩ := int_mul ha hb
  obtain ⟨w, hw⟩ := hc
  exact ⟨z * w, by rw [hz, hw]; push_cast; ring⟩

/-- A sum of products that starts with a product, as the products of matrices do. -/
private theorem gem_int {alpha beta c : Fl (binary p hp)} {f g : Nat → Fl (binary p hp)} {lo n : ℕ} (ha : alpha.IsInt)
    (hb : beta.IsInt) (hc : c.IsInt) (hf : ∀ k, k < n → (f (lo + k)).IsInt) (hg : ∀ k, k < n → (g (lo + k)).IsInt)
    (hbd : |beta.val * c.val| + ∑ k ∈ range n, |alpha.val * (f (lo + k)).val * (g (lo + k)).val| ≤ 2 ^ p) :
    (addUp (fun k => alpha * f k * g k) lo (lo + n) (beta * c)).val =
      beta.val * c.val + ∑ k ∈ range n, alpha.val * (f (lo + k)).val * (g (lo + k)).val := by
  have nn : ∀ k, 0 ≤ |alpha.val * (f (lo + k)).val * (g (lo + k)).val| := fun k => abs_nonneg _
  have t1 : ∀ k, k < n → |alpha.val * (f (lo + k)).val * (g (lo + k)).val| ≤ 2 ^ p := fun k hk =>
    le_trans (le_trans (single_le_sum (f := fun k => |alpha.val * (f (lo + k)).val * (g (lo + k)).val|)
      (fun i _ => nn i) (mem_range.mpr hk)) (le_add_of_nonneg_left (abs_nonneg _))) hbd
  have t2 : |beta.val * c.val| ≤ 2 ^ p := le_trans (le_add_of_nonneg_right (sum_nonneg fun k _ => nn k)) hbd
  have e0 := Fl.mul_int hb hc t2
  have i0 : (beta * c).IsInt := by
    obtain ⟨z, hz⟩ := int_mul hb hc
    exact ⟨z, by rw [e0, hz]⟩
  have := (Fl.addUp_int (g := fun k => alpha * f k * g k) (lo := lo)
    (e := fun k => alpha.val * (f (lo + k)).val * (g (lo + k)).val) i0 n
    (fun k hk => Fl.mul3_int ha (hf k hk) (hg k hk) (t1 k hk)) (fun k hk => int_mul3 ha (hf k hk) (hg k hk))
    (by rw [e0]; exact hbd)).1
  rw [this, e0]

/-- Inner products, in the order of the loop and of any SIMD reduction. -/
theorem C62_dot (m : Mem (Fl (binary p hp))) (x y : Nat) (h : m.len y = m.len x) (h0 : 0 < m.len x)
    (hx : ∀ i, i < m.len x → (m.val x i).IsInt) (hy : ∀ i, i < m.len y → (m.val y i).IsInt)
    (hb : ∑ i ∈ range (m.len x), |(m.val x i).val * (m.val y i).val| ≤ 2 ^ p) (t : RedTree)
    (ht : t.leaves.Perm (List.range' 1 (m.len x - 1))) :
    ∃ r, dynDot m x y = .ok r ∧ dotCoreTree t m x y = .ok r ∧
      r.val = ∑ i ∈ range (m.len x), (m.val x i).val * (m.val y i).val := by
  have hx' := val_int hx
  have hy' := val_int hy
  have hl : ∀ i ∈ t.leaves, i < m.len x ∧ i < m.len y := by
    intro i hi
    have := List.mem_range'_1.mp (ht.mem_iff.mp hi)
    omega
  obtain ⟨n, hn⟩ : ∃ n, m.len x = n + 1 := ⟨m.len x - 1, by omega⟩
  have conv : ∀ f : ℕ → ℝ, ((List.range' 1 n).map f).sum = ∑ k ∈ range n, f (k + 1) := by
    intro f
    rw [list_sum_eq_range]
    simp only [List.length_map, List.length_range']
    refine sum_congr rfl fun i hi => ?_
    have := mem_range.mp hi
    simp [val0, this, Nat.add_comm 1 i]
  rw [hn, sum_range_succ'] at hb
  have tn : 0 ≤ ∑ k ∈ range n, |(m.val x (k + 1)).val * (m.val y (k + 1)).val| := sum_nonneg fun k _ => abs_nonneg _
  have b0 : |(m.val x 0).val * (m.val y 0).val| ≤ 2 ^ p := by linarith
  have e0 := Fl.mul_int (hx' 0) (hy' 0) b0
  have i0 : (m.val x 0 * m.val y 0).IsInt := by
    obtain ⟨z, hz⟩ := int_mul (hx' 0) (hy' 0)
    exact ⟨z, by rw [e0, hz]⟩
  have tb : ∀ k, k < n → |(m.val x (k + 1)).val * (m.val y (k + 1)).val| ≤ 2 ^ p := fun k hk => by
    have := single_le_sum (f := fun k => |(m.val x (k + 1)).val * (m.val y (k + 1)).val|) (s := range n)
      (fun i _ => abs_nonneg _) (mem_range.mpr hk)
    have := abs_nonneg ((m.val x 0).val * (m.val y 0).val)
    linarith
  -- the loop
  have loop := (Fl.addUp_int (g := fun i => m.val x i * m.val y i) (lo := 1)
    (e := fun k => (m.val x (k + 1)).val * (m.val y (k + 1)).val) i0 n
    (fun k hk => by rw [Nat.add_comm 1 k]; exact Fl.mul_int (hx' _) (hy' _) (tb k hk))
    (fun k _ => int_mul (hx' _) (hy' _)) (by rw [e0]; linarith)).1
  -- the reduction
  have hbt : (t.leaves.map fun i => |(m.val x i).val * (m.val y i).val|).sum ≤ 2 ^ p := by
    rw [(ht.map _).sum_eq, hn, Nat.add_sub_cancel, conv]
    have := abs_nonneg ((m.val x 0).val * (m.val y 0).val)
    linarith
  obtain ⟨v, hv, ⟨z, hz⟩, ev⟩ := Fl.tree_int t hl hx' hy' hbt
  rw [(ht.map _).sum_eq, hn, Nat.add_sub_cancel, conv] at ev
  have total : ((m.val x 0 * m.val y 0) + v).val = ∑ i ∈ range (m.len x), (m.val x i).val * (m.val y i).val := by
    rw [Fl.val_add, hn, sum_range_succ', e0, ev]
    have : ∃ q : ℤ, (m.val x 0).val * (m.val y 0).val + v.val = q := by
      obtain ⟨w, hw⟩ := i0
      exact ⟨w + z, by rw [← e0, hw, hz]; push_cast; ring⟩
    rw [ev] at this
    rw [Fl.rnd_int (hp := hp) this, add_comm]
    refine (abs_add_le _ _).trans ?_
    have := abs_sum_le_sum_abs (fun k => (m.val x (k + 1)).val * (m.val y (k + 1)).val) (range n)
    linarith
  refine ⟨(m.val x 0 * m.val y 0) + v, ?_, ?_, total⟩
  · unfold dynDot
    rw [h, checkSize_self, ok_bind, dotCore_raw (m := m) (x := x) (y := y) (n := m.len x) h0 (le_refl _) h.ge]
    refine congrArg _ (Fl.ext ?_)
    rw [total, hn, sum_range_succ', Nat.add_comm n 1, loop, e0, add_comm]
  · unfold dotCoreTree
    rw [Mem.rd_ok (by omega), ok_bind, Mem.rd_ok (by omega), ok_bind, hv, ok_bind]

/-- The norm of an integer vector is the correctly rounded root. -/
theorem C62_norm2 (m : Mem (Fl (binary p hp))) (x : Nat) (hx : ∀ i, i < m.len x → (m.val x i).IsInt)
    (hb : ∑ i ∈ range (m.len x), (m.val x i).val ^ 2 ≤ 2 ^ p) :
    ∃ r, vecNorm2 m x = .ok r ∧ r.val = rndBin p (Real.sqrt (∑ i ∈ range (m.len x), (m.val x i).val ^ 2)) := by
  have hx' := val_int hx
  simp only [pow_two] at hb ⊢
  have tb : ∀ k, k < m.len x → |(m.val x k).val * (m.val x k).val| ≤ 2 ^ p := fun k hk => by
    rw [abs_mul_self]
    exact le_trans (single_le_sum (f := fun k => (m.val x k).val * (m.val x k).val) (s := range (m.len x))
      (fun i _ => mul_self_nonneg _) (mem_range.mpr hk)) hb
  have := (Fl.addUp_int (g := fun i => m.val x i * m.val x i) (t := 0) (lo := 0)
    (e := fun k => (m.val x k).val * (m.val x k).val) ⟨0, by simp⟩ (m.len x)
    (fun k hk => by rw [Nat.zero_add]; exact Fl.mul_int (hx' _) (hx' _) (tb k hk))
    (fun k _ => int_mul (hx' _) (hx' _)) (by simpa using hb)).1
  rw [Nat.zero_add, Fl.val_zero, zero_add] at this
  have nn : ¬ addUp (fun i => m.val x i * m.val x i) 0 (m.len x) 0 < 0 := by
    intro hlt
    have hlt : (addUp (fun i => m.val x i * m.val x i) 0 (m.len x) 0).val < 0 := hlt
    rw [this] at hlt
    exact absurd hlt (not_lt.mpr (sum_nonneg fun i _ => mul_self_nonneg _))
  refine ⟨Sqrt.sqrt (addUp (fun i => m.val x i * m.val x i) 0 (m.len x) 0), ?_, ?_⟩
  · unfold vecNorm2
    rw [norm2Core_raw (le_refl _)]
    simp [sqrtC_eq, nn]
  · rw [Fl.val_sqrt, this]; rfl

/-- `y := alpha A x + beta y`. -/
theorem C62_gemv (nd : Bool) (alpha beta : Fl (binary p hp)) (a : MatRef) (x y : Nat) (s : Mem (Fl (binary p hp)))
    (ha : a.Wf s) (hx : s.len x = a.m) (hy : s.len y = a.n) (hay : a.buf ≠ y)
    (h1 : alpha.IsInt) (h2 : beta.IsInt) (h3 : ∀ i k, i < a.n → k < a.m → (entry a.m (s a.buf) i k).IsInt)
    (h4 : ∀ k, k < s.len x → (s.val x k).IsInt) (h5 : ∀ i, i < s.len y → (s.val y i).IsInt)
    (hb : ∀ i, i < a.n → |beta.val * (s.val y i).val| +
      ∑ k ∈ range a.m, |alpha.val * (entry a.m (s a.buf) i k).val * (s.val x k).val| ≤ 2 ^ p) :
    ∃ s', gemvDD nd alpha a x beta y s = .ok s' ∧ s'.len y = a.n ∧ (∀ q, q ≠ y → s' q = s q) ∧ ∀ i, i < a.n →
      (s'.val y i).val = beta.val * (s.val y i).val +
        ∑ k ∈ range a.m, alpha.val * (entry a.m (s a.buf) i k).val * (s.val x k).val := by
  obtain ⟨s', e1, _, _, h6, h7⟩ := C55_gemv nd alpha beta a x y s ha hx hy hay
  refine ⟨s', e1, by show (s' y).length = _; rw [h6]; simp, h7, fun i hi => ?_⟩
  have e : s'.val y i = addUp (fun k => alpha * entry a.m (s a.buf) i k * val0 (s x) k) 0 (0 + a.m)
      (beta * val0 (s y) i) := by
    show val0 (s' y) i = _
    rw [h6, val0_map_range, if_pos hi, Nat.zero_add]
  have := gem_int (lo := 0) (n := a.m) (f := fun k => entry a.m (s a.buf) i k) (g := fun k => val0 (s x) k)
    (c := val0 (s y) i) h1 h2 (h5 i (by omega)) (fun k hk => by rw [Nat.zero_add]; exact h3 i k hi hk)
    (fun k hk => by rw [Nat.zero_add]; exact h4 k (by omega)) (by simpa only [Nat.zero_add, Mem.val] using hb i hi)
  rw [e, this]
  simp only [Nat.zero_add, Mem.val]

/-- `C := alpha A B + beta C`, with any sharing of storage. -/
theorem C62_gemm (nd : Bool) (alpha beta : Fl (binary p hp)) (a b c : MatRef) (s : Mem (Fl (binary p hp)))
    (ha : a.Wf s) (hb : b.Wf s) (hc : c.Wf s) (q1 : a.n = c.n) (q2 : b.m = c.m) (q3 : a.m = b.n)
    (h1 : alpha.IsInt) (h2 : beta.IsInt) (h3 : ∀ i k, i < c.n → k < a.m → (entry a.m (s a.buf) i k).IsInt)
    (h4 : ∀ k j, k < a.m → j < c.m → (entry c.m (s b.buf) k j).IsInt)
    (h5 : ∀ i j, i < c.n → j < c.m → (entry c.m (s c.buf) i j).IsInt)
    (hbd : ∀ i j, i < c.n → j < c.m → |beta.val * (entry c.m (s c.buf) i j).val| +
      ∑ k ∈ range a.m, |alpha.val * (entry a.m (s a.buf) i k).val * (entry c.m (s b.buf) k j).val| ≤ 2 ^ p) :
    ∃ s', gemmDDD nd alpha a b beta c s = .ok s' ∧ s'.len c.buf = c.n * c.m ∧ (∀ q, q ≠ c.buf → s' q = s q) ∧
      ∀ i j, i < c.n → j < c.m → (entry c.m (s' c.buf) i j).val = beta.val * (entry c.m (s c.buf) i j).val +
        ∑ k ∈ range a.m, alpha.val * (entry a.m (s a.buf) i k).val * (entry c.m (s b.buf) k j).val := by
  obtain ⟨s', g1, _, _, _, _, _, _, g8, g9⟩ := C55_gemm nd alpha beta a b c s ha hb hc q1 q2 q3
  refine ⟨s', g1, by show (s' c.buf).length = _; rw [g8]; simp [matOf], g9, fun i j hi hj => ?_⟩
  rw [g8, entry_matOf _ hi hj, C55_gemm_start Fl.mul_comm _ true]
  have := gem_int (lo := 0) (n := a.m) (f := fun k => entry a.m (s a.buf) i k) (g := fun k => entry c.m (s b.buf) k j)
    (c := entry c.m (s c.buf) i j) h1 h2 (h5 i j hi hj) (fun k hk => by rw [Nat.zero_add]; exact h3 i k hi hk)
    (fun k hk => by rw [Nat.zero_add]; exact h4 k j hk hj) (by simpa only [Nat.zero_add] using hbd i j hi hj)
  simp only [Nat.zero_add] at this
  exact this

/-- The sparse product. -/
theorem C62_spmv (nd : Bool) (alpha beta : Fl (binary p hp)) (a : Csr (Fl (binary p hp))) (hw : a.Wf)
    (hd : a.Distinct) (A : Nat → Nat → Fl (binary p hp)) (m x y : Nat) (s : Mem (Fl (binary p hp)))
    (hsh : a.shape = .ok (a.nrows, m)) (hA : ∀ i j, i < a.nrows → j < m → a.get i j = .ok (A i j)) (hx : s.len x = m)
    (hy : s.len y = a.nrows) (hxy : x ≠ y) (h1 : alpha.IsInt) (h2 : beta.IsInt) (h3 : ∀ v ∈ a.val, v.IsInt)
    (h4 : ∀ k, k < s.len x → (s.val x k).IsInt) (h5 : ∀ i, i < s.len y → (s.val y i).IsInt)
    (hb : ∀ i, i < a.nrows → |beta.val * (s.val y i).val| +
      ∑ j ∈ range m, |alpha.val * (A i j).val * (s.val x j).val| ≤ 2 ^ p) :
    ∃ s', Csr.mul nd alpha a x beta y s = .ok s' ∧ s'.len y = a.nrows ∧ (∀ q, q ≠ y → s' q = s q) ∧
      ∀ i, i < a.nrows → (s'.val y i).val = beta.val * (s.val y i).val +
        ∑ j ∈ range m, alpha.val * (A i j).val * (s.val x j).val := by
  have hc := Csr.col_lt hw hsh
  obtain ⟨s', e1, h6, h7⟩ := C55_spmv nd alpha beta a hw m x y s hsh hc hx hy hxy
  refine ⟨s', e1, by show (s' y).length = _; rw [h6]; simp, h7, fun i hi => ?_⟩
  obtain ⟨p1, p2, p3⟩ := hw.ptr_le hi
  set lo := a.rowPtr.getD i 0
  set hi' := a.rowPtr.getD (i + 1) 0
  have e : s'.val y i = addUp (fun k => alpha * val0 a.val k * val0 (s x) (a.col.getD k 0)) lo (lo + (hi' - lo))
      (beta * val0 (s y) i) := by
    show val0 (s' y) i = _
    rw [h6, val0_map_range, if_pos hi, Nat.add_sub_cancel' (by omega)]
  have c1 := Csr.row_sum_map hw hd hc hi (fun j hj => hA i j hi hj)
    (fun v j => alpha.val * v.val * (s.val x j).val) (fun j => by simp)
  have c2 := Csr.row_sum_map hw hd hc hi (fun j hj => hA i j hi hj)
    (fun v j => |alpha.val * v.val * (s.val x j).val|) (fun j => by simp)
  rw [sum_Ico_eq_sum_range] at c1 c2
  have hv : ∀ k, (val0 a.val k).IsInt := by
    intro k
    by_cases hk : k < a.val.length
    · rw [show val0 a.val k = a.val[k] by simp [val0, hk]]
      exact h3 _ (List.getElem_mem hk)
    · refine ⟨0, ?_⟩
      rw [show val0 a.val k = 0 by simp [val0, not_lt.mp hk]]; simp
  have hx' := val_int h4
  have := gem_int (lo := lo) (n := hi' - lo) (f := fun k => val0 a.val k) (g := fun k => val0 (s x) (a.col.getD k 0))
    (c := val0 (s y) i) h1 h2 (h5 i (by omega)) (fun k _ => hv _) (fun k _ => hx' _)
    (by
      have := hb i hi
      rw [← c2] at this
      exact this)
  rw [e, this, ← c1]
  rfl

-- double precision: (1, 2, 3) . (4, 5, 6) = 32
private noncomputable def dbl (z : ℤ) (h : |z| ≤ 2 ^ 53) : Fl (binary 53 (by norm_num)) :=
  ⟨z, rndBin_int 53 (by norm_num) z h⟩

example : ∃ r, dynDot (Mem.ofList [[dbl 1 (by norm_num), dbl 2 (by norm_num), dbl 3 (by norm_num)],
    [dbl 4 (by norm_num), dbl 5 (by norm_num), dbl 6 (by norm_num)]]) 0 1 = .ok r ∧ r.val = 32 := by
  obtain ⟨r, h1, _, h2⟩ := C62_dot (Mem.ofList [[dbl 1 (by norm_num), dbl 2 (by norm_num), dbl 3 (by norm_num)],
    [dbl 4 (by norm_num), dbl 5 (by norm_num), dbl 6 (by norm_num)]]) 0 1 rfl (by decide)
    (fun i hi => by
      have hi : i < 3 := hi
      interval_cases i <;> exact ⟨_, rfl⟩)
    (fun i hi => by
      have hi : i < 3 := hi
      interval_cases i <;> exact ⟨_, rfl⟩)
    (by
      show ∑ i ∈ range 3, _ ≤ _
      simp [sum_range_succ, Mem.val, Mem.ofList, val0, dbl]
      norm_num)
    (.node (.leaf 2) (.leaf 1)) (by decide)
  refine ⟨r, h1, h2.trans ?_⟩
  show ∑ i ∈ range 3, _ = _
  simp [sum_range_succ, Mem.val, Mem.ofList, val0, dbl]
  norm_num

end Lalib.Props
