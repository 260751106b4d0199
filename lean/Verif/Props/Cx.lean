import Verif.Proofs.Cx
import Verif.Proofs.Binary
import Verif.Props.Eval
import Verif.Props.Vec
import Mathlib.Analysis.Complex.Exponential

/-! # Property C80: rounding errors with complex elements

The functions of the model run on `Cx (Fl R)`: pairs of rounded numbers with the operations of `std::complex`
(`Verif/Spec/Cx.lean`).  `cxu u` is about `2.83 u`, and `cgam u k = (1 + cxu u)^k - 1` bounds `k` operations.  The
right-hand sides are written with the complex numbers which the data stand for. -/

namespace Lalib.Props

open Lalib Finset

variable {R : Rounding}

/-- The constants. -/
theorem C80_const (k : ℕ) (hu : R.u ≤ 1 / 100) : R.u ≤ cxu R.u ∧ cxu R.u ≤ 3 * R.u ∧
    (k * (3 * R.u) ≤ 1 → 0 ≤ cgam R.u k ∧ cgam R.u k ≤ 2 * (k * (3 * R.u))) := by
  have h0 := R.u_nonneg
  have hx : cxu R.u ≤ 3 * R.u := by
    have hs : √2 ≤ 1.4143 := Real.sqrt_le_iff.mpr ⟨by norm_num, by norm_num⟩
    have hq : 1 / (1 - R.u) ^ 2 - 1 ≤ 2.1 * R.u := by
      rw [sub_le_iff_le_add, div_le_iff₀ (by nlinarith)]
      nlinarith [mul_nonneg h0 h0, mul_nonneg h0 (mul_nonneg h0 h0)]
    have hq0 := gam_nonneg h0 R.u_lt_one 2
    have h2 := mul_le_mul hs hq hq0 (by norm_num)
    unfold cxu
    linarith
  refine ⟨u_le_cxu R, hx, fun hk => ⟨cgam_nonneg R k, ?_⟩⟩
  have hc := cxu_nonneg R
  have hkx : 0 ≤ k * (3 * R.u) := by positivity
  have h1 : (1 + cxu R.u) ^ k ≤ Real.exp (k * (3 * R.u)) := by
    rw [Real.exp_nat_mul]
    refine pow_le_pow_left₀ (by linarith) ?_ k
    have := Real.add_one_le_exp (3 * R.u)
    linarith
  have h2 := Real.abs_exp_sub_one_sub_id_le (show |k * (3 * R.u)| ≤ 1 by rw [abs_of_nonneg hkx]; exact hk)
  have h3 := (abs_le.mp h2).2
  unfold cgam
  nlinarith

/-- One operation: sums and differences have the relative error of a real operation, products that of `cxu`. -/
theorem C80_ops (z w : Cx (Fl R)) :
    ‖(z + w).toC - (z.toC + w.toC)‖ ≤ R.u * ‖z.toC + w.toC‖ ∧
    ‖(z - w).toC - (z.toC - w.toC)‖ ≤ R.u * ‖z.toC - w.toC‖ ∧
    ‖(z * w).toC - z.toC * w.toC‖ ≤ cxu R.u * ‖z.toC * w.toC‖ ∧ (-z).toC = -z.toC :=
  ⟨Cx.add_norm z w, Cx.sub_norm z w, Cx.mul_norm z w, rfl⟩

/-- `v1 + v2` and `v1 - v2`: one rounding per component. -/
theorem C80_add_sub (m : Mem (Cx (Fl R))) (v1 v2 vr : Nat) (h2 : m.len v2 = m.len v1)
    (hr : m.len vr = m.len v1) (ord : List Nat) (hp : ord.Perm (List.range (m.len v1))) :
    ∃ m' m'', addDD ord m v1 v2 vr = .ok m' ∧ subDD ord m v1 v2 vr = .ok m'' ∧
      (∀ q, q ≠ vr → m' q = m q ∧ m'' q = m q) ∧ m'.len vr = m.len v1 ∧ m''.len vr = m.len v1 ∧
      ∀ i, i < m.len v1 →
        ‖(m'.val vr i).toC - ((m.val v1 i).toC + (m.val v2 i).toC)‖ ≤
          R.u * ‖(m.val v1 i).toC + (m.val v2 i).toC‖ ∧
        ‖(m''.val vr i).toC - ((m.val v1 i).toC - (m.val v2 i).toC)‖ ≤
          R.u * ‖(m.val v1 i).toC - (m.val v2 i).toC‖ := by
  obtain ⟨m', e', s', o'⟩ := C01_add m v1 v2 vr h2 hr ord hp
  obtain ⟨m'', e'', s'', o''⟩ := C01_sub m v1 v2 vr h2 hr ord hp
  have h2' : (m v2).length = (m v1).length := h2
  refine ⟨m', m'', e', e'', fun q hq => ⟨o' q hq, o'' q hq⟩, by simp [Mem.len, s', h2'],
    by simp [Mem.len, s'', h2'], fun i hi => ?_⟩
  have hi : i < (m v1).length := hi
  have a : m'.val vr i = m.val v1 i + m.val v2 i := by
    simp [Mem.val, s', val0, hi, h2']
  have b : m''.val vr i = m.val v1 i - m.val v2 i := by
    simp [Mem.val, s'', val0, hi, h2']
  rw [a, b]
  exact ⟨Cx.add_norm _ _, Cx.sub_norm _ _⟩

/-- `alpha x`. -/
theorem C80_scale (alpha : Cx (Fl R)) (m : Mem (Cx (Fl R))) (x : Nat) :
    ∃ m', scaleV alpha m x = .ok m' ∧ (∀ q, q ≠ x → m' q = m q) ∧ m'.len x = m.len x ∧ ∀ i, i < m.len x →
      ‖(m'.val x i).toC - alpha.toC * (m.val x i).toC‖ ≤ cxu R.u * ‖alpha.toC * (m.val x i).toC‖ := by
  obtain ⟨m', e, s, o⟩ := C01_scale alpha m x
  refine ⟨m', e, o, by simp [Mem.len, s], fun i hi => ?_⟩
  have hi : i < (m x).length := hi
  have a : m'.val x i = alpha * m.val x i := by simp [Mem.val, s, val0, hi]
  rw [a]
  exact Cx.mul_norm _ _

/-- `alpha x + y`. -/
theorem C80_axpy (alpha : Cx (Fl R)) (m : Mem (Cx (Fl R))) (x y : Nat) (h : m.len y = m.len x) :
    ∃ m', axpyD alpha m x y = .ok m' ∧ axpyS (m.len x) alpha m x y = .ok m' ∧ (∀ q, q ≠ y → m' q = m q) ∧
      m'.len y = m.len y ∧ ∀ i, i < m.len x →
      ‖(m'.val y i).toC - (alpha.toC * (m.val x i).toC + (m.val y i).toC)‖ ≤
        cgam R.u 2 * (‖alpha.toC * (m.val x i).toC‖ + ‖(m.val y i).toC‖) := by
  obtain ⟨m', e, e', s, o⟩ := C01_axpy alpha m x y h
  have h' : (m y).length = (m x).length := h
  refine ⟨m', e, e', o, by simp [Mem.len, s, h'], fun i hi => ?_⟩
  have hi : i < (m x).length := hi
  have a : m'.val y i = alpha * m.val x i + m.val y i := by
    simp [Mem.val, s, val0, hi, h']
  rw [a]
  exact ((Cx.Near.mul2 _ _).add ((Cx.Near.self _).mono (by omega))).1

/-- `y := alpha A x + beta y`. -/
theorem C80_gemv (nd : Bool) (alpha beta : Cx (Fl R)) (a : MatRef) (x y : Nat) (s : Mem (Cx (Fl R)))
    (ha : a.Wf s) (hx : s.len x = a.m) (hy : s.len y = a.n) (hay : a.buf ≠ y) :
    ∃ s', gemvDD nd alpha a x beta y s = .ok s' ∧ gemvSD nd alpha a x beta y s = .ok s' ∧
      gemvSS alpha a x beta y s = .ok s' ∧ s'.len y = a.n ∧ (∀ q, q ≠ y → s' q = s q) ∧ ∀ i, i < a.n →
      ‖(s'.val y i).toC - (beta.toC * (s.val y i).toC +
          ∑ k ∈ range a.m, alpha.toC * (entry a.m (s a.buf) i k).toC * (s.val x k).toC)‖ ≤
        cgam R.u (a.m + 2) * (‖beta.toC * (s.val y i).toC‖ +
          ∑ k ∈ range a.m, ‖alpha.toC * (entry a.m (s a.buf) i k).toC * (s.val x k).toC‖) := by
  obtain ⟨s', h1, h2, h3, h4, h5⟩ := C55_gemv nd alpha beta a x y s ha hx hy hay
  refine ⟨s', h1, h2, h3, by show (s' y).length = _; rw [h4]; simp, h5, fun i hi => ?_⟩
  have e : s'.val y i = addUp (fun k => alpha * entry a.m (s a.buf) i k * val0 (s x) k) 0 (0 + a.m)
      (beta * val0 (s y) i) := by
    show val0 (s' y) i = _
    rw [h4, val0_map_range, if_pos hi, Nat.zero_add]
  rw [e, Nat.add_comm a.m 2]
  exact (Cx.Near.addUp ((Cx.Near.mul2 beta (val0 (s y) i)).mono (by omega))
    fun k _ => by rw [Nat.zero_add]; exact Cx.Near.mul3 alpha (entry a.m (s a.buf) i k) (val0 (s x) k)).1

/-- `C := alpha A B + beta C`; any sharing of storage. -/
theorem C80_gemm (nd : Bool) (alpha beta : Cx (Fl R)) (a b c : MatRef) (s : Mem (Cx (Fl R))) (ha : a.Wf s)
    (hb : b.Wf s) (hc : c.Wf s) (h1 : a.n = c.n) (h2 : b.m = c.m) (h3 : a.m = b.n) :
    ∃ s', gemmDDD nd alpha a b beta c s = .ok s' ∧ gemmSSS alpha a b beta c s = .ok s' ∧
      s'.len c.buf = c.n * c.m ∧ (∀ q, q ≠ c.buf → s' q = s q) ∧ ∀ i j, i < c.n → j < c.m →
      ‖(entry c.m (s' c.buf) i j).toC - (beta.toC * (entry c.m (s c.buf) i j).toC +
          ∑ k ∈ range a.m, alpha.toC * (entry a.m (s a.buf) i k).toC * (entry c.m (s b.buf) k j).toC)‖ ≤
        cgam R.u (a.m + 2) * (‖beta.toC * (entry c.m (s c.buf) i j).toC‖ +
          ∑ k ∈ range a.m, ‖alpha.toC * (entry a.m (s a.buf) i k).toC * (entry c.m (s b.buf) k j).toC‖) := by
  obtain ⟨s', g1, g2, -, -, -, -, -, g8, g9⟩ := C55_gemm nd alpha beta a b c s ha hb hc h1 h2 h3
  refine ⟨s', g1, g2, by show (s' c.buf).length = _; rw [g8]; simp [matOf], g9, fun i j hi hj => ?_⟩
  rw [g8, entry_matOf _ hi hj, C55_gemm_start Cx.mul_comm _ true, Nat.add_comm a.m 2]
  have := Cx.Near.addUp (lo := 0) (n := a.m) ((Cx.Near.mul2 beta (entry c.m (s c.buf) i j)).mono (show 1 ≤ 2 by omega))
    (g := fun k => alpha * entry a.m (s a.buf) i k * entry c.m (s b.buf) k j)
    fun k _ => by rw [Nat.zero_add]; exact Cx.Near.mul3 alpha (entry a.m (s a.buf) i k) (entry c.m (s b.buf) k j)
  rw [Nat.zero_add] at this
  exact this.1

/-- `norm2` takes the root (whatever the library's complex root is) of the sum of the squares, with the error of `n`
operations; for any shape of the SIMD reduction. -/
theorem C80_norm2 [CSqrt (Cx (Fl R))] (m : Mem (Cx (Fl R))) (x : Nat) :
    ∃ s, vecNorm2 m x = noexcept (sqrtC s) ∧
      ‖s.toC - ∑ i ∈ range (m.len x), (m.val x i).toC ^ 2‖ ≤
        cgam R.u (m.len x) * ∑ i ∈ range (m.len x), ‖(m.val x i).toC‖ ^ 2 := by
  refine ⟨addUp (fun i => m.val x i * m.val x i) 0 (m.len x) 0, ?_, ?_⟩
  · unfold vecNorm2
    rw [norm2Core_raw (le_refl _)]
  · cases hn : m.len x with
    | zero => simp [addUp]
    | succ n =>
      have es : addUp (fun i => m.val x i * m.val x i) 0 (n + 1) 0 =
          addUp (fun i => m.val x i * m.val x i) 1 (1 + n) (m.val x 0 * m.val x 0) := by
        simp [addUp, List.range'_succ, Cx.zero_add]
      have := Cx.Near.addUp (lo := 1) (n := n) (Cx.Near.mul2 (m.val x 0) (m.val x 0))
        (g := fun i => m.val x i * m.val x i)
        fun k _ => by rw [Nat.add_comm 1 k]; exact Cx.Near.mul2 (m.val x (k + 1)) (m.val x (k + 1))
      simp only [norm_mul] at this
      rw [es, sum_range_succ', sum_range_succ', add_comm _ ((m.val x 0).toC ^ 2), add_comm _ (‖(m.val x 0).toC‖ ^ 2),
        Nat.add_comm n 1]
      simp only [pow_two]
      exact this.1

theorem C80_norm2_any_order [CSqrt (Cx (Fl R))] (m : Mem (Cx (Fl R))) (x : Nat) (t : RedTree)
    (ht : t.leaves.Perm (List.range (m.len x))) :
    ∃ s, norm2CoreTree t m x = sqrtC s ∧
      ‖s.toC - ∑ i ∈ range (m.len x), (m.val x i).toC ^ 2‖ ≤
        cgam R.u (m.len x) * ∑ i ∈ range (m.len x), ‖(m.val x i).toC‖ ^ 2 := by
  obtain ⟨v, hv, -, h, -⟩ := Cx.Near.tree (m := m) (x := x) t fun i hi => List.mem_range.mp (ht.mem_iff.mp hi)
  refine ⟨v, by unfold norm2CoreTree; rw [hv, ok_bind, Cx.zero_add], ?_⟩
  rw [(ht.map _).sum_eq, (ht.map _).sum_eq, ht.length_eq, List.length_range, list_sum_eq_range,
    list_sum_eq_range] at h
  simp only [List.length_map, List.length_range] at h
  convert h using 2
  · congr 1
    refine sum_congr rfl fun i hi => ?_
    have := mem_range.mp hi
    simp [val0, this, pow_two]
  · refine sum_congr rfl fun i hi => ?_
    have := mem_range.mp hi
    simp [val0, this, pow_two]

/-- Non-vacuity: with the numbers of `double` (53 bits) a product of `10^6` columns has an error of less than
`10^-9` on the scale of the terms. -/
example : cgam (binary 53 (by norm_num)).u (10 ^ 6 + 2) < 1 / 10 ^ 9 := by
  have hu : (binary 53 (by norm_num)).u = (1 / 2) ^ 53 := rfl
  have h := (C80_const (R := binary 53 (by norm_num)) (10 ^ 6 + 2) (by rw [hu]; norm_num)).2.2
    (by rw [hu]; norm_num)
  rw [hu] at h ⊢
  refine lt_of_le_of_lt h.2 ?_
  norm_num

end Lalib.Props
