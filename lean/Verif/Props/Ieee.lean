import Verif.Proofs.IeeeSum
import Verif.Proofs.IeeeMono
import Verif.Props.Eval
import Verif.Props.Vec

/-! # Properties C65, C66: products over IEEE 754 numbers

The functions of the model run on `Fp F` (`Verif/Spec/Ieee.lean`): numbers with infinities, NaN, signed zeros, subnormals
and overflow. -/

namespace Lalib.Props

open Lalib Finset

variable {F : Fmt}

/-! ## C65: a number that is not finite does not disappear

"If the result is finite, everything that was used is finite", and "a NaN makes the result NaN". -/

/-- The value of `dot`, by every overload. -/
theorem dot_fp (m : Mem (Fp F)) (x y : Nat) (h : m.len y = m.len x) (h0 : 0 < m.len x) :
    dynDot m x y = .ok (addUp (fun i => m.val x i * m.val y i) 1 (m.len x) (m.val x 0 * m.val y 0)) ∧
    dotDD m x y = .ok (addUp (fun i => m.val x i * m.val y i) 1 (m.len x) (m.val x 0 * m.val y 0)) ∧
    dotSS (m.len x) m x y = .ok (addUp (fun i => m.val x i * m.val y i) 1 (m.len x) (m.val x 0 * m.val y 0)) ∧
    sizedDotDyn (m.len x) m x y =
      .ok (addUp (fun i => m.val x i * m.val y i) 1 (m.len x) (m.val x 0 * m.val y 0)) := by
  have e := dotCore_raw (m := m) (x := x) (y := y) (n := m.len x) h0 (le_refl _) h.ge
  refine ⟨?_, ?_, ?_, ?_⟩
  · unfold dynDot; rw [h, checkSize_self, ok_bind, e]
  · unfold dotDD; rw [h, checkSize_self, ok_bind, e]; rfl
  · unfold dotSS; rw [e]; rfl
  · unfold sizedDotDyn; rw [e]; rfl

theorem C65_dot (m : Mem (Fp F)) (x y : Nat) (h : m.len y = m.len x) (h0 : 0 < m.len x) :
    ∃ r, dynDot m x y = .ok r ∧ dotDD m x y = .ok r ∧ dotSS (m.len x) m x y = .ok r ∧
      sizedDotDyn (m.len x) m x y = .ok r ∧
      (r.IsFin → ∀ i, i < m.len x → (m.val x i).IsFin ∧ (m.val y i).IsFin) ∧
      ∀ i, i < m.len x → (m.val x i = .nan ∨ m.val y i = .nan) → r = .nan := by
  obtain ⟨e1, e2, e3, e4⟩ := dot_fp m x y h h0
  refine ⟨_, e1, e2, e3, e4, fun hf i hi => ?_, fun i hi hn => ?_⟩
  · obtain ⟨h1, h2⟩ := Fp.isFin_addUp hf
    by_cases hi0 : i = 0
    · rw [hi0]; exact Fp.fin_of_mul _ _ h1
    · exact Fp.fin_of_mul _ _ (h2 i (by omega) hi)
  · by_contra hc
    obtain ⟨h1, h2⟩ := Fp.nn_addUp hc
    have : m.val x i * m.val y i ≠ .nan := by
      by_cases hi0 : i = 0
      · rw [hi0]; exact h1
      · exact h2 i (by omega) hi
    have := Fp.nn_of_mul _ _ this
    rcases hn with hn | hn
    · exact this.1 hn
    · exact this.2 hn

/-- The same whatever the shape of the SIMD reduction. -/
theorem C65_dot_any_order (m : Mem (Fp F)) (x y : Nat) (h : m.len y = m.len x) (h0 : 0 < m.len x) (t : RedTree)
    (ht : t.leaves.Perm (List.range' 1 (m.len x - 1))) :
    ∃ r, dotCoreTree t m x y = .ok r ∧
      (r.IsFin → ∀ i, i < m.len x → (m.val x i).IsFin ∧ (m.val y i).IsFin) ∧
      ∀ i, i < m.len x → (m.val x i = .nan ∨ m.val y i = .nan) → r = .nan := by
  have hl : ∀ i ∈ t.leaves, i < m.len x ∧ i < m.len y := by
    intro i hi
    have := List.mem_range'_1.mp (ht.mem_iff.mp hi)
    omega
  have hm : ∀ i, i < m.len x → i ≠ 0 → i ∈ t.leaves := fun i hi h0 =>
    ht.mem_iff.mpr (List.mem_range'_1.mpr (by omega))
  obtain ⟨v, hv⟩ := Fp.tree_eval t hl
  refine ⟨_, by unfold dotCoreTree; rw [Mem.rd_ok (by omega), ok_bind, Mem.rd_ok (by omega), ok_bind, hv, ok_bind],
    fun hf i hi => ?_, fun i hi hn => ?_⟩
  · obtain ⟨h1, h2⟩ := Fp.fin_of_add _ _ hf
    by_cases hi0 : i = 0
    · rw [hi0]; exact Fp.fin_of_mul _ _ h1
    · exact Fp.fin_of_mul _ _ (Fp.tree_all Fp.fin_of_add t hl v hv h2 i (hm i hi hi0))
  · by_contra hc
    obtain ⟨h1, h2⟩ := Fp.nn_of_add _ _ hc
    have : m.val x i * m.val y i ≠ .nan := by
      by_cases hi0 : i = 0
      · rw [hi0]; exact h1
      · exact Fp.tree_all (P := (· ≠ .nan)) Fp.nn_of_add t hl v hv h2 i (hm i hi hi0)
    have := Fp.nn_of_mul _ _ this
    rcases hn with hn | hn
    · exact this.1 hn
    · exact this.2 hn

/-- The sum of the squares. -/
theorem pos_addUp {g : Nat → Fp F} {lo hi : Nat} {t : Fp F} (ht : t.Pos) (hg : ∀ k, lo ≤ k → k < hi → (g k).Pos) :
    (addUp g lo hi t).Pos := by
  rcases Nat.le_total hi lo with hl | hl
  · rw [Fp.addUp_ge g hl]; exact ht
  obtain ⟨n, rfl⟩ : ∃ n, hi = lo + n := ⟨hi - lo, by omega⟩
  clear hl
  induction n with
  | zero => rw [Fp.addUp_ge g (by omega)]; exact ht
  | succ n ih =>
    rw [Fp.addUp_succ]
    exact (ih fun k h1 h2 => hg k h1 (by omega)).add (hg _ (by omega) (by omega))

/-- The norm: NaN if a component is NaN; otherwise, plus infinity if a component is infinite (or the squares overflow),
else a finite number that is not negative. -/
theorem C65_norm2 (m : Mem (Fp F)) (x : Nat) :
    ∃ r, vecNorm2 m x = .ok r ∧ (r.IsFin → ∀ i, i < m.len x → (m.val x i).IsFin) ∧
      (r = .nan ↔ ∃ i, i < m.len x ∧ m.val x i = .nan) ∧
      (r ≠ .nan → r = .inf false ∨ r.IsFin ∧ 0 ≤ r.val) := by
  have e : vecNorm2 m x = .ok (Sqrt.sqrt (addUp (fun i => m.val x i * m.val x i) 0 (m.len x) 0)) := by
    unfold vecNorm2
    rw [norm2Core_raw (le_refl _), Fp.sqrtC_eq]
    rfl
  have key : (∀ i, i < m.len x → m.val x i ≠ .nan) →
      (Sqrt.sqrt (addUp (fun i => m.val x i * m.val x i) 0 (m.len x) 0)).Pos := fun hn =>
    (pos_addUp Fp.pos_zero fun k _ hk => Fp.pos_mul_self (hn k hk)).sqrt.1
  have nn : Sqrt.sqrt (addUp (fun i => m.val x i * m.val x i) 0 (m.len x) 0) ≠ (.nan : Fp F) →
      ∀ i, i < m.len x → m.val x i ≠ .nan := by
    intro hne i hi
    have h1 : addUp (fun i => m.val x i * m.val x i) 0 (m.len x) 0 ≠ (.nan : Fp F) := fun e => hne (by rw [e, Fp.sqrt_nan])
    exact (Fp.nn_of_mul _ _ ((Fp.nn_addUp h1).2 i (Nat.zero_le _) hi)).1
  refine ⟨_, e, fun hf i hi => ?_, ⟨fun hr => ?_, ?_⟩, fun hne => key (nn hne)⟩
  · exact (Fp.fin_of_mul _ _ ((Fp.isFin_addUp (Fp.isFin_sqrt_imp hf).1).2 i (Nat.zero_le _) hi)).1
  · by_contra hc
    push Not at hc
    exact (key hc).ne_nan hr
  · rintro ⟨i, hi, hn⟩
    by_contra hc
    exact nn hc i hi hn

/-- `y := alpha A x + beta y`.  Row `i` of the result shows every non-finite entry of row `i` of `A`, of `x`, the factors and
also the old `y_i` even if `beta = 0`. -/
theorem C65_gemv (nd : Bool) (alpha beta : Fp F) (a : MatRef) (x y : Nat) (s : Mem (Fp F))
    (ha : a.Wf s) (hx : s.len x = a.m) (hy : s.len y = a.n) (hay : a.buf ≠ y) :
    ∃ s', gemvDD nd alpha a x beta y s = .ok s' ∧ gemvSD nd alpha a x beta y s = .ok s' ∧
      gemvSS alpha a x beta y s = .ok s' ∧ s'.len y = a.n ∧ (∀ q, q ≠ y → s' q = s q) ∧ ∀ i, i < a.n →
      ((s'.val y i).IsFin → beta.IsFin ∧ (s.val y i).IsFin ∧
        ∀ k, k < a.m → alpha.IsFin ∧ (entry a.m (s a.buf) i k).IsFin ∧ (s.val x k).IsFin) ∧
      (beta = .nan ∨ s.val y i = .nan → s'.val y i = .nan) ∧
      ∀ k, k < a.m → (alpha = .nan ∨ entry a.m (s a.buf) i k = .nan ∨ s.val x k = .nan) → s'.val y i = .nan := by
  obtain ⟨s', h1, h2, h3, h4, h5⟩ := C55_gemv nd alpha beta a x y s ha hx hy hay
  refine ⟨s', h1, h2, h3, by show (s' y).length = _; rw [h4]; simp, h5, fun i hi => ?_⟩
  have e : s'.val y i = addUp (fun k => alpha * entry a.m (s a.buf) i k * val0 (s x) k) 0 a.m
      (beta * val0 (s y) i) := by
    show val0 (s' y) i = _
    rw [h4, val0_map_range, if_pos hi]
  rw [e]
  refine ⟨fun hf => ?_, fun hn => ?_, fun k hk hn => ?_⟩
  · obtain ⟨p1, p2⟩ := Fp.isFin_addUp hf
    obtain ⟨p3, p4⟩ := Fp.fin_of_mul _ _ p1
    refine ⟨p3, p4, fun k hk => ?_⟩
    obtain ⟨p5, p6⟩ := Fp.fin_of_mul _ _ (p2 k (Nat.zero_le _) hk)
    exact ⟨(Fp.fin_of_mul _ _ p5).1, (Fp.fin_of_mul _ _ p5).2, p6⟩
  · by_contra hc
    obtain ⟨q1, q2⟩ := Fp.nn_of_mul _ _ (Fp.nn_addUp hc).1
    rcases hn with hn | hn
    · exact q1 hn
    · exact q2 hn
  · by_contra hc
    obtain ⟨q1, q2⟩ := Fp.nn_of_mul _ _ ((Fp.nn_addUp hc).2 k (Nat.zero_le _) hk)
    obtain ⟨q3, q4⟩ := Fp.nn_of_mul _ _ q1
    rcases hn with hn | hn | hn
    · exact q3 hn
    · exact q4 hn
    · exact q2 hn

/-- `C := alpha A B + beta C`; any sharing of storage. -/
theorem C65_gemm (nd : Bool) (alpha beta : Fp F) (a b c : MatRef) (s : Mem (Fp F)) (ha : a.Wf s) (hb : b.Wf s)
    (hc : c.Wf s) (h1 : a.n = c.n) (h2 : b.m = c.m) (h3 : a.m = b.n) :
    ∃ s', gemmDDD nd alpha a b beta c s = .ok s' ∧ gemmSSS alpha a b beta c s = .ok s' ∧
      gemmDSS nd alpha a b beta c s = .ok s' ∧ gemmSDS nd alpha a b beta c s = .ok s' ∧
      gemmDDS nd alpha a b beta c s = .ok s' ∧ gemmDSD nd alpha a b beta c s = .ok s' ∧
      gemmSDD nd alpha a b beta c s = .ok s' ∧ s'.len c.buf = c.n * c.m ∧ (∀ q, q ≠ c.buf → s' q = s q) ∧
      ∀ i j, i < c.n → j < c.m →
      ((entry c.m (s' c.buf) i j).IsFin → beta.IsFin ∧ (entry c.m (s c.buf) i j).IsFin ∧
        ∀ k, k < a.m → alpha.IsFin ∧ (entry a.m (s a.buf) i k).IsFin ∧ (entry c.m (s b.buf) k j).IsFin) ∧
      (beta = .nan ∨ entry c.m (s c.buf) i j = .nan → entry c.m (s' c.buf) i j = .nan) ∧
      ∀ k, k < a.m → (alpha = .nan ∨ entry a.m (s a.buf) i k = .nan ∨ entry c.m (s b.buf) k j = .nan) →
        entry c.m (s' c.buf) i j = .nan := by
  obtain ⟨s', g1, g2, g3, g4, g5, g6, g7, g8, g9⟩ := C55_gemm nd alpha beta a b c s ha hb hc h1 h2 h3
  refine ⟨s', g1, g2, g3, g4, g5, g6, g7, by show (s' c.buf).length = _; rw [g8]; simp [matOf], g9,
    fun i j hi hj => ?_⟩
  rw [g8, entry_matOf _ hi hj, C55_gemm_start Fp.mul_comm _ true]
  simp only [gemmStart, if_true]
  refine ⟨fun hf => ?_, fun hn => ?_, fun k hk hn => ?_⟩
  · obtain ⟨p1, p2⟩ := Fp.isFin_addUp hf
    obtain ⟨p3, p4⟩ := Fp.fin_of_mul _ _ p1
    refine ⟨p3, p4, fun k hk => ?_⟩
    obtain ⟨p5, p6⟩ := Fp.fin_of_mul _ _ (p2 k (Nat.zero_le _) hk)
    exact ⟨(Fp.fin_of_mul _ _ p5).1, (Fp.fin_of_mul _ _ p5).2, p6⟩
  · by_contra hc
    obtain ⟨q1, q2⟩ := Fp.nn_of_mul _ _ (Fp.nn_addUp hc).1
    rcases hn with hn | hn
    · exact q1 hn
    · exact q2 hn
  · by_contra hc
    obtain ⟨q1, q2⟩ := Fp.nn_of_mul _ _ ((Fp.nn_addUp hc).2 k (Nat.zero_le _) hk)
    obtain ⟨q3, q4⟩ := Fp.nn_of_mul _ _ q1
    rcases hn with hn | hn | hn
    · exact q3 hn
    · exact q4 hn
    · exact q2 hn

/-- The sparse product: the same for the stored elements of the row and the components of `x` they meet. -/
theorem C65_spmv (nd : Bool) (alpha beta : Fp F) (a : Csr (Fp F)) (hw : a.Wf) (m x y : Nat) (s : Mem (Fp F))
    (hsh : a.shape = .ok (a.nrows, m)) (hx : s.len x = m) (hy : s.len y = a.nrows) (hxy : x ≠ y) :
    ∃ s', Csr.mul nd alpha a x beta y s = .ok s' ∧ s'.len y = a.nrows ∧ (∀ q, q ≠ y → s' q = s q) ∧
      ∀ i, i < a.nrows →
      ((s'.val y i).IsFin → beta.IsFin ∧ (s.val y i).IsFin ∧
        ∀ k, a.rowPtr.getD i 0 ≤ k → k < a.rowPtr.getD (i + 1) 0 →
          alpha.IsFin ∧ (val0 a.val k).IsFin ∧ (s.val x (a.col.getD k 0)).IsFin) ∧
      (beta = .nan ∨ s.val y i = .nan → s'.val y i = .nan) ∧
      ∀ k, a.rowPtr.getD i 0 ≤ k → k < a.rowPtr.getD (i + 1) 0 →
        (alpha = .nan ∨ val0 a.val k = .nan ∨ s.val x (a.col.getD k 0) = .nan) → s'.val y i = .nan := by
  have hc := Csr.col_lt hw hsh
  obtain ⟨s', h1, h4, h5⟩ := C55_spmv nd alpha beta a hw m x y s hsh hc hx hy hxy
  refine ⟨s', h1, by show (s' y).length = _; rw [h4]; simp, h5, fun i hi => ?_⟩
  have e : s'.val y i = addUp (fun k => alpha * val0 a.val k * val0 (s x) (a.col.getD k 0))
      (a.rowPtr.getD i 0) (a.rowPtr.getD (i + 1) 0) (beta * val0 (s y) i) := by
    show val0 (s' y) i = _
    rw [h4, val0_map_range, if_pos hi]
  rw [e]
  refine ⟨fun hf => ?_, fun hn => ?_, fun k hk hk' hn => ?_⟩
  · obtain ⟨p1, p2⟩ := Fp.isFin_addUp hf
    obtain ⟨p3, p4⟩ := Fp.fin_of_mul _ _ p1
    refine ⟨p3, p4, fun k hk hk' => ?_⟩
    obtain ⟨p5, p6⟩ := Fp.fin_of_mul _ _ (p2 k hk hk')
    exact ⟨(Fp.fin_of_mul _ _ p5).1, (Fp.fin_of_mul _ _ p5).2, p6⟩
  · by_contra hc
    obtain ⟨q1, q2⟩ := Fp.nn_of_mul _ _ (Fp.nn_addUp hc).1
    rcases hn with hn | hn
    · exact q1 hn
    · exact q2 hn
  · by_contra hc
    obtain ⟨q1, q2⟩ := Fp.nn_of_mul _ _ ((Fp.nn_addUp hc).2 k hk hk')
    obtain ⟨q3, q4⟩ := Fp.nn_of_mul _ _ q1
    rcases hn with hn | hn | hn
    · exact q3 hn
    · exact q4 hn
    · exact q2 hn

/-- `axpy` and `scale`: component by component. -/
theorem C65_axpy (alpha : Fp F) (m : Mem (Fp F)) (x y : Nat) (h : m.len y = m.len x) :
    ∃ m', axpyD alpha m x y = .ok m' ∧ axpyS (m.len x) alpha m x y = .ok m' ∧ m'.len y = m.len x ∧
      ∀ i, i < m.len x →
        ((m'.val y i).IsFin → alpha.IsFin ∧ (m.val x i).IsFin ∧ (m.val y i).IsFin) ∧
        (alpha = .nan ∨ m.val x i = .nan ∨ m.val y i = .nan → m'.val y i = .nan) := by
  obtain ⟨m', e1, e2, h1, _⟩ := C01_axpy alpha m x y h
  refine ⟨m', e1, e2, by show (m' y).length = _; rw [h1]; simp; exact h.ge, fun i hi => ?_⟩
  have e : m'.val y i = alpha * m.val x i + m.val y i := by
    show val0 (m' y) i = _
    have hx : i < (m x).length := hi
    have hy : i < (m y).length := by rw [show (m y).length = _ from h]; exact hi
    rw [h1, val0_of_lt (by simp; exact ⟨hx, hy⟩), List.getElem_zipWith]
    show _ = alpha * val0 (m x) i + val0 (m y) i
    rw [val0_of_lt hx, val0_of_lt hy]
  rw [e]
  refine ⟨fun hf => ?_, fun hn => ?_⟩
  · obtain ⟨p1, p2⟩ := Fp.fin_of_add _ _ hf
    exact ⟨(Fp.fin_of_mul _ _ p1).1, (Fp.fin_of_mul _ _ p1).2, p2⟩
  · rcases hn with hn | hn | hn <;> simp [hn]

/-- So the sparse and the dense product of the same matrix differ when `x` has a component that is not finite: the identity
matrix and `x = (1, inf)`. -/
theorem C65_sparse_dense (nd : Bool) :
    (∃ s', Csr.mul nd 1 (⟨[1, 1], [0, 1, 2], [0, 1]⟩ : Csr (Fp F)) 0 0 1 (Mem.ofList [[1, .inf false], [0, 0]]) = .ok s' ∧
      (s'.val 1 0).IsFin ∧ (s'.val 1 0).val = 1) ∧
    (∃ s', gemvDD nd (1 : Fp F) ⟨2, 2, 2⟩ 0 0 1 (Mem.ofList [[1, .inf false], [0, 0], [1, 0, 0, 1]]) = .ok s' ∧
      s'.val 1 0 = .nan) := by
  have z0 : IsZ ((0 : Fp F) * 0) := (Fp.zero_mul_cases Fp.isZ_zero 0).resolve_right (by
    intro h
    have : ((0 : Fp F) * 0).IsFin := (Fp.isFin_mul _ _).mpr ⟨trivial, trivial, by
      rw [Fp.val_zero, mul_zero, abs_zero, F.rnd_zero]; exact F.top_pos⟩
    rw [h] at this
    exact this)
  constructor
  · obtain ⟨s', h1, h4, h5⟩ := C55_spmv nd (1 : Fp F) 0 ⟨[1, 1], [0, 1, 2], [0, 1]⟩
      ⟨rfl, rfl, by show List.Pairwise (· ≤ ·) ([0, 1, 2] : List Nat); decide, rfl⟩ 2 0 1
      (Mem.ofList [[1, .inf false], [0, 0]]) rfl (by show ∀ c ∈ ([0, 1] : List Nat), c < 2; decide) rfl rfl (by decide)
    refine ⟨s', h1, ?_⟩
    have e : s'.val 1 0 = 0 * 0 + 1 * 1 * 1 := by
      show val0 (s' 1) 0 = _
      rw [h4]
      rfl
    rw [e, Fp.one_mul, Fp.one_mul, Fp.add_comm]
    have := Fp.add_zero_val (Fp.isFin_one (F := F)) z0
    exact ⟨this.1, by rw [this.2, Fp.val_one]⟩
  · obtain ⟨s', h1, _, _, h4, h5⟩ := C55_gemv nd (1 : Fp F) 0 ⟨2, 2, 2⟩ 0 1
      (Mem.ofList [[1, .inf false], [0, 0], [1, 0, 0, 1]]) rfl rfl rfl (by decide)
    refine ⟨s', h1, ?_⟩
    have e : s'.val 1 0 = 0 * 0 + 1 * 1 * 1 + 1 * 0 * .inf false := by
      show val0 (s' 1) 0 = _
      rw [h4]
      rfl
    rw [e, Fp.one_mul 0, Fp.zero_mul_inf false Fp.isZ_zero, Fp.add_nan]

/-- Multiplying by `beta = 0` does not hide what `y` held. -/
theorem C65_beta_zero (nd : Bool) (alpha : Fp F) (a : MatRef) (x y : Nat) (s : Mem (Fp F))
    (ha : a.Wf s) (hx : s.len x = a.m) (hy : s.len y = a.n) (hay : a.buf ≠ y) (i : Nat) (hi : i < a.n)
    (hn : ¬ (s.val y i).IsFin) : ∃ s', gemvDD nd alpha a x 0 y s = .ok s' ∧ ¬ (s'.val y i).IsFin := by
  obtain ⟨s', h1, _, _, _, _, h⟩ := C65_gemv nd alpha 0 a x y s ha hx hy hay
  exact ⟨s', h1, fun hf => hn ((h i hi).1 hf).2.1⟩

-- some numbers of the format
example : ((.inf false : Fp binary64) + .inf true) = .nan := rfl
example : ¬ ((1 : Fp binary64) / 0).IsFin := Fp.not_isFin_div_zero 1 Fp.isZ_zero
example : ((0 : Fp binary64) / 0) = .nan := Fp.zero_div_zero Fp.isZ_zero Fp.isZ_zero

end Lalib.Props
