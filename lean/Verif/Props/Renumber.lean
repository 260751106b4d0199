import Verif.Proofs.Renumber
import Verif.Props.Eval
import Verif.Props.Tdma
import Verif.Props.GmresSteps
import Verif.Proofs.Ieee

/-! # Property C107: selecting, renumbering and transposing

What the functions do when rows, columns or unknowns are selected, put in another order or combined with each other. -/

namespace Lalib.Props

open Lalib Finset

variable {T : Type}

/-! ## Products: bit for bit, in every arithmetic -/

section prod
variable [Zero T] [Add T] [Mul T]

/-- `C' := alpha A' B' + beta C'`, where the rows of `A'` are rows `f i` of `A` and the columns of `B'` are columns `g j` of
`B` (a part of them, in any order, also repeatedly): entry `(i, j)` is the one which `alpha A B + beta C` has at
`(f i, g j)`.  In both calls the result is an object of its own. -/
theorem C107_select (nd : Bool) (alpha beta : T) (a b c a' b' c' : MatRef) (s t : Mem T) (ha : a.Wf s) (hb : b.Wf s)
    (hc : c.Wf s) (h1 : a.n = c.n) (h2 : b.m = c.m) (h3 : a.m = b.n) (hac : a.buf ≠ c.buf) (hbc : b.buf ≠ c.buf)
    (ha' : a'.Wf t) (hb' : b'.Wf t) (hc' : c'.Wf t) (h1' : a'.n = c'.n) (h2' : b'.m = c'.m) (h3' : a'.m = b'.n)
    (hac' : a'.buf ≠ c'.buf) (hbc' : b'.buf ≠ c'.buf) (ho : a'.m = a.m) (f g : Nat → Nat)
    (hf : ∀ i, i < a'.n → f i < a.n) (hg : ∀ j, j < b'.m → g j < b.m)
    (ea : ∀ i k, i < a'.n → k < a.m → entry a'.m (t a'.buf) i k = entry a.m (s a.buf) (f i) k)
    (eb : ∀ k j, k < a.m → j < b'.m → entry b'.m (t b'.buf) k j = entry b.m (s b.buf) k (g j))
    (ec : ∀ i j, i < c'.n → j < c'.m → entry c'.m (t c'.buf) i j = entry c.m (s c.buf) (f i) (g j)) :
    ∃ s' t', gemmDDD nd alpha a b beta c s = .ok s' ∧ gemmDDD nd alpha a' b' beta c' t = .ok t' ∧
      ∀ i j, i < c'.n → j < c'.m → entry c'.m (t' c'.buf) i j = entry c.m (s' c.buf) (f i) (g j) := by
  obtain ⟨s', e, -, -, -, -, -, -, hs⟩ := C55_gemm nd alpha beta a b c s ha hb hc h1 h2 h3
  obtain ⟨t', e', -, -, -, -, -, -, ht⟩ := C55_gemm nd alpha beta a' b' c' t ha' hb' hc' h1' h2' h3'
  refine ⟨s', t', e, e', fun i j hi hj => ?_⟩
  have hfi := hf i (by omega)
  have hgj := hg j (by omega)
  rw [hs.1, ht.1, entry_matOf _ hi hj, entry_matOf _ (by omega) (by omega), ec i j hi hj, ho]
  have n1 : decide (a.buf = c.buf ∨ b.buf = c.buf) = decide (a'.buf = c'.buf ∨ b'.buf = c'.buf) := by
    simp [hac, hbc, hac', hbc']
  rw [n1]
  refine addUp_congr (fun k _ hk => ?_) _
  have := ea i k (by omega) hk
  rw [ho] at this
  rw [this, ← h2', eb k j hk (by omega), h2]

/-- The same for `y := alpha A x + beta y`. -/
theorem C107_select_vec (nd : Bool) (alpha beta : T) (a a' : MatRef) (x y x' y' : Nat) (s t : Mem T) (ha : a.Wf s)
    (hx : s.len x = a.m) (hy : s.len y = a.n) (hay : a.buf ≠ y) (ha' : a'.Wf t) (hx' : t.len x' = a'.m)
    (hy' : t.len y' = a'.n) (hay' : a'.buf ≠ y') (ho : a'.m = a.m) (f : Nat → Nat) (hf : ∀ i, i < a'.n → f i < a.n)
    (ea : ∀ i k, i < a'.n → k < a.m → entry a'.m (t a'.buf) i k = entry a.m (s a.buf) (f i) k)
    (ex : ∀ k, k < a.m → val0 (t x') k = val0 (s x) k) (ey : ∀ i, i < a'.n → val0 (t y') i = val0 (s y) (f i)) :
    ∃ s' t', gemvDD nd alpha a x beta y s = .ok s' ∧ gemvDD nd alpha a' x' beta y' t = .ok t' ∧
      ∀ i, i < a'.n → val0 (t' y') i = val0 (s' y) (f i) := by
  obtain ⟨s', e, -, -, hs⟩ := C55_gemv nd alpha beta a x y s ha hx hy hay
  obtain ⟨t', e', -, -, ht⟩ := C55_gemv nd alpha beta a' x' y' t ha' hx' hy' hay'
  refine ⟨s', t', e, e', fun i hi => ?_⟩
  rw [hs.1, ht.1, val0_map_range, val0_map_range, if_pos hi, if_pos (hf i hi), ey i hi, ho]
  refine addUp_congr (fun k _ hk => ?_) _
  have := ea i k hi hk
  rw [ho] at this
  rw [this, ex k hk]

omit [Add T] [Mul T] in
private theorem val0_out {l : List T} {i : Nat} (h : l.length ≤ i) : val0 l i = 0 := by simp [val0, h]

/-- Sparse matrices: row `i` of `A'` has the same stored elements as row `f i` of `A`, in the same order. -/
theorem C107_select_sparse (nd : Bool) (alpha beta : T) (a a' : Csr T) (hw : a.Wf) (hw' : a'.Wf) (m x y x' y' : Nat)
    (s t : Mem T) (hsh : a.shape = .ok (a.nrows, m)) (hsh' : a'.shape = .ok (a'.nrows, m)) (hc : ∀ c ∈ a.col, c < m)
    (hc' : ∀ c ∈ a'.col, c < m) (hx : s.len x = m) (hy : s.len y = a.nrows) (hxy : x ≠ y) (hx' : t.len x' = m)
    (hy' : t.len y' = a'.nrows) (hxy' : x' ≠ y') (f : Nat → Nat) (hf : ∀ i, i < a'.nrows → f i < a.nrows)
    (hl : ∀ i, i < a'.nrows → a'.rowPtr.getD (i + 1) 0 - a'.rowPtr.getD i 0 =
      a.rowPtr.getD (f i + 1) 0 - a.rowPtr.getD (f i) 0)
    (he : ∀ i k, i < a'.nrows → k < a'.rowPtr.getD (i + 1) 0 - a'.rowPtr.getD i 0 →
      val0 a'.val (a'.rowPtr.getD i 0 + k) = val0 a.val (a.rowPtr.getD (f i) 0 + k) ∧
      a'.col.getD (a'.rowPtr.getD i 0 + k) 0 = a.col.getD (a.rowPtr.getD (f i) 0 + k) 0)
    (ex : ∀ k, k < m → val0 (t x') k = val0 (s x) k) (ey : ∀ i, i < a'.nrows → val0 (t y') i = val0 (s y) (f i)) :
    ∃ s' t', Csr.mul nd alpha a x beta y s = .ok s' ∧ Csr.mul nd alpha a' x' beta y' t = .ok t' ∧
      ∀ i, i < a'.nrows → val0 (t' y') i = val0 (s' y) (f i) := by
  obtain ⟨s', e, hs⟩ := C55_spmv nd alpha beta a hw m x y s hsh hc hx hy hxy
  obtain ⟨t', e', ht⟩ := C55_spmv nd alpha beta a' hw' m x' y' t hsh' hc' hx' hy' hxy'
  refine ⟨s', t', e, e', fun i hi => ?_⟩
  have exx : val0 (t x') = val0 (s x) := by
    funext k
    by_cases hk : k < m
    · exact ex k hk
    · rw [val0_out (by rw [show (t x').length = m from hx']; omega), val0_out (by rw [show (s x).length = m from hx]; omega)]
  rw [hs.1, ht.1, val0_map_range, val0_map_range, if_pos hi, if_pos (hf i hi), ey i hi]
  unfold addUp
  rw [hl i hi]
  have shift : ∀ p q : Nat, List.range' p q = (List.range' 0 q).map (p + ·) := fun p q => by
    rw [List.map_add_range', Nat.add_zero]
  rw [shift (a'.rowPtr.getD i 0), shift (a.rowPtr.getD (f i) 0), List.foldl_map, List.foldl_map]
  refine addUp_congr (lo := 0) (hi := a.rowPtr.getD (f i + 1) 0 - a.rowPtr.getD (f i) 0) (fun k _ hk => ?_) _
  obtain ⟨h1, h2⟩ := he i k hi (by rw [hl i hi]; exact hk)
  show alpha * val0 a'.val _ * val0 (t x') (a'.col.getD _ 0) = alpha * val0 a.val _ * val0 (s x) (a.col.getD _ 0)
  rw [h1, h2, exx]

variable [One T]

private theorem matMul_raw (h1 : ∀ x : T, 1 * x = x) (nd : Bool) (a b : MatRef) (r : Nat) (s : Mem T) (ha : a.Wf s) (hb : b.Wf s)
    (hab : a.m = b.n) (har : a.buf ≠ r) (hbr : b.buf ≠ r) :
    matMulAt nd s a b r = .ok (s.setBuf r (matOf a.n b.m fun i j =>
      addUp (fun k => entry a.m (s a.buf) i k * entry b.m (s b.buf) k j) 0 a.m (0 * 0))) := by
  have e1 : ∀ l, s.setBuf r l a.buf = s a.buf := fun l => Mem.setBuf_other _ har _
  have e2 : ∀ l, s.setBuf r l b.buf = s b.buf := fun l => Mem.setBuf_other _ hbr _
  unfold matMulAt gemmDDD
  rw [hab]
  simp only [beq_self_eq_true, cassert_true, Lalib.ok_bind]
  rw [gemmCore_raw (by simp only [Mem.len, e1]; rw [← hab]; exact ha.ge)
    (by simp only [Mem.len, e2]; exact hb.ge)
    (by simp [Mem.len, DMat.uninit]), e1, e2, Mem.setBuf_setBuf, Lalib.noexcept_ok, Lalib.noexcept_ok]
  refine congrArg (fun l => Except.ok (s.setBuf r l)) (matOf_congr fun i j hi hj => ?_)
  have e3 : entry b.m (s.setBuf r (DMat.uninit (T := T) a.n b.m).elems r) i j = 0 := by
    rw [Mem.setBuf_self]
    show (List.replicate (a.n * b.m) (0 : T)).getD _ 0 = 0
    rw [List.getD_eq_getElem?_getD, List.getElem?_replicate]
    split <;> rfl
  rw [e3]
  simp [gemmStart, h1, har, hbr]

/-- Where a product does not depend on the order of its factors and one is neutral, `Bᵀ * Aᵀ` is the transpose of `A * B`. -/
theorem C107_transpose (hc : ∀ x y : T, x * y = y * x) (h1 : ∀ x : T, 1 * x = x) (nd : Bool) (a b a' b' : MatRef) (r r' : Nat)
    (s t : Mem T) (ha : a.Wf s) (hb : b.Wf s) (hab : a.m = b.n) (har : a.buf ≠ r) (hbr : b.buf ≠ r) (ha' : a'.Wf t)
    (hb' : b'.Wf t) (hn : b'.n = a.m) (hm : b'.m = a.n) (hn' : a'.n = b.m) (hm' : a'.m = b.n) (har' : a'.buf ≠ r')
    (hbr' : b'.buf ≠ r')
    (ea : ∀ i k, i < a.n → k < a.m → entry b'.m (t b'.buf) k i = entry a.m (s a.buf) i k)
    (eb : ∀ k j, k < b.n → j < b.m → entry a'.m (t a'.buf) j k = entry b.m (s b.buf) k j) :
    ∃ s' t', matMulAt nd s a b r = .ok s' ∧ matMulAt nd t a' b' r' = .ok t' ∧
      ∀ i j, i < a.n → j < b.m → entry a.n (t' r') j i = entry b.m (s' r) i j := by
  refine ⟨_, _, matMul_raw h1 nd a b r s ha hb hab har hbr,
    matMul_raw h1 nd a' b' r' t ha' hb' (by omega) har' hbr', fun i j hi hj => ?_⟩
  rw [Mem.setBuf_self, Mem.setBuf_self, entry_matOf _ hi hj, ← hm, entry_matOf _ (by omega) (by omega), hm', ← hab]
  refine addUp_congr (fun k _ hk => ?_) _
  have := eb k j (by omega) hj
  rw [hm', ← hab] at this
  rw [this, ea i k hi hk, hc]

/-- `A * Aᵀ` is exactly symmetric. -/
theorem C107_gram (hc : ∀ x y : T, x * y = y * x) (h1 : ∀ x : T, 1 * x = x) (nd : Bool) (a b : MatRef) (r : Nat)
    (s : Mem T) (ha : a.Wf s) (hb : b.Wf s) (hn : b.n = a.m) (hm : b.m = a.n) (har : a.buf ≠ r) (hbr : b.buf ≠ r)
    (e : ∀ i k, i < a.n → k < a.m → entry b.m (s b.buf) k i = entry a.m (s a.buf) i k) :
    ∃ s', matMulAt nd s a b r = .ok s' ∧ Symm a.n (entry a.n (s' r)) := by
  obtain ⟨s', t', e1, e2, h⟩ := C107_transpose hc h1 nd a b a b r r s s ha hb hn.symm har hbr ha hb hn hm hm.symm hn.symm har hbr
    e (fun k j hk hj => (e j k (by omega) (by omega)).symm)
  rw [e1] at e2
  cases e2
  refine ⟨s', e1, fun i j hi hj => ?_⟩
  have := h i j hi (by omega)
  rw [hm] at this
  exact this.symm

omit [One T] in
/-- The inner product does not depend on the order of its arguments. -/
theorem C107_dot (hc : ∀ x y : T, x * y = y * x) (m : Mem T) (x y : Nat) (h : m.len y = m.len x) (h0 : 0 < m.len x) :
    ∃ r, dynDot m x y = .ok r ∧ dynDot m y x = .ok r ∧ dotDD m x y = .ok r ∧ dotDD m y x = .ok r ∧
      dotSS (m.len x) m x y = .ok r ∧ dotSS (m.len x) m y x = .ok r := by
  have e := dotCore_raw (m := m) (x := x) (y := y) (n := m.len x) h0 le_rfl h.ge
  have e' := dotCore_raw (m := m) (x := y) (y := x) (n := m.len x) h0 h.ge le_rfl
  have : (fun i => m.val y i * m.val x i) = fun i => m.val x i * m.val y i := by funext i; exact hc _ _
  rw [this, hc (m.val y 0)] at e'
  refine ⟨addUp (fun i => m.val x i * m.val y i) 1 (m.len x) (m.val x 0 * m.val y 0), ?_, ?_, ?_, ?_, ?_, ?_⟩
  rotate_left 4
  · unfold dotSS; rw [e]; rfl
  · unfold dotSS; rw [e']; rfl
  · unfold dynDot; rw [h, checkSize_self, Lalib.ok_bind, e]
  · unfold dynDot; rw [h, checkSize_self, Lalib.ok_bind, e']
  · unfold dotDD; rw [h, checkSize_self, Lalib.ok_bind, e]; rfl
  · unfold dotDD; rw [h, checkSize_self, Lalib.ok_bind, e']; rfl

end prod

/-- `A * Aᵀ` over IEEE 754 numbers. -/
theorem C107_gram_ieee {F : Fmt} (nd : Bool) (a b : MatRef) (r : Nat)
    (s : Mem (Fp F)) (ha : a.Wf s) (hb : b.Wf s) (hn : b.n = a.m) (hm : b.m = a.n) (har : a.buf ≠ r) (hbr : b.buf ≠ r)
    (e : ∀ i k, i < a.n → k < a.m → entry b.m (s b.buf) k i = entry a.m (s a.buf) i k) :
    ∃ s', matMulAt nd s a b r = .ok s' ∧ Symm a.n (entry a.n (s' r)) :=
  C107_gram Fp.mul_comm Fp.one_mul nd a b r s ha hb hn hm har hbr e

/-- The transposed product over IEEE 754 numbers, infinities and NaN included. -/
theorem C107_transpose_ieee {F : Fmt} (nd : Bool) (a b a' b' : MatRef) (r r' : Nat)
    (s t : Mem (Fp F)) (ha : a.Wf s) (hb : b.Wf s) (hab : a.m = b.n) (har : a.buf ≠ r) (hbr : b.buf ≠ r) (ha' : a'.Wf t)
    (hb' : b'.Wf t) (hn : b'.n = a.m) (hm : b'.m = a.n) (hn' : a'.n = b.m) (hm' : a'.m = b.n) (har' : a'.buf ≠ r')
    (hbr' : b'.buf ≠ r')
    (ea : ∀ i k, i < a.n → k < a.m → entry b'.m (t b'.buf) k i = entry a.m (s a.buf) i k)
    (eb : ∀ k j, k < b.n → j < b.m → entry a'.m (t a'.buf) j k = entry b.m (s b.buf) k j) :
    ∃ s' t', matMulAt nd s a b r = .ok s' ∧ matMulAt nd t a' b' r' = .ok t' ∧
      ∀ i j, i < a.n → j < b.m → entry a.n (t' r') j i = entry b.m (s' r) i j :=
  C107_transpose Fp.mul_comm Fp.one_mul nd a b a' b' r r' s t ha hb hab har hbr ha' hb' hn hm hn' hm' har' hbr' ea eb

/-! ## Solvers: exact arithmetic -/

section chol
variable [Field T] [LinearOrder T] [IsStrictOrderedRing T] [Sqrt T] [LawfulSqrt T]

/-- New unknowns `x = M x'`: the matrix becomes `Mᵀ A M` and the right-hand side `Mᵀ b`.  Cholesky and modified Cholesky
accept both matrices, and return vectors `x` and `x'` with `x = M x'`.  (For `M` orthogonal this is a rotation or
reflection of the coordinates; for `M` diagonal a scaling.) -/
theorem C107_cholesky (nd md : Bool) (mt mt' : MemType) (n : Nat) (l l' : List T) (A A' M : Nat → Nat → T)
    (hl : Lower mt n l A) (hl' : Lower mt' n l' A') (hs : Symm n A) (hp : PosDef n A) (hM : minor M n ≠ 0)
    (hA : Changed n (fun i j => M j i) A M A') (m m' : Mem T) (b r b' r' : Nat) (hb : m.len b = n) (hr : r ≠ b)
    (hb' : m'.len b' = n) (hr' : r' ≠ b') (hbb : ∀ i, i < n → val0 (m' b') i = mulVec n (fun i j => M j i) (val0 (m b)) i) :
    ∃ L L' x x', (if md then Chol.modNew mt n l else Chol.new mt n l) = .ok L ∧
      (if md then Chol.modNew mt' n l' else Chol.new mt' n l') = .ok L' ∧ x.length = n ∧ x'.length = n ∧
      Chol.solveVecAt nd md mt n L b r m = .ok (m.setBuf r x) ∧
      Chol.solveVecAt nd md mt' n L' b' r' m' = .ok (m'.setBuf r' x') ∧
      ∀ i, i < n → val0 x i = mulVec n M (val0 x') i := by
  have hs' := hA.symm hs
  have hp' := hA.posDef hM hp
  have hMt : minor (fun i j => M j i) n ≠ 0 := by
    have : (Matrix.of fun i j : Fin n => M j i) = (Matrix.of fun i j : Fin n => M i j).transpose := rfl
    unfold minor at hM ⊢
    rw [this, Matrix.det_transpose]
    exact hM
  have fin : ∀ x x' : List T, Solves n A (val0 x) (val0 (m b)) → Solves n A' (val0 x') (val0 (m' b')) →
      ∀ i, i < n → val0 x i = mulVec n M (val0 x') i :=
    fun x x' h h' => solves_unique hp.regular.det h (hA.solves hMt hbb h')
  cases md
  · obtain ⟨L, eL, -⟩ := C35_factor mt n l A hl hs hp
    obtain ⟨L', eL', -⟩ := C35_factor mt' n l' A' hl' hs' hp'
    obtain ⟨x, hx, sx, -, e⟩ := C37_vec nd mt n l L A hl hs hp eL m b r hb hr
    obtain ⟨x', hx', sx', -, e'⟩ := C37_vec nd mt' n l' L' A' hl' hs' hp' eL' m' b' r' hb' hr'
    exact ⟨L, L', x, x', eL, eL', hx, hx', e, e', fin x x' sx sx'⟩
  · obtain ⟨L, eL, -⟩ := C38_factor mt n l A hl hs hp.regular
    obtain ⟨L', eL', -⟩ := C38_factor mt' n l' A' hl' hs' hp'.regular
    obtain ⟨x, hx, sx, -, e⟩ := C39_vec nd mt n l L A hl hs eL m b r hb hr
    obtain ⟨x', hx', sx', -, e'⟩ := C39_vec nd mt' n l' L' A' hl' hs' eL' m' b' r' hb' hr'
    exact ⟨L, L', x, x', eL, eL', hx, hx', e, e', fin x x' sx sx'⟩

/-- Equations and unknowns in another order: the components of the solution come in that order. -/
theorem C107_cholesky_order (nd md : Bool) (mt mt' : MemType) (n : Nat) (l l' : List T) (A A' : Nat → Nat → T)
    (σ : Equiv.Perm (Fin n)) (hl : Lower mt n l A) (hl' : Lower mt' n l' A') (hs : Symm n A) (hp : PosDef n A)
    (hA : ∀ i j : Fin n, A' i j = A (σ i) (σ j)) (m m' : Mem T) (b r b' r' : Nat) (hb : m.len b = n) (hr : r ≠ b)
    (hb' : m'.len b' = n) (hr' : r' ≠ b') (hbb : ∀ i : Fin n, val0 (m' b') i = val0 (m b) (σ i)) :
    ∃ L L' x x', (if md then Chol.modNew mt n l else Chol.new mt n l) = .ok L ∧
      (if md then Chol.modNew mt' n l' else Chol.new mt' n l') = .ok L' ∧ x.length = n ∧ x'.length = n ∧
      Chol.solveVecAt nd md mt n L b r m = .ok (m.setBuf r x) ∧
      Chol.solveVecAt nd md mt' n L' b' r' m' = .ok (m'.setBuf r' x') ∧
      ∀ i : Fin n, val0 x' i = val0 x (σ i) := by
  obtain ⟨L, L', x, x', h1, h2, h3, h4, h5, h6, h⟩ := C107_cholesky nd md mt mt' n l l' A A' (permMat σ) hl hl' hs hp
    (permMat_det σ) (permMat_changed σ hA) m m' b r b' r' hb hr hb' hr'
    (fun i hi => by rw [hbb ⟨i, hi⟩]; exact (permMat_transpose_mulVec σ _ ⟨i, hi⟩).symm)
  exact ⟨L, L', x, x', h1, h2, h3, h4, h5, h6, fun i => by rw [h (σ i) (σ i).2, permMat_mulVec]⟩

variable {M : Type} {ops : Bool → GOps M T} {ok : M → Prop}

/-- Incomplete LU and GMRES, for any regular change `A' = P A Q` of equations and unknowns that leads from a matrix without
fill-in to a matrix without fill-in. -/
theorem C107_no_fill {M' : Type} {ops' : Bool → GOps M' T} {ok' : M' → Prop} (hst : GStorage ops ok) (hst' : GStorage ops' ok')
    (nd : Bool) (rt : Nat → Nat) (hrt : SqrtExact rt) (n : Nat) (a : M) (a' : M') (A A' P Q : Nat → Nat → T) (hok : ok a)
    (hok' : ok' a') (hA : Shows (ops nd).toMatOps n a A) (hA' : Shows (ops' nd).toMatOps n a' A') (hf : NoFill n A)
    (hf' : NoFill n A') (hr : Regular A n) (hr' : Regular A' n) (hP : minor P n ≠ 0) (hc : Changed n P A Q A') (tol : T)
    (ht : 0 < tol) (b b' : List T) (hb : b.length = n) (hb' : b'.length = n)
    (hbb : ∀ i, i < n → val0 b' i = mulVec n P (val0 b) i) (hne : ∃ i, i < n ∧ val0 b i ≠ 0)
    (hne' : ∃ i, i < n ∧ val0 b' i ≠ 0) :
    ∃ f f' g g' x x', Ilu.new (ops nd).toMatOps a = .ok f ∧ Ilu.new (ops' nd).toMatOps a' = .ok f' ∧
      Gmres.new (ops nd) a tol = .ok g ∧ Gmres.new (ops' nd) a' tol = .ok g' ∧
      Ilu.solve (ops nd).toMatOps f b = .ok x ∧ Ilu.solve (ops' nd).toMatOps f' b' = .ok x' ∧
      Gmres.solve rt nd (ops nd) g b = .ok x ∧ Gmres.solve rt nd (ops' nd) g' b' = .ok x' ∧
      ∀ i, i < n → val0 x i = mulVec n Q (val0 x') i := by
  obtain ⟨f, -, ef, -, -, h⟩ := C43_noFill (hst.storage nd) n a A hok hA hf hr
  obtain ⟨f', -, ef', -, -, h'⟩ := C43_noFill (hst'.storage nd) n a' A' hok' hA' hf' hr'
  obtain ⟨g, eg, k⟩ := C97_no_fill hst nd rt hrt n a A hok hA hf hr tol ht
  obtain ⟨g', eg', k'⟩ := C97_no_fill hst' nd rt hrt n a' A' hok' hA' hf' hr' tol ht
  obtain ⟨x, ex, lx, sx⟩ := h b hb
  obtain ⟨x', ex', lx', sx'⟩ := h' b' hb'
  obtain ⟨y, ey, ly, sy⟩ := k b hb hne
  obtain ⟨y', ey', ly', sy'⟩ := k' b' hb' hne'
  obtain rfl : x = y := list_ext_val0 (by omega) fun i hi => solves_unique hr.det sx sy i (by omega)
  obtain rfl : x' = y' := list_ext_val0 (by omega) fun i hi => solves_unique hr'.det sx' sy' i (by omega)
  exact ⟨f, f', g, g', x, x', ef, ef', eg, eg', ex, ex', ey, ey', solves_unique hr.det sx (hc.solves hP hbb sx')⟩

end chol

/-! ## Tri-diagonal systems from the other end -/

section tdma

private theorem val0_reverse [Zero T] {l : List T} {n i : Nat} (hl : l.length = n) (hi : i < n) :
    val0 l.reverse i = val0 l (n - 1 - i) := by
  unfold val0
  rw [List.getD_eq_getElem?_getD, List.getD_eq_getElem?_getD, List.getElem?_reverse (by omega), hl]

theorem revTri_full [Zero T] (a : TriDiag T) (n : Nat) (hw : TriWf a n) (i j : Nat) (hi : i < n) (hj : j < n) :
    triFull (revTri a) i j = triFull a (n - 1 - i) (n - 1 - j) := by
  obtain ⟨h1, h2, h3, -⟩ := hw
  unfold triFull revTri
  by_cases e1 : i = j
  · subst e1
    simp only [if_true]
    exact val0_reverse h1 hi
  by_cases e2 : i + 1 = j
  · rw [if_neg e1, if_pos e2, if_neg (by omega), if_neg (by omega), if_pos (by omega)]
    show val0 a.dl.reverse i = _
    rw [val0_reverse (n := n - 1) (by omega) (by omega)]
    congr 1
    omega
  by_cases e3 : i = j + 1
  · rw [if_neg e1, if_neg e2, if_pos e3, if_neg (by omega), if_pos (by omega)]
    show val0 a.du.reverse j = _
    rw [val0_reverse (n := n - 1) (by omega) (by omega)]
    congr 1
    omega
  · rw [if_neg e1, if_neg e2, if_neg e3, if_neg (by omega), if_neg (by omega), if_neg (by omega)]

/-- Unknowns and equations in the opposite order, so that the sweep starts at the other end: the result is reversed.  The
solver needs leading principal minors of its matrix, see `C34_singular`, so both matrices must qualify. -/
theorem C107_tdma [Field T] [DecidableEq T] (nd : Bool) (a : TriDiag T) (n : Nat) (hw : TriWf a n) (hn : 2 ≤ n)
    (b x b' x' : Nat) (m m' : Mem T) (hb : m.len b = n) (hx : m.len x = n) (hx' : m'.len x' = n)
    (hbb : m' b' = (m b).reverse) (hr : Regular (triFull a) n) (hr' : Regular (triFull (revTri a)) n) :
    ∃ l m1 m1', Tdma.solveVec nd a b x m = .ok m1 ∧ Stores m m1 x l ∧ Tdma.solveVec nd (revTri a) b' x' m' = .ok m1' ∧
      Stores m' m1' x' l.reverse := by
  have hb' : m'.len b' = n := by
    show (m' b').length = n
    rw [hbb, List.length_reverse]; exact hb
  have hw' : TriWf (revTri a) n := by
    obtain ⟨h1, h2, h3, h4⟩ := hw
    exact ⟨by simpa [revTri] using h1, by simpa [revTri] using h3, by simpa [revTri] using h2, h4⟩
  obtain ⟨l, m1, e, hs, hl, hsol⟩ := C34_vec_partial nd a n hw hn b x m hb hx hr
  obtain ⟨l', m1', e', hs', hl', hsol'⟩ := C34_vec_partial nd (revTri a) n hw' hn b' x' m' hb' hx' hr'
  refine ⟨l, m1, m1', e, hs, e', ?_⟩
  have : l' = l.reverse := by
    have hrev : Solves n (triFull (revTri a)) (val0 l.reverse) (val0 (m' b')) := by
      intro i hi
      rw [hbb, val0_reverse hb hi, ← hsol (n - 1 - i) (by omega)]
      unfold mulVec
      rw [← Finset.sum_range_reflect]
      refine sum_congr rfl fun j hj => ?_
      have hj := mem_range.mp hj
      rw [revTri_full a n hw i _ hi (by omega), val0_reverse hl (by omega)]
      have e : n - 1 - (n - 1 - j) = j := by omega
      rw [e]
    exact list_ext_val0 (by rw [List.length_reverse]; omega) fun i hi => solves_unique hr'.det hsol' hrev i (by omega)
  rw [← this]
  exact hs'

/-- Diagonally dominant matrices qualify, whatever the order. -/
theorem C107_tdma_dominant [Field T] [LinearOrder T] [IsStrictOrderedRing T] (a : TriDiag T) (n : Nat) (hw : TriWf a n)
    (hd : DiagDom (triFull a) n) : Regular (triFull a) n ∧ Regular (triFull (revTri a)) n := by
  refine ⟨C34_dominant a n hd, C34_dominant _ n fun i hi => ?_⟩
  rw [revTri_full a n hw i i hi hi]
  refine lt_of_eq_of_lt ?_ (hd (n - 1 - i) (by omega))
  refine sum_nbij' (fun j => n - 1 - j) (fun j => n - 1 - j) ?_ ?_ ?_ ?_ ?_
  · intro j hj; simp only [mem_erase, mem_range] at hj ⊢; omega
  · intro j hj; simp only [mem_erase, mem_range] at hj ⊢; omega
  · intro j hj; simp only [mem_erase, mem_range] at hj; omega
  · intro j hj; simp only [mem_erase, mem_range] at hj; omega
  · intro j hj
    simp only [mem_erase, mem_range] at hj
    rw [revTri_full a n hw i j hi hj.2]

/-- In general the order decides whether the solver works: `1 1; 1 0` is solved, `0 1; 1 1` is not. -/
theorem C107_tdma_false : (Tdma.solveVec true (⟨[1], [1, 0], [1]⟩ : TriDiag ℚ) 0 1 (Mem.ofList [[3, 1], [0, 0]])).map (fun m => m 1) =
      .ok [1, 2] ∧ revTri (⟨[1], [1, 0], [1]⟩ : TriDiag ℚ) = ⟨[1], [0, 1], [1]⟩ ∧
    (Tdma.solveVec true (⟨[1], [0, 1], [1]⟩ : TriDiag ℚ) 0 1 (Mem.ofList [[1, 3], [0, 0]])).map (fun m => m 1) =
      .error .nonFinite := by
  refine ⟨by decide +kernel, rfl, by decide +kernel⟩

end tdma

/-! ## Incomplete LU depends on the order of the unknowns -/

/-- `2 0 1; 0 2 1; 1 1 2` has no fill-in: the solution for `b = (3, 3, 4)` is exact.  With the unknowns in the opposite order,
`2 1 1; 1 2 0; 1 0 2`, there is fill-in, and what comes out for `(4, 3, 3)` is no solution. -/
theorem C107_ilu_false :
    (∃ f, Ilu.new dOps (⟨3, 3, [2, 0, 1, 0, 2, 1, 1, 1, 2]⟩ : DMat ℚ) = .ok f ∧ Ilu.solve dOps f [3, 3, 4] = .ok [1, 1, 1]) ∧
    ∃ f, Ilu.new dOps (⟨3, 3, [2, 1, 1, 1, 2, 0, 1, 0, 2]⟩ : DMat ℚ) = .ok f ∧ Ilu.solve dOps f [4, 3, 3] = .ok [4 / 3, 2 / 3, 2 / 3] :=
  ⟨⟨⟨3, 3, [2, 0, 1, 0, 2, 1, 1 / 2, 1 / 2, 1]⟩, by decide +kernel, by decide +kernel⟩,
    ⟨⟨3, 3, [2, 1, 1, 1 / 2, 3 / 2, 0, 1 / 2, 0, 3 / 2]⟩, by decide +kernel, by decide +kernel⟩⟩

/-! ## Examples -/

/-- Rows in the opposite order, first column twice. -/
example : (gemmDDD false 2 ⟨0, 2, 2⟩ ⟨1, 2, 2⟩ 3 ⟨2, 2, 2⟩ (Mem.ofList [[1, 2, 3, 4], [5, 6, 7, 8], [1, 10, 100, (1000 : ℤ)]])).map
      (fun m => m 2) = .ok [41, 74, 386, 3100] ∧
    (gemmDDD false 2 ⟨0, 2, 2⟩ ⟨1, 2, 2⟩ 3 ⟨2, 2, 2⟩ (Mem.ofList [[3, 4, 1, 2], [5, 5, 7, 7], [100, 100, 1, (1 : ℤ)]])).map
      (fun m => m 2) = .ok [386, 386, 41, 41] := by decide +kernel

/-- `A * Aᵀ` for `A = 1 2 3; 4 5 6`. -/
example : (matMulAt false (Mem.ofList [[1, 2, 3, 4, 5, 6], [1, 4, 2, 5, 3, (6 : ℤ)]]) ⟨0, 2, 3⟩ ⟨1, 3, 2⟩ 2).map (fun m => m 2) =
    .ok [14, 32, 32, 77] := by decide +kernel

/-- The hypotheses of `C107_cholesky_order`: `4 2; 2 5` with its unknowns exchanged, square storage and packed storage. -/
example : ∃ L L' x x', Chol.modNew .square 2 [(4 : ℝ), 0, 2, 5] = .ok L ∧ Chol.modNew .triangle 2 [(5 : ℝ), 2, 4] = .ok L' ∧
    x.length = 2 ∧ x'.length = 2 ∧
    Chol.solveVecAt true true .square 2 L 0 1 (Mem.ofList [[(8 : ℝ), 12]]) = .ok ((Mem.ofList [[(8 : ℝ), 12]]).setBuf 1 x) ∧
    Chol.solveVecAt true true .triangle 2 L' 0 1 (Mem.ofList [[(12 : ℝ), 8]]) = .ok ((Mem.ofList [[(12 : ℝ), 8]]).setBuf 1 x') ∧
    ∀ i : Fin 2, val0 x' i = val0 x (Equiv.swap (0 : Fin 2) 1 i) := by
  let A : Nat → Nat → ℝ := entry 2 [4, 2, 2, 5]
  let A' : Nat → Nat → ℝ := entry 2 [5, 2, 2, 4]
  have two : ∀ i, i < 2 → i = 0 ∨ i = 1 := fun i hi => by omega
  have hl : Lower .square 2 [(4 : ℝ), 0, 2, 5] A := ⟨rfl, fun i j hj hi => by
    rcases two i hi with rfl | rfl <;> rcases two j (by omega) with rfl | rfl <;> first | rfl | omega⟩
  have hl' : Lower .triangle 2 [(5 : ℝ), 2, 4] A' := ⟨rfl, fun i j hj hi => by
    rcases two i hi with rfl | rfl <;> rcases two j (by omega) with rfl | rfl <;> rfl⟩
  have hs : Symm 2 A := fun i j hi hj => by
    rcases two i hi with rfl | rfl <;> rcases two j hj with rfl | rfl <;> rfl
  have hp : PosDef 2 A := by
    intro x ⟨i, hi, h0⟩
    have e : ∑ i ∈ range 2, ∑ j ∈ range 2, x i * A i j * x j = (2 * x 0 + x 1) ^ 2 + 4 * x 1 ^ 2 := by
      simp [Finset.sum_range_succ, A, entry, val0]
      ring
    rw [e]
    by_cases h1 : x 1 = 0
    · have : x 0 ≠ 0 := by
        rcases two i hi with rfl | rfl
        · exact h0
        · exact absurd h1 h0
      rw [h1, add_zero]
      have : 2 * x 0 ≠ 0 := mul_ne_zero two_ne_zero this
      positivity
    · positivity
  exact C107_cholesky_order true true .square .triangle 2 _ _ A A' (Equiv.swap 0 1) hl hl' hs hp
    (fun i j => by fin_cases i <;> fin_cases j <;> rfl) _ _ 0 1 0 1 rfl (by decide) rfl (by decide)
    (fun i => by fin_cases i <;> rfl)

/-- The hypotheses of `C107_tdma`. -/
example : ∃ l m1 m1', Tdma.solveVec true (⟨[1], [3, 4], [2]⟩ : TriDiag ℚ) 0 1 (Mem.ofList [[5, 9], [0, 0]]) = .ok m1 ∧
    Stores (Mem.ofList [[5, 9], [0, 0]]) m1 1 l ∧
    Tdma.solveVec true (⟨[2], [4, 3], [1]⟩ : TriDiag ℚ) 0 0 (Mem.ofList [[9, 5]]) = .ok m1' ∧
    Stores (Mem.ofList [[9, 5]]) m1' 0 l.reverse := by
  have hw : TriWf (⟨[1], [3, 4], [2]⟩ : TriDiag ℚ) 2 := ⟨rfl, rfl, rfl, by decide⟩
  have hd : DiagDom (triFull (⟨[1], [3, 4], [2]⟩ : TriDiag ℚ)) 2 := by
    intro i hi
    rcases (show i = 0 ∨ i = 1 by omega) with rfl | rfl <;> decide +kernel
  obtain ⟨h1, h2⟩ := C107_tdma_dominant _ 2 hw hd
  exact C107_tdma true _ 2 hw le_rfl 0 1 0 0 _ _ rfl rfl rfl rfl h1 h2

end Lalib.Props
