import Verif.Proofs.OrderRec
import Verif.Props.Scaling

/-! # Property C89: smaller data, smaller results

The theorems compare two calls, the data of the second (primed) call being larger than those of the first; if the results
of the second are finite numbers then so are those of the first, and they are smaller.  The order is that of the computed
numbers.  `S : OrdArith T` is arithmetic by monotone rounding: rounded arithmetic (`Fl.ordArith`; rounding to `p` bits is
monotone, `C89_binary`) or IEEE 754 numbers (`Fp.ordArith`). -/

namespace Lalib.Props

open Lalib

variable {T : Type} [Zero T] [Add T] [Sub T] [Mul T] [Neg T] [Div T] [CDiv T] [CZero T] [LT T] [Sqrt T] [CSqrt T]
  (S : OrdArith T)

/-- Rounding to `p` bits is monotone. -/
theorem C89_binary (p : ℕ) (hp : 1 ≤ p) : (binary p hp).Mono := binary_mono p hp

/-! ## Products -/

/-- The scalar product of vectors without negative entries. -/
theorem C89_dot (n : Nat) (hn : 0 < n) (m m' : Mem T) (x y x' y' : Nat) (hx : m.len x = n) (hy : m.len y = n)
    (hx' : m'.len x' = n) (hy' : m'.len y' = n) (h1 : ∀ i, i < n → S.Nn (m.val x i) (m'.val x' i))
    (h2 : ∀ i, i < n → S.Nn (m.val y i) (m'.val y' i)) :
    ∃ v v', dotDD m x y = .ok v ∧ dynDot m x y = .ok v ∧ dotSS n m x y = .ok v ∧ sizedDotDyn n m x y = .ok v ∧
      dotDD m' x' y' = .ok v' ∧ dynDot m' x' y' = .ok v' ∧ dotSS n m' x' y' = .ok v' ∧ sizedDotDyn n m' x' y' = .ok v' ∧
      (S.fin v' → S.Nn v v') := by
  have e := dotCore_raw (m := m) hn hx.ge hy.ge
  have e' := dotCore_raw (m := m') hn hx'.ge hy'.ge
  refine ⟨addUp (fun i => m.val x i * m.val y i) 1 n (m.val x 0 * m.val y 0),
    addUp (fun i => m'.val x' i * m'.val y' i) 1 n (m'.val x' 0 * m'.val y' 0), ?_, ?_, ?_, ?_, ?_, ?_, ?_, ?_, fun hf => OrdArith.addUp_nn hf (fun h => (h1 0 hn).mul (h2 0 hn) h)
    fun k _ hk h => (h1 k hk).mul (h2 k hk) h⟩
  · unfold dotDD checkSize; rw [hx, hy, e]; simp
  · unfold dynDot checkSize; rw [hx, hy, e]; simp
  · unfold dotSS; rw [e]; rfl
  · unfold sizedDotDyn; rw [e]; rfl
  · unfold dotDD checkSize; rw [hx', hy', e']; simp
  · unfold dynDot checkSize; rw [hx', hy', e']; simp
  · unfold dotSS; rw [e']; rfl
  · unfold sizedDotDyn; rw [e']; rfl

theorem order_tree {n : Nat} {m m' : Mem T} {x y x' y' : Nat} (hx : m.len x = n) (hy : m.len y = n)
    (hx' : m'.len x' = n) (hy' : m'.len y' = n)
    (h : ∀ i, i < n → S.fin (m'.val x' i * m'.val y' i) → S.Nn (m.val x i * m.val y i) (m'.val x' i * m'.val y' i)) :
    ∀ t : RedTree, (∀ i ∈ t.leaves, i < n) →
      ∃ v v', t.eval m x y = .ok v ∧ t.eval m' x' y' = .ok v' ∧ (S.fin v' → S.Nn v v')
  | .zero, _ => ⟨0, 0, rfl, rfl, fun _ => .zero S⟩
  | .leaf i, hi => by
    have hi : i < n := hi i (by simp [RedTree.leaves])
    refine ⟨_, _, ?_, ?_, h i hi⟩
    · unfold RedTree.eval; rw [Mem.rd_ok (by omega), ok_bind, Mem.rd_ok (by omega), ok_bind]
    · unfold RedTree.eval; rw [Mem.rd_ok (by omega), ok_bind, Mem.rd_ok (by omega), ok_bind]
  | .node l r, hi => by
    obtain ⟨v, v', e1, e1', h1⟩ := order_tree hx hy hx' hy' h l fun i h => hi i (by simp [RedTree.leaves, h])
    obtain ⟨w, w', e2, e2', h2⟩ := order_tree hx hy hx' hy' h r fun i h => hi i (by simp [RedTree.leaves, h])
    refine ⟨v + w, v' + w', ?_, ?_, fun hf => (h1 (S.add_fin hf).1).add (h2 (S.add_fin hf).2.1) hf⟩
    · unfold RedTree.eval; rw [e1, ok_bind, e2, ok_bind]
    · unfold RedTree.eval; rw [e1', ok_bind, e2', ok_bind]

/-- The same for every shape of the `simd` reduction, provided both calls use the same one. -/
theorem C89_dot_any_shape (n : Nat) (hn : 0 < n) (m m' : Mem T) (x y x' y' : Nat) (hx : m.len x = n) (hy : m.len y = n)
    (hx' : m'.len x' = n) (hy' : m'.len y' = n) (h1 : ∀ i, i < n → S.Nn (m.val x i) (m'.val x' i))
    (h2 : ∀ i, i < n → S.Nn (m.val y i) (m'.val y' i)) (t : RedTree) (ht : ∀ i ∈ t.leaves, i < n) :
    ∃ v v', dotCoreTree t m x y = .ok v ∧ dotCoreTree t m' x' y' = .ok v' ∧ (S.fin v' → S.Nn v v') := by
  obtain ⟨v, v', e, e', h⟩ := order_tree S hx hy hx' hy' (fun i hi hf => (h1 i hi).mul (h2 i hi) hf) t ht
  refine ⟨m.val x 0 * m.val y 0 + v, m'.val x' 0 * m'.val y' 0 + v', ?_, ?_, fun hf => OrdArith.Nn.add ?_ (h (S.add_fin hf).2.1) hf⟩
  · unfold dotCoreTree; rw [Mem.rd_ok (by omega), ok_bind, Mem.rd_ok (by omega), ok_bind, e, ok_bind]
  · unfold dotCoreTree; rw [Mem.rd_ok (by omega), ok_bind, Mem.rd_ok (by omega), ok_bind, e', ok_bind]
  · exact (h1 0 hn).mul (h2 0 hn) (S.add_fin hf).1

/-- The norm, by the absolute values of the entries. -/
theorem C89_norm2 (n : Nat) (m m' : Mem T) (x x' : Nat) (hx : m.len x = n) (hx' : m'.len x' = n)
    (h : ∀ i, i < n → S.Ab (m.val x i) (m'.val x' i)) (t : RedTree) (ht : ∀ i ∈ t.leaves, i < n) :
    (∀ v', vecNorm2 m' x' = .ok v' → S.fin v' → ∃ v, vecNorm2 m x = .ok v ∧ S.Nn v v') ∧
    (∀ v', norm2CoreTree t m' x' = .ok v' → S.fin v' → ∃ v, norm2CoreTree t m x = .ok v ∧ S.Nn v v') := by
  have root : ∀ {r r' v' : T}, (S.fin r' → S.Nn r r') → sqrtC r' = .ok v' → S.fin v' → ∃ v, sqrtC r = .ok v ∧ S.Nn v v' := by
    intro r r' v' hr e hf
    rw [S.sqrtC_eq _ _ e] at hf ⊢
    have := hr (S.sqrt_fin hf)
    refine ⟨_, S.sqrtC_ok r ?_, this.sqrt⟩
    rw [S.lt this.fin S.zero.1, S.zero.2]
    exact not_lt.mpr this.nn
  constructor
  · intro v' e hf
    unfold vecNorm2 at e ⊢
    rw [norm2Core_raw (Nat.le_refl _)] at e ⊢
    rw [hx'] at e
    rw [hx]
    have e' : sqrtC (addUp (fun i => m'.val x' i * m'.val x' i) 0 n 0) = .ok v' := by
      revert e
      cases sqrtC (addUp (fun i => m'.val x' i * m'.val x' i) 0 n 0) with
      | ok w => exact fun e => e
      | error f => cases f <;> exact fun e => nomatch e
    obtain ⟨v, e1, h1⟩ := root (r := addUp (fun i => m.val x i * m.val x i) 0 n 0)
      (fun hf => OrdArith.addUp_nn hf (fun _ => .zero S) fun k _ hk hk' => (h k hk).sq hk') e' hf
    exact ⟨v, by rw [e1]; rfl, h1⟩
  · intro v' e hf
    obtain ⟨r, r', e1, e1', h1⟩ := order_tree S hx hx hx' hx' (fun i hi hf => (h i hi).sq hf) t ht
    unfold norm2CoreTree at e ⊢
    rw [e1', ok_bind] at e
    rw [e1, ok_bind]
    exact root (fun hf => (OrdArith.Nn.zero S).add (h1 (S.add_fin hf).2.1) hf) e hf

/-- `y := alpha A x + beta y`, nothing negative. -/
theorem C89_gemv (nd : Bool) (alpha beta alpha' beta' : T) (a a' : MatRef) (x y x' y' : Nat) (s s' : Mem T)
    (ha : a.Wf s) (hx : s.len x = a.m) (hy : s.len y = a.n) (hay : a.buf ≠ y)
    (ha' : a'.Wf s') (hx' : s'.len x' = a'.m) (hy' : s'.len y' = a'.n) (hay' : a'.buf ≠ y') (hn : a'.n = a.n) (hm : a'.m = a.m)
    (h1 : S.Nn alpha alpha') (h2 : S.Nn beta beta')
    (hA : ∀ i k, i < a.n → k < a.m → S.Nn (entry a.m (s a.buf) i k) (entry a.m (s' a'.buf) i k))
    (hX : ∀ k, k < a.m → S.Nn (val0 (s x) k) (val0 (s' x') k)) (hY : ∀ i, i < a.n → S.Nn (val0 (s y) i) (val0 (s' y') i)) :
    ∃ t t', (gemvDD nd alpha a x beta y s = .ok t ∧ gemvSD nd alpha a x beta y s = .ok t ∧ gemvSS alpha a x beta y s = .ok t) ∧
      (gemvDD nd alpha' a' x' beta' y' s' = .ok t' ∧ gemvSD nd alpha' a' x' beta' y' s' = .ok t' ∧
        gemvSS alpha' a' x' beta' y' s' = .ok t') ∧
      ∀ i, i < a.n → S.fin (val0 (t' y') i) → S.Nn (val0 (t y) i) (val0 (t' y') i) := by
  obtain ⟨t, e1, e2, e3, h⟩ := C55_gemv nd alpha beta a x y s ha hx hy hay
  obtain ⟨t', e1', e2', e3', h'⟩ := C55_gemv nd alpha' beta' a' x' y' s' ha' hx' hy' hay'
  refine ⟨t, t', ⟨e1, e2, e3⟩, ⟨e1', e2', e3'⟩, fun i hi hf => ?_⟩
  rw [h'.1, val0_map_range, if_pos (by omega), hm] at hf ⊢
  rw [h.1, val0_map_range, if_pos hi]
  exact OrdArith.addUp_nn hf (fun hf => h2.mul (hY i hi) hf) fun k _ hk hkf =>
    (h1.mul (hA i k hi hk) (S.mul_fin hkf).1).mul (hX k hk) hkf

/-- `C := alpha A B + beta C`, nothing negative; the two calls may share storage in different ways. -/
theorem C89_gemm (nd : Bool) (alpha beta alpha' beta' : T) (a b c a' b' c' : MatRef) (s s' : Mem T) (ha : a.Wf s)
    (hb : b.Wf s) (hc : c.Wf s) (h1 : a.n = c.n) (h2 : b.m = c.m) (h3 : a.m = b.n) (ha' : a'.Wf s') (hb' : b'.Wf s')
    (hc' : c'.Wf s') (h1' : a'.n = c'.n) (h2' : b'.m = c'.m) (h3' : a'.m = b'.n) (hn : c'.n = c.n) (hm : c'.m = c.m)
    (ho : a'.m = a.m) (hal : S.Nn alpha alpha') (hbe : S.Nn beta beta')
    (hA : ∀ i k, i < c.n → k < a.m → S.Nn (entry a.m (s a.buf) i k) (entry a.m (s' a'.buf) i k))
    (hB : ∀ k j, k < a.m → j < c.m → S.Nn (entry c.m (s b.buf) k j) (entry c.m (s' b'.buf) k j))
    (hC : ∀ i j, i < c.n → j < c.m → S.Nn (entry c.m (s c.buf) i j) (entry c.m (s' c'.buf) i j)) :
    ∃ t t', gemmDDD nd alpha a b beta c s = .ok t ∧ gemmDDD nd alpha' a' b' beta' c' s' = .ok t' ∧
      gemmSSS alpha a b beta c s = .ok t ∧ gemmSSS alpha' a' b' beta' c' s' = .ok t' ∧
      ∀ i j, i < c.n → j < c.m → S.fin (entry c.m (t' c'.buf) i j) →
        S.Nn (entry c.m (t c.buf) i j) (entry c.m (t' c'.buf) i j) := by
  obtain ⟨t, e1, e2, _, _, _, _, _, h⟩ := C55_gemm nd alpha beta a b c s ha hb hc h1 h2 h3
  obtain ⟨t', e1', e2', _, _, _, _, _, h'⟩ := C55_gemm nd alpha' beta' a' b' c' s' ha' hb' hc' h1' h2' h3'
  refine ⟨t, t', e1, e1', e2, e2', fun i j hi hj hf => ?_⟩
  rw [h'.1, hn, hm, entry_matOf _ hi hj, ho] at hf ⊢
  rw [h.1, entry_matOf _ hi hj]
  have hstart : ∀ w w' : Bool, S.fin (gemmStart w' beta' (entry c.m (s' c'.buf) i j)) →
      S.Nn (gemmStart w beta (entry c.m (s c.buf) i j)) (gemmStart w' beta' (entry c.m (s' c'.buf) i j)) := by
    have hx := hC i j hi hj
    have sw : ∀ {p q : T}, S.fin (p * q) → S.fin (q * p) := fun {p q} h => by
      obtain ⟨f1, f2, f3⟩ := S.mul_fin h
      exact (S.mul f2 f1 (by rw [mul_comm]; exact f3)).1
    have ev : ∀ {p q : T}, S.fin (p * q) → S.val (p * q) = S.val (q * p) := fun {p q} h => by
      obtain ⟨f1, f2, f3⟩ := S.mul_fin h
      rw [(S.mul f1 f2 f3).2, (S.mul f2 f1 (by rw [mul_comm]; exact f3)).2, mul_comm]
    intro w w' hf
    have hf' : S.fin (beta' * entry c.m (s' c'.buf) i j) := by
      cases w' with
      | true => exact hf
      | false => exact sw hf
    have k := hbe.mul hx hf'
    have l1 : S.fin (gemmStart w beta (entry c.m (s c.buf) i j)) ∧
        S.val (gemmStart w beta (entry c.m (s c.buf) i j)) = S.val (beta * entry c.m (s c.buf) i j) := by
      cases w with
      | true => exact ⟨k.fin, rfl⟩
      | false => exact ⟨sw k.fin, ev (sw k.fin)⟩
    have l2 : S.val (gemmStart w' beta' (entry c.m (s' c'.buf) i j)) = S.val (beta' * entry c.m (s' c'.buf) i j) := by
      cases w' with
      | true => rfl
      | false => exact ev hf
    exact ⟨l1.1, hf, by rw [l1.2]; exact k.nn, by rw [l1.2, l2]; exact k.le⟩
  exact OrdArith.addUp_nn hf (hstart _ _) fun k _ hk hkf =>
    (hal.mul (hA i k hi hk) (S.mul_fin hkf).1).mul (hB k j hk hj) hkf

/-- The sparse product, two matrices of one pattern. -/
theorem C89_spmv (nd : Bool) (alpha beta alpha' beta' : T) (a a' : Csr T) (hw : a.Wf) (hw' : a'.Wf)
    (hrow : a'.rowPtr = a.rowPtr) (hcol : a'.col = a.col) (m x y x' y' : Nat) (s s' : Mem T)
    (hsh : a.shape = .ok (a.nrows, m)) (hsh' : a'.shape = .ok (a'.nrows, m)) (hc : ∀ c ∈ a.col, c < m) (hx : s.len x = m)
    (hy : s.len y = a.nrows) (hxy : x ≠ y) (hx' : s'.len x' = m) (hy' : s'.len y' = a'.nrows) (hxy' : x' ≠ y')
    (h1 : S.Nn alpha alpha') (h2 : S.Nn beta beta') (hA : ∀ k, k < a.val.length → S.Nn (val0 a.val k) (val0 a'.val k))
    (hX : ∀ k, k < m → S.Nn (val0 (s x) k) (val0 (s' x') k))
    (hY : ∀ i, i < a.nrows → S.Nn (val0 (s y) i) (val0 (s' y') i)) :
    ∃ t t', Csr.mul nd alpha a x beta y s = .ok t ∧ Csr.mul nd alpha' a' x' beta' y' s' = .ok t' ∧
      ∀ i, i < a.nrows → S.fin (val0 (t' y') i) → S.Nn (val0 (t y) i) (val0 (t' y') i) := by
  have hnr : a'.nrows = a.nrows := by unfold Csr.nrows; rw [hrow]
  obtain ⟨t, e, h⟩ := C55_spmv nd alpha beta a hw m x y s hsh hc hx hy hxy
  obtain ⟨t', e', h'⟩ := C55_spmv nd alpha' beta' a' hw' m x' y' s' hsh' (by rw [hcol]; exact hc) hx' hy' hxy'
  refine ⟨t, t', e, e', fun i hi hf => ?_⟩
  rw [h'.1, val0_map_range, if_pos (by omega), hrow, hcol] at hf ⊢
  rw [h.1, val0_map_range, if_pos hi]
  refine OrdArith.addUp_nn hf (fun hf => h2.mul (hY i hi) hf) fun k hk1 hk2 hkf => ?_
  have hp := (hw.ptr_le hi).2.2
  have hk : k < a.col.length := by rw [hw.len]; omega
  refine (h1.mul (hA k (by omega)) (S.mul_fin hkf).1).mul (hX _ ?_) hkf
  rw [List.getD_eq_getElem?_getD, List.getElem?_eq_getElem hk]
  exact hc _ (List.getElem_mem hk)

/-! ## Systems

The matrices have nothing positive off the diagonal; `A' ≤ A` entry by entry; the right-hand sides are not negative.  What
has to be known about the second call (the one with `A'`): its pivots are positive and its results are finite. -/

/-- Back substitution. -/
theorem C89_back_sub (a a' : UTri T) (R R' : Nat → Nat → T) (y y' : List T) (hn : a'.n = a.n) (hy : y.length = a.n)
    (hy' : y'.length = a.n) (hR : ∀ i j, i < a.n → j < a.n → a.get i j = .ok (R i j))
    (hR' : ∀ i j, i < a.n → j < a.n → a'.get i j = .ok (R' i j)) (hd : ∀ i, i < a.n → S.Ls (R i i) (R' i i))
    (hp : ∀ i, i < a.n → S.Pos (R' i i)) (hA : ∀ i j, i < j → j < a.n → S.Np (R i j) (R' i j))
    (hY : ∀ i, i < a.n → S.Nn (val0 y i) (val0 y' i)) :
    ∃ x x', a.backSub y = .ok x ∧ a'.backSub y' = .ok x' ∧ x.length = a.n ∧ x'.length = a.n ∧
      ((∀ i, i < a.n → S.fin (val0 x' i)) → ∀ i, i < a.n → S.Nn (val0 x i) (val0 x' i)) := by
  obtain ⟨x, e, hx, h⟩ := backSub_raw a hy hR fun i hi => S.div_ok _ ((hd i hi).pos (hp i hi)).not_isZ
  obtain ⟨x', e', hx', h'⟩ := backSub_raw a' (by rw [hn]; exact hy') (by rw [hn]; exact hR')
    fun i hi => S.div_ok _ (hp i (by omega)).not_isZ
  rw [hn] at h' hx'
  exact ⟨x, x', e, e', hx, hx', OrdArith.backSub h h' hd hp hA hY⟩

include S in
theorem order_sq (v : T) (h : ¬ v < 0) (h0 : ¬ IsZ v) : sqrtC v = .ok (Sqrt.sqrt v) ∧ DivAt (Sqrt.sqrt v) :=
  ⟨S.sqrtC_ok v h, S.div_ok _ (S.sqrt_nz v h h0)⟩

/-- Cholesky: if `A'` has a finite factor with a positive diagonal then so has `A`, and `L' ≤ L` entry by entry, with
nothing positive off the diagonal. -/
theorem C89_cholesky [DecidableLT T] (mt mt' : MemType) (n : Nat) (l l' L' : List T) (A A' : Nat → Nat → T)
    (hl : Lower mt n l A) (hl' : Lower mt' n l' A') (hA : S.MLow n A A') (e' : Chol.new mt' n l' = .ok L')
    (hf : ∀ i j, j < i → i < n → S.fin (held mt' n L' i j)) (hp : ∀ i, i < n → S.Pos (held mt' n L' i i)) :
    ∃ L, Chol.new mt n l = .ok L ∧ L.length = l.length ∧ S.MLow n (held mt n L) (held mt' n L') := by
  have hxl : ∀ i j, j ≤ i → i < n → val0 l (cIndex mt n i j) = A i j := hl.val
  have hxl' : ∀ i j, j ≤ i → i < n → val0 l' (cIndex mt' n i j) = A' i j := hl'.val
  have piv : ∀ {mt : MemType} {l : List T} {A : Nat → Nat → T} (L : List T) (i : Nat), Lower mt n l A → i < n →
      Chol.pivot (cIndex mt n) l L i = subUp (fun k => val0 L (cIndex mt n i k) * val0 L (cIndex mt n i k)) 0 i (A i i) := by
    intro mt l A L i hl hi
    unfold Chol.pivot
    rw [hl.val i i (Nat.le_refl _) hi]
  rw [held_eq] at hf hp
  obtain ⟨⟨c', L''⟩, ed', h'⟩ := Chol.decomp_raw (order_sq S) mt' n l' hl'.len.ge
  obtain ⟨⟨c, L⟩, ed, h⟩ := Chol.decomp_raw (order_sq S) mt n l hl.len.ge
  simp only at h h'
  have e2 : Chol.new mt' n l' = (do throwIf (c' != 0) .runtimeError; .ok L'') := by simp [Chol.new, ed']
  have e1 : Chol.new mt n l = (do throwIf (c != 0) .runtimeError; .ok L) := by simp [Chol.new, ed]
  have hc' : c' = 0 := by
    by_contra hc
    rw [e2, throwIf_ne hc] at e'
    exact nomatch e'
  subst hc'
  obtain rfl : L'' = L' := by
    rw [e2] at e'
    simpa using e'
  have hI' : Chol.RInv (cIndex mt' n) l' n L'' := by
    rcases h' with ⟨-, h⟩ | h
    · exact h
    · exfalso
      have h0 := hp 0 h.lt
      simp only at h0
      rw [h.cell] at h0
      rcases h.piv with hz | hz
      · exact h0.not_isZ hz
      · exact h0.not_lt hz
  have hq : ∀ r, r < n → ¬ subUp (fun k => val0 L'' (cIndex mt' n r k) * val0 L'' (cIndex mt' n r k)) 0 r (A' r r) < 0 ∧
      ¬ IsZ (subUp (fun k => val0 L'' (cIndex mt' n r k) * val0 L'' (cIndex mt' n r k)) 0 r (A' r r)) := by
    intro r hr
    rw [← piv L'' r hl' hr]
    exact hI'.pos r hr
  have hpf : ∀ r, r < n → S.Pos (subUp (fun k => val0 L'' (cIndex mt' n r k) * val0 L'' (cIndex mt' n r k)) 0 r (A' r r)) := by
    intro r hr
    have h1 := (hp r hr).1
    simp only at h1
    rw [hI'.diag r hr, piv L'' r hl' hr] at h1
    have h2 := S.sqrt_fin h1
    obtain ⟨q1, q2⟩ := hq r hr
    rw [S.lt h2 S.zero.1, S.zero.2] at q1
    rw [S.isZ h2] at q2
    exact ⟨h2, lt_of_le_of_ne (not_lt.mp q1) (Ne.symm q2)⟩
  rcases h with ⟨rfl, hI⟩ | hS
  · refine ⟨L, by simpa using e1, hI.len, ?_, ?_⟩
    · intro i hi
      rw [held_eq, held_eq]
      show S.Ls (val0 L (cIndex mt n i i)) (val0 L'' (cIndex mt' n i i))
      rw [hI.diag i hi, hI'.diag i hi, piv L i hl hi, piv L'' i hl' hi]
      exact (OrdArith.uptoPivot hA (hI.upto hxl hi) (hI'.upto hxl' hi) hi (fun r c h1 h2 => hf r c h1 (by omega))
        (fun r hr => hp r (by omega)) (fun r hr => (hq r (by omega)).1) (hpf i hi).1).sqrt (hpf i hi).2.le
    · intro i j hj hi
      rw [held_eq, held_eq]
      exact (OrdArith.upto hA (hI.upto hxl hi) (hI'.upto hxl' hi) hi (fun r c h1 h2 => hf r c h1 (by omega))
        (fun r hr => hp r (by omega)) (fun r hr => (hq r (by omega)).1) i j (by omega) (Nat.le_refl _)).1 hj
  · exfalso
    have hi := hS.lt
    have := (OrdArith.uptoPivot hA (hS.upto hxl (Nat.le_refl _)) (hI'.upto hxl' hi) hi (fun r c h1 h2 => hf r c h1 (by omega))
        (fun r hr => hp r (by omega)) (fun r hr => (hq r (by omega)).1) (hpf c hi).1).pos (hpf c hi)
    have hpv := hS.piv
    rw [piv L c hl hi] at hpv
    rcases hpv with hz | hz
    · exact this.not_isZ hz
    · exact this.not_lt hz

/-- The modified factorisation. -/
theorem C89_mod_cholesky (mt mt' : MemType) (n : Nat) (l l' L' : List T) (A A' : Nat → Nat → T)
    (hl : Lower mt n l A) (hl' : Lower mt' n l' A') (hA : S.MLow n A A') (e' : Chol.modNew mt' n l' = .ok L')
    (hf : ∀ i j, j < i → i < n → S.fin (held mt' n L' i j)) (hp : ∀ i, i < n → S.Pos (held mt' n L' i i)) :
    ∃ L, Chol.modNew mt n l = .ok L ∧ L.length = l.length ∧ S.MLow n (held mt n L) (held mt' n L') := by
  rw [held_eq] at hf hp
  rw [held_eq]
  have h := Chol.modNew_raw S.div_ok mt n l hl.len.ge
  have h' := Chol.modNew_raw S.div_ok mt' n l' hl'.len.ge
  rw [e'] at h'
  have inv : ∀ {mt : MemType} {l L : List T} {A : Nat → Nat → T} {k : Nat}, Lower mt n l A → k ≤ n →
      Chol.RModInv (cIndex mt n) l n L → ModRec k A (fun i j => val0 L (cIndex mt n i j)) := by
    intro mt l L A k hl hk h i j hj hi
    rw [← hl.val i j hj (by omega)]
    exact h.fac i j hj (by omega)
  cases e : Chol.modNew mt n l with
  | ok L =>
    rw [e] at h
    refine ⟨L, rfl, h.len, ?_⟩
    rw [held_eq]
    exact OrdArith.mod (Nat.le_refl n) hA (inv hl (Nat.le_refl _) h) (inv hl' (Nat.le_refl _) h') hf hp
  | error f =>
    rw [e] at h
    obtain ⟨-, i, L, hS⟩ := h
    exfalso
    have hi := hS.lt
    have hrec : ModRec (i + 1) A (fun i j => val0 L (cIndex mt n i j)) := by
      intro r c hc hr
      rw [← hl.val r c hc (by omega)]
      exact hS.fac r c hc (by omega)
    have := (OrdArith.mod (show i + 1 ≤ n from hi) hA hrec (inv hl' hi h') (fun r c h1 h2 => hf r c h1 (by omega))
      (fun r hr => hp r (by omega))).diag i (Nat.lt_succ_self _)
    exact (this.pos (hp i hi)).not_isZ hS.zero

/-- Solving with the factors of `C89_cholesky` (`md = false`) or `C89_mod_cholesky`. -/
theorem C89_chol_solve_vec (nd md : Bool) (mt mt' : MemType) (n : Nat) (L L' : List T) (F F' : Nat → Nat → T)
    (hL : Lower mt n L F) (hL' : Lower mt' n L' F') (hF : S.MLow n F F') (hp : ∀ i, i < n → S.Pos (F' i i))
    (m m' : Mem T) (b b' r r' : Nat) (hb : m.len b = n) (hb' : m'.len b' = n) (hr : r ≠ b) (hr' : r' ≠ b')
    (hB : ∀ i, i < n → S.Nn (val0 (m b) i) (val0 (m' b') i)) :
    ∃ x x', Chol.solveMutVec nd md mt n L b m = .ok (m.setBuf b x) ∧
      Chol.solveVecAt nd md mt n L b r m = .ok (m.setBuf r x) ∧
      Chol.solveMutVec nd md mt' n L' b' m' = .ok (m'.setBuf b' x') ∧
      Chol.solveVecAt nd md mt' n L' b' r' m' = .ok (m'.setBuf r' x') ∧ x.length = n ∧ x'.length = n ∧
      ((∀ i, i < n → S.fin (val0 x' i)) → ∀ i, i < n → S.Nn (val0 x i) (val0 x' i)) := by
  obtain ⟨x, hx, hs, e1, e2⟩ := Chol.solve_raw md mt n L hL.len
    (fun i hi => by rw [hL.val i i (Nat.le_refl _) hi]; exact S.div_ok _ ((hF.diag i hi).pos (hp i hi)).not_isZ) m b r 1
    (by omega) hr
  obtain ⟨x', hx', hs', e1', e2'⟩ := Chol.solve_raw md mt' n L' hL'.len
    (fun i hi => by rw [hL'.val i i (Nat.le_refl _) hi]; exact S.div_ok _ (hp i hi).not_isZ) m' b' r' 1 (by omega) hr'
  have h1 : CholSolveRec md n F (val0 (m b)) (val0 x) := by
    have := (hs 0 (by omega)).congr hL.val fun _ _ => rfl
    simpa [entry] using this
  have h2 : CholSolveRec md n F' (val0 (m' b')) (val0 x') := by
    have := (hs' 0 (by omega)).congr hL'.val fun _ _ => rfl
    simpa [entry] using this
  refine ⟨x, x', ?_, ?_, ?_, ?_, by omega, by omega, OrdArith.cholSolve h1 h2 hF hp hB⟩
  · unfold Chol.solveMutVec; rw [hb]; simp [e1]
  · unfold Chol.solveVecAt; rw [hb]; simp [e2]
  · unfold Chol.solveMutVec; rw [hb']; simp [e1']
  · unfold Chol.solveVecAt; rw [hb']; simp [e2']

/-- Several right-hand sides: every column for itself. -/
theorem C89_chol_solve_mat (nd md : Bool) (mt mt' : MemType) (n : Nat) (L L' : List T) (F F' : Nat → Nat → T)
    (hL : Lower mt n L F) (hL' : Lower mt' n L' F') (hF : S.MLow n F F') (hp : ∀ i, i < n → S.Pos (F' i i))
    (m m' : Mem T) (b b' : MatRef) (r r' : Nat) (hb : b.Wf m) (hb' : b'.Wf m') (hn : b.n = n) (hn' : b'.n = n)
    (hbm : b'.m = b.m) (hr : r ≠ b.buf) (hr' : r' ≠ b'.buf) :
    ∃ x x', Chol.solveMutMat nd md mt n L b m = .ok (m.setBuf b.buf x) ∧
      Chol.solveMatAt nd md mt n L b r m = .ok (m.setBuf r x) ∧
      Chol.solveMutMat nd md mt' n L' b' m' = .ok (m'.setBuf b'.buf x') ∧
      Chol.solveMatAt nd md mt' n L' b' r' m' = .ok (m'.setBuf r' x') ∧ x.length = n * b.m ∧ x'.length = n * b.m ∧
      ∀ k, k < b.m → (∀ i, i < n → S.Nn (entry b.m (m b.buf) i k) (entry b.m (m' b'.buf) i k)) →
        (∀ i, i < n → S.fin (entry b.m x' i k)) → ∀ i, i < n → S.Nn (entry b.m x i k) (entry b.m x' i k) := by
  obtain ⟨x, hx, hs, e1, e2⟩ := Chol.solve_raw md mt n L hL.len
    (fun i hi => by rw [hL.val i i (Nat.le_refl _) hi]; exact S.div_ok _ ((hF.diag i hi).pos (hp i hi)).not_isZ) m b.buf r b.m
    (by rw [hb, hn]) hr
  obtain ⟨x', hx', hs', e1', e2'⟩ := Chol.solve_raw md mt' n L' hL'.len
    (fun i hi => by rw [hL'.val i i (Nat.le_refl _) hi]; exact S.div_ok _ (hp i hi).not_isZ) m' b'.buf r' b.m
    (by rw [hb', hn', hbm]) hr'
  refine ⟨x, x', ?_, ?_, ?_, ?_, by omega, by omega, fun k hk hB => ?_⟩
  · unfold Chol.solveMutMat; rw [hn]; simp [e1]
  · unfold Chol.solveMatAt; rw [hn]; simp [e2]
  · unfold Chol.solveMutMat; rw [hn', hbm]; simp [e1']
  · unfold Chol.solveMatAt; rw [hn', hbm]; simp [e2']
  · exact OrdArith.cholSolve ((hs k hk).congr hL.val fun _ _ => rfl) ((hs' k hk).congr hL'.val fun _ _ => rfl) hF hp hB

/-- Incomplete LU, the two matrices in any storage and with any patterns: if `A'` has finite factors with positive pivots
then so has `A`, and `F' ≤ F` entry by entry, with nothing positive off the diagonal. -/
theorem C89_ilu {M M' : Type} {ops : MatOps M T} {ok : M → Prop} {ops' : MatOps M' T} {ok' : M' → Prop}
    (hst : Storage ops ok) (hst' : Storage ops' ok') (n : Nat) (a : M) (a' f' : M') (A A' F' : Nat → Nat → T) (hok : ok a)
    (hok' : ok' a') (hA : Shows ops n a A) (hA' : Shows ops' n a' A') (hAA : S.MMat n A A')
    (e' : Ilu.new ops' a' = .ok f') (hF' : Shows ops' n f' F') (hf : ∀ i j, i < n → j < n → S.fin (F' i j))
    (hp : ∀ i, i < n → S.Pos (F' i i)) :
    ∃ f F, Ilu.new ops a = .ok f ∧ ok f ∧ Shows ops n f F ∧ IluRec n A F ∧ S.MMat n F F' := by
  obtain ⟨R, hR, h1, h2⟩ := storage_rep hst n
  obtain ⟨R', hR', h1', h2'⟩ := storage_rep hst' n
  have hI' : IluRec n A' F' := by
    rcases Ilu.new_raw S.isZ_zero S.div_ok hR' (h1' a' A' hok' hA') with ⟨F'', f'', e'', hf'', hF''⟩ | ⟨e'', -⟩
    · rw [e'] at e''
      obtain rfl : f' = f'' := Except.ok.inj e''
      have hs := (h2' f' F'' hf'').2
      have heq : ∀ i j, i < n → j < n → F'' i j = F' i j := fun i j hi hj =>
        Except.ok.inj ((hs.2 i j hi hj).symm.trans (hF'.2 i j hi hj))
      intro i j hi hj
      obtain ⟨c1, c2, c3⟩ := hF'' i j hi hj
      refine ⟨fun h => by rw [← heq i j hi hj]; exact c1 h, fun hji h => ?_, fun hij h => ?_⟩
      · rw [← heq j j hj hj, ← heq i j hi hj]
        refine ⟨(c2 hji h).1, (c2 hji h).2.trans ?_⟩
        congr 1
        refine subUp_congr (fun k _ hk => ?_) _
        rw [heq i k hi (by omega), heq k j (by omega) hj]
      · rw [← heq i j hi hj]
        refine (c3 hij h).trans (subUp_congr (fun k _ hk => ?_) _)
        rw [heq i k hi (by omega), heq k j (by omega) hj]
    · rw [e'] at e''
      exact nomatch e''
  rcases Ilu.new_raw S.isZ_zero S.div_ok hR (h1 a A hok hA) with ⟨F, f, e, hf', hF⟩ | ⟨e, _, hS⟩
  · have key := OrdArith.ilu (i := n) (j := 0) hAA (fun p q hp hq _ => hF p q hp hq) hI' hf hp
    exact ⟨f, F, e, (h2 f F hf').1, (h2 f F hf').2, hF, fun i hi => (key i i hi hi (.inl hi)).2 rfl,
      fun i j hi hj hne => (key i j hi hj (.inl hi)).1 hne⟩
  · exfalso
    obtain ⟨i, j, V, hj, hi, hI, h0, hV⟩ := hS
    have hjn : j < n := by omega
    have := (OrdArith.ilu (i := i) (j := j) hAA (fun p q hp hq hb => hI.done p q hp hq hb) hI' hf hp j j hjn hjn (.inl hj)).2 rfl
    exact (this.pos (hp j hjn)).not_isZ hV

/-- Solving with the two factors. -/
theorem C89_ilu_solve {M M' : Type} {ops : MatOps M T} {ok : M → Prop} {ops' : MatOps M' T} {ok' : M' → Prop}
    (hst : Storage ops ok) (hst' : Storage ops' ok') (n : Nat) (f : M) (f' : M') (F F' : Nat → Nat → T) (hok : ok f)
    (hok' : ok' f') (hF : Shows ops n f F) (hF' : Shows ops' n f' F') (hFF : S.MMat n F F')
    (hp : ∀ i, i < n → S.Pos (F' i i)) (b b' : List T) (hb : b.length = n) (hb' : b'.length = n)
    (hB : ∀ i, i < n → S.Nn (val0 b i) (val0 b' i)) :
    ∃ x x', Ilu.solve ops f b = .ok x ∧ Ilu.solve ops' f' b' = .ok x' ∧ x.length = n ∧ x'.length = n ∧
      ((∀ i, i < n → S.fin (val0 x' i)) → ∀ i, i < n → S.Nn (val0 x i) (val0 x' i)) := by
  obtain ⟨R, hR, h1, h2⟩ := storage_rep hst n
  obtain ⟨R', hR', h1', h2'⟩ := storage_rep hst' n
  obtain ⟨x, e, hx, h⟩ := Ilu.solve_raw hR (h1 f F hok hF)
    (fun i hi => S.div_ok _ ((hFF.diag i hi).pos (hp i hi)).not_isZ) hb
  obtain ⟨x', e', hx', h'⟩ := Ilu.solve_raw hR' (h1' f' F' hok' hF') (fun i hi => S.div_ok _ (hp i hi).not_isZ) hb'
  exact ⟨x, x', e, e', hx, hx', OrdArith.iluSolve h h' hFF hp hB⟩

/-- Tri-diagonal systems, one right-hand side, in place or not. -/
theorem C89_tdma_vec [DivCases T] (nd : Bool) (a a' : TriDiag T) (n : Nat) (hw : TriWf a n) (hw' : TriWf a' n) (hn : 2 ≤ n)
    (b x b' x' : Nat) (m m' : Mem T) (hb : m.len b = n) (hx : m.len x = n) (hb' : m'.len b' = n) (hx' : m'.len x' = n)
    (ha : S.MTri n a a') (hp : ∀ i, i < n → S.Pos (triPivot a' i))
    (hB : ∀ i, i < n → S.Nn (val0 (m b) i) (val0 (m' b') i)) :
    (∀ i, i < n → S.Ls (triPivot a i) (triPivot a' i)) ∧
    ∃ o o', Tdma.solveVec nd a b x m = .ok o ∧ Tdma.solveVec nd a' b' x' m' = .ok o' ∧ o.len x = n ∧ o'.len x' = n ∧
      ((∀ i, i < n → S.fin (val0 (o' x') i)) → ∀ i, i < n → S.Nn (val0 (o x) i) (val0 (o' x') i)) := by
  simp only [triPivot_eq] at hp ⊢
  have hD := OrdArith.triDP ha hp
  refine ⟨hD, ?_⟩
  have run : ∀ (a : TriDiag T) (b x : Nat) (m : Mem T), TriWf a n → m.len b = n → m.len x = n →
      (∀ i, i < n → ¬ IsZ (Tdma.D a i)) → ∃ o, Tdma.solveVec nd a b x m = .ok o ∧ o.len x = n ∧
        Tdma.BackEq a (val0 (m b)) n (val0 (o x)) := by
    intro a b x m hw hb hx hz
    have hs : Tdma.Sizes a n 1 m b x := ⟨hn, hw.1, hw.2.1, hw.2.2.1, by omega, by omega⟩
    have hd : a.shape.1 = n := hw.1
    have h := Tdma.tdma_raw hs
    have hbx : Tdma.solveVec nd a b x m = noexcept (Tdma.tdma a n 1 b x m) := by
      unfold Tdma.solveVec
      rw [hd, hb]
      simp
    rw [hbx]
    cases e : Tdma.tdma a n 1 b x m with
    | error f =>
      rw [e] at h
      obtain ⟨-, i, hi, hD⟩ := h
      exact absurd (S.div_ok _ (hz i hi)) hD
    | ok o =>
      rw [e] at h
      obtain ⟨l, rfl, hl, hq, _, hD⟩ := h
      refine ⟨_, rfl, by show (m.setBuf x l x).length = n; rw [Mem.setBuf_self]; omega, ?_⟩
      rw [Mem.setBuf_self]
      simpa [entry] using hq 0 (by omega)
  obtain ⟨o, e, hl, h⟩ := run a b x m hw hb hx fun i hi => ((hD i hi).pos (hp i hi)).not_isZ
  obtain ⟨o', e', hl', h'⟩ := run a' b' x' m' hw' hb' hx' fun i hi => (hp i hi).not_isZ
  exact ⟨o, o', e, e', hl, hl', OrdArith.triX ha hp hB h h'⟩

/-- Several right-hand sides: every column for itself. -/
theorem C89_tdma_mat [DivCases T] (nd : Bool) (a a' : TriDiag T) (n : Nat) (hw : TriWf a n) (hw' : TriWf a' n) (hn : 2 ≤ n)
    (b x b' x' : MatRef) (m m' : Mem T) (hbw : b.Wf m) (hxw : x.Wf m) (hbw' : b'.Wf m') (hxw' : x'.Wf m')
    (hbn : b.n = n) (hxn : x.n = n) (hxm : x.m = b.m) (hbn' : b'.n = n) (hxn' : x'.n = n) (hxm' : x'.m = b.m)
    (hbm' : b'.m = b.m) (ha : S.MTri n a a') (hp : ∀ i, i < n → S.Pos (triPivot a' i)) :
    ∃ o o', Tdma.solveMat nd a b x m = .ok o ∧ Tdma.solveMat nd a' b' x' m' = .ok o' ∧
      ∀ k, k < b.m → (∀ i, i < n → S.Nn (entry b.m (m b.buf) i k) (entry b.m (m' b'.buf) i k)) →
        (∀ i, i < n → S.fin (entry b.m (o' x'.buf) i k)) →
        ∀ i, i < n → S.Nn (entry b.m (o x.buf) i k) (entry b.m (o' x'.buf) i k) := by
  simp only [triPivot_eq] at hp
  have hD := OrdArith.triDP ha hp
  have run : ∀ (a : TriDiag T) (b x : MatRef) (m : Mem T), TriWf a n → b.Wf m → x.Wf m → b.n = n → x.n = n → x.m = b.m →
      (∀ i, i < n → ¬ IsZ (Tdma.D a i)) → ∃ o, Tdma.solveMat nd a b x m = .ok o ∧
        ∀ k, k < b.m → Tdma.BackEq a (fun i => entry b.m (m b.buf) i k) n (fun i => entry b.m (o x.buf) i k) := by
    intro a b x m hw hbw hxw hbn hxn hxm hz
    have h1 : m.len b.buf = n * b.m := by rw [hbw, hbn]
    have h2 : m.len x.buf = n * b.m := by rw [hxw, hxn, hxm]
    have hs : Tdma.Sizes a n b.m m b.buf x.buf := ⟨hn, hw.1, hw.2.1, hw.2.2.1, h1.ge, h2.ge⟩
    have hd : a.shape.1 = n := hw.1
    have h := Tdma.tdma_raw hs
    have hbx : Tdma.solveMat nd a b x m = noexcept (Tdma.tdma a n b.m b.buf x.buf m) := by
      unfold Tdma.solveMat
      rw [hd, hbn, hxn, hxm]
      simp
    rw [hbx]
    cases e : Tdma.tdma a n b.m b.buf x.buf m with
    | error f =>
      rw [e] at h
      obtain ⟨-, i, hi, hD⟩ := h
      exact absurd (S.div_ok _ (hz i hi)) hD
    | ok o =>
      rw [e] at h
      obtain ⟨l, rfl, hl, hq, _, hD⟩ := h
      exact ⟨_, rfl, fun k hk => by rw [Mem.setBuf_self]; exact hq k hk⟩
  obtain ⟨o, e, h⟩ := run a b x m hw hbw hxw hbn hxn hxm fun i hi => ((hD i hi).pos (hp i hi)).not_isZ
  obtain ⟨o', e', h'⟩ := run a' b' x' m' hw' hbw' hxw' hbn' hxn' (by rw [hxm', hbm']) fun i hi => (hp i hi).not_isZ
  rw [hbm'] at h'
  exact ⟨o, o', e, e', fun k hk hB => OrdArith.triX ha hp hB (h k hk) (h' k hk)⟩

/-! ## Examples -/

-- numbers in order, exact arithmetic (which is one of the rounded ones)
example (R : Rounding) (hR : R.Mono) : (Fl.ordArith R hR).Nn 1 1 ∧ (Fl.ordArith R hR).Pos 1 ∧ (Fl.ordArith R hR).Np (-1) (-1) ∧
    (Fl.ordArith R hR).Ls 1 1 ∧ (Fl.ordArith R hR).Ab (-1) 1 := by
  have h1 : (1 : Fl R).val = 1 := Fl.val_one
  have h2 : (-1 : Fl R).val = -1 := by rw [Fl.val_neg, h1]
  refine ⟨⟨trivial, trivial, ?_, le_refl _⟩, ⟨trivial, ?_⟩, ⟨trivial, trivial, ?_, le_refl _⟩, ⟨trivial, trivial, le_refl _⟩,
    ⟨trivial, trivial, ?_⟩⟩
  · show 0 ≤ (1 : Fl R).val; rw [h1]; norm_num
  · show 0 < (1 : Fl R).val; rw [h1]; norm_num
  · show (-1 : Fl R).val ≤ 0; rw [h2]; norm_num
  · show |(-1 : Fl R).val| ≤ |(1 : Fl R).val|; rw [h1, h2]; norm_num

-- the signs matter: `0 ≤ 1`, but the products with `-1` are in the other order
example (R : Rounding) (hR : R.Mono) (h2 : R.rnd (-1) = -1) :
    ¬ (Fl.ordArith R hR).val ((0 : Fl R) * (-1)) ≤ (Fl.ordArith R hR).val ((1 : Fl R) * (-1)) := by
  show ¬ ((0 : Fl R) * (-1)).val ≤ ((1 : Fl R) * (-1)).val
  rw [Fl.val_mul, Fl.val_mul, Fl.val_neg, Fl.val_one, Fl.val_zero, zero_mul, R.rnd_zero, one_mul, h2]
  norm_num

end Lalib.Props
