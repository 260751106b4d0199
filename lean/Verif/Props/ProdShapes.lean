import Verif.Proofs.ProdShapes

/-! # Property C77: products and element-wise operations whose arguments do not fit together

For any arithmetic (no law of addition or multiplication is used), the internal backend.  No assumption is made about
the number of elements behind a `DynMat`, which the constructor does not check either (C11). -/

namespace Lalib.Props

open Lalib

variable {T : Type}

/-- After the call only the first `n` elements of buffer `y` have changed, to `f`. -/
def Changed [Zero T] (s s' : Mem T) (y n : Nat) (f : Nat → T) : Prop :=
  (∀ q, q ≠ y → s' q = s q) ∧ (s' y).length = (s y).length ∧
  (∀ i, i < n → val0 (s' y) i = f i) ∧ ∀ i, n ≤ i → val0 (s' y) i = val0 (s y) i

theorem changed_fill [Zero T] (s : Mem T) (y : Nat) {n : Nat} (f : Nat → T) (hn : n ≤ s.len y) :
    Changed s (s.setBuf y (fillR f 0 n (s y))) y n f := by
  have hn' : n ≤ (s y).length := hn
  refine ⟨fun q h => Mem.setBuf_other _ h _, by simp, fun i hi => ?_, fun i hi => ?_⟩
  · rw [Mem.setBuf_self, val0_fillR _ _ _ _ (by omega), if_pos ⟨Nat.zero_le _, hi⟩]
  · rw [Mem.setBuf_self]
    by_cases h : i < (s y).length
    · rw [val0_fillR _ _ _ _ h, if_neg (by omega)]
    · rw [val0_of_le (by simpa using h), val0_of_le (by omega)]

section
variable [Zero T] [Add T] [Mul T]

/-- What `mul(alpha, A, x, beta, y)` does for an `n x m` matrix `A` when no size is checked: nothing if `n = 0`; the
first `n` elements of `y` are computed from the first `m` of `x` if everything is long enough; undefined behaviour
otherwise. -/
def GemvOut (n m : Nat) (alpha : T) (A x : Nat) (beta : T) (y : Nat) (s : Mem T) (r : Res (Mem T)) : Prop :=
  if n = 0 ∨ (n * m ≤ s.len A ∧ m ≤ s.len x ∧ n ≤ s.len y) then
    ∃ s', r = .ok s' ∧ Changed s s' y n fun i =>
      addUp (fun k => alpha * entry m (s A) i k * val0 (s x) k) 0 m (beta * val0 (s y) i)
  else r = .error (.ub .oob)

/-- The same for `mul(alpha, A, B, beta, C)`: `A` is read as an `n x l` matrix, `B` as `l x m`, `C` as `n x m`. -/
def GemmOut (n m l : Nat) (alpha : T) (A B : Nat) (beta : T) (C : Nat) (s : Mem T) (r : Res (Mem T)) : Prop :=
  if n = 0 ∨ m = 0 ∨ (n * l ≤ s.len A ∧ l * m ≤ s.len B ∧ n * m ≤ s.len C) then
    ∃ s', r = .ok s' ∧ Changed s s' C (n * m) fun p =>
      addUp (fun k => alpha * entry l (s A) (p / m) k * entry m (s B) k (p % m)) 0 l
        (gemmStart (A = C ∨ B = C) beta (entry m (s C) (p / m) (p % m)))
  else r = .error (.ub .oob)

theorem gemvOut {n m : Nat} {alpha : T} {A x : Nat} {beta : T} {y : Nat} {s : Mem T} (h : A ≠ y) :
    GemvOut n m alpha A x beta y s (noexcept (gemvCore n m alpha A x beta y s)) := by
  unfold GemvOut
  rw [gemvCore_cases h]
  split_ifs with hc
  · exact ⟨_, rfl, changed_fill _ _ _ (by omega)⟩
  · rfl

theorem gemmOut {n m l : Nat} {alpha : T} {A B : Nat} {beta : T} {C : Nat} {s : Mem T} :
    GemmOut n m l alpha A B beta C s (noexcept (gemmCore n m l alpha A B beta C s)) := by
  unfold GemmOut
  rw [gemmCore_cases]
  split_ifs with hc
  · refine ⟨_, rfl, changed_fill _ _ _ ?_⟩
    rcases hc with rfl | rfl | h
    · simp
    · simp
    · exact h.2.2
  · rfl

/-- Matrix-vector products without assertions.  (The storage of a matrix is never that of a vector.) -/
theorem C77_mat_vec (alpha beta : T) (a : MatRef) (x y : Nat) (s : Mem T) (h : a.buf ≠ y) :
    GemvOut a.n a.m alpha a.buf x beta y s (gemvDD true alpha a x beta y s) ∧
    GemvOut a.n a.m alpha a.buf x beta y s (gemvSD true alpha a x beta y s) ∧
    GemvOut a.n a.m alpha a.buf x beta y s (gemvSS alpha a x beta y s) :=
  ⟨gemvOut h, gemvOut h, gemvOut h⟩

/-- Matrix-matrix products without assertions: each overload takes its three sizes from other arguments. -/
theorem C77_mat_mat (alpha beta : T) (a b c : MatRef) (s : Mem T) :
    GemmOut c.n c.m a.m alpha a.buf b.buf beta c.buf s (gemmDDD true alpha a b beta c s) ∧
    GemmOut c.n c.m b.n alpha a.buf b.buf beta c.buf s (gemmDSS true alpha a b beta c s) ∧
    GemmOut c.n c.m a.m alpha a.buf b.buf beta c.buf s (gemmSDS true alpha a b beta c s) ∧
    GemmOut c.n c.m a.m alpha a.buf b.buf beta c.buf s (gemmDDS true alpha a b beta c s) ∧
    GemmOut a.n b.m b.n alpha a.buf b.buf beta c.buf s (gemmDSD true alpha a b beta c s) ∧
    GemmOut a.n b.m a.m alpha a.buf b.buf beta c.buf s (gemmSDD true alpha a b beta c s) :=
  ⟨gemmOut, gemmOut, gemmOut, gemmOut, gemmOut, gemmOut⟩

-- `y` longer than `A` has rows, `x` longer than `A` has columns: the tails are left alone
example : (gemvDD true 2 ⟨0, 2, 1⟩ 1 3 2 (Mem.ofList [[1, 2], [5, 6], [7, 8, 9]] : Mem Int)).map (· 2) =
    .ok [2 * 1 * 5 + 3 * 7, 2 * 2 * 5 + 3 * 8, 9] := rfl
-- in place with a vector longer than both sizes
example : (gemvDD true 1 ⟨0, 1, 2⟩ 1 0 1 (Mem.ofList [[1, 2], [5, 6, 7]] : Mem Int)).map (· 1) = .ok [17, 6, 7] := rfl
-- `y` one element short
example : gemvDD true 2 ⟨0, 2, 1⟩ 1 3 2 (Mem.ofList [[1, 2], [5], [7]] : Mem Int) = .error (.ub .oob) := rfl
-- a 1 x 1 result of a 1 x 2 and a 3 x 1 matrix; the last row of the second is not read
example : (gemmDDD true 1 ⟨0, 1, 2⟩ ⟨1, 3, 1⟩ 0 ⟨2, 1, 1⟩ (Mem.ofList [[1, 2], [5, 6, 7], [0]] : Mem Int)).map (· 2) =
    .ok [17] := rfl
-- `c` decides about the shape: with a 2 x 1 result only the first column of the storage of the 1 x 2 matrix `b` is used
example : (gemmDDD true 1 ⟨0, 2, 1⟩ ⟨1, 1, 2⟩ 0 ⟨2, 2, 1⟩ (Mem.ofList [[1, 2], [5, 6], [0, 0]] : Mem Int)).map (· 2) =
    .ok [5, 10] := rfl

/-- Compressed rows, `x` and `y` different vectors, no assertions. -/
theorem C77_csr (alpha beta : T) (a : Csr T) (hw : a.Wf) (n m : Nat) (hs : a.shape = .ok (n, m)) (x y : Nat)
    (s : Mem T) (hxy : x ≠ y) :
    if m ≤ s.len x ∧ n ≤ s.len y then
      ∃ s', Csr.mul true alpha a x beta y s = .ok s' ∧ Changed s s' y n fun i =>
        addUp (fun k => alpha * val0 a.val k * val0 (s x) (a.col.getD k 0))
          (a.rowPtr.getD i 0) (a.rowPtr.getD (i + 1) 0) (beta * val0 (s y) i)
    else Csr.mul true alpha a x beta y s = .error (.ub .oob) := by
  have e : Csr.mul true alpha a x beta y s = noexcept (Csr.mulCore n a alpha x beta y s) := by
    unfold Csr.mul
    rw [hs]; rfl
  have hr := (Csr.stored_last hw hs).1
  rw [e]
  split_ifs with h
  · subst hr
    rw [Csr.mulCore_pre hw (fun c hc => (Csr.col_lt hw hs c hc).trans_le h.1) h.2 hxy]
    exact ⟨_, rfl, changed_fill _ _ _ h.2⟩
  · rw [Csr.mulCore_oob hw hs (by omega)]
    rfl

end

-- 1 x 2 matrix with one element in column 1
example : (Csr.mul true 1 (⟨[3], [0, 1], [1]⟩ : Csr Int) 0 0 1 (Mem.ofList [[5, 6, 7], [1, 2]])).map (· 1) =
    .ok [18, 2] := rfl
example : Csr.mul true 1 (⟨[3], [0, 1], [1]⟩ : Csr Int) 0 0 1 (Mem.ofList [[5], [1]]) = .error (.ub .oob) := rfl

/-! ## Element-wise -/

section

/-- `n` elements, whatever the shapes are. -/
def ElemOut [Zero T] (f : T → T → T) (n : Nat) (v w r : Nat) (s : Mem T) (o : Res (Mem T)) : Prop :=
  if n ≤ s.len v ∧ n ≤ s.len w ∧ n ≤ s.len r then
    ∃ s', o = .ok s' ∧ Changed s s' r n fun i => f (val0 (s v) i) (val0 (s w) i)
  else o = .error (.ub .oob)

theorem changed_zip [Zero T] (f : T → T → T) (s : Mem T) {n v w r : Nat} (h1 : n ≤ s.len v) (h2 : n ≤ s.len w)
    (hr : n ≤ s.len r) : Changed s (s.setBuf r (zipPrefix f n (s v) (s w) (s r))) r n
      fun i => f (val0 (s v) i) (val0 (s w) i) := by
  have h1' : n ≤ (s v).length := h1
  have h2' : n ≤ (s w).length := h2
  have hr' : n ≤ (s r).length := hr
  have hz : (List.zipWith f ((s v).take n) ((s w).take n)).length = n := by simp; omega
  refine ⟨fun q h => Mem.setBuf_other _ h _, ?_, fun i hi => ?_, fun i hi => ?_⟩
  · rw [Mem.setBuf_self]; simp only [zipPrefix, List.length_append, hz, List.length_drop]; omega
  · rw [Mem.setBuf_self, val0, zipPrefix, List.getD_eq_getElem?_getD, List.getElem?_append_left (by omega),
      List.getElem?_eq_getElem (by omega)]
    simp only [val0_of_lt (show i < (s v).length by omega), val0_of_lt (show i < (s w).length by omega)]
    simp
  · rw [Mem.setBuf_self, val0, zipPrefix, List.getD_eq_getElem?_getD, List.getElem?_append_right (by omega), hz]
    simp only [val0, List.getD_eq_getElem?_getD, List.getElem?_drop]
    congr 2; omega

theorem elemOut_add [Zero T] [Add T] {ord : List Nat} {n v w r : Nat} {s : Mem T} (hp : ord.Perm (List.range n)) :
    ElemOut (· + ·) n v w r s (noexcept (addCore ord s v w r n)) := by
  unfold ElemOut
  split_ifs with h
  · rw [addCore_eq hp h.1 h.2.1 h.2.2]
    exact ⟨_, rfl, changed_zip _ _ h.1 h.2.1 h.2.2⟩
  · have : addCore ord s v w r n = .error (.ub .oob) := by
      unfold addCore addCoreSimd addCoreParallel
      split
      · exact elem2_oob _ (by omega)
      · exact elem2_order_oob _ hp (by omega)
    rw [this]; rfl

theorem elemOut_sub [Zero T] [Sub T] {ord : List Nat} {n v w r : Nat} {s : Mem T} (hp : ord.Perm (List.range n)) :
    ElemOut (· - ·) n v w r s (noexcept (subCore ord s v w r n)) := by
  unfold ElemOut
  split_ifs with h
  · rw [subCore_eq hp h.1 h.2.1 h.2.2]
    exact ⟨_, rfl, changed_zip _ _ h.1 h.2.1 h.2.2⟩
  · have : subCore ord s v w r n = .error (.ub .oob) := by
      unfold subCore subCoreSimd subCoreParallel
      split
      · exact elem2_oob _ (by omega)
      · exact elem2_order_oob _ hp (by omega)
    rw [this]; rfl

/-- Sums and differences without assertions, for every order of the parallel loop: the number of elements of the first
operand counts, the shapes do not. -/
theorem C77_add_sub [Zero T] [Add T] [Sub T] (ord : List Nat) (m1 m2 mr : MatRef) (s : Mem T)
    (hp : ord.Perm (List.range (m1.n * m1.m))) :
    ElemOut (· + ·) (m1.n * m1.m) m1.buf m2.buf mr.buf s (matAddDD true ord m1 m2 mr s) ∧
    ElemOut (· + ·) (m1.n * m1.m) m1.buf m2.buf mr.buf s (matAddSD true ord m1 m2 mr s) ∧
    ElemOut (· - ·) (m1.n * m1.m) m1.buf m2.buf mr.buf s (matSubDD true ord m1 m2 mr s) ∧
    ElemOut (· - ·) (m1.n * m1.m) m1.buf m2.buf mr.buf s (matSubSD true ord m1 m2 mr s) :=
  ⟨elemOut_add hp, elemOut_add hp, elemOut_sub hp, elemOut_sub hp⟩

end

/-! ## The operators -/

theorem addUp_sum [AddCommMonoid T] (g : Nat → T) (t : T) : ∀ n, addUp g 0 n t = t + ∑ k ∈ Finset.range n, g k
  | 0 => by simp [addUp]
  | n + 1 => by
      have := addUp_sum g t n
      simp only [addUp, Nat.sub_zero] at this ⊢
      rw [Finset.sum_range_succ, ← add_assoc, ← this, List.range'_concat, List.foldl_append]
      simp

/-- `A * x` without assertions: the elements of `x` beyond the last column are ignored; an `x` that is too short is
undefined behaviour (unless `A` has no rows). -/
theorem C77_op_vec [CommRing T] (a : DMat T) (v : List T) (ha : a.elems.length = a.n * a.m) :
    if a.n = 0 ∨ a.m ≤ v.length then
      ∃ r, matVec true a v = .ok r ∧ r.length = a.n ∧
        ∀ i, i < a.n → val0 r i = ∑ k ∈ Finset.range a.m, entry a.m a.elems i k * val0 v k
    else matVec true a v = .error (.ub .oob) := by
  have h := gemvOut (n := a.n) (m := a.m) (alpha := (1 : T)) (A := 0) (x := 1) (beta := (0 : T)) (y := 2)
    (s := (Mem.ofList [a.elems, v]).setBuf 2 (List.replicate a.n 0)) (by decide)
  have l0 : ((Mem.ofList [a.elems, v]).setBuf 2 (List.replicate a.n 0)).len 0 = a.n * a.m := by
    rw [← ha]; rfl
  have l1 : ((Mem.ofList [a.elems, v]).setBuf 2 (List.replicate a.n 0)).len 1 = v.length := rfl
  have l2 : ((Mem.ofList [a.elems, v]).setBuf 2 (List.replicate a.n 0)).len 2 = a.n := by
    show (List.replicate a.n (0 : T)).length = _; simp
  unfold GemvOut at h
  rw [l0, l1, l2] at h
  have e : matVec true a v = (noexcept (gemvCore a.n a.m 1 0 1 0 2
      ((Mem.ofList [a.elems, v]).setBuf 2 (List.replicate a.n 0)))).bind fun s => .ok (s 2) := rfl
  rw [e]
  by_cases hc : a.n = 0 ∨ a.m ≤ v.length
  · rw [if_pos hc]
    rw [if_pos (by rcases hc with h | h; exact .inl h; exact .inr ⟨le_refl _, h, le_refl _⟩)] at h
    obtain ⟨s', e', -, hl, hv, -⟩ := h
    refine ⟨s' 2, by rw [e']; rfl, hl.trans l2, fun i hi => ?_⟩
    refine (hv i hi).trans ?_
    simp only [addUp_sum, zero_mul, one_mul, zero_add]
    rfl
  · rw [if_neg hc]
    rw [if_neg (by omega)] at h
    rw [h]; rfl

/-- `A * B` without assertions: if `B` has more rows than `A` has columns the rest of `B` is ignored; if it has fewer,
undefined behaviour (unless the result has no elements). -/
theorem C77_op_mat [CommRing T] (a b : DMat T) (ha : a.elems.length = a.n * a.m) (hb : b.elems.length = b.n * b.m) :
    if a.n = 0 ∨ b.m = 0 ∨ a.m ≤ b.n then
      ∃ c, matMul true a b = .ok c ∧ c.n = a.n ∧ c.m = b.m ∧ c.elems.length = a.n * b.m ∧
        ∀ i j, i < a.n → j < b.m → c.get i j =
          .ok (∑ k ∈ Finset.range a.m, entry a.m a.elems i k * entry b.m b.elems k j)
    else matMul true a b = .error (.ub .oob) := by
  have h := gemmOut (n := a.n) (m := b.m) (l := a.m) (alpha := (1 : T)) (A := 0) (B := 1) (beta := (0 : T)) (C := 2)
    (s := (Mem.ofList [a.elems, b.elems]).setBuf 2 (DMat.uninit a.n b.m).elems)
  have l0 : ((Mem.ofList [a.elems, b.elems]).setBuf 2 (DMat.uninit a.n b.m).elems).len 0 = a.n * a.m := by
    rw [← ha]; rfl
  have l1 : ((Mem.ofList [a.elems, b.elems]).setBuf 2 (DMat.uninit a.n b.m).elems).len 1 = b.n * b.m := by
    rw [← hb]; rfl
  have l2 : ((Mem.ofList [a.elems, b.elems]).setBuf 2 (DMat.uninit a.n b.m).elems).len 2 = a.n * b.m := by
    show (DMat.uninit (T := T) a.n b.m).elems.length = _; simp [DMat.uninit]
  unfold GemmOut at h
  rw [l0, l1, l2] at h
  have e : matMul true a b = (noexcept (noexcept (gemmCore a.n b.m a.m 1 0 1 0 2
      ((Mem.ofList [a.elems, b.elems]).setBuf 2 (DMat.uninit a.n b.m).elems)))).bind
        fun s => .ok ⟨a.n, b.m, s 2⟩ := rfl
  rw [e]
  by_cases hc : a.n = 0 ∨ b.m = 0 ∨ a.m ≤ b.n
  · rw [if_pos hc]
    rw [if_pos (by
      rcases hc with h | h | h
      · exact .inl h
      · exact .inr (.inl h)
      · exact .inr (.inr ⟨le_refl _, Nat.mul_le_mul_right _ h, le_refl _⟩))] at h
    obtain ⟨s', e', -, hl, hv, -⟩ := h
    refine ⟨⟨a.n, b.m, s' 2⟩, by rw [e']; rfl, rfl, rfl, hl.trans l2, fun i j hi hj => ?_⟩
    have hp := cell_lt hi hj
    rw [DMat.get_mk (hl.trans l2) hi hj, entry]
    refine congrArg _ ((hv _ hp).trans ?_)
    have d1 : (i * b.m + j) / b.m = i := by
      rw [Nat.add_comm, Nat.add_mul_div_right _ _ (by omega), Nat.div_eq_of_lt hj, Nat.zero_add]
    have d2 : (i * b.m + j) % b.m = j := by
      rw [Nat.add_comm, Nat.add_mul_mod_self_right, Nat.mod_eq_of_lt hj]
    simp only [d1, d2, addUp_sum, gemmStart, zero_mul, mul_zero, one_mul, zero_add, ite_self]
    rfl
  · rw [if_neg hc]
    rw [if_neg (by
      rintro (h | h | h)
      · exact hc (.inl h)
      · exact hc (.inr (.inl h))
      · exact hc (.inr (.inr (Nat.le_of_mul_le_mul_right h.2.1 (by omega)))))] at h
    rw [h]; rfl

/-- `A + B` and `A - B` without assertions: the shape is that of `A`, the elements are combined in storage order. -/
theorem C77_op_add_sub [Zero T] [Add T] [Sub T] (ord : List Nat) (a b : DMat T) (ha : a.elems.length = a.n * a.m)
    (hb : b.elems.length = b.n * b.m) (hp : ord.Perm (List.range (a.n * a.m))) :
    if a.n * a.m ≤ b.n * b.m then
      matAddOp true ord a b = .ok ⟨a.n, a.m, List.zipWith (· + ·) a.elems b.elems⟩ ∧
      matSubOp true ord a b = .ok ⟨a.n, a.m, List.zipWith (· - ·) a.elems b.elems⟩
    else matAddOp true ord a b = .error (.ub .oob) ∧ matSubOp true ord a b = .error (.ub .oob) := by
  have l0 : ((Mem.ofList [a.elems, b.elems]).setBuf 2 a.elems).len 0 = a.n * a.m := by rw [← ha]; rfl
  have l1 : ((Mem.ofList [a.elems, b.elems]).setBuf 2 a.elems).len 1 = b.n * b.m := by rw [← hb]; rfl
  have l2 : ((Mem.ofList [a.elems, b.elems]).setBuf 2 a.elems).len 2 = a.n * a.m := by rw [← ha]; rfl
  have ea : matAddOp true ord a b = (noexcept (noexcept (addCore ord
      ((Mem.ofList [a.elems, b.elems]).setBuf 2 a.elems) 0 1 2 (a.n * a.m)))).bind fun s => .ok ⟨a.n, a.m, s 2⟩ := rfl
  have es : matSubOp true ord a b = (noexcept (noexcept (subCore ord
      ((Mem.ofList [a.elems, b.elems]).setBuf 2 a.elems) 0 1 2 (a.n * a.m)))).bind fun s => .ok ⟨a.n, a.m, s 2⟩ := rfl
  have hz : ∀ f : T → T → T, a.n * a.m ≤ b.n * b.m →
      zipPrefix f (a.n * a.m) a.elems b.elems a.elems = List.zipWith f a.elems b.elems := by
    intro f h
    rw [zipPrefix, List.drop_eq_nil_of_le (by omega), List.append_nil, ← List.take_zipWith, List.take_of_length_le]
    simp; omega
  split_ifs with h
  · rw [ea, es, addCore_eq hp l0.ge (by rw [l1]; exact h) l2.ge, subCore_eq hp l0.ge (by rw [l1]; exact h) l2.ge]
    refine ⟨congrArg (fun l => Except.ok (⟨a.n, a.m, l⟩ : DMat T)) ?_,
      congrArg (fun l => Except.ok (⟨a.n, a.m, l⟩ : DMat T)) ?_⟩
    · rw [Mem.setBuf_self]; exact hz _ h
    · rw [Mem.setBuf_self]; exact hz _ h
  · have o1 := elemOut_add (T := T) (v := 0) (w := 1) (r := 2)
      (s := (Mem.ofList [a.elems, b.elems]).setBuf 2 a.elems) hp
    have o2 := elemOut_sub (T := T) (v := 0) (w := 1) (r := 2)
      (s := (Mem.ofList [a.elems, b.elems]).setBuf 2 a.elems) hp
    unfold ElemOut at o1 o2
    rw [if_neg (by rw [l1]; omega)] at o1 o2
    rw [ea, es, o1, o2]
    exact ⟨rfl, rfl⟩

-- the sum of a 2 x 1 and a 1 x 3 matrix is a 2 x 1 matrix
example : matAddOp true (List.range 2) (⟨2, 1, [1, 2]⟩ : DMat Int) ⟨1, 3, [10, 20, 30]⟩ = .ok ⟨2, 1, [11, 22]⟩ := rfl
example : matAddOp true (List.range 3) (⟨1, 3, [10, 20, 30]⟩ : DMat Int) ⟨2, 1, [1, 2]⟩ = .error (.ub .oob) := rfl
example : matMul true (⟨1, 1, [2]⟩ : DMat Int) ⟨2, 2, [1, 2, 3, 4]⟩ = .ok ⟨1, 2, [2, 4]⟩ := rfl
example : matMul true (⟨1, 2, [2, 3]⟩ : DMat Int) ⟨1, 2, [1, 2]⟩ = .error (.ub .oob) := rfl
example : matVec true (⟨1, 2, [2, 3]⟩ : DMat Int) [1, 1, 5] = .ok [5] := rfl
example : matVec true (⟨1, 2, [2, 3]⟩ : DMat Int) [1] = .error (.ub .oob) := rfl

/-- `A * x` for compressed rows, without assertions. -/
theorem C77_op_csr [CommRing T] (a : Csr T) (hw : a.Wf) (n m : Nat) (hs : a.shape = .ok (n, m)) (v : List T) :
    if m ≤ v.length then
      ∃ r, Csr.mulVec true a v = .ok r ∧ r.length = n ∧ Csr.mulVec true a (v.take m) = .ok r
    else Csr.mulVec true a v = .error (.ub .oob) := by
  have hn := (Csr.stored_last hw hs).1
  have e : ∀ w : List T, Csr.mulVec true a w = (noexcept (Csr.mulCore n a 1 0 0 1
      ((Mem.ofList [w]).setBuf 1 (List.replicate n 0)))).bind fun s => .ok (s 1) := by
    intro w
    unfold Csr.mulVec Csr.mulVecAt
    rw [hs]; rfl
  have key : ∀ w : List T, m ≤ w.length → Csr.mulVec true a w = .ok (fillR (fun i =>
      addUp (fun k => 1 * val0 a.val k * val0 w (a.col.getD k 0)) (a.rowPtr.getD i 0) (a.rowPtr.getD (i + 1) 0)
        (0 * val0 (List.replicate n 0) i)) 0 n (List.replicate n 0)) := by
    intro w h
    rw [e w]
    subst hn
    rw [Csr.mulCore_pre hw (fun c hc => (Csr.col_lt hw hs c hc).trans_le h) (by
      show _ ≤ (List.replicate _ (0 : T)).length; simp) (by decide)]
    rfl
  split_ifs with h
  · refine ⟨_, key v h, by simp, ?_⟩
    rw [key (v.take m) (by simp; omega)]
    refine congrArg _ (fillR_congr (fun i _ hi => addUp_congr (fun k _ hk => ?_) _) _)
    have hk' : k < a.col.length := by
      have := (hw.ptr_le (show i < a.nrows by omega)).2.2
      rw [hw.len]; omega
    rw [show a.col.getD k 0 = a.col[k] by simp [List.getD_eq_getElem?_getD, hk']]
    have hc := Csr.col_lt hw hs _ (List.getElem_mem hk')
    rw [val0_of_lt (show a.col[k] < v.length by omega), val0_of_lt (show a.col[k] < (v.take m).length by simp; omega)]
    simp
  · rw [e v, Csr.mulCore_oob hw hs (.inr ?_)]
    · rfl
    · show v.length < m
      omega

/-! ## With assertions -/

/-- Every size that is checked: the sized overloads check those that are not part of the type. -/
theorem C77_mat_vec_debug [Zero T] [One T] [Add T] [Mul T] (alpha beta : T) (a : MatRef) (x y : Nat) (s : Mem T) :
    (a.m ≠ s.len x ∨ a.n ≠ s.len y → gemvDD false alpha a x beta y s = .error .assertFail) ∧
    (a.m ≠ s.len x → gemvSD false alpha a x beta y s = .error .assertFail ∧
      matVecAt false s a x y = .error .assertFail) := by
  refine ⟨fun h => ?_, fun h => ⟨?_, ?_⟩⟩
  · unfold gemvDD
    by_cases h1 : a.m = s.len x
    · rw [h1, cassert_ne (show a.n ≠ s.len y by tauto)]; simp [noexcept]
    · rw [cassert_ne h1]; rfl
  · unfold gemvSD; rw [cassert_ne h]; rfl
  · unfold matVecAt; rw [cassert_ne h]; rfl

theorem C77_mat_mat_debug [Zero T] [One T] [Add T] [Mul T] (alpha beta : T) (a b c : MatRef) (s : Mem T) :
    (a.n ≠ c.n ∨ b.m ≠ c.m ∨ a.m ≠ b.n →
      gemmDDD false alpha a b beta c s = .error .assertFail ∧
      gemmDDS false alpha a b beta c s = .error .assertFail ∧
      gemmDSD false alpha a b beta c s = .error .assertFail ∧
      gemmSDD false alpha a b beta c s = .error .assertFail) ∧
    (a.n ≠ c.n ∨ a.m ≠ b.n → gemmDSS false alpha a b beta c s = .error .assertFail) ∧
    (b.m ≠ c.m ∨ a.m ≠ b.n → gemmSDS false alpha a b beta c s = .error .assertFail) ∧
    (a.m ≠ b.n → ∀ r, matMulAt false s a b r = .error .assertFail) := by
  have key : ∀ (p q r : Bool) (f : Res (Mem T)), (p = false ∨ q = false ∨ r = false) →
      noexcept (do cassert false p; cassert false q; cassert false r; f) = .error .assertFail := by
    intro p q r f h
    cases p <;> cases q <;> cases r <;> simp_all [cassert, noexcept]
  have key2 : ∀ (p q : Bool) (f : Res (Mem T)), (p = false ∨ q = false) →
      noexcept (do cassert false p; cassert false q; f) = .error .assertFail := by
    intro p q f h
    cases p <;> cases q <;> simp_all [cassert, noexcept]
  refine ⟨fun h => ⟨key _ _ _ _ ?_, key _ _ _ _ ?_, key _ _ _ _ ?_, key _ _ _ _ ?_⟩, fun h => key2 _ _ _ ?_,
    fun h => key2 _ _ _ ?_, fun h r => ?_⟩
  · simp only [beq_eq_false_iff_ne]; tauto
  · simp only [beq_eq_false_iff_ne]; tauto
  · simp only [beq_eq_false_iff_ne]; tauto
  · simp only [beq_eq_false_iff_ne]; tauto
  · simp only [beq_eq_false_iff_ne]; tauto
  · simp only [beq_eq_false_iff_ne]; tauto
  · unfold matMulAt gemmDDD
    rw [key _ _ _ _ (.inr (.inr (by simpa using h)))]
    rfl

theorem C77_add_sub_debug [Add T] [Sub T] (ord : List Nat) (m1 m2 mr : MatRef) (s : Mem T) :
    ((m1.n, m1.m) ≠ (m2.n, m2.m) ∨ (m1.n, m1.m) ≠ (mr.n, mr.m) →
      matAddDD false ord m1 m2 mr s = .error .assertFail ∧ matSubDD false ord m1 m2 mr s = .error .assertFail) ∧
    ((m1.n, m1.m) ≠ (m2.n, m2.m) →
      matAddSD false ord m1 m2 mr s = .error .assertFail ∧ matSubSD false ord m1 m2 mr s = .error .assertFail ∧
      ∀ r, matAddAt false ord s m1 m2 r = .error .assertFail ∧ matSubAt false ord s m1 m2 r = .error .assertFail) := by
  have key : ∀ (p q : Bool) (f : Res (Mem T)), (p = false ∨ q = false) →
      noexcept (do cassert false p; cassert false q; f) = .error .assertFail := by
    intro p q f h
    cases p <;> cases q <;> simp_all [cassert, noexcept]
  have ne : ∀ a b c d : Nat, (a, b) ≠ (c, d) → (a == c && b == d) = false := by
    intro a b c d h
    rw [Bool.eq_false_iff]
    simpa using h
  refine ⟨fun h => ?_, fun h => ?_⟩
  · have : (m1.n == m2.n && m1.m == m2.m) = false ∨ (m1.n == mr.n && m1.m == mr.m) = false := by
      rcases h with h | h
      · exact .inl (ne _ _ _ _ h)
      · exact .inr (ne _ _ _ _ h)
    exact ⟨key _ _ _ this, key _ _ _ this⟩
  · have := ne _ _ _ _ h
    refine ⟨?_, ?_, fun r => ⟨?_, ?_⟩⟩
    · unfold matAddSD; rw [this]; rfl
    · unfold matSubSD; rw [this]; rfl
    · unfold matAddAt matAddDD; rw [this]; rfl
    · unfold matSubAt matSubDD; rw [this]; rfl

theorem C77_csr_debug [Zero T] [One T] [Add T] [Mul T] (alpha beta : T) (a : Csr T) (n m : Nat)
    (hs : a.shape = .ok (n, m)) (x y : Nat) (s : Mem T) :
    (m ≠ s.len x ∨ n ≠ s.len y → Csr.mul false alpha a x beta y s = .error .assertFail) ∧
    (m ≠ s.len x → Csr.mulVecAt false a s x y = .error .assertFail) := by
  refine ⟨fun h => ?_, fun h => ?_⟩
  · unfold Csr.mul
    rw [hs, ok_bind]
    by_cases h1 : m = s.len x
    · simp only [h1, cassert_ne (show n ≠ s.len y by tauto)]; simp [noexcept]
    · simp only [cassert_ne h1]; rfl
  · unfold Csr.mulVecAt
    rw [hs, ok_bind]
    simp only [cassert_ne h]; rfl

end Lalib.Props
