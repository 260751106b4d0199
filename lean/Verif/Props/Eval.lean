import Verif.Proofs.EvalSolve
import Verif.Props.Cholesky
import Verif.Props.Ilu

/-! # Property C55: the kernels evaluate one fixed expression, whatever the arithmetic

No law of arithmetic is assumed: `T` is a type with operations, for instance a floating-point type whose additions and
multiplications are rounded.  (A division by zero and the root of a negative number are outcomes of their own in the
model; for numbers with infinities and NaN, where there is no such outcome, see C65 and what follows.)

The theorems say of every result which operations are performed on which operands in which order, and that this does
not depend on the storage class, on working in place or not, on a column being solved alone or within a matrix.  The one
place where it does depend on that is the first term of the matrix product (`gemmStart`), see `C55_gemm`. -/

namespace Lalib.Props

open Lalib

variable {T : Type}

/-! ## Products -/

section prod
variable [Zero T] [Add T] [Mul T]

/-- `y := alpha A x + beta y`: `((beta * y_i + alpha*a_i0*x_0) + alpha*a_i1*x_1) + ..`, in place (`x = y`) or not, by
every overload. -/
theorem C55_gemv (nd : Bool) (alpha beta : T) (a : MatRef) (x y : Nat) (s : Mem T)
    (ha : a.Wf s) (hx : s.len x = a.m) (hy : s.len y = a.n) (hay : a.buf ≠ y) :
    ∃ s', gemvDD nd alpha a x beta y s = .ok s' ∧ gemvSD nd alpha a x beta y s = .ok s' ∧
      gemvSS alpha a x beta y s = .ok s' ∧
      Stores s s' y ((List.range a.n).map fun i =>
        addUp (fun k => alpha * entry a.m (s a.buf) i k * val0 (s x) k) 0 a.m (beta * val0 (s y) i)) := by
  have h := gemvCore_raw (alpha := alpha) (beta := beta) (n := a.n) (m := a.m) (mat := a.buf) (x := x)
    (y := y) (s := s) ha.ge hx.ge hy hay
  refine ⟨_, ?_, ?_, ?_, stores_setBuf _ _ _⟩
  · unfold gemvDD; rw [hx, hy]; simp only [beq_self_eq_true, cassert_true, ok_bind]; rw [h]; rfl
  · unfold gemvSD; rw [hx]; simp only [beq_self_eq_true, cassert_true, ok_bind]; rw [h]; rfl
  · unfold gemvSS; rw [h]; rfl

/-- `C := alpha A B + beta C`, with `C` the same object as `A`, as `B`, as both or as none. -/
theorem C55_gemm (nd : Bool) (alpha beta : T) (a b c : MatRef) (s : Mem T) (ha : a.Wf s) (hb : b.Wf s)
    (hc : c.Wf s) (h1 : a.n = c.n) (h2 : b.m = c.m) (h3 : a.m = b.n) :
    ∃ s', gemmDDD nd alpha a b beta c s = .ok s' ∧ gemmSSS alpha a b beta c s = .ok s' ∧
      gemmDSS nd alpha a b beta c s = .ok s' ∧ gemmSDS nd alpha a b beta c s = .ok s' ∧
      gemmDDS nd alpha a b beta c s = .ok s' ∧ gemmDSD nd alpha a b beta c s = .ok s' ∧
      gemmSDD nd alpha a b beta c s = .ok s' ∧
      Stores s s' c.buf (matOf c.n c.m fun i j =>
        addUp (fun k => alpha * entry a.m (s a.buf) i k * entry c.m (s b.buf) k j) 0 a.m
          (gemmStart (a.buf = c.buf ∨ b.buf = c.buf) beta (entry c.m (s c.buf) i j))) := by
  have h := gemmCore_raw (alpha := alpha) (beta := beta) (n := c.n) (m := c.m) (o := a.m) (a := a.buf)
    (b := b.buf) (c := c.buf) (s := s) (by rw [ha, h1]) (by rw [hb, h2, h3]) hc
  have hbn : b.n = a.m := h3.symm
  refine ⟨_, ?_, ?_, ?_, ?_, ?_, ?_, ?_, stores_setBuf _ _ _⟩
  · unfold gemmDDD; simp only [h1, h2, h3, beq_self_eq_true, cassert_true, ok_bind]
    rw [← h3, h]; rfl
  · unfold gemmSSS; rw [h]; rfl
  · unfold gemmDSS; simp only [h1, h3, beq_self_eq_true, cassert_true, ok_bind]
    rw [← h3, h]; rfl
  · unfold gemmSDS; simp only [h2, h3, beq_self_eq_true, cassert_true, ok_bind]
    rw [← h3, h]; rfl
  · unfold gemmDDS; simp only [h1, h2, h3, beq_self_eq_true, cassert_true, ok_bind]
    rw [← h3, h]; rfl
  · unfold gemmDSD; simp only [h1, h2, h3, beq_self_eq_true, cassert_true, ok_bind]
    rw [← h3, h]; rfl
  · unfold gemmSDD; simp only [h1, h2, h3, beq_self_eq_true, cassert_true, ok_bind]
    rw [← h3, h]; rfl

omit [Zero T] [Add T] in
/-- Where the product of two numbers does not depend on their order, sharing storage makes no difference. -/
theorem C55_gemm_start (hcomm : ∀ x y : T, x * y = y * x) (shared shared' : Bool) (beta c : T) :
    gemmStart shared beta c = gemmStart shared' beta c := by
  cases shared <;> cases shared' <;> simp [gemmStart, hcomm beta c]

/-- The sparse product, `x` and `y` different (see `C31_alias_false` for the other case): the stored elements of a row
in their order. -/
theorem C55_spmv (nd : Bool) (alpha beta : T) (a : Csr T) (hw : a.Wf) (m x y : Nat) (s : Mem T)
    (hsh : a.shape = .ok (a.nrows, m)) (hc : ∀ c ∈ a.col, c < m) (hx : s.len x = m) (hy : s.len y = a.nrows)
    (hxy : x ≠ y) :
    ∃ s', Csr.mul nd alpha a x beta y s = .ok s' ∧ Stores s s' y ((List.range a.nrows).map fun i =>
      addUp (fun k => alpha * val0 a.val k * val0 (s x) (a.col.getD k 0))
        (a.rowPtr.getD i 0) (a.rowPtr.getD (i + 1) 0) (beta * val0 (s y) i)) := by
  refine ⟨_, ?_, stores_setBuf _ _ _⟩
  unfold Csr.mul
  rw [hsh, ok_bind]
  simp only
  rw [hx, hy]
  simp only [beq_self_eq_true, cassert_true, ok_bind]
  rw [Csr.mulCore_raw hw (fun c h => by rw [hx]; exact hc c h) hy hxy]
  rfl

end prod

/-! ## Triangular and Cholesky solvers -/

section chol
variable [Zero T] [Sub T] [Mul T] [Div T] [DecidableEq T]

theorem C55_back_sub (a : UTri T) (R : Nat → Nat → T) (y : List T) (hy : y.length = a.n)
    (hR : ∀ i j, i < a.n → j < a.n → a.get i j = .ok (R i j)) (hd : ∀ i, i < a.n → R i i ≠ 0) :
    ∃ x, a.backSub y = .ok x ∧ x.length = a.n ∧ BackSubRec a.n R (val0 y) (val0 x) :=
  backSub_raw a hy hR fun i hi => divAt_of (hd i hi)

omit [Sub T] [Mul T] in
theorem sq_ok [LT T] [DecidableLT T] [Sqrt T] (hsq : ∀ v : T, ¬ v < 0 → v ≠ 0 → Sqrt.sqrt v ≠ 0) (v : T)
    (h : ¬ v < 0) (h0 : ¬ IsZ v) : sqrtC v = .ok (Sqrt.sqrt v) ∧ DivAt (Sqrt.sqrt v) :=
  ⟨by rw [sqrtC_eq, if_neg h], divAt_of (hsq v h h0)⟩

/-- The factorisation, for a type in which the root of a positive number is not zero.  If the first pivot is a positive
number (see `C36_false` for the other case) the constructor stores the factor or throws. -/
theorem C55_cholesky [LT T] [DecidableLT T] [Sqrt T] (hsq : ∀ v : T, ¬ v < 0 → v ≠ 0 → Sqrt.sqrt v ≠ 0)
    (mt : MemType) (n : Nat) (l : List T) (A : Nat → Nat → T) (hl : Lower mt n l A)
    (h0 : ¬ A 0 0 < 0) (h0' : A 0 0 ≠ 0) :
    (∃ L, Chol.new mt n l = .ok L ∧ L.length = l.length ∧ (∀ i, i < n → held mt n L i i ≠ 0) ∧
      CholRec n A (held mt n L)) ∨
    Chol.new mt n l = .error (.throw .runtimeError) := by
  obtain ⟨⟨c, L⟩, e, h | h⟩ := Chol.decomp_raw (sq_ok hsq) mt n l hl.len.ge
  · obtain ⟨hc, hI⟩ := h
    simp only at hc hI
    subst hc
    refine .inl ⟨L, by simp [Chol.new, e], hI.len, ?_, ?_⟩
    · intro i hi
      rw [held_eq]
      show val0 L (cIndex mt n i i) ≠ 0
      rw [hI.diag i hi]
      exact hsq _ (hI.pos i hi).1 (hI.pos i hi).2
    · rw [held_eq]; exact hI.cholRec hl.val
  · simp only at h
    right
    have hc : c ≠ 0 := by
      rintro rfl
      have hp := h.piv
      have : Chol.pivot (cIndex mt n) l L 0 = A 0 0 := by
        rw [← hl.val 0 0 (Nat.le_refl _) h.lt]; rfl
      rw [this] at hp
      rcases hp with hp | hp
      · exact h0' hp
      · exact h0 hp
    simp [Chol.new, e, throwIf_ne hc]

/-- Square and packed storage: same outcome, and the same factor. -/
theorem C55_cholesky_same [LT T] [DecidableLT T] [Sqrt T] (hsq : ∀ v : T, ¬ v < 0 → v ≠ 0 → Sqrt.sqrt v ≠ 0)
    (n : Nat) (l l' : List T) (A : Nat → Nat → T) (hl : Lower .square n l A) (hl' : Lower .triangle n l' A) :
    (Chol.new .square n l = .error (.throw .runtimeError) ∧
      Chol.new .triangle n l' = .error (.throw .runtimeError)) ∨
    ∃ L L', Chol.new .square n l = .ok L ∧ Chol.new .triangle n l' = .ok L' ∧
      ∀ i j, j ≤ i → i < n → held .square n L i j = held .triangle n L' i j := by
  obtain ⟨c, L, L', e, e', h⟩ := Chol.decomp_same (sq_ok hsq) .square .triangle n hl.len.ge hl'.len.ge hl.val hl'.val
  by_cases hc : c = 0
  · subst hc
    refine .inr ⟨L, L', by simp [Chol.new, e], by simp [Chol.new, e'], fun i j hj hi => ?_⟩
    rw [held_eq, held_eq]
    exact h i j hj hi
  · exact .inl ⟨by simp [Chol.new, e, throwIf_ne hc], by simp [Chol.new, e', throwIf_ne hc]⟩

/-- The modified factorisation. -/
theorem C55_mod_cholesky (mt mt' : MemType) (n : Nat) (l l' : List T) (A : Nat → Nat → T) (hl : Lower mt n l A)
    (hl' : Lower mt' n l' A) :
    (Chol.modNew mt n l = .error (.throw .runtimeError) ∧ Chol.modNew mt' n l' = .error (.throw .runtimeError)) ∨
    ∃ L L', Chol.modNew mt n l = .ok L ∧ Chol.modNew mt' n l' = .ok L' ∧ L.length = l.length ∧
      L'.length = l'.length ∧ (∀ i, i < n → held mt n L i i ≠ 0) ∧ ModRec n A (held mt n L) ∧
      ∀ i j, j ≤ i → i < n → held mt n L i j = held mt' n L' i j := by
  simp only [held_eq]
  exact Chol.modNew_same (fun _ h => divAt_of h) mt mt' n hl.len.ge hl'.len.ge hl.val hl'.val

/-- Solving with one right-hand side, in place and not. -/
theorem C55_chol_solve_vec (nd md : Bool) (mt : MemType) (n : Nat) (L : List T) (F : Nat → Nat → T)
    (hL : Lower mt n L F) (hd : ∀ i, i < n → F i i ≠ 0) (m : Mem T) (b r : Nat) (hb : m.len b = n) (hr : r ≠ b) :
    ∃ x, x.length = n ∧ CholSolveRec md n F (val0 (m b)) (val0 x) ∧
      Chol.solveMutVec nd md mt n L b m = .ok (m.setBuf b x) ∧
      Chol.solveVecAt nd md mt n L b r m = .ok (m.setBuf r x) := by
  obtain ⟨x, hx, hs, e, e'⟩ := Chol.solve_raw md mt n L hL.len
    (fun i hi => by rw [hL.val i i (Nat.le_refl _) hi]; exact divAt_of (hd i hi)) m b r 1 (by omega) hr
  refine ⟨x, by omega, ?_, ?_, ?_⟩
  · have := (hs 0 (by omega)).congr hL.val fun _ _ => rfl
    simpa [entry] using this
  · unfold Chol.solveMutVec; rw [hb]; simp [e]
  · unfold Chol.solveVecAt; rw [hb]; simp [e']

/-- Several right-hand sides: every column is treated as if it were alone. -/
theorem C55_chol_solve_mat (nd md : Bool) (mt : MemType) (n : Nat) (L : List T) (F : Nat → Nat → T)
    (hL : Lower mt n L F) (hd : ∀ i, i < n → F i i ≠ 0) (m : Mem T) (b : MatRef) (r : Nat) (hb : b.Wf m)
    (hn : b.n = n) (hr : r ≠ b.buf) :
    ∃ x, x.length = n * b.m ∧
      (∀ k, k < b.m → CholSolveRec md n F (fun i => entry b.m (m b.buf) i k) (fun i => entry b.m x i k)) ∧
      Chol.solveMutMat nd md mt n L b m = .ok (m.setBuf b.buf x) ∧
      Chol.solveMatAt nd md mt n L b r m = .ok (m.setBuf r x) := by
  obtain ⟨x, hx, hs, e, e'⟩ := Chol.solve_raw md mt n L hL.len
    (fun i hi => by rw [hL.val i i (Nat.le_refl _) hi]; exact divAt_of (hd i hi)) m b.buf r b.m (by rw [hb, hn]) hr
  refine ⟨x, by omega, fun k hk => (hs k hk).congr hL.val fun _ _ => rfl, ?_, ?_⟩
  · unfold Chol.solveMutMat; rw [hn]; simp [e]
  · unfold Chol.solveMatAt; rw [hn]; simp [e']

/-- Both storages solve alike: the whole resulting memory is the same. -/
theorem C55_chol_solve_same (nd md : Bool) (n : Nat) (L L' : List T) (F : Nat → Nat → T)
    (hL : Lower .square n L F) (hL' : Lower .triangle n L' F) (hd : ∀ i, i < n → F i i ≠ 0) (m : Mem T) (b r : Nat)
    (hb : m.len b = n) (hr : r ≠ b) :
    Chol.solveMutVec nd md .square n L b m = Chol.solveMutVec nd md .triangle n L' b m ∧
    Chol.solveVecAt nd md .square n L b r m = Chol.solveVecAt nd md .triangle n L' b r m := by
  obtain ⟨x, hx, hs, e1, e2⟩ := C55_chol_solve_vec nd md .square n L F hL hd m b r hb hr
  obtain ⟨x', hx', hs', e1', e2'⟩ := C55_chol_solve_vec nd md .triangle n L' F hL' hd m b r hb hr
  have : x = x' := list_ext_val0 (by omega) fun i hi => hs.unique hs' i (by omega)
  rw [e1, e2, e1', e2', this]
  exact ⟨rfl, rfl⟩

omit [Zero T] [DecidableEq T] in
/-- The recurrences have one solution, so the theorems above determine the results. -/
theorem C55_chol_solve_unique (md : Bool) (n : Nat) (F : Nat → Nat → T) (b x x' : Nat → T)
    (h : CholSolveRec md n F b x) (h' : CholSolveRec md n F b x') : ∀ i, i < n → x i = x' i := h.unique h'

end chol

/-! ## Incomplete LU -/

section ilu
variable {M M' : Type} [Zero T] [Sub T] [Mul T] [Div T] [DecidableEq T] {ops : MatOps M T} {ok : M → Prop}
  {ops' : MatOps M' T} {ok' : M' → Prop}

/-- Any two of the three storage classes: same outcome, same factors. -/
theorem C55_ilu (hst : Storage ops ok) (hst' : Storage ops' ok') (n : Nat) (a : M) (a' : M')
    (A : Nat → Nat → T) (hok : ok a) (hok' : ok' a') (hA : Shows ops n a A) (hA' : Shows ops' n a' A) :
    (Ilu.new ops a = .error (.throw .runtimeError) ∧ Ilu.new ops' a' = .error (.throw .runtimeError)) ∨
    ∃ f f' F, Ilu.new ops a = .ok f ∧ Ilu.new ops' a' = .ok f' ∧ ok f ∧ ok' f' ∧ Shows ops n f F ∧
      Shows ops' n f' F ∧ IluRec n A F := by
  obtain ⟨R, hR, h1, h2⟩ := storage_rep hst n
  obtain ⟨R', hR', h1', h2'⟩ := storage_rep hst' n
  rcases Ilu.new_same rfl (fun _ h => divAt_of h) hR hR' (h1 a A hok hA) (h1' a' A hok' hA') with h | ⟨f, f', F, F', e, e', hf, hf', hI, hFF⟩
  · exact .inl h
  · refine .inr ⟨f, f', F, e, e', (h2 f F hf).1, (h2' f' F' hf').1, (h2 f F hf).2, ?_, hI⟩
    have hS := (h2' f' F' hf').2
    exact ⟨hS.1, fun i j hi hj => by rw [hS.2 i j hi hj, hFF i j hi hj]⟩

theorem C55_ilu_solve (hst : Storage ops ok) (n : Nat) (a : M) (F : Nat → Nat → T) (hok : ok a)
    (hF : Shows ops n a F) (hd : ∀ i, i < n → F i i ≠ 0) (b : List T) (hb : b.length = n) :
    ∃ x, Ilu.solve ops a b = .ok x ∧ x.length = n ∧ IluSolveRec n F (val0 b) (val0 x) := by
  obtain ⟨R, hR, h1, h2⟩ := storage_rep hst n
  exact Ilu.solve_raw hR (h1 a F hok hF) (fun i hi => divAt_of (hd i hi)) hb

theorem C55_ilu_solve_same (hst : Storage ops ok) (hst' : Storage ops' ok') (n : Nat) (a : M) (a' : M')
    (F : Nat → Nat → T) (hok : ok a) (hok' : ok' a') (hF : Shows ops n a F) (hF' : Shows ops' n a' F)
    (hd : ∀ i, i < n → F i i ≠ 0) (b : List T) (hb : b.length = n) : Ilu.solve ops a b = Ilu.solve ops' a' b := by
  obtain ⟨x, e, hx, hs⟩ := C55_ilu_solve hst n a F hok hF hd b hb
  obtain ⟨x', e', hx', hs'⟩ := C55_ilu_solve hst' n a' F hok' hF' hd b hb
  rw [e, e', list_ext_val0 (show x.length = x'.length by omega) fun i hi => hs.unique hs' i (by omega)]

end ilu

/-! ## Tri-diagonal solver -/

section tdma
variable [Zero T] [Add T] [Sub T] [Mul T] [Neg T] [Div T] [DecidableEq T]

/-- The solver evaluates the recurrence or meets a zero pivot; `b = x` allowed. -/
theorem C55_tdma_vec (nd : Bool) (a : TriDiag T) (n : Nat) (hw : TriWf a n) (hn : 2 ≤ n) (b x : Nat) (m : Mem T)
    (hb : m.len b = n) (hx : m.len x = n) :
    (∃ l m' D P Q, Tdma.solveVec nd a b x m = .ok m' ∧ Stores m m' x l ∧ l.length = n ∧
      TdmaRec n a (val0 (m b)) (val0 l) D P Q) ∨ Tdma.solveVec nd a b x m = .error .nonFinite := by
  have hs : Tdma.Sizes a n 1 m b x := ⟨hn, hw.1, hw.2.1, hw.2.2.1, by omega, by omega⟩
  have hd : a.shape.1 = n := hw.1
  have h := Tdma.tdma_raw hs
  have hbx : Tdma.solveVec nd a b x m = noexcept (Tdma.tdma a n 1 b x m) := by
    unfold Tdma.solveVec
    rw [hd, hb]
    simp
  rw [hbx]
  cases e : Tdma.tdma a n 1 b x m with
  | error f => rw [e] at h; rw [h.1]; exact .inr rfl
  | ok m' =>
    rw [e] at h
    obtain ⟨l, rfl, hl, hq, _, hD⟩ := h
    refine .inl ⟨l, _, Tdma.D a, Tdma.P a, Tdma.Q a (val0 (m b)), rfl, stores_setBuf _ _ _, by omega, ?_⟩
    have := hq 0 (by omega)
    simp only [entry, Nat.mul_one, Nat.add_zero] at this
    exact Tdma.rec_of this fun i hi => divAt_iff.mp (hD (by omega) i hi)

/-- Several right-hand sides. -/
theorem C55_tdma_mat (nd : Bool) (a : TriDiag T) (n : Nat) (hw : TriWf a n) (hn : 2 ≤ n) (b x : MatRef) (m : Mem T)
    (hbw : b.Wf m) (hxw : x.Wf m) (hbn : b.n = n) (hxn : x.n = n) (hxm : x.m = b.m) :
    (∃ l m', Tdma.solveMat nd a b x m = .ok m' ∧ Stores m m' x.buf l ∧ l.length = n * b.m ∧
      ∀ k, k < b.m → ∃ D P Q,
        TdmaRec n a (fun i => entry b.m (m b.buf) i k) (fun i => entry b.m l i k) D P Q) ∨
    Tdma.solveMat nd a b x m = .error .nonFinite := by
  have h1 : m.len b.buf = n * b.m := by rw [hbw, hbn]
  have h2 : m.len x.buf = n * b.m := by rw [hxw, hxn, hxm]
  have hs : Tdma.Sizes a n b.m m b.buf x.buf := ⟨hn, hw.1, hw.2.1, hw.2.2.1, h1.ge, h2.ge⟩
  have hd : a.shape.1 = n := hw.1
  have h := Tdma.tdma_raw hs
  have hbx : Tdma.solveMat nd a b x m = noexcept (Tdma.tdma a n b.m b.buf x.buf m) := by
    unfold Tdma.solveMat
    rw [hd, hbn, hxn, hxm]
    simp
  rw [hbx]
  cases e : Tdma.tdma a n b.m b.buf x.buf m with
  | error f => rw [e] at h; rw [h.1]; exact .inr rfl
  | ok m' =>
    rw [e] at h
    obtain ⟨l, rfl, hl, hq, _, hD⟩ := h
    exact .inl ⟨l, _, rfl, stores_setBuf _ _ _, by omega, fun k hk =>
      ⟨_, _, _, Tdma.rec_of (hq k hk) fun i hi => divAt_iff.mp (hD (by omega) i hi)⟩⟩

omit [DecidableEq T] in
/-- The recurrence has one solution: the column of a matrix and the vector give the same numbers. -/
theorem C55_tdma_unique (n : Nat) (hn : 0 < n) (a : TriDiag T) (b x x' D P Q D' P' Q' : Nat → T)
    (h : TdmaRec n a b x D P Q) (h' : TdmaRec n a b x' D' P' Q') : ∀ i, i < n → x i = x' i := h.unique hn h'

end tdma

/-! ## Concrete cases

On `Int`, with integer division: an arithmetic in which `(a / b) * b = a` fails. -/

example : UTri.backSub (⟨2, [2, 1, 3]⟩ : UTri Int) [7, 10] = .ok [2, 3] := by decide +kernel
example : BackSubRec 2 (fun i j => val0 [2, 1, 0, 3] (2 * i + j)) (val0 [7, 10]) (val0 [(2 : Int), 3]) := by
  unfold BackSubRec; decide +kernel
-- `2 * 2 + 1 * 3 = 7`, but `3 * 3 ≠ 10`: the result is the value of the expression, not a solution
example : (Chol.modNew .square 2 [4, 0, 2, (5 : Int)]) = .ok [4, 0, 2, 4] ∧
    (Chol.modNew .triangle 2 [4, 2, (5 : Int)]) = .ok [4, 2, 4] := by decide +kernel
example : Ilu.new dOps (⟨2, 2, [2, 1, 5, 7]⟩ : DMat Int) = .ok ⟨2, 2, [2, 1, 2, 5]⟩ ∧
    Ilu.new csrOps (⟨[2, 1, 5, 7], [0, 2, 4], [0, 1, 0, 1]⟩ : Csr Int) = .ok ⟨[2, 1, 2, 5], [0, 2, 4], [0, 1, 0, 1]⟩ := by
  decide +kernel
example : (Tdma.solveVec true (⟨[1], [3, 3], [1]⟩ : TriDiag Int) 0 0 (Mem.ofList [[10, 20]])).map
    (fun m => m 0) = .ok [-5, 8] := by decide +kernel
-- the condition on the root holds for the reals
example (v : ℝ) (h : ¬ v < 0) (h0 : v ≠ 0) : Sqrt.sqrt v ≠ 0 :=
  (Real.sqrt_pos.mpr (lt_of_le_of_ne (not_lt.mp h) h0.symm)).ne'
example : gemmStart true 2 (3 : Int) = gemmStart false 2 3 := C55_gemm_start Int.mul_comm _ _ _ _

end Lalib.Props
