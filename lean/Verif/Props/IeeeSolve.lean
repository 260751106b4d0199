import Verif.Proofs.IeeeSolve
import Verif.Props.Eval
import Verif.Props.Ilu
import Verif.Props.Cholesky

/-! # Properties C67, C68: the direct solvers over IEEE 754 numbers

Every operation of `Fp F` yields a number, so no solver stops half-way: what can be asked is what the result shows. -/

namespace Lalib.Props

open Lalib

variable {F : Fmt}

/-! ## C67: solving

Each solver returns the solution of its recurrence.  One finite component tells that the numbers it depends on are finite
and that no pivot on the way is zero or NaN; one NaN makes everything that depends on it NaN. -/

theorem C67_back_sub (a : UTri (Fp F)) (R : Nat → Nat → Fp F) (y : List (Fp F)) (hy : y.length = a.n)
    (hR : ∀ i j, i < a.n → j < a.n → a.get i j = .ok (R i j)) :
    ∃ x, a.backSub y = .ok x ∧ x.length = a.n ∧ BackSubRec a.n R (val0 y) (val0 x) ∧
      (∀ i, i < a.n → (val0 x i).IsFin → ∀ j, i ≤ j → j < a.n → (val0 x j).IsFin ∧ (val0 y j).IsFin ∧
        R j j ≠ .nan ∧ ¬ IsZ (R j j) ∧ ∀ k, j < k → k < a.n → (R j k).IsFin) ∧
      ∀ j k, j ≤ k → k < a.n → val0 y j = .nan ∨ R j k = .nan → ∀ i, i ≤ j → val0 x i = .nan := by
  obtain ⟨x, e, hx, h⟩ := backSub_raw a hy hR fun i _ => Fp.divAt _
  refine ⟨x, e, hx, h, fun i hi hf j hij hj => h.fin hi hf hij hj, fun j k hjk hk hn i hij => ?_⟩
  by_contra hc
  obtain ⟨_, h1, h2⟩ := h.nn (show i < a.n by omega) hc hij (by omega)
  rcases hn with hn | hn
  · exact h1 hn
  · exact h2 k hjk hk hn

/-- What a column of the solution by a (modified) Cholesky factor shows. -/
def CholShows (n : Nat) (L : Nat → Nat → Fp F) (b x : Nat → Fp F) : Prop :=
  (∀ i, i < n → (x i).IsFin → (∀ j, i ≤ j → j < n → (x j).IsFin) ∧
    ∀ j, j < n → (b j).IsFin ∧ L j j ≠ .nan ∧ ¬ IsZ (L j j) ∧ ∀ k, k < j → (L j k).IsFin) ∧
  ∀ j k, k ≤ j → j < n → b j = .nan ∨ L j k = .nan → ∀ i, i < n → x i = .nan

theorem CholShows.of {md : Bool} {n : Nat} {L : Nat → Nat → Fp F} {b x : Nat → Fp F} (h : CholSolveRec md n L b x) :
    CholShows n L b x := by
  refine ⟨fun i hi hf => h.fin hi hf, fun j k hk hj hn i hi => ?_⟩
  by_contra hc
  obtain ⟨h1, h2⟩ := h.nn hi hc j hj
  rcases hn with hn | hn
  · exact h1 hn
  · exact h2 k hk hn

/-- One right-hand side, in place and not, whatever the factor holds. -/
theorem C67_chol_solve_vec (nd md : Bool) (mt : MemType) (n : Nat) (L : List (Fp F)) (G : Nat → Nat → Fp F)
    (hL : Lower mt n L G) (m : Mem (Fp F)) (b r : Nat) (hb : m.len b = n) (hr : r ≠ b) :
    ∃ x, x.length = n ∧ CholSolveRec md n G (val0 (m b)) (val0 x) ∧
      Chol.solveMutVec nd md mt n L b m = .ok (m.setBuf b x) ∧
      Chol.solveVecAt nd md mt n L b r m = .ok (m.setBuf r x) ∧ CholShows n G (val0 (m b)) (val0 x) := by
  obtain ⟨x, hx, hs, e, e'⟩ := Chol.solve_raw md mt n L hL.len (fun i _ => Fp.divAt _) m b r 1 (by omega) hr
  have h : CholSolveRec md n G (val0 (m b)) (val0 x) := by
    have := (hs 0 (by omega)).congr hL.val fun _ _ => rfl
    simpa [entry] using this
  refine ⟨x, by omega, h, ?_, ?_, .of h⟩
  · unfold Chol.solveMutVec; rw [hb]; simp [e]
  · unfold Chol.solveVecAt; rw [hb]; simp [e']

/-- Several right-hand sides. -/
theorem C67_chol_solve_mat (nd md : Bool) (mt : MemType) (n : Nat) (L : List (Fp F)) (G : Nat → Nat → Fp F)
    (hL : Lower mt n L G) (m : Mem (Fp F)) (b : MatRef) (r : Nat) (hb : b.Wf m) (hn : b.n = n) (hr : r ≠ b.buf) :
    ∃ x, x.length = n * b.m ∧
      Chol.solveMutMat nd md mt n L b m = .ok (m.setBuf b.buf x) ∧
      Chol.solveMatAt nd md mt n L b r m = .ok (m.setBuf r x) ∧
      ∀ k, k < b.m → CholSolveRec md n G (fun i => entry b.m (m b.buf) i k) (fun i => entry b.m x i k) ∧
        CholShows n G (fun i => entry b.m (m b.buf) i k) (fun i => entry b.m x i k) := by
  obtain ⟨x, hx, hs, e, e'⟩ := Chol.solve_raw md mt n L hL.len (fun i _ => Fp.divAt _) m b.buf r b.m (by rw [hb, hn]) hr
  refine ⟨x, by omega, ?_, ?_, fun k hk => ?_⟩
  · unfold Chol.solveMutMat; rw [hn]; simp [e]
  · unfold Chol.solveMatAt; rw [hn]; simp [e']
  · have := (hs k hk).congr hL.val fun _ _ => rfl
    exact ⟨this, .of this⟩

/-- Solving with the ILU factors, in any storage.  A NaN in the part above the diagonal reaches only the rows up to its
own. -/
theorem C67_ilu_solve {M : Type} {ops : MatOps M (Fp F)} {ok : M → Prop} (hst : Storage ops ok) (n : Nat) (a : M)
    (G : Nat → Nat → Fp F) (hok : ok a) (hG : Shows ops n a G) (b : List (Fp F)) (hb : b.length = n) :
    ∃ x, Ilu.solve ops a b = .ok x ∧ x.length = n ∧ IluSolveRec n G (val0 b) (val0 x) ∧
      (∀ i, i < n → (val0 x i).IsFin → (∀ j, j < n → (val0 b j).IsFin ∧ ∀ k, k < j → (G j k).IsFin) ∧
        ∀ j, i ≤ j → j < n → (val0 x j).IsFin ∧ G j j ≠ .nan ∧ ¬ IsZ (G j j) ∧ ∀ k, j < k → k < n → (G j k).IsFin) ∧
      (∀ j, j < n → val0 b j = .nan ∨ (∃ k, k < j ∧ G j k = .nan) → ∀ i, i < n → val0 x i = .nan) ∧
      ∀ j k, j ≤ k → k < n → G j k = .nan → ∀ i, i ≤ j → val0 x i = .nan := by
  obtain ⟨R, hR, h1, h2⟩ := storage_rep hst n
  obtain ⟨x, e, hx, h⟩ := Ilu.solve_raw hR (h1 a G hok hG) (fun i _ => Fp.divAt _) hb
  refine ⟨x, e, hx, h, fun i hi hf => h.fin hi hf, fun j hj hn i hi => ?_, fun j k hjk hk hn i hij => ?_⟩
  · by_contra hc
    obtain ⟨h1, h2⟩ := (h.nn hi hc).1 j hj
    rcases hn with hn | ⟨k, hk, hn⟩
    · exact h1 hn
    · exact h2 k hk hn
  · by_contra hc
    exact (h.nn (show i < n by omega) hc).2 j hij (by omega) k hjk hk hn

/-- What a column of the solution of a tri-diagonal system shows; `D` are the pivots. -/
def TdmaShows (n : Nat) (a : TriDiag (Fp F)) (b x D : Nat → Fp F) : Prop :=
  (∀ i, i < n → (x i).IsFin →
    (∀ j, j < n → (b j).IsFin ∧ D j ≠ .nan ∧ ¬ IsZ (D j) ∧ (j + 1 < n → (val0 a.dl j).IsFin)) ∧
    ∀ j, i ≤ j → j < n → (x j).IsFin ∧ (j + 1 < n → (val0 a.du j).IsFin)) ∧
  ∀ j, j < n → b j = .nan ∨ val0 a.d j = .nan ∨ (j + 1 < n ∧ (val0 a.dl j = .nan ∨ val0 a.du j = .nan)) →
    ∀ i, i < n → x i = .nan

theorem TdmaShows.of {n : Nat} {a : TriDiag (Fp F)} {b x D P Q : Nat → Fp F} (h : TdmaEq n a b x D P Q) :
    TdmaShows n a b x D := by
  refine ⟨fun i hi hf => h.fin hi hf, fun j hj hn i hi => ?_⟩
  by_contra hc
  obtain ⟨h1, h2, h3⟩ := h.nn hi hc j hj
  rcases hn with hn | hn | ⟨hj', hn | hn⟩
  · exact h1 hn
  · exact h2 hn
  · exact (h3 hj').1 hn
  · exact (h3 hj').2 hn

/-- The tri-diagonal solver, `b = x` allowed: a zero pivot leaves no finite component. -/
theorem C67_tdma_vec (nd : Bool) (a : TriDiag (Fp F)) (n : Nat) (hw : TriWf a n) (hn : 2 ≤ n) (b x : Nat)
    (m : Mem (Fp F)) (hb : m.len b = n) (hx : m.len x = n) :
    ∃ l m' D P Q, Tdma.solveVec nd a b x m = .ok m' ∧ Stores m m' x l ∧ l.length = n ∧
      TdmaEq n a (val0 (m b)) (val0 l) D P Q ∧ TdmaShows n a (val0 (m b)) (val0 l) D := by
  have hs : Tdma.Sizes a n 1 m b x := ⟨hn, hw.1, hw.2.1, hw.2.2.1, by omega, by omega⟩
  have hd : a.shape.1 = n := hw.1
  have h := Tdma.tdma_raw hs
  have hbx : Tdma.solveVec nd a b x m = noexcept (Tdma.tdma a n 1 b x m) := by
    unfold Tdma.solveVec
    rw [hd, hb]
    simp
  rw [hbx]
  cases e : Tdma.tdma a n 1 b x m with
  | error f =>
    rw [e] at h
    obtain ⟨_, i, _, hi⟩ := h
    exact absurd (Fp.divAt _) hi
  | ok m' =>
    rw [e] at h
    obtain ⟨l, rfl, hl, hq, _, hD⟩ := h
    have := hq 0 (by omega)
    simp only [entry, Nat.mul_one, Nat.add_zero] at this
    exact ⟨l, _, Tdma.D a, Tdma.P a, Tdma.Q a (val0 (m b)), rfl, stores_setBuf _ _ _, by omega, Tdma.eq_of this,
      .of (Tdma.eq_of this)⟩

theorem C67_tdma_mat (nd : Bool) (a : TriDiag (Fp F)) (n : Nat) (hw : TriWf a n) (hn : 2 ≤ n) (b x : MatRef)
    (m : Mem (Fp F)) (hbw : b.Wf m) (hxw : x.Wf m) (hbn : b.n = n) (hxn : x.n = n) (hxm : x.m = b.m) :
    ∃ l m' D P, Tdma.solveMat nd a b x m = .ok m' ∧ Stores m m' x.buf l ∧ l.length = n * b.m ∧
      ∀ k, k < b.m → ∃ Q, TdmaEq n a (fun i => entry b.m (m b.buf) i k) (fun i => entry b.m l i k) D P Q ∧
        TdmaShows n a (fun i => entry b.m (m b.buf) i k) (fun i => entry b.m l i k) D := by
  have h1 : m.len b.buf = n * b.m := by rw [hbw, hbn]
  have h2 : m.len x.buf = n * b.m := by rw [hxw, hxn, hxm]
  have hs : Tdma.Sizes a n b.m m b.buf x.buf := ⟨hn, hw.1, hw.2.1, hw.2.2.1, h1.ge, h2.ge⟩
  have hd : a.shape.1 = n := hw.1
  have h := Tdma.tdma_raw hs
  have hbx : Tdma.solveMat nd a b x m = noexcept (Tdma.tdma a n b.m b.buf x.buf m) := by
    unfold Tdma.solveMat
    rw [hd, hbn, hxn, hxm]
    simp
  rw [hbx]
  cases e : Tdma.tdma a n b.m b.buf x.buf m with
  | error f =>
    rw [e] at h
    obtain ⟨_, i, _, hi⟩ := h
    exact absurd (Fp.divAt _) hi
  | ok m' =>
    rw [e] at h
    obtain ⟨l, rfl, hl, hq, _, hD⟩ := h
    exact ⟨l, _, Tdma.D a, Tdma.P a, rfl, stores_setBuf _ _ _, by omega, fun k hk =>
      ⟨_, Tdma.eq_of (hq k hk), .of (Tdma.eq_of (hq k hk))⟩⟩

/-! ## C68: factorising

A NaN is neither zero nor negative, so no test of a pivot sees it: a matrix with a NaN is refused only because of the
rows above the NaN.  It is visible in every solution that is computed with the factor. -/

/-- What the constructor leaves: the factor, or (first pivot zero or negative, return code 0, see `C36_false`) the matrix
itself. -/
theorem C68_cholesky (mt : MemType) (n : Nat) (l : List (Fp F)) (A : Nat → Nat → Fp F) (hl : Lower mt n l A) :
    Chol.new mt n l = .error (.throw .runtimeError) ∨
    ∃ L, Chol.new mt n l = .ok L ∧ L.length = l.length ∧
      ((CholRec n A (held mt n L) ∧ ∀ i, i < n → ¬ IsZ (held mt n L i i)) ∨
        (0 < n ∧ (IsZ (A 0 0) ∨ A 0 0 < 0) ∧ Lower mt n L A)) := by
  obtain ⟨⟨c, L⟩, e, h | h⟩ := Chol.decomp_raw Fp.sq_ok mt n l hl.len.ge
  · obtain ⟨hc, hI⟩ := h
    simp only at hc hI
    subst hc
    refine .inr ⟨L, by simp [Chol.new, e], hI.len, .inl ⟨?_, ?_⟩⟩
    · rw [held_eq]; exact hI.cholRec hl.val
    · intro i hi
      rw [held_eq]
      show ¬ IsZ (val0 L (cIndex mt n i i))
      rw [hI.diag i hi]
      exact Fp.sqrt_nz (hI.pos i hi).2
  · simp only at h
    by_cases hc : c = 0
    · subst hc
      have hp : Chol.pivot (cIndex mt n) l L 0 = A 0 0 := by
        rw [← hl.val 0 0 (Nat.le_refl _) h.lt]; rfl
      refine .inr ⟨L, by simp [Chol.new, e], h.len, .inr ⟨h.lt, by rw [← hp]; exact h.piv, ?_, ?_⟩⟩
      · rw [h.len]; exact hl.1
      · intro i j hj hi
        rw [held_eq]
        show val0 L (cIndex mt n i j) = A i j
        by_cases h0 : i = 0
        · subst h0
          obtain rfl : j = 0 := by omega
          rw [h.cell, hp]
        · rw [h.frame, hl.val i j hj hi]
          intro r c hc hr he
          have := ((layout mt n l.length hl.len.ge).inj i j r c hj hi hc (by have := h.lt; omega) he).1
          omega
    · exact .inl (by simp [Chol.new, e, throwIf_ne hc])

/-- A NaN in row `i` and the rows below have no influence on the outcome: it is that of the leading `i` rows.  For
`i = 0` the matrix is accepted. -/
theorem C68_cholesky_nan (mt mt' : MemType) (n : Nat) (l l' : List (Fp F)) (A : Nat → Nat → Fp F) (hl : Lower mt n l A)
    (i j : Nat) (hi : i < n) (hj : j ≤ i) (hn : A i j = .nan) (hl' : Lower mt' i l' A) :
    (Chol.new mt n l = .error (.throw .runtimeError) ↔ Chol.new mt' i l' = .error (.throw .runtimeError)) ∧
      (i = 0 → ∃ L, Chol.new mt n l = .ok L) := by
  obtain ⟨c, L, L', e, e'⟩ := Chol.decomp_nan mt mt' hi hl.len.ge hl'.len.ge hl.val hl'.val hj hn
  have e1 : Chol.new mt n l = (do throwIf (c != 0) .runtimeError; .ok L) := by simp [Chol.new, e]
  have e2 : Chol.new mt' i l' = (do throwIf (c != 0) .runtimeError; .ok L') := by simp [Chol.new, e']
  rw [e1, e2]
  by_cases hc : c = 0
  · subst hc; simp
  · refine ⟨by simp [throwIf_ne hc], fun h0 => ?_⟩
    subst h0
    have : Chol.decomp mt' 0 l' = .ok (0, l') := by
      rfl
    rw [this] at e'
    injection e' with e'
    injection e' with e' _
    exact absurd e'.symm hc

/-- What an accepted matrix must hold for its factor to give a finite component. -/
theorem cholFactor_shows {n : Nat} {A L : Nat → Nat → Fp F}
    (h : CholRec n A L ∨ ∀ i j, j ≤ i → i < n → L i j = A i j) :
    (∀ j k, k < j → j < n → (L j k).IsFin → (A j k).IsFin) ∧ (∀ j, j < n → L j j ≠ .nan → A j j ≠ .nan) ∧
      ∀ i j, j ≤ i → i < n → A i j = .nan → L i i = .nan ∨ L i j = .nan := by
  rcases h with h | h
  · refine ⟨fun j k hk hj hf => ?_, fun j hj hf => ?_, fun i j hj hi hn => ?_⟩
    · rw [(h j hj).1 k hk] at hf
      exact (Fp.isFin_subUp (Fp.fin_of_div hf).1).1
    · rw [(h j hj).2] at hf
      exact (Fp.nn_subUp (Fp.nn_of_sqrt hf)).1
    · right
      rcases Nat.lt_or_eq_of_le hj with hlt | rfl
      · by_contra hc
        rw [(h i hi).1 j hlt] at hc
        exact (Fp.nn_subUp (Fp.nn_of_div _ _ hc).1).1 hn
      · by_contra hc
        rw [(h j hi).2] at hc
        exact (Fp.nn_subUp (Fp.nn_of_sqrt hc)).1 hn
  · refine ⟨fun j k hk hj hf => ?_, fun j hj hf => ?_, fun i j hj hi hn => ?_⟩
    · rwa [← h j k (by omega) hj]
    · rwa [← h j j (Nat.le_refl _) hj]
    · right; rw [h i j hj hi, hn]

/-- What a solution tells about the matrix that was factorised. -/
def MatShows (n : Nat) (A : Nat → Nat → Fp F) (b x : Nat → Fp F) : Prop :=
  (∀ i, i < n → (x i).IsFin → ∀ j, j < n → (b j).IsFin ∧ A j j ≠ .nan ∧ ∀ k, k < j → (A j k).IsFin) ∧
  ∀ j k, k ≤ j → j < n → b j = .nan ∨ A j k = .nan → ∀ i, i < n → x i = .nan

theorem MatShows.of {n : Nat} {A L : Nat → Nat → Fp F} {b x : Nat → Fp F} (h : CholShows n L b x)
    (hL : (∀ j k, k < j → j < n → (L j k).IsFin → (A j k).IsFin) ∧ (∀ j, j < n → L j j ≠ .nan → A j j ≠ .nan) ∧
      ∀ i j, j ≤ i → i < n → A i j = .nan → L i i = .nan ∨ L i j = .nan) : MatShows n A b x := by
  refine ⟨fun i hi hf j hj => ?_, fun j k hk hj hn i hi => ?_⟩
  · obtain ⟨_, h2⟩ := h.1 i hi hf
    obtain ⟨h3, h4, _, h6⟩ := h2 j hj
    exact ⟨h3, hL.2.1 j hj h4, fun k hk => hL.1 j k hk hj (h6 k hk)⟩
  · rcases hn with hn | hn
    · exact h.2 j k hk hj (.inl hn) i hi
    · rcases hL.2.2 j k hk hj hn with h1 | h1
      · exact h.2 j j (Nat.le_refl _) hj (.inr h1) i hi
      · exact h.2 j k hk hj (.inr h1) i hi

/-- Factorise and solve: a solution with a finite component tells that nothing off the diagonal is infinite and that no
NaN was read. -/
theorem C68_cholesky_solve (nd : Bool) (mt : MemType) (n : Nat) (l L : List (Fp F)) (A : Nat → Nat → Fp F)
    (hl : Lower mt n l A) (hL : Chol.new mt n l = .ok L) (m : Mem (Fp F)) (b r : Nat) (hb : m.len b = n) (hr : r ≠ b) :
    ∃ x, x.length = n ∧ Chol.solveMutVec nd false mt n L b m = .ok (m.setBuf b x) ∧
      Chol.solveVecAt nd false mt n L b r m = .ok (m.setBuf r x) ∧ MatShows n A (val0 (m b)) (val0 x) := by
  rcases C68_cholesky mt n l A hl with e | ⟨L', e, hlen, h⟩
  · rw [hL] at e; exact absurd e (by simp)
  · rw [hL] at e; injection e with e; subst e
    have hLw : Lower mt n L (held mt n L) := ⟨by rw [hlen]; exact hl.1, fun _ _ _ _ => rfl⟩
    obtain ⟨x, hx, _, e1, e2, hs⟩ := C67_chol_solve_vec nd false mt n L _ hLw m b r hb hr
    refine ⟨x, hx, e1, e2, .of hs (cholFactor_shows ?_)⟩
    rcases h with h | h
    · exact .inl h.1
    · exact .inr h.2.2.2

theorem C68_mod_cholesky (mt : MemType) (n : Nat) (l : List (Fp F)) (A : Nat → Nat → Fp F) (hl : Lower mt n l A) :
    Chol.modNew mt n l = .error (.throw .runtimeError) ∨
    ∃ L, Chol.modNew mt n l = .ok L ∧ L.length = l.length ∧ (∀ i, i < n → ¬ IsZ (held mt n L i i)) ∧
      ModRec n A (held mt n L) := by
  rcases Chol.modNew_same (fun v _ => Fp.divAt v) mt mt n hl.len.ge hl.len.ge hl.val hl.val with
    ⟨e, _⟩ | ⟨L, L', e, _, h1, _, h2, h3, _⟩
  · exact .inl e
  · exact .inr ⟨L, e, h1, by simpa only [held_eq] using h2, by simpa only [held_eq] using h3⟩

/-- The same for the modified factorisation, whose only test is `== 0`. -/
theorem C68_mod_cholesky_nan (mt mt' : MemType) (n : Nat) (l l' : List (Fp F)) (A : Nat → Nat → Fp F)
    (hl : Lower mt n l A) (i j : Nat) (hi : i < n) (hj : j ≤ i) (hn : A i j = .nan) (hl' : Lower mt' i l' A) :
    (Chol.modNew mt n l = .error (.throw .runtimeError) ↔ Chol.modNew mt' i l' = .error (.throw .runtimeError)) ∧
      (i = 0 → ∃ L, Chol.modNew mt n l = .ok L) := by
  have h := Chol.modNew_raw (fun v _ => Fp.divAt v) mt n l hl.len.ge
  have h' := Chol.modNew_raw (fun v _ => Fp.divAt v) mt' i l' hl'.len.ge
  have uniq : ∀ {L L' : Nat → Nat → Fp F} {r : Nat},
      (∀ i j, j ≤ i → i ≤ r → L i j = subUp (fun k => L i k * L j k / L k k) 0 j (A i j)) →
      (∀ i j, j ≤ i → i ≤ r → L' i j = subUp (fun k => L' i k * L' j k / L' k k) 0 j (A i j)) → L r r = L' r r := by
    intro L L' r h1 h2
    exact ModRec.unique (n := r + 1) (A := A) (fun i j hj hi => h1 i j hj (by omega))
      (fun i j hj hi => h2 i j hj (by omega)) r r (Nat.le_refl _) (by omega)
  have key : ∀ f, Chol.modNew mt n l = .error f → f = .throw .runtimeError ∧
      Chol.modNew mt' i l' = .error (.throw .runtimeError) := by
    intro f e
    rw [e] at h
    obtain ⟨rfl, r, L, hS⟩ := h
    refine ⟨rfl, ?_⟩
    have hfac : ∀ a b, b ≤ a → a ≤ r → val0 L (cIndex mt n a b) = subUp (fun k => val0 L (cIndex mt n a k) *
        val0 L (cIndex mt n b k) / val0 L (cIndex mt n k k)) 0 b (A a b) := by
      intro a b hb ha
      rw [hS.fac a b hb ha, hl.val a b hb (by have := hS.lt; omega)]
    have hri : r < i := by
      by_contra hc
      refine modRec_nn (L := fun a b => val0 L (cIndex mt n a b)) hfac ?_ i j hj (by omega) hn
      intro h0
      have := hS.zero
      rw [h0] at this
      exact Fp.not_isZ_nan this
    cases e' : Chol.modNew mt' i l' with
    | error f' => rw [e'] at h'; rw [h'.1]
    | ok L' =>
      rw [e'] at h'
      have := uniq (L := fun a b => val0 L (cIndex mt n a b)) (L' := fun a b => val0 L' (cIndex mt' i a b)) (r := r)
        hfac (fun a b hb ha => by
          rw [Chol.RModInv.fac h' a b hb (by omega), hl'.val a b hb (by omega)])
      have hz := hS.zero
      rw [this] at hz
      exact absurd hz (Chol.RModInv.piv h' r hri)
  refine ⟨⟨fun e => (key _ e).2, fun e' => ?_⟩, fun h0 => ?_⟩
  · cases e : Chol.modNew mt n l with
    | error f => rw [(key _ e).1]
    | ok L =>
      rw [e] at h
      rw [e'] at h'
      obtain ⟨_, r, L', hS⟩ := h'
      have hlt := hS.lt
      have := uniq (L := fun a b => val0 L' (cIndex mt' i a b)) (L' := fun a b => val0 L (cIndex mt n a b)) (r := r)
        (fun a b hb ha => by
          rw [hS.fac a b hb ha, hl'.val a b hb (by omega)])
        (fun a b hb ha => by
          rw [Chol.RModInv.fac h a b hb (by omega), hl.val a b hb (by omega)])
      have hz := hS.zero
      rw [this] at hz
      exact absurd hz (Chol.RModInv.piv h r (by omega))
  · cases e : Chol.modNew mt n l with
    | ok L => exact ⟨L, rfl⟩
    | error f =>
      have := (key _ e).2
      subst h0
      have h1 : Chol.modNew mt' 0 l' = .ok l' := rfl
      rw [h1] at this
      exact absurd this (by simp)

theorem C68_mod_cholesky_solve (nd : Bool) (mt : MemType) (n : Nat) (l L : List (Fp F)) (A : Nat → Nat → Fp F)
    (hl : Lower mt n l A) (hL : Chol.modNew mt n l = .ok L) (m : Mem (Fp F)) (b r : Nat) (hb : m.len b = n)
    (hr : r ≠ b) :
    ∃ x, x.length = n ∧ Chol.solveMutVec nd true mt n L b m = .ok (m.setBuf b x) ∧
      Chol.solveVecAt nd true mt n L b r m = .ok (m.setBuf r x) ∧ MatShows n A (val0 (m b)) (val0 x) := by
  rcases C68_mod_cholesky mt n l A hl with e | ⟨L', e, hlen, _, h⟩
  · rw [hL] at e; exact absurd e (by simp)
  · rw [hL] at e; injection e with e; subst e
    have hLw : Lower mt n L (held mt n L) := ⟨by rw [hlen]; exact hl.1, fun _ _ _ _ => rfl⟩
    obtain ⟨x, hx, _, e1, e2, hs⟩ := C67_chol_solve_vec nd true mt n L _ hLw m b r hb hr
    refine ⟨x, hx, e1, e2, .of hs ⟨fun j k hk hj hf => ?_, fun j hj hf => ?_, fun i j hj hi hn => .inr ?_⟩⟩
    · rw [h j k (by omega) hj] at hf
      exact (Fp.isFin_subUp hf).1
    · rw [h j j (Nat.le_refl _) hj] at hf
      exact (Fp.nn_subUp hf).1
    · by_contra hc
      rw [h i j hj hi] at hc
      exact (Fp.nn_subUp hc).1 hn

/-- ILU(0) in any two storages: accepted or refused alike, the same factors; then solving. -/
theorem C68_ilu {M M' : Type} {ops : MatOps M (Fp F)} {ok : M → Prop} {ops' : MatOps M' (Fp F)} {ok' : M' → Prop}
    (hst : Storage ops ok) (hst' : Storage ops' ok') (n : Nat) (a : M) (a' : M') (A : Nat → Nat → Fp F) (hok : ok a)
    (hok' : ok' a') (hA : Shows ops n a A) (hA' : Shows ops' n a' A) :
    (Ilu.new ops a = .error (.throw .runtimeError) ∧ Ilu.new ops' a' = .error (.throw .runtimeError)) ∨
    ∃ f f' G, Ilu.new ops a = .ok f ∧ Ilu.new ops' a' = .ok f' ∧ ok f ∧ ok' f' ∧ Shows ops n f G ∧
      Shows ops' n f' G ∧ IluRec n A G := by
  obtain ⟨R, hR, h1, h2⟩ := storage_rep hst n
  obtain ⟨R', hR', h1', h2'⟩ := storage_rep hst' n
  rcases Ilu.new_same Fp.isZ_zero (fun v _ => Fp.divAt v) hR hR' (h1 a A hok hA) (h1' a' A hok' hA') with
    h | ⟨f, f', G, G', e, e', hf, hf', hI, hGG⟩
  · exact .inl h
  · refine .inr ⟨f, f', G, e, e', (h2 f G hf).1, (h2' f' G' hf').1, (h2 f G hf).2, ?_, hI⟩
    have hS := (h2' f' G' hf').2
    exact ⟨hS.1, fun i j hi hj => by rw [hS.2 i j hi hj, hGG i j hi hj]⟩

/-- A component `i` of the solution that is finite tells that `b` and what is below the diagonal are finite, and so is
what is above it from row `i` on; a zero on the diagonal leaves nothing finite above it. -/
theorem C68_ilu_solve {M : Type} {ops : MatOps M (Fp F)} {ok : M → Prop} (hst : Storage ops ok) (n : Nat) (a f : M)
    (A : Nat → Nat → Fp F) (hok : ok a) (hA : Shows ops n a A) (hf : Ilu.new ops a = .ok f) (b : List (Fp F))
    (hb : b.length = n) :
    ∃ x, Ilu.solve ops f b = .ok x ∧ x.length = n ∧
      (∀ i, i < n → (val0 x i).IsFin → (∀ j, j < n → (val0 b j).IsFin ∧ ∀ k, k < j → (A j k).IsFin) ∧
        ∀ j, i ≤ j → j < n → (val0 x j).IsFin ∧ A j j ≠ .nan ∧ ¬ IsZ (A j j) ∧ ∀ k, j < k → k < n → (A j k).IsFin) ∧
      (∀ j, j < n → val0 b j = .nan ∨ (∃ k, k < j ∧ A j k = .nan) → ∀ i, i < n → val0 x i = .nan) ∧
      ∀ j k, j ≤ k → k < n → A j k = .nan → ∀ i, i ≤ j → val0 x i = .nan := by
  rcases C68_ilu hst hst n a a A hok hok hA hA with ⟨e, _⟩ | ⟨f1, f2, G, e, _, hok1, _, hG, _, hI⟩
  · rw [hf] at e; exact absurd e (by simp)
  rw [hf] at e; injection e with e; subst e
  obtain ⟨x, ex, hx, _, h1, h2, h3⟩ := C67_ilu_solve hst n f G hok1 hG b hb
  have fin_of_z : ∀ {v : Fp F}, IsZ v → v.IsFin := fun h => ((Fp.isZ_iff _).mp h).1
  have low : ∀ j k, j < n → k < j → (G j k).IsFin → (A j k).IsFin := by
    intro j k hj hk hfin
    by_cases hz : IsZ (A j k)
    · exact fin_of_z hz
    · rw [((hI j k hj (by omega)).2.1 hk hz).2] at hfin
      exact (Fp.isFin_subUp (Fp.fin_of_div hfin).1).1
  have upp : ∀ j k, j ≤ k → k < n → (G j k).IsFin → (A j k).IsFin := by
    intro j k hjk hk hfin
    by_cases hz : IsZ (A j k)
    · exact fin_of_z hz
    · rw [(hI j k (by omega) hk).2.2 hjk hz] at hfin
      exact (Fp.isFin_subUp hfin).1
  have nan_of : ∀ j k, j < n → k < n → A j k = .nan → G j k = .nan := by
    intro j k hj hk hn
    have hz : ¬ IsZ (A j k) := by rw [hn]; exact Fp.not_isZ_nan
    by_contra hc
    rcases Nat.lt_or_ge k j with hlt | hge
    · rw [((hI j k hj hk).2.1 hlt hz).2] at hc
      exact (Fp.nn_subUp (Fp.nn_of_div _ _ hc).1).1 hn
    · rw [(hI j k hj hk).2.2 hge hz] at hc
      exact (Fp.nn_subUp hc).1 hn
  refine ⟨x, ex, hx, fun i hi hfin => ?_, fun j hj hn => ?_, fun j k hjk hk hn => ?_⟩
  · obtain ⟨h4, h5⟩ := h1 i hi hfin
    refine ⟨fun j hj => ⟨(h4 j hj).1, fun k hk => low j k hj hk ((h4 j hj).2 k hk)⟩, fun j hij hj => ?_⟩
    obtain ⟨h6, h7, h8, h9⟩ := h5 j hij hj
    refine ⟨h6, fun hn => h7 (nan_of j j hj hj hn), fun hz => ?_, fun k hk hkn => upp j k (by omega) hkn (h9 k hk hkn)⟩
    rw [(hI j j hj hj).1 hz] at h8
    exact h8 hz
  · refine h2 j hj ?_
    rcases hn with hn | ⟨k, hk, hn⟩
    · exact .inl hn
    · exact .inr ⟨k, hk, nan_of j k hj (by omega) hn⟩
  · exact h3 j k hjk hk (nan_of j k (by omega) hk hn)

/-! ## Concrete cases -/

-- `[nan]` is accepted by both factorisations, and every solution is NaN
example : ∃ L, Chol.new .square 1 [(.nan : Fp F)] = .ok L :=
  (C68_cholesky_nan .square .square 1 [.nan] [] (fun _ _ => .nan) ⟨rfl, by
    intro i j hj hi; obtain rfl : i = 0 := by omega
    obtain rfl : j = 0 := by omega
    rfl⟩ 0 0 (by omega) (by omega) rfl ⟨rfl, by intro i j _ hi; omega⟩).2 rfl
-- a finite solution is possible with an infinite pivot: `(1 / inf) / inf` is zero
example : CholSolveRec false 1 (fun _ _ => (.inf false : Fp F)) (fun _ => 1) (fun _ => 1 / .inf false / .inf false) ∧
    IsZ ((1 : Fp F) / .inf false / .inf false) := by
  refine ⟨⟨fun _ => 1 / .inf false, ?_, ?_⟩, Fp.div_inf ((Fp.isZ_iff _).mp (Fp.div_inf Fp.isFin_one _)).1 _⟩
  · intro i hi; obtain rfl : i = 0 := by omega
    rfl
  · intro i hi; obtain rfl : i = 0 := by omega
    rfl
-- a zero pivot in a tri-diagonal system
example : ∃ l m', Tdma.solveVec true (⟨[0], [0, 0], [0]⟩ : TriDiag (Fp F)) 0 0 (Mem.ofList [[1, 1]]) = .ok m' ∧
    Stores (Mem.ofList [[1, 1]]) m' 0 l ∧ l.length = 2 ∧ ∀ i, i < 2 → ¬ (val0 l i).IsFin := by
  obtain ⟨l, m', D, P, Q, e, hs, hl, hq, hsh⟩ := C67_tdma_vec true (⟨[0], [0, 0], [0]⟩ : TriDiag (Fp F)) 2
    ⟨rfl, rfl, rfl, by decide⟩ (by omega) 0 0 (Mem.ofList [[1, 1]]) rfl rfl
  refine ⟨l, m', e, hs, hl, fun i hi hf => ?_⟩
  have := ((hsh.1 i hi hf).1 0 (by omega)).2.2.1
  rw [hq.d0] at this
  exact this Fp.isZ_zero

end Lalib.Props
