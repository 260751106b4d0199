import Verif.Proofs.DenseOps
import Verif.Proofs.Blas
import Mathlib.Tactic.LinearCombination

/-! # Properties C09-C17: dense matrices -/

namespace Lalib.Props

open Lalib

variable {T : Type}

/-! ## C09: reads see the last write and nothing else

A matrix whose element count is `n*m` (every `SizedMat`, and every `DynMat` built by a factory). -/

/-- In-range accesses stay inside the storage; a write changes exactly the addressed element. -/
theorem C09_write_read [Zero T] (a : DMat T) (hw : a.elems.length = a.n * a.m) (i j : Nat)
    (hi : i < a.n) (hj : j < a.m) (v : T) :
    ∃ a', a.set i j v = .ok a' ∧ a'.n = a.n ∧ a'.m = a.m ∧ a'.elems.length = a.n * a.m ∧
      a'.get i j = .ok v ∧
      ∀ i' j', i' < a.n → j' < a.m → (i', j') ≠ (i, j) → a'.get i' j' = a.get i' j' := by
  refine ⟨_, DMat.set_ok hw hi hj v, rfl, rfl, by simpa using hw, ?_, ?_⟩
  · rw [DMat.get_mk (by simpa using hw) hi hj, entry_set hw hi hj _ hj, if_pos ⟨rfl, rfl⟩]
  · intro i' j' hi' hj' hne
    rw [DMat.get_ok hw hi' hj', DMat.get_mk (by simpa using hw) hi' hj', entry_set hw hi hj _ hj', if_neg (by simpa using hne)]

/-- Row-major order: element `(i,j)` is element `i*m+j` of the iteration. -/
theorem C09_row_major (a : DMat T) (hw : a.elems.length = a.n * a.m) (i j : Nat) (hi : i < a.n)
    (hj : j < a.m) : ∃ h : i * a.m + j < a.elems.length, a.get i j = .ok (a.elems[i * a.m + j]) :=
  ⟨by rw [hw]; exact cell_lt hi hj, lrd_ok _⟩

/-- One write request of a history. -/
structure Write (T : Type) where
  i : Nat
  j : Nat
  v : T

/-- Run a history of writes. -/
def runWrites (a : DMat T) (h : List (Write T)) : Res (DMat T) :=
  h.foldlM (fun a w => a.set w.i w.j w.v) a

/-- What a position must hold after a history: the value of the last write to it. -/
def lastWrite (v0 : T) (i j : Nat) : List (Write T) → T
  | [] => v0
  | w :: h => lastWrite (if w.i = i ∧ w.j = j then w.v else v0) i j h

theorem C09_history [Zero T] (h : List (Write T)) (a : DMat T) (hw : a.elems.length = a.n * a.m)
    (hr : ∀ w ∈ h, w.i < a.n ∧ w.j < a.m) :
    ∃ a', runWrites a h = .ok a' ∧ a'.n = a.n ∧ a'.m = a.m ∧
      ∀ i j, i < a.n → j < a.m → ∃ v0, a.get i j = .ok v0 ∧ a'.get i j = .ok (lastWrite v0 i j h) := by
  induction h generalizing a with
  | nil =>
    exact ⟨a, rfl, rfl, rfl, fun i j hi hj => ⟨_, DMat.get_ok hw hi hj, DMat.get_ok hw hi hj⟩⟩
  | cons w h ih =>
    obtain ⟨h1, h2⟩ := hr w (by simp)
    obtain ⟨b, hb, bn, bm, bl, bg, bo⟩ := C09_write_read a hw w.i w.j h1 h2 w.v
    obtain ⟨c, hc, cn, cm, cg⟩ := ih b (by rw [bl, bn, bm]) (fun w' hw' => by
      rw [bn, bm]; exact hr w' (List.mem_cons_of_mem _ hw'))
    refine ⟨c, ?_, by rw [cn, bn], by rw [cm, bm], ?_⟩
    · simp only [runWrites, List.foldlM_cons, hb]
      exact hc
    · intro i j hi hj
      refine ⟨_, DMat.get_ok hw hi hj, ?_⟩
      obtain ⟨v0, hv0, hv⟩ := cg i j (by rw [bn]; exact hi) (by rw [bm]; exact hj)
      rw [hv]
      by_cases he : w.i = i ∧ w.j = j
      · obtain ⟨rfl, rfl⟩ := he
        rw [bg] at hv0
        cases hv0
        simp [lastWrite]
      · rw [bo i j hi hj (by simpa [Prod.ext_iff, eq_comm] using he), DMat.get_ok hw hi hj] at hv0
        cases hv0
        simp [lastWrite, he]

example : (runWrites (⟨2, 2, [1, 2, 3, 4]⟩ : DMat Int) [⟨0, 1, 7⟩, ⟨1, 0, 8⟩, ⟨0, 1, 9⟩]) =
    .ok ⟨2, 2, [1, 9, 8, 4]⟩ := rfl

/-! ## C10: factories -/

theorem C10_filled [Zero T] (v : T) (n m : Nat) :
    ∃ a, DMat.filled v n m = .ok a ∧ a.n = n ∧ a.m = m ∧ a.elems.length = n * m ∧
      ∀ i j, i < n → j < m → a.get i j = .ok v := by
  refine ⟨_, filled_eq v n m, rfl, rfl, by simp, ?_⟩
  intro i j hi hj
  rw [DMat.get_mk (by simp) hi hj]
  simp [entry, cell_lt hi hj]

theorem C10_diag [Zero T] (v : List T) :
    ∃ a, DMat.diag v = .ok a ∧ a.n = v.length ∧ a.m = v.length ∧
      a.elems.length = v.length * v.length ∧
      ∀ i j (hi : i < v.length), j < v.length → a.get i j = .ok (if i = j then v[i] else 0) := by
  refine ⟨_, diag_eq v, rfl, rfl, by simp, ?_⟩
  intro i j hi hj
  rw [DMat.get_mk (by simp) hi hj, entry_matOf _ hi hj, val0_of_lt hi]

theorem C10_identity [Zero T] [One T] (n : Nat) :
    ∃ a : DMat T, DMat.identity n = .ok a ∧ a.n = n ∧ a.m = n ∧ a.elems.length = n * n ∧
      ∀ i j, i < n → j < n → a.get i j = .ok (if i = j then 1 else 0) := by
  refine ⟨_, diagConst_eq 1 n, rfl, rfl, by simp, ?_⟩
  intro i j hi hj
  rw [DMat.get_mk (by simp) hi hj, entry_matOf _ hi hj]

theorem C10_diag_const [Zero T] (v : T) (n : Nat) :
    ∃ a, DMat.diagConst v n = .ok a ∧ a.n = n ∧ a.m = n ∧
      ∀ i j, i < n → j < n → a.get i j = .ok (if i = j then v else 0) := by
  refine ⟨_, diagConst_eq v n, rfl, rfl, ?_⟩
  intro i j hi hj
  rw [DMat.get_mk (by simp) hi hj, entry_matOf _ hi hj]

theorem C10_uninit [Zero T] (n m : Nat) :
    (DMat.uninit n m : DMat T).n = n ∧ (DMat.uninit n m : DMat T).m = m ∧
      (DMat.uninit n m : DMat T).elems.length = n * m := ⟨rfl, rfl, by simp [DMat.uninit]⟩

/-- `SizedMat` from data: runtime_error exactly when the count differs, row-major otherwise. -/
theorem C10_sized_mat (N M : Nat) (arr : List T) :
    (arr.length ≠ N * M → DMat.newSized N M arr = .error (.throw .runtimeError)) ∧
    (arr.length = N * M → ∃ a, DMat.newSized N M arr = .ok a ∧ a.n = N ∧ a.m = M ∧
      ∀ i j, i < N → j < M → ∃ h : i * M + j < arr.length, a.get i j = .ok (arr[i * M + j])) := by
  constructor
  · intro h
    have : (arr.length != N * M) = true := by simpa using h
    simp [DMat.newSized, this]
  · intro h
    refine ⟨⟨N, M, arr⟩, by simp [DMat.newSized, h], rfl, rfl, ?_⟩
    intro i j hi hj
    exact C09_row_major ⟨N, M, arr⟩ h i j hi hj

theorem C10_sized_vec (N : Nat) (l : List T) :
    (l.length ≠ N → sizedVecNew N l = .error (.throw .runtimeError)) ∧
    (l.length = N → sizedVecNew N l = .ok l) := by
  constructor
  · intro h
    have : (l.length != N) = true := by simpa using h
    simp [sizedVecNew, this]
  · intro h
    simp [sizedVecNew, h]

example : DMat.identity 2 = .ok (⟨2, 2, [1, 0, 0, 1]⟩ : DMat Int) := rfl
example : DMat.newSized 2 3 [1, 2, 3, 4, 5, (6 : Int)] = .ok ⟨2, 3, [1, 2, 3, 4, 5, 6]⟩ := rfl
example : DMat.newSized 2 3 [1, 2, (3 : Int)] = .error (.throw .runtimeError) := rfl

/-! ## C11: DynMat rejects data of the wrong length

False: the constructor never reports anything. -/

/-- The negation, for every shape and every length: construction succeeds. -/
theorem C11_never_rejects (n m : Nat) (arr : List T) : DMat.new n m arr = .ok ⟨n, m, arr⟩ := rfl

/-- Too little data: the last in-range position is undefined behaviour. -/
theorem C11_short_data_ub (n m : Nat) (arr : List T) (h : arr.length < n * m) :
    ∃ a, DMat.new n m arr = .ok a ∧ ∃ i j, i < n ∧ j < m ∧ a.get i j = .error (.ub .oob) := by
  have hm : 0 < n * m := by omega
  have hn := Nat.pos_of_mul_pos_right hm
  have hm' := Nat.pos_of_mul_pos_left hm
  refine ⟨_, rfl, n - 1, m - 1, by omega, by omega, ?_⟩
  apply lrd_oob
  obtain ⟨p, rfl⟩ : ∃ p, n = p + 1 := ⟨n - 1, by omega⟩
  rw [Nat.succ_mul] at h
  simp only [Nat.add_sub_cancel]
  omega

/-- What holds: with `n*m` elements or more every in-range position can be read and is the row-major
element.  (Missing: the report for other lengths, which the code does not make.) -/
theorem C11_readable_partial (n m : Nat) (arr : List T) (h : n * m ≤ arr.length) :
    ∃ a, DMat.new n m arr = .ok a ∧ a.n = n ∧ a.m = m ∧
      ∀ i j, i < n → j < m → ∃ hp : i * m + j < arr.length, a.get i j = .ok (arr[i * m + j]) :=
  ⟨_, rfl, rfl, rfl, fun _ _ hi hj => ⟨by have := cell_lt hi hj; omega, lrd_ok _⟩⟩

example : DMat.get (⟨2, 2, [1, 2, 3]⟩ : DMat Int) 1 1 = .error (.ub .oob) := rfl

/-! ## C12: matrix-vector product -/

/-- All overloads, `x = y` allowed.  (`A` is a matrix object, hence never the vector `y`.) -/
theorem C12_mul [CommRing T] (nd : Bool) (alpha beta : T) (a : MatRef) (x y : Nat) (s : Mem T)
    (ha : a.Wf s) (hx : s.len x = a.m) (hy : s.len y = a.n) (hay : a.buf ≠ y) :
    ∃ s', gemvDD nd alpha a x beta y s = .ok s' ∧ gemvSD nd alpha a x beta y s = .ok s' ∧
      gemvSS alpha a x beta y s = .ok s' ∧
      Stores s s' y ((List.range a.n).map fun i =>
        alpha * (∑ k ∈ Finset.range a.m, entry a.m (s a.buf) i k * val0 (s x) k)
          + beta * val0 (s y) i) := by
  have h := gemvCore_eq (alpha := alpha) (beta := beta) (n := a.n) (m := a.m) (mat := a.buf) (x := x)
    (y := y) (s := s) ha.ge hx.ge hy hay
  refine ⟨_, ?_, ?_, ?_, stores_setBuf _ _ _⟩
  · unfold gemvDD; rw [hx, hy]; simp only [beq_self_eq_true, cassert_true, ok_bind]; rw [h]; rfl
  · unfold gemvSD; rw [hx]; simp only [beq_self_eq_true, cassert_true, ok_bind]; rw [h]; rfl
  · unfold gemvSS; rw [h]; rfl

/-- `A * x`. -/
theorem C12_op [CommRing T] (nd : Bool) (a : DMat T) (v : List T) (ha : a.elems.length = a.n * a.m)
    (hv : v.length = a.m) :
    matVec nd a v = .ok ((List.range a.n).map fun i =>
      ∑ k ∈ Finset.range a.m, entry a.m a.elems i k * val0 v k) := matVec_eq ha hv

/-- Sizes that do not conform fail the assertion of a debug build. -/
theorem C12_mismatch_debug [CommRing T] (alpha beta : T) (a : MatRef) (x y : Nat) (s : Mem T)
    (h : a.m ≠ s.len x ∨ a.n ≠ s.len y) :
    gemvDD false alpha a x beta y s = .error .assertFail := by
  unfold gemvDD
  by_cases h1 : a.m = s.len x
  · have h2 : a.n ≠ s.len y := by tauto
    rw [h1, cassert_ne h2]; simp [noexcept]
  · rw [cassert_ne h1]; rfl

-- in place: x = y
example : (gemvDD true 2 ⟨0, 2, 2⟩ 1 3 1 (Mem.ofList [[1, 2, 3, 4], [5, 6]] : Mem Int)).map (· 1) =
    .ok [2 * (1 * 5 + 2 * 6) + 3 * 5, 2 * (3 * 5 + 4 * 6) + 3 * 6] := rfl
example : matVec false (⟨1, 3, [1, 2, 3]⟩ : DMat Int) [4, 5, 6] = .ok [32] := rfl

/-! ## C13: matrix-matrix product -/

/-- All overloads, any aliasing between `C` and `A`, `B`. -/
theorem C13_mul [CommRing T] (nd : Bool) (alpha beta : T) (a b c : MatRef) (s : Mem T) (ha : a.Wf s)
    (hb : b.Wf s) (hc : c.Wf s) (hac : a.n = c.n) (hbc : b.m = c.m) (hab : a.m = b.n) :
    ∃ s', gemmDDD nd alpha a b beta c s = .ok s' ∧ gemmSSS alpha a b beta c s = .ok s' ∧
      gemmDSS nd alpha a b beta c s = .ok s' ∧ gemmSDS nd alpha a b beta c s = .ok s' ∧
      gemmDDS nd alpha a b beta c s = .ok s' ∧ gemmDSD nd alpha a b beta c s = .ok s' ∧
      gemmSDD nd alpha a b beta c s = .ok s' ∧
      Stores s s' c.buf (matOf c.n c.m fun i j =>
        alpha * (∑ k ∈ Finset.range a.m, entry a.m (s a.buf) i k * entry c.m (s b.buf) k j)
          + beta * entry c.m (s c.buf) i j) := by
  have h := gemmCore_eq (alpha := alpha) (beta := beta) (n := c.n) (m := c.m) (o := a.m) (a := a.buf)
    (b := b.buf) (c := c.buf) (s := s) (by rw [← hac]; exact ha.ge) (by rw [hab, ← hbc]; exact hb.ge) hc
  refine ⟨_, ?_, ?_, ?_, ?_, ?_, ?_, ?_, stores_setBuf _ _ _⟩ <;>
    simp only [gemmDDD, gemmSSS, gemmDSS, gemmSDS, gemmDDS, gemmDSD, gemmSDD, hac, hbc, ← hab,
      beq_self_eq_true, cassert_true, ok_bind, h, noexcept_ok] <;> rfl

/-- `A * B`. -/
theorem C13_op [CommRing T] (nd : Bool) (a b : DMat T) (ha : a.elems.length = a.n * a.m)
    (hb : b.elems.length = b.n * b.m) (hab : a.m = b.n) :
    ∃ c, matMul nd a b = .ok c ∧ c.n = a.n ∧ c.m = b.m ∧ c.elems.length = a.n * b.m ∧
      ∀ i j, i < a.n → j < b.m → c.get i j =
        .ok (∑ k ∈ Finset.range a.m, entry a.m a.elems i k * entry b.m b.elems k j) := by
  refine ⟨_, matMul_eq ha hb hab, rfl, rfl, by simp, ?_⟩
  intro i j hi hj
  rw [DMat.get_mk (by simp) hi hj, entry_matOf _ hi hj]

theorem C13_mismatch_debug [CommRing T] (alpha beta : T) (a b c : MatRef) (s : Mem T)
    (h : a.n ≠ c.n ∨ b.m ≠ c.m ∨ a.m ≠ b.n) :
    gemmDDD false alpha a b beta c s = .error .assertFail := by
  unfold gemmDDD
  by_cases h1 : a.n = c.n
  · rw [h1]
    by_cases h2 : b.m = c.m
    · rw [h2, cassert_ne (show a.m ≠ b.n by tauto)]
      simp [noexcept]
    · rw [cassert_ne h2]; simp [noexcept]
  · rw [cassert_ne h1]; rfl

-- C = A = B, all the same object
example : (gemmDDD true 1 ⟨0, 2, 2⟩ ⟨0, 2, 2⟩ 10 ⟨0, 2, 2⟩ (Mem.ofList [[1, 2, 3, 4]] : Mem Int)).map (· 0) =
    .ok [17, 30, 45, 62] := rfl
example : matMul true (⟨1, 2, [1, 2]⟩ : DMat Int) ⟨2, 3, [1, 2, 3, 4, 5, 6]⟩ = .ok ⟨1, 3, [9, 12, 15]⟩ := rfl

/-! ## C14: element-wise matrix operations -/

/-- `add`/`sub`, all overloads, any aliasing, any order of the parallel loop. -/
theorem C14_add_sub [Add T] [Sub T] (nd : Bool) (ord : List Nat) (m1 m2 mr : MatRef) (s : Mem T)
    (h1 : m1.Wf s) (h2 : m2.Wf s) (hr : mr.Wf s) (hs : m1.n = m2.n ∧ m1.m = m2.m)
    (hsr : m1.n = mr.n ∧ m1.m = mr.m) (hp : ord.Perm (List.range (m1.n * m1.m))) :
    (∃ s', matAddDD nd ord m1 m2 mr s = .ok s' ∧ matAddSD nd ord m1 m2 mr s = .ok s' ∧
      matAddSS ord m1 m2 mr s = .ok s' ∧
      Stores s s' mr.buf (List.zipWith (· + ·) (s m1.buf) (s m2.buf))) ∧
    (∃ s', matSubDD nd ord m1 m2 mr s = .ok s' ∧ matSubSD nd ord m1 m2 mr s = .ok s' ∧
      matSubSS ord m1 m2 mr s = .ok s' ∧
      Stores s s' mr.buf (List.zipWith (· - ·) (s m1.buf) (s m2.buf))) := by
  have ea := matAddDD_eq (nd := nd) h1 h2 hr hs hsr hp
  have es := matSubDD_eq (nd := nd) h1 h2 hr hs hsr hp
  have c1 : (m1.n == m2.n && m1.m == m2.m) = true := by simp [hs]
  have c2 : (m1.n == mr.n && m1.m == mr.m) = true := by simp [hsr]
  refine ⟨⟨_, ea, ?_, ?_, stores_setBuf _ _ _⟩, ⟨_, es, ?_, ?_, stores_setBuf _ _ _⟩⟩
  · rw [← ea]; simp only [matAddSD, matAddDD, c1, c2, cassert_true, ok_bind]
  · rw [← ea]; simp only [matAddSS, matAddDD, c1, c2, cassert_true, ok_bind]
  · rw [← es]; simp only [matSubSD, matSubDD, c1, c2, cassert_true, ok_bind]
  · rw [← es]; simp only [matSubSS, matSubDD, c1, c2, cassert_true, ok_bind]

theorem C14_scale [Mul T] (alpha : T) (a : MatRef) (s : Mem T) (ha : a.Wf s) :
    ∃ s', matScale alpha a s = .ok s' ∧ Stores s s' a.buf ((s a.buf).map fun v => alpha * v) :=
  ⟨_, matScale_eq ha, stores_setBuf _ _ _⟩

/-- Value-returning operators: element by element, same shape. -/
theorem C14_ops [CommRing T] (nd : Bool) (ord : List Nat) (alpha : T) (a b : DMat T)
    (ha : a.elems.length = a.n * a.m) (hb : b.elems.length = b.n * b.m)
    (hs : a.n = b.n ∧ a.m = b.m) (hp : ord.Perm (List.range (a.n * a.m))) :
    matAddOp nd ord a b = .ok ⟨a.n, a.m, List.zipWith (· + ·) a.elems b.elems⟩ ∧
    matSubOp nd ord a b = .ok ⟨a.n, a.m, List.zipWith (· - ·) a.elems b.elems⟩ ∧
    matSmul alpha a = .ok ⟨a.n, a.m, a.elems.map fun v => alpha * v⟩ ∧
    matNeg a = .ok ⟨a.n, a.m, a.elems.map fun v => -v⟩ := by
  refine ⟨?_, ?_, ?_, ?_⟩
  · unfold matAddOp
    rw [matAddAt_eq (by exact ha) (by exact hb) hs hp (by simp) (by simp)]
    simp [Mem.ofList]
  · unfold matSubOp
    rw [matSubAt_eq (by exact ha) (by exact hb) hs hp (by simp) (by simp)]
    simp [Mem.ofList]
  · unfold matSmul
    rw [matSmulAt_eq (by exact ha)]
    simp [Mem.ofList]
  · unfold matNeg
    rw [matNegAt_eq (by exact ha)]
    simp [Mem.ofList]

theorem C14_mismatch_debug [Add T] [Sub T] (ord : List Nat) (m1 m2 mr : MatRef) (s : Mem T)
    (h : (m1.n, m1.m) ≠ (m2.n, m2.m) ∨ (m1.n, m1.m) ≠ (mr.n, mr.m)) :
    matAddDD false ord m1 m2 mr s = .error .assertFail ∧
      matSubDD false ord m1 m2 mr s = .error .assertFail := by
  simp only [ne_eq, Prod.mk.injEq] at h
  unfold matAddDD matSubDD
  by_cases h1 : m1.n = m2.n ∧ m1.m = m2.m
  · have h2 : ¬(m1.n = mr.n ∧ m1.m = mr.m) := by tauto
    have c1 : (m1.n == m2.n && m1.m == m2.m) = true := by simp [h1]
    have c2 : (m1.n == mr.n && m1.m == mr.m) = false := by
      rw [Bool.eq_false_iff]; simpa using h2
    simp [c1, c2, noexcept]
  · have c1 : (m1.n == m2.n && m1.m == m2.m) = false := by
      rw [Bool.eq_false_iff]; simpa using h1
    simp [c1, noexcept]

-- 4x4 (16 elements, parallel branch) in reversed order, in place
example : (matAddDD false (List.range 16).reverse ⟨0, 4, 4⟩ ⟨0, 4, 4⟩ ⟨0, 4, 4⟩
    (Mem.ofList [List.range 16])).map (· 0) = .ok ((List.range 16).map (2 * ·)) := by decide

/-! ## C15: ring laws -/

/-- `(A*B)*x = A*(B*x)`. -/
theorem C15_assoc_vec [CommRing T] (nd : Bool) (a b : DMat T) (x : List T)
    (ha : a.elems.length = a.n * a.m) (hb : b.elems.length = b.n * b.m) (hab : a.m = b.n)
    (hx : x.length = b.m) :
    ∃ y, (do let ab ← matMul nd a b; matVec nd ab x) = .ok y ∧
      (do let bx ← matVec nd b x; matVec nd a bx) = .ok y := by
  rw [matMul_eq ha hb hab, ok_bind, matVec_eq hb hx, ok_bind, matVec_eq (a := ⟨a.n, b.m, _⟩) (by simp) hx,
    matVec_eq ha (by simp [hab])]
  refine ⟨_, rfl, ?_⟩
  congr 1
  apply List.map_congr_left
  intro i hi
  have hi := List.mem_range.mp hi
  calc ∑ k ∈ Finset.range a.m, entry a.m a.elems i k * val0 (List.map (fun i =>
          ∑ k ∈ Finset.range b.m, entry b.m b.elems i k * val0 x k) (List.range b.n)) k
      = ∑ k ∈ Finset.range a.m, ∑ l ∈ Finset.range b.m,
          entry a.m a.elems i k * (entry b.m b.elems k l * val0 x l) := by
        apply Finset.sum_congr rfl
        intro k hk
        rw [val0_map_range, if_pos (by rw [← hab]; exact Finset.mem_range.mp hk), Finset.mul_sum]
    _ = _ := by
        rw [Finset.sum_comm]
        apply Finset.sum_congr rfl
        intro l hl
        simp only
        rw [entry_matOf _ hi (Finset.mem_range.mp hl), Finset.sum_mul]
        exact Finset.sum_congr rfl fun k _ => by ring

/-- `(A*B)*C = A*(B*C)`. -/
theorem C15_assoc [CommRing T] (nd : Bool) (a b c : DMat T) (ha : a.elems.length = a.n * a.m)
    (hb : b.elems.length = b.n * b.m) (hc : c.elems.length = c.n * c.m) (hab : a.m = b.n)
    (hbc : b.m = c.n) :
    ∃ y, (do let ab ← matMul nd a b; matMul nd ab c) = .ok y ∧
      (do let bc ← matMul nd b c; matMul nd a bc) = .ok y := by
  rw [matMul_eq ha hb hab, ok_bind, matMul_eq hb hc hbc, ok_bind,
    matMul_eq (a := ⟨a.n, b.m, _⟩) (by simp) hc hbc, matMul_eq (b := ⟨b.n, c.m, _⟩) ha (by simp) hab]
  refine ⟨_, rfl, ?_⟩
  congr 2
  apply matOf_congr
  intro i j hi hj
  calc ∑ k ∈ Finset.range a.m, entry a.m a.elems i k * entry c.m (matOf b.n c.m fun i j =>
          ∑ k ∈ Finset.range b.m, entry b.m b.elems i k * entry c.m c.elems k j) k j
      = ∑ k ∈ Finset.range a.m, ∑ l ∈ Finset.range b.m,
          entry a.m a.elems i k * (entry b.m b.elems k l * entry c.m c.elems l j) := by
        apply Finset.sum_congr rfl
        intro k hk
        rw [entry_matOf _ (by rw [← hab]; exact Finset.mem_range.mp hk) hj, Finset.mul_sum]
    _ = _ := by
        rw [Finset.sum_comm]
        apply Finset.sum_congr rfl
        intro l hl
        simp only
        rw [entry_matOf _ hi (Finset.mem_range.mp hl), Finset.sum_mul]
        exact Finset.sum_congr rfl fun k _ => by ring

/-- `I*A = A = A*I`, and `I*x = x`. -/
theorem C15_identity [CommRing T] (nd : Bool) (a : DMat T) (ha : a.elems.length = a.n * a.m)
    (x : List T) (hx : x.length = a.n) :
    (do let i ← DMat.identity a.n; matMul nd i a) = .ok a ∧
    (do let i ← DMat.identity a.m; matMul nd a i) = .ok a ∧
    (do let i ← DMat.identity a.n; matVec nd i x) = .ok x := by
  unfold DMat.identity
  rw [diagConst_eq, ok_bind, diagConst_eq, ok_bind, ok_bind, matMul_eq (by simp) ha rfl,
    matMul_eq ha (by simp) rfl, matVec_eq (by simp) hx]
  obtain ⟨n, m, e⟩ := a
  dsimp only at ha hx ⊢
  refine ⟨?_, ?_, ?_⟩
  · congr 2
    apply mat_ext (by simp) ha
    intro i j hi hj
    rw [entry_matOf _ hi hj, Finset.sum_eq_single i]
    · rw [entry_matOf _ hi hi]; simp
    · intro k hk hne
      rw [entry_matOf _ hi (Finset.mem_range.mp hk), if_neg (Ne.symm hne), zero_mul]
    · intro h; exact absurd (Finset.mem_range.mpr hi) h
  · congr 2
    apply mat_ext (by simp) ha
    intro i j hi hj
    rw [entry_matOf _ hi hj, Finset.sum_eq_single j]
    · rw [entry_matOf _ hj hj]; simp
    · intro k hk hne
      rw [entry_matOf _ (Finset.mem_range.mp hk) hj, if_neg hne, mul_zero]
    · intro h; exact absurd (Finset.mem_range.mpr hj) h
  · congr 1
    apply list_ext_val0 (by simp [hx])
    intro i hi
    simp only [List.length_map, List.length_range] at hi
    rw [val0_map_range, if_pos hi, Finset.sum_eq_single i]
    · rw [entry_matOf _ hi hi]; simp
    · intro k hk hne
      rw [entry_matOf _ hi (Finset.mem_range.mp hk), if_neg (Ne.symm hne), zero_mul]
    · intro h; exact absurd (Finset.mem_range.mpr hi) h

/-- `A*(x+y) = A*x + A*y`. -/
theorem C15_distrib [CommRing T] (nd : Bool) (a : DMat T) (x y : List T)
    (ha : a.elems.length = a.n * a.m) (hx : x.length = a.m) (hy : y.length = a.m)
    (ord ord' : List Nat) (hp : ord.Perm (List.range a.m)) (hp' : ord'.Perm (List.range a.n)) :
    ∃ z, (do let s ← addOp ord x y; matVec nd a s) = .ok z ∧
      (do let ax ← matVec nd a x; let ay ← matVec nd a y; addOp ord' ax ay) = .ok z := by
  rw [addOp_eq (by rw [hx]; exact hp) (by rw [hx, hy]), ok_bind, matVec_eq ha hx, ok_bind,
    matVec_eq ha hy, ok_bind, matVec_eq ha (by simp [hx, hy]), addOp_eq (by simpa using hp') (by simp)]
  refine ⟨_, rfl, ?_⟩
  congr 1
  apply list_ext_val0 (by simp)
  intro i hi
  simp only [List.length_zipWith, List.length_map, List.length_range, min_self] at hi
  rw [val0_zipWith (by simp) (by simpa using hi), val0_map_range, if_pos hi, val0_map_range, if_pos hi,
    val0_map_range, if_pos hi, ← Finset.sum_add_distrib]
  apply Finset.sum_congr rfl
  intro k hk
  rw [val0_zipWith (by rw [hx, hy]) (by rw [hx]; exact Finset.mem_range.mp hk)]
  ring

example : (do let ab ← matMul true (⟨2, 1, [2, 3]⟩ : DMat Int) ⟨1, 2, [5, 7]⟩; matVec true ab [1, 1]) =
    .ok [24, 36] := rfl

/-! ## C16: 2x2 inversion -/

section inv
variable [Field T] [DecidableEq T]

/-- Both call forms (`r = a` is the in-place call) store the same matrix. -/
theorem C16_invert (s : Mem T) (a r : Nat) (p q u v : T) (ha : s a = [p, q, u, v])
    (hr : s.len r = 4) (hd : p * v - q * u ≠ 0) :
    ∃ s', invert22 a r s = .ok s' ∧
      Stores s s' r [v / (p * v - q * u), -q / (p * v - q * u), -u / (p * v - q * u),
        p / (p * v - q * u)] :=
  ⟨_, by rw [invert22_run ha hr, if_neg hd], stores_setBuf _ _ _⟩

/-- All three functions agree. -/
theorem C16_forms_agree (s : Mem T) (a r : Nat) (ha : s.len a = 4) (hr : s.len r = 4) :
    (invert22 a r s).map (· r) = (invertInPlace a s).map (· a) ∧
      (a ≠ r → (invertedAt s a r).map (· r) = (invertInPlace a s).map (· a)) := by
  obtain ⟨p, q, u, v, h4⟩ := list4 (show (s a).length = 4 from ha)
  unfold invertInPlace invertedAt
  constructor
  · rw [invert22_run h4 hr, invert22_run h4 ha]
    split <;> simp [Except.map]
  · intro hne
    rw [invert22_run (by rw [Mem.setBuf_other _ hne, h4]) (by simp [Mem.len]), invert22_run h4 ha]
    split <;> simp [Except.map]

/-- `A*R = R*A = I`, with the library's product. -/
theorem C16_inverse (nd : Bool) (s s' : Mem T) (a r : Nat) (ha : s.len a = 4)
    (hr : s.len r = 4) (h : invert22 a r s = .ok s') :
    matMul nd ⟨2, 2, s a⟩ ⟨2, 2, s' r⟩ = DMat.identity 2 ∧
      matMul nd ⟨2, 2, s' r⟩ ⟨2, 2, s a⟩ = DMat.identity 2 := by
  obtain ⟨p, q, u, v, h4⟩ := list4 (show (s a).length = 4 from ha)
  rw [invert22_run h4 hr] at h
  by_cases hd : p * v - q * u = 0
  · rw [if_pos hd] at h; cases h
  · rw [if_neg hd] at h
    cases h
    rw [Mem.setBuf_self, h4, matMul_eq (by simp) (by simp) rfl, matMul_eq (by simp) (by simp) rfl]
    unfold DMat.identity
    rw [diagConst_eq]
    generalize hD : p * v - q * u = d at hd ⊢
    constructor
    all_goals
      congr 2
      apply matOf_congr
      intro i j hi hj
      have hi2 : i < 2 := hi
      have hj2 : j < 2 := hj
      have hi' : i = 0 ∨ i = 1 := by omega
      have hj' : j = 0 ∨ j = 1 := by omega
      rcases hi' with rfl | rfl <;> rcases hj' with rfl | rfl <;>
        simp [entry, val0, Finset.sum_range_succ] <;> field_simp <;>
        first | ring1 | linear_combination hD

/-- A singular matrix never gives a finite answer, and only a singular one is rejected. -/
theorem C16_singular (s : Mem T) (a r : Nat) (p q u v : T) (ha : s a = [p, q, u, v])
    (hr : s.len r = 4) :
    (p * v - q * u = 0 ↔ invert22 a r s = .error .nonFinite) ∧
      ((∃ s', invert22 a r s = .ok s') ↔ p * v - q * u ≠ 0) := by
  rw [invert22_run ha hr]
  split <;> simp_all

end inv

example : (invertInPlace 0 (Mem.ofList [[1, 2, 3, 4]] : Mem ℚ)).map (· 0) =
    .ok [-2, 1, 3/2, -1/2] := by decide +kernel
example : invertInPlace 0 (Mem.ofList [[1, 2, 2, 4]] : Mem ℚ) = .error .nonFinite := by
  rw [invertInPlace, invert22_run rfl rfl, if_pos (by norm_num)]

/-! ## C17: BLAS and internal backends agree

Full claim: `gemvBlas = gemvCore` and `gemmBlas = gemmCore` for all conforming shapes and all aliasing
patterns.  It is false (see the witnesses below). -/

section blas
variable [CommRing T]

/-- Holds for matrix-vector products with at least one column and `x ≠ y`. -/
theorem C17_gemv_partial (n m : Nat) (alpha beta : T) (mat x y : Nat) (s : Mem T) (hm : 0 < m)
    (ha : s.len mat = n * m) (hx : s.len x = m) (hy : s.len y = n) (hxy : x ≠ y) (hmy : mat ≠ y) :
    gemvBlas n m alpha mat x beta y s = gemvCore n m alpha mat x beta y s := by
  rw [gemvCore_eq ha.ge hx.ge hy hmy]
  unfold gemvBlas
  rw [if_neg hxy, cblasGemv_eq hm (by omega) (show n * m ≤ (s mat).length from ha.ge)
    (show m ≤ (s x).length from hx.ge) hy, ok_bind]

/-- With `x = y` the BLAS backend drops the term `beta * y`. -/
theorem C17_gemv_alias_drops_beta (n : Nat) (alpha beta : T) (mat y : Nat) (s : Mem T) (hn : 0 < n)
    (ha : s.len mat = n * n) (hy : s.len y = n) :
    ∃ s', gemvBlas n n alpha mat y beta y s = .ok s' ∧
      Stores s s' y ((List.range n).map fun i =>
        alpha * ∑ k ∈ Finset.range n, entry n (s mat) i k * val0 (s y) k) := by
  refine ⟨_, ?_, stores_setBuf _ _ _⟩
  unfold gemvBlas
  rw [if_pos rfl, cblasGemv_eq hn (by omega) (show n * n ≤ (s mat).length from ha.ge)
    (show n ≤ (s y).length from hy.ge) (by simp), ok_bind, copyTo_eq (by simp) hy]
  congr 2
  apply List.map_congr_left
  intro i hi
  simp [gemvSpec, List.mem_range.mp hi]

/-- Without columns the BLAS routine returns early and `y` is not scaled by `beta`. -/
theorem C17_gemv_no_columns (n : Nat) (alpha beta : T) (mat x y : Nat) (s : Mem T) (hy : s.len y = n)
    (hxy : x ≠ y) (hmy : mat ≠ y) :
    gemvBlas n 0 alpha mat x beta y s = .ok s ∧
      gemvCore n 0 alpha mat x beta y s = .ok (s.setBuf y ((s y).map fun v => beta * v)) := by
  constructor
  · unfold gemvBlas
    rw [if_neg hxy]
    simp [cblasGemv_cols0, Mem.setBuf_same]
  · rw [gemvCore_eq (by simp) (by simp) hy hmy]
    congr 2
    apply list_ext_val0 (by simp; exact hy.symm)
    intro i hi
    simp only [List.length_map, List.length_range] at hi
    rw [val0_map_range, if_pos hi, val0_map (show i < (s y).length from hi.trans_eq hy.symm)]
    simp [gemvSpec]

/-- Holds for matrix-matrix products with a square, non-empty result and inner dimension at least 1,
whatever the aliasing. -/
theorem C17_gemm_partial (n k : Nat) (alpha beta : T) (a b c : Nat) (s : Mem T) (hn : 0 < n)
    (hk : 0 < k) (ha : s.len a = n * k) (hb : s.len b = k * n) (hc : s.len c = n * n) :
    gemmBlas n n k alpha a b beta c s = gemmCore n n k alpha a b beta c s := by
  have hc' : (s c).length = n * n := hc
  rw [gemmCore_eq ha.ge hb.ge hc]
  have e := cblasGemm_eq (alpha := alpha) (beta := beta) hn hk (rfl : n = n)
    (show n * k ≤ (s a).length from ha.ge) (show k * n ≤ (s b).length from hb.ge) hc'
  unfold gemmBlas
  split
  · rw [copyFrom_eq hc, ok_bind, e, ok_bind, copyTo_eq (by simp) hc]
  · rw [e, ok_bind]

/-- A result with more columns than rows: the BLAS routine rejects the leading dimension `n`. -/
theorem C17_gemm_wide (n m k : Nat) (alpha beta : T) (a b c : Nat) (s : Mem T) (hk : 0 < k)
    (hnm : n < m) (hc : s.len c = n * m) :
    gemmBlas n m k alpha a b beta c s = .error .blasParam := by
  have e : ∀ l : List T, cblasGemm n m k alpha (s a) k (s b) m beta l n = .error .blasParam := by
    intro l
    unfold cblasGemm
    rw [show decide (max 1 k ≤ k) = true by simp; omega, blasCheck_true, ok_bind,
      show decide (max 1 m ≤ m) = true by simp; omega, blasCheck_true, ok_bind,
      show decide (max 1 m ≤ n) = false by simp; omega]
    rfl
  unfold gemmBlas
  split
  · rw [copyFrom_eq hc, ok_bind, e]; rfl
  · rw [e]; rfl

/-- A result with more rows than columns: the BLAS routine writes outside the array. -/
theorem C17_gemm_tall (n m k : Nat) (alpha beta : T) (a b c : Nat) (s : Mem T) (hk : 0 < k)
    (hm : 0 < m) (hnm : m < n) (ha : s.len a = n * k) (hb : s.len b = k * m) (hc : s.len c = n * m) :
    gemmBlas n m k alpha a b beta c s = .error (.ub .oob) := by
  have e := cblasGemm_tall (alpha := alpha) (beta := beta) hm hnm hk
    (show n * k ≤ (s a).length from ha.ge) (show k * m ≤ (s b).length from hb.ge) hc
  unfold gemmBlas
  split
  · rw [copyFrom_eq hc, ok_bind, e]; rfl
  · rw [e]; rfl

end blas

-- the internal backend computes beta*y + alpha*A*x = 3*5 + 1*5, BLAS stores 5
example : (gemvBlas 1 1 1 0 1 3 1 (Mem.ofList [[1], [5]] : Mem Int)).map (· 1) = .ok [5] ∧
    (gemvCore 1 1 1 0 1 3 1 (Mem.ofList [[1], [5]] : Mem Int)).map (· 1) = .ok [20] := ⟨rfl, rfl⟩

end Lalib.Props
