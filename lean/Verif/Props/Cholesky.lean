import Verif.Proofs.Cholesky

/-! # Properties C35 - C39: Cholesky factorisations

`A` is an arbitrary matrix, given as a function.  `Lower mt n l A` says that the stored data `l` has the
right length and shows `A` in its lower triangle, for the square (`DynMat`) and the packed
(`DynHermiteMat`) storage.  The entries above the diagonal of a `DynMat` are not looked at. -/

namespace Lalib.Props

open Lalib

variable {T : Type}

/-- Entry `(i, j)`, `j ≤ i`, of the stored data. -/
def held [Zero T] : MemType → Nat → List T → Nat → Nat → T
  | .square, n, l, i, j => entry n l i j
  | .triangle, _, l, i, j => packed l i j

/-- `l` stores the lower triangle of the `n x n` matrix `A`. -/
def Lower [Zero T] (mt : MemType) (n : Nat) (l : List T) (A : Nat → Nat → T) : Prop :=
  l.length = (match mt with | .square => squareLen n | .triangle => packedLen n) ∧
  ∀ i j, j ≤ i → i < n → held mt n l i j = A i j

/-- What `Lower` says of a packed matrix in terms of its accessors. -/
theorem Lower_packed [Zero T] (n : Nat) (l : List T) (A : Nat → Nat → T) (h : Lower .triangle n l A) (i j : Nat)
    (hj : j ≤ i) (hi : i < n) :
    (⟨n, l⟩ : Herm T).get i j = .ok (A i j) ∧ (⟨n, l⟩ : Herm T).get j i = .ok (A i j) ∧
      (⟨n, l⟩ : LTri T).get i j = .ok (A i j) := by
  obtain ⟨hl, hA⟩ := h
  have h1 : packIdx i j < l.length := by
    have := packIdx_lt hi (show j < n by omega)
    simp only [packedLen] at hl
    omega
  have h2 : val0 l (packIdx i j) = A i j := by
    rw [← hA i j hj hi]
    simp [held, packed, packIdx, Nat.not_lt.mpr hj]
  refine ⟨?_, ?_, ?_⟩
  · unfold Herm.get; rw [lrd_val h1, h2]
  · unfold Herm.get; rw [packIdx_comm, lrd_val h1, h2]
  · unfold LTri.get; rw [lrd_val h1, h2]

section aux

theorem Lower.len [Zero T] {mt : MemType} {n : Nat} {l : List T} {A : Nat → Nat → T} (h : Lower mt n l A) :
    l.length = storeLen mt n := by
  rw [h.1]; cases mt <;> rfl

theorem Lower.val [Zero T] {mt : MemType} {n : Nat} {l : List T} {A : Nat → Nat → T} (h : Lower mt n l A) :
    ∀ i j, j ≤ i → i < n → val0 l (cIndex mt n i j) = A i j := by
  intro i j hj hi
  rw [← h.2 i j hj hi]
  cases mt <;> rfl

theorem held_eq [Zero T] (mt : MemType) (n : Nat) (l : List T) :
    held mt n l = fun i j => val0 l (cIndex mt n i j) := by
  cases mt <;> rfl

end aux

/-! ## C35 and C36 -/

section
variable [Field T] [LinearOrder T] [IsStrictOrderedRing T] [Sqrt T] [LawfulSqrt T]

/-- The factor of a positive-definite matrix, in either storage. -/
theorem C35_factor (mt : MemType) (n : Nat) (l : List T) (A : Nat → Nat → T) (hl : Lower mt n l A)
    (hs : Symm n A) (hp : PosDef n A) :
    ∃ L, Chol.new mt n l = .ok L ∧ L.length = l.length ∧ IsChol n (held mt n L) A := by
  obtain ⟨⟨c, L⟩, e, h | h⟩ := Chol.decomp_spec mt n l hl.len.ge
  · obtain ⟨h0, hI⟩ := h
    simp only at h0 hI
    subst h0
    refine ⟨L, by simp [Chol.new, e], hI.len, ?_⟩
    rw [held_eq]
    exact hI.isChol hs hl.val
  · exact absurd hp (h.not_posDef hs hl.val)

/-- The factor is determined by `A`; in particular both storages give the same one. -/
theorem C35_same (n : Nat) (l l' : List T) (A : Nat → Nat → T) (hl : Lower .square n l A)
    (hl' : Lower .triangle n l' A) (hs : Symm n A) (hp : PosDef n A) :
    ∃ L L', Chol.new .square n l = .ok L ∧ Chol.new .triangle n l' = .ok L' ∧
      ∀ i j, j ≤ i → i < n → entry n L i j = packed L' i j := by
  obtain ⟨L, e, _, h⟩ := C35_factor _ n l A hl hs hp
  obtain ⟨L', e', _, h'⟩ := C35_factor _ n l' A hl' hs hp
  exact ⟨L, L', e, e', h.unique h'⟩

/-- The square storage keeps what is above the diagonal. -/
theorem C35_upper (n : Nat) (l : List T) (A : Nat → Nat → T) (hl : Lower .square n l A)
    (hs : Symm n A) (hp : PosDef n A) :
    ∃ L, Chol.new .square n l = .ok L ∧ ∀ i j, i < j → j < n → entry n L i j = entry n l i j := by
  obtain ⟨⟨c, L⟩, e, h | h⟩ := Chol.decomp_spec .square n l hl.len.ge
  · obtain ⟨h0, hI⟩ := h
    simp only at h0 hI
    subst h0
    refine ⟨L, by simp [Chol.new, e], fun i j hij hj => hI.frame _ fun r c h1 h2 he => ?_⟩
    have := (cell_inj (show j < n from hj) (show c < n by omega)).mp he
    omega
  · exact absurd hp (h.not_posDef hs hl.val)

/-- C36, the half that holds without restriction. -/
theorem C36_accepts (mt : MemType) (n : Nat) (l : List T) (A : Nat → Nat → T) (hl : Lower mt n l A)
    (hs : Symm n A) (hp : PosDef n A) : ∃ L, Chol.new mt n l = .ok L := by
  obtain ⟨L, e, _⟩ := C35_factor mt n l A hl hs hp
  exact ⟨L, e⟩

/-- C36 in full would drop `0 < A 0 0`; `C36_false` shows that this fails. -/
theorem C36_rejects_partial (mt : MemType) (n : Nat) (l : List T) (A : Nat → Nat → T) (hl : Lower mt n l A)
    (hs : Symm n A) (h0 : 0 < A 0 0) (hp : ¬ PosDef n A) :
    Chol.new mt n l = .error (.throw .runtimeError) := by
  obtain ⟨⟨c, L⟩, e, h | h⟩ := Chol.decomp_spec mt n l hl.len.ge
  · obtain ⟨_, hI⟩ := h
    exact absurd (hI.isChol hs hl.val).posDef hp
  · have hc : c ≠ 0 := by
      rintro rfl
      have := h.piv
      rw [hl.val 0 0 (Nat.le_refl _) h.lt] at this
      simp only [Finset.range_zero, Finset.sum_empty, sub_zero] at this
      exact absurd h0 (not_lt.mpr this)
    unfold Chol.new
    rw [e, ok_bind, throwIf_ne hc]
    rfl

/-- If the very first pivot is not positive the matrix is accepted and left as it is: the return code of
the kernel is the index of the offending row, and `0` means success. -/
theorem C36_false (mt : MemType) (n : Nat) (hn : 1 ≤ n) (l : List T) (A : Nat → Nat → T)
    (hl : Lower mt n l A) (h0 : A 0 0 ≤ 0) :
    Chol.new mt n l = .ok l ∧ ¬ PosDef n A := by
  constructor
  · have hA := hl.val 0 0 (Nat.le_refl _) (by omega)
    obtain ⟨⟨c, L⟩, e, h | h⟩ := Chol.decomp_spec mt n l hl.len.ge
    · obtain ⟨_, hI⟩ := h
      have h1 := hI.pos 0 (by omega)
      have h2 := hI.fac 0 0 (Nat.le_refl _) (by omega)
      simp only [hA, zero_add, Finset.sum_range_one] at h2 h1
      exact absurd (h2 ▸ mul_pos h1 h1) (not_lt.mpr h0)
    · by_cases hc : c = 0
      · subst hc
        have := h.first rfl
        simp only at this
        subst this
        simp [Chol.new, e]
      · have h1 := h.pos 0 (by simp only; omega)
        have h2 := h.fac 0 0 (Nat.le_refl _) (by simp only; omega) (by simp only; omega)
        simp only [hA, zero_add, Finset.sum_range_one] at h2 h1
        exact absurd (h2 ▸ mul_pos h1 h1) (not_lt.mpr h0)
  · intro hp
    have := hp (fun i => if i = 0 then 1 else 0) ⟨0, hn, by simp⟩
    rw [Finset.sum_eq_single 0, Finset.sum_eq_single 0] at this
    · simp at this
      exact absurd this (not_lt.mpr h0)
    · intro j _ hj; simp [hj]
    · intro h; exact absurd (Finset.mem_range.mpr hn) h
    · intro i _ hi; simp [hi]
    · intro h; exact absurd (Finset.mem_range.mpr hn) h

/-- All outcomes of the constructors on a symmetric matrix. -/
theorem C36_iff (mt : MemType) (n : Nat) (l : List T) (A : Nat → Nat → T) (hl : Lower mt n l A)
    (hs : Symm n A) :
    Chol.new mt n l = .error (.throw .runtimeError) ↔ 1 ≤ n ∧ 0 < A 0 0 ∧ ¬ PosDef n A := by
  constructor
  · intro h
    have hp : ¬ PosDef n A := fun hp => by
      obtain ⟨L, e⟩ := C36_accepts mt n l A hl hs hp
      rw [e] at h; cases h
    have hn : 1 ≤ n := by
      by_contra hc
      apply hp
      rintro x ⟨i, hi, _⟩
      omega
    refine ⟨hn, ?_, hp⟩
    by_contra hc
    rw [(C36_false mt n hn l A hl (not_lt.mp hc)).1] at h
    cases h
  · rintro ⟨_, h0, hp⟩
    exact C36_rejects_partial mt n l A hl hs h0 hp

end

/-! ## C37 -/

section
variable [Field T] [LinearOrder T] [IsStrictOrderedRing T] [Sqrt T] [LawfulSqrt T]

theorem chol_data (mt : MemType) (n : Nat) (l L : List T) (A : Nat → Nat → T) (hl : Lower mt n l A)
    (hs : Symm n A) (hp : PosDef n A) (hL : Chol.new mt n l = .ok L) :
    L.length = storeLen mt n ∧ (∀ i, i < n → val0 L (cIndex mt n i i) ≠ 0) ∧
      (∀ i j, i < n → j < n → A i j = ∑ k ∈ Finset.range n, low (Chol.fwdCoef false (cIndex mt n) L) i k *
        low (fun i j => val0 L (cIndex mt n i j)) j k) ∧ minor A n ≠ 0 := by
  obtain ⟨L', e, hlen, h⟩ := C35_factor mt n l A hl hs hp
  rw [hL] at e; injection e with e; subst e
  rw [held_eq] at h
  exact ⟨by rw [hlen, hl.len], fun i hi => ne_of_gt (h.1 i hi), fun i j hi hj => (h.2 i j hi hj).symm,
    hp.regular.det⟩

theorem chol_solveOk (nd : Bool) (mt : MemType) (n : Nat) (l L : List T) (A : Nat → Nat → T) (hl : Lower mt n l A)
    (hs : Symm n A) (hp : PosDef n A) (hL : Chol.new mt n l = .ok L) (m : Mem T) :
    Chol.SolveOk nd false mt n L A m :=
  have h := chol_data mt n l L A hl hs hp hL
  Chol.solve_spec nd false mt n L A h.1 h.2.1 h.2.2.1 h.2.2.2 m

/-- Vector right-hand side `b`; `r` is the vector returned by the form that is not in place.  The matrix
that was factorised is `A`.  Both forms compute the same `x`, and every other object keeps its contents. -/
theorem C37_vec (nd : Bool) (mt : MemType) (n : Nat) (l L : List T) (A : Nat → Nat → T) (hl : Lower mt n l A)
    (hs : Symm n A) (hp : PosDef n A) (hL : Chol.new mt n l = .ok L) (m : Mem T) (b r : Nat)
    (hb : m.len b = n) (hr : r ≠ b) :
    ∃ x, x.length = n ∧ Solves n A (val0 x) (val0 (m b)) ∧
      Chol.solveMutVec nd false mt n L b m = .ok (m.setBuf b x) ∧
      Chol.solveVecAt nd false mt n L b r m = .ok (m.setBuf r x) :=
  (chol_solveOk nd mt n l L A hl hs hp hL m).1 b r hb hr

/-- Matrix right-hand side: every column is solved. -/
theorem C37_mat (nd : Bool) (mt : MemType) (n : Nat) (l L : List T) (A : Nat → Nat → T) (hl : Lower mt n l A)
    (hs : Symm n A) (hp : PosDef n A) (hL : Chol.new mt n l = .ok L) (m : Mem T) (b : MatRef) (r : Nat)
    (hb : b.Wf m) (hn : b.n = n) (hr : r ≠ b.buf) :
    ∃ x, x.length = n * b.m ∧
      (∀ k, k < b.m → Solves n A (fun i => entry b.m x i k) (fun i => entry b.m (m b.buf) i k)) ∧
      Chol.solveMutMat nd false mt n L b m = .ok (m.setBuf b.buf x) ∧
      Chol.solveMatAt nd false mt n L b r m = .ok (m.setBuf r x) :=
  (chol_solveOk nd mt n l L A hl hs hp hL m).2 b r hb hn hr

end

/-! ## C38 and C39 -/

section
variable [Field T] [DecidableEq T]

theorem C38_throws (mt : MemType) (n : Nat) (l : List T) (A : Nat → Nat → T) (hl : Lower mt n l A)
    (hs : Symm n A) :
    Chol.modNew mt n l = .error (.throw .runtimeError) ↔ ¬ Regular A n := by
  have h := Chol.modNew_spec mt n l hl.len.ge
  have hsub : ∀ k, k < n → Symm (k + 1) A := fun k hk i j hi hj => hs i j (by omega) (by omega)
  cases e : Chol.modNew mt n l with
  | ok L =>
    rw [e] at h
    simp only [reduceCtorEq, false_iff, not_not]
    refine (regular_iff_pivots (D := fun i => val0 L (cIndex mt n i i)) ?_).mpr h.piv
    intro k hk _
    refine Chol.mod_minor (hsub k hk) (fun r hr => h.piv r (by omega)) fun r c hc hr => ?_
    rw [h.fac r c hc (by omega), hl.val r c hc (by omega)]
  | error f =>
    rw [e] at h
    obtain ⟨rfl, i, l', hst⟩ := h
    simp only [true_iff]
    intro hr
    apply hr i hst.lt
    rw [Chol.mod_minor (ix := cIndex mt n) (l := l') (hsub i hst.lt) hst.piv fun r c hc hr => by
      rw [hst.fac r c hc hr, hl.val r c hc (by have := hst.lt; omega)]]
    exact Finset.prod_eq_zero (Finset.mem_range.mpr (Nat.lt_succ_self i)) hst.zero

/-- The stored factor of an accepted matrix. -/
theorem C38_factor (mt : MemType) (n : Nat) (l : List T) (A : Nat → Nat → T) (hl : Lower mt n l A)
    (hs : Symm n A) (hr : Regular A n) :
    ∃ L, Chol.modNew mt n l = .ok L ∧ L.length = l.length ∧ (∀ i, i < n → held mt n L i i ≠ 0) ∧
      ∀ i j, j ≤ i → i < n → ∑ k ∈ Finset.range (j + 1),
        held mt n L i k * held mt n L j k / held mt n L k k = A i j := by
  have h := Chol.modNew_spec mt n l hl.len.ge
  cases e : Chol.modNew mt n l with
  | ok L =>
    rw [e] at h
    refine ⟨L, rfl, h.len, ?_, ?_⟩
    · rw [held_eq]; exact h.piv
    · intro i j hj hi
      rw [held_eq, Finset.sum_range_succ]
      have := h.piv j (by omega)
      simp only
      rw [mul_div_assoc, div_self this, mul_one, add_comm, h.fac i j hj hi, hl.val i j hj hi]
  | error f =>
    rw [e] at h
    obtain ⟨rfl, _⟩ := h
    exact absurd hr ((C38_throws mt n l A hl hs).mp e)

/-- What is above the diagonal is kept. -/
theorem C38_upper (n : Nat) (l : List T) (A : Nat → Nat → T) (hl : Lower .square n l A) (L : List T)
    (hL : Chol.modNew .square n l = .ok L) : ∀ i j, i < j → j < n → entry n L i j = entry n l i j := by
  have h := Chol.modNew_spec .square n l hl.len.ge
  rw [hL] at h
  intro i j hij hj
  refine h.frame _ fun r c h1 h2 he => ?_
  have := (cell_inj (show j < n from hj) (show c < n by omega)).mp he
  omega

theorem C38_posDef [LinearOrder T] [IsStrictOrderedRing T] (mt : MemType) (n : Nat) (l : List T)
    (A : Nat → Nat → T) (hl : Lower mt n l A) (hs : Symm n A) (hp : PosDef n A) :
    ∃ L, Chol.modNew mt n l = .ok L := by
  obtain ⟨L, e, _⟩ := C38_factor mt n l A hl hs hp.regular
  exact ⟨L, e⟩

theorem mod_data (mt : MemType) (n : Nat) (l L : List T) (A : Nat → Nat → T) (hl : Lower mt n l A)
    (hs : Symm n A) (hL : Chol.modNew mt n l = .ok L) :
    L.length = storeLen mt n ∧ (∀ i, i < n → val0 L (cIndex mt n i i) ≠ 0) ∧
      (∀ i j, i < n → j < n → A i j = ∑ k ∈ Finset.range n, low (Chol.fwdCoef true (cIndex mt n) L) i k *
        low (fun i j => val0 L (cIndex mt n i j)) j k) ∧ minor A n ≠ 0 := by
  have hr : Regular A n := by
    by_contra hc
    rw [(C38_throws mt n l A hl hs).mpr hc] at hL
    cases hL
  obtain ⟨L', e, hlen, hpiv, hfac⟩ := C38_factor mt n l A hl hs hr
  rw [hL] at e; injection e with e; subst e
  rw [held_eq] at hpiv hfac
  refine ⟨by rw [hlen, hl.len], hpiv, ?_, hr.det⟩
  have hlow : ∀ i j, j ≤ i → i < n → A i j = ∑ k ∈ Finset.range n,
      low (Chol.fwdCoef true (cIndex mt n) L) i k * low (fun i j => val0 L (cIndex mt n i j)) j k := by
    intro i j hj hi
    rw [low_sum _ _ hj hi, ← hfac i j hj hi]
    exact Finset.sum_congr rfl fun k _ => by simp only [Chol.fwdCoef, if_true]; ring
  intro i j hi hj
  rcases Nat.le_total j i with h | h
  · exact hlow i j h hi
  · rw [hs i j hi hj, hlow j i h hj]
    refine Finset.sum_congr rfl fun k _ => ?_
    unfold low Chol.fwdCoef
    split_ifs <;> ring

theorem mod_solveOk (nd : Bool) (mt : MemType) (n : Nat) (l L : List T) (A : Nat → Nat → T) (hl : Lower mt n l A)
    (hs : Symm n A) (hL : Chol.modNew mt n l = .ok L) (m : Mem T) :
    Chol.SolveOk nd true mt n L A m :=
  have h := mod_data mt n l L A hl hs hL
  Chol.solve_spec nd true mt n L A h.1 h.2.1 h.2.2.1 h.2.2.2 m

/-- Vector right-hand side, in place and not. -/
theorem C39_vec (nd : Bool) (mt : MemType) (n : Nat) (l L : List T) (A : Nat → Nat → T) (hl : Lower mt n l A)
    (hs : Symm n A) (hL : Chol.modNew mt n l = .ok L) (m : Mem T) (b r : Nat)
    (hb : m.len b = n) (hr : r ≠ b) :
    ∃ x, x.length = n ∧ Solves n A (val0 x) (val0 (m b)) ∧
      Chol.solveMutVec nd true mt n L b m = .ok (m.setBuf b x) ∧
      Chol.solveVecAt nd true mt n L b r m = .ok (m.setBuf r x) :=
  (mod_solveOk nd mt n l L A hl hs hL m).1 b r hb hr

/-- Matrix right-hand side, in place and not. -/
theorem C39_mat (nd : Bool) (mt : MemType) (n : Nat) (l L : List T) (A : Nat → Nat → T) (hl : Lower mt n l A)
    (hs : Symm n A) (hL : Chol.modNew mt n l = .ok L) (m : Mem T) (b : MatRef) (r : Nat)
    (hb : b.Wf m) (hn : b.n = n) (hr : r ≠ b.buf) :
    ∃ x, x.length = n * b.m ∧
      (∀ k, k < b.m → Solves n A (fun i => entry b.m x i k) (fun i => entry b.m (m b.buf) i k)) ∧
      Chol.solveMutMat nd true mt n L b m = .ok (m.setBuf b.buf x) ∧
      Chol.solveMatAt nd true mt n L b r m = .ok (m.setBuf r x) :=
  (mod_solveOk nd mt n l L A hl hs hL m).2 b r hb hn hr

end

/-! ## Concrete cases -/

/-- `[[4, 2], [2, 5]]`, the examples' positive-definite matrix. -/
def spd (i j : Nat) : ℚ := if i = j then (if i = 0 then 4 else 5) else 2

example : Symm 2 spd := fun i j _ _ => by
  by_cases h : i = j
  · rw [h]
  · simp [spd, h, Ne.symm h]

example : PosDef 2 spd := by
  refine IsChol.posDef (L := fun i j => if i = 1 ∧ j = 0 then 1 else 2) 
    ⟨fun i _ => by dsimp only; split_ifs <;> norm_num, ?_⟩
  intro i j hi hj
  have h1 : i = 0 ∨ i = 1 := by omega
  have h2 : j = 0 ∨ j = 1 := by omega
  rcases h1 with rfl | rfl <;> rcases h2 with rfl | rfl <;>
    norm_num [Finset.sum_range_succ, low, spd]

example : Lower .square 2 [4, 7, 2, 5] spd := ⟨rfl, fun i j _ _ => by
  have : (i = 0 ∧ j = 0) ∨ (i = 1 ∧ j = 0) ∨ (i = 1 ∧ j = 1) := by omega
  rcases this with ⟨rfl, rfl⟩ | ⟨rfl, rfl⟩ | ⟨rfl, rfl⟩ <;> rfl⟩

example : Lower .triangle 2 [4, 2, 5] spd := ⟨rfl, fun i j _ _ => by
  have : (i = 0 ∧ j = 0) ∨ (i = 1 ∧ j = 0) ∨ (i = 1 ∧ j = 1) := by omega
  rcases this with ⟨rfl, rfl⟩ | ⟨rfl, rfl⟩ | ⟨rfl, rfl⟩ <;> rfl⟩

-- the two storages; `7` is above the diagonal and stays
example : Chol.new .square 2 [4, 7, 2, (5 : ℚ)] = .ok [2, 7, 1, 2] := by decide +kernel
example : Chol.new .triangle 2 [4, 2, (5 : ℚ)] = .ok [2, 1, 2] := by decide +kernel
-- rejected in the second row
example : Chol.new .square 2 [4, 2, 2, (1 : ℚ)] = .error (.throw .runtimeError) := by decide +kernel
example : Chol.new .triangle 2 [4, 2, (0 : ℚ)] = .error (.throw .runtimeError) := by decide +kernel
-- the wrongly accepted matrices of `C36_false`, and a wrong solution that follows: `-1 * 1 ≠ 1`
example : Chol.new .square 1 [(-1 : ℚ)] = .ok [-1] := by decide +kernel
example : Chol.new .square 2 [0, 1, 1, (0 : ℚ)] = .ok [0, 1, 1, 0] := by decide +kernel
example : (Chol.solveMutVec false false .square 1 [(-1 : ℚ)] 0 (Mem.ofList [[1]])).map (fun m => m 0) =
    .ok [1] := by decide +kernel
-- solving
example : (Chol.solveVecAt false false .triangle 2 [2, 1, (2 : ℚ)] 0 1 (Mem.ofList [[8, 12]])).map
    (fun m => (m 0, m 1)) = .ok ([8, 12], [1, 2]) := by decide +kernel
example : (Chol.solveMutMat false false .square 2 [2, 7, 1, (2 : ℚ)] ⟨0, 2, 2⟩ (Mem.ofList [[8, 4, 12, 2]])).map
    (fun m => m 0) = .ok [1, 1, 2, 0] := by decide +kernel
-- an indefinite matrix, modified factorisation
example : Chol.modNew .square 2 [1, 2, 2, (1 : ℚ)] = .ok [1, 2, 2, -3] := by decide +kernel
example : Chol.modNew .square 2 [0, 1, 1, (0 : ℚ)] = .error (.throw .runtimeError) := by decide +kernel
example : (Chol.solveMutVec false true .square 2 [1, 2, 2, (-3 : ℚ)] 0 (Mem.ofList [[5, 4]])).map
    (fun m => m 0) = .ok [1, 2] := by decide +kernel

end Lalib.Props
