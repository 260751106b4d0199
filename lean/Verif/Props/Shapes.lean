import Verif.Proofs.Shapes

/-! # Property C73: solver calls whose arguments do not fit together

`nd = false`: build with assertions; `nd = true`: `NDEBUG` (Release, the builds of the CI).  `Fits n nrow A x b`
says what a call computes that goes through although the sizes differ: the first `n` rows of `x` solve the
`n x n` system with the first `n` rows of `b`, the rest of `x` is a copy of the rest of `b`. -/

namespace Lalib.Props

open Lalib

variable {T : Type}

/-- `x` has the size of `b`, its first `n` rows solve `A X = B`, the other elements are those of `b`. -/
def Fits [Field T] (n nrow : Nat) (A : Nat → Nat → T) (x b : List T) : Prop :=
  x.length = b.length ∧
  (∀ k, k < nrow → Solves n A (fun i => entry nrow x i k) (fun i => entry nrow b i k)) ∧
  ∀ c, n * nrow ≤ c → val0 x c = val0 b c

/-! ## Builds with assertions -/

section
variable [Field T] [DecidableEq T]

/-- Every Cholesky solver refuses a right-hand side with another number of rows. -/
theorem C73_assert_chol (md : Bool) (mt : MemType) (n : Nat) (L : List T) (m : Mem T) (b r : Nat)
    (hb : m.len b ≠ n) (B : MatRef) (hB : B.n ≠ n) :
    Chol.solveMutVec false md mt n L b m = .error .assertFail ∧
    Chol.solveVecAt false md mt n L b r m = .error .assertFail ∧
    Chol.solveMutMat false md mt n L B m = .error .assertFail ∧
    Chol.solveMatAt false md mt n L B r m = .error .assertFail := by
  refine ⟨?_, ?_, ?_, ?_⟩
  · unfold Chol.solveMutVec; rw [cassert_ne hb.symm]; rfl
  · unfold Chol.solveVecAt; rw [cassert_ne hb.symm]; rfl
  · unfold Chol.solveMutMat; rw [cassert_ne hB.symm]; rfl
  · unfold Chol.solveMatAt; rw [cassert_ne hB.symm]; rfl

/-- The tri-diagonal solver: vector `b`, matrices `B` and `X`. -/
theorem C73_assert_tdma (a : TriDiag T) (n : Nat) (hw : TriWf a n) (m : Mem T) (b x : Nat) (hb : m.len b ≠ n)
    (B X : MatRef) (hB : B.n ≠ n ∨ B.n ≠ X.n ∨ B.m ≠ X.m) :
    Tdma.solveVec false a b x m = .error .assertFail ∧ Tdma.solveMat false a B X m = .error .assertFail := by
  have hn : a.shape.1 = n := hw.1
  constructor
  · unfold Tdma.solveVec; rw [hn, cassert_ne hb.symm]; rfl
  · unfold Tdma.solveMat
    rw [hn]
    by_cases h : B.n = n
    · rw [h, beq_self_eq_true, cassert_true, ok_bind]
      have : (n == X.n && B.m == X.m) = false := by
        rw [Bool.and_eq_false_iff, beq_eq_false_iff_ne, beq_eq_false_iff_ne]
        rcases hB with h' | h' | h'
        · exact absurd h h'
        · exact .inl (h ▸ h')
        · exact .inr h'
      rw [this]; rfl
    · rw [cassert_ne (Ne.symm h)]; rfl

end

/-! ## Release builds, Cholesky -/

section aux

theorem low_restrict [CommRing T] (L M : Nat → Nat → T) {n k i j : Nat} (hk : k ≤ n) (hi : i < k) :
    ∑ t ∈ Finset.range n, low L i t * low M j t = ∑ t ∈ Finset.range k, low L i t * low M j t := by
  symm
  refine Finset.sum_subset (Finset.range_subset_range.mpr hk) fun t _ ht => ?_
  have : ¬ t < k := by simpa using ht
  rw [low, if_neg (by omega), zero_mul]

theorem never_oob {α : Type} {Q : Fault → Prop} {r : Res α} (h : Never Q r) (hQ : ∀ e, Q e → e = .ub .oob) :
    r = .error (.ub .oob) := by
  obtain ⟨e, he, hq⟩ := h.exists
  rw [he, hQ e hq]

end aux

section
variable [Field T] [LinearOrder T] [IsStrictOrderedRing T] [Sqrt T] [LawfulSqrt T]

/-- Packed storage, right-hand side with `k ≤ n` rows: the leading `k x k` system is solved, silently. -/
theorem C73_packed_short (n k : Nat) (l L : List T) (A : Nat → Nat → T) (hl : Lower .triangle n l A)
    (hs : Symm n A) (hp : PosDef n A) (hL : Chol.new .triangle n l = .ok L) (hk : k ≤ n) (m : Mem T) :
    (∀ b r, m.len b = k → r ≠ b → ∃ x, Fits k 1 A x (m b) ∧
      Chol.solveMutVec true false .triangle n L b m = .ok (m.setBuf b x) ∧
      Chol.solveVecAt true false .triangle n L b r m = .ok (m.setBuf r x)) ∧
    (∀ (B : MatRef) r, B.Wf m → B.n = k → r ≠ B.buf → ∃ x, Fits k B.m A x (m B.buf) ∧
      Chol.solveMutMat true false .triangle n L B m = .ok (m.setBuf B.buf x) ∧
      Chol.solveMatAt true false .triangle n L B r m = .ok (m.setBuf r x)) := by
  obtain ⟨hlen, hd, hA, _⟩ := chol_data .triangle n l L A hl hs hp hL
  have hst : storeLen .triangle k ≤ L.length := by
    rw [hlen]
    exact Nat.div_le_div_right (Nat.mul_le_mul hk (by omega))
  have main := Chol.kernel_both false .triangle k L A hst (fun i hi => hd i (by omega))
    (fun i j hi hj => (hA i j (by omega) (by omega)).trans (low_restrict _ _ hk hi)) m
  constructor
  · intro b r hb hr
    obtain ⟨x, hx, h1, h2, e, e'⟩ := main b r 1 (by omega) hr
    refine ⟨x, ⟨hx, h1, h2⟩, ?_, ?_⟩
    · unfold Chol.solveMutVec; rw [hb]; simp [e]
    · unfold Chol.solveVecAt; rw [hb]; simp [e']
  · intro B r hB hn hr
    obtain ⟨x, hx, h1, h2, e, e'⟩ := main B.buf r B.m (by rw [hB, hn]) hr
    refine ⟨x, ⟨hx, h1, h2⟩, ?_, ?_⟩
    · unfold Chol.solveMutMat; rw [hn]; simp [e]
    · unfold Chol.solveMatAt; rw [hn]; simp [e']

/-- Packed storage, right-hand side with more rows: the factor is read past its end. -/
theorem C73_packed_long (n k : Nat) (l L : List T) (A : Nat → Nat → T) (hl : Lower .triangle n l A)
    (hs : Symm n A) (hp : PosDef n A) (hL : Chol.new .triangle n l = .ok L) (hk : n < k) (m : Mem T) :
    (∀ b r, m.len b = k →
      Chol.solveMutVec true false .triangle n L b m = .error (.ub .oob) ∧
      Chol.solveVecAt true false .triangle n L b r m = .error (.ub .oob)) ∧
    (∀ (B : MatRef) r, B.n = k → 0 < B.m →
      Chol.solveMutMat true false .triangle n L B m = .error (.ub .oob) ∧
      Chol.solveMatAt true false .triangle n L B r m = .error (.ub .oob)) := by
  obtain ⟨hlen, hd, _, _⟩ := chol_data .triangle n l L A hl hs hp hL
  have main : ∀ (m : Mem T) rhs x nrow, 0 < nrow →
      Chol.kernel false .triangle k nrow L rhs x m = .error (.ub .oob) := by
    intro m rhs x nrow hr
    refine never_oob (Chol.kernel_never hr hk (.inl ⟨rfl, ?_⟩)) ?_
    · rw [hlen]; simp [storeLen, cIndex]
    · rintro e (h | ⟨_, i, hi, h1, h2⟩)
      · exact h
      · by_cases hin : i < n
        · exact absurd h2 (hd i hin)
        · rw [hlen] at h1
          have : storeLen .triangle n ≤ cIndex .triangle k i i := by
            have : n * (n + 1) / 2 ≤ i * (i + 1) / 2 :=
              Nat.div_le_div_right (Nat.mul_le_mul (by omega) (by omega))
            simp only [storeLen, cIndex]; omega
          omega
  refine ⟨fun b r hb => ⟨?_, ?_⟩, fun B r hB h0 => ⟨?_, ?_⟩⟩
  · unfold Chol.solveMutVec; rw [hb]; simp [main]
  · unfold Chol.solveVecAt; rw [hb]; simp [main]
  · unfold Chol.solveMutMat; rw [hB]; simp [main _ _ _ _ h0]
  · unfold Chol.solveMatAt; rw [hB]; simp [main _ _ _ _ h0]

omit [IsStrictOrderedRing T] [Sqrt T] [LawfulSqrt T] in
/-- Square storage, `k ≤ n` rows: what is solved is the system of the matrix `H Hᵀ`, where `H` is the stored
factor read with row length `k` instead of `n`. -/
theorem C73_square_short (n k : Nat) (L : List T) (hlen : L.length = squareLen n) (hk : k ≤ n)
    (hd : ∀ i, i < k → entry k L i i ≠ 0) (m : Mem T) :
    (∀ b r, m.len b = k → r ≠ b → ∃ x,
      Fits k 1 (fun i j => ∑ t ∈ Finset.range k, low (entry k L) i t * low (entry k L) j t) x (m b) ∧
      Chol.solveMutVec true false .square n L b m = .ok (m.setBuf b x) ∧
      Chol.solveVecAt true false .square n L b r m = .ok (m.setBuf r x)) ∧
    (∀ (B : MatRef) r, B.Wf m → B.n = k → r ≠ B.buf → ∃ x,
      Fits k B.m (fun i j => ∑ t ∈ Finset.range k, low (entry k L) i t * low (entry k L) j t) x (m B.buf) ∧
      Chol.solveMutMat true false .square n L B m = .ok (m.setBuf B.buf x) ∧
      Chol.solveMatAt true false .square n L B r m = .ok (m.setBuf r x)) := by
  have hst : storeLen .square k ≤ L.length := by
    rw [hlen]; exact Nat.mul_le_mul hk hk
  have main := Chol.kernel_both false .square k L
    (fun i j => ∑ t ∈ Finset.range k, low (entry k L) i t * low (entry k L) j t) hst hd
    (fun i j hi hj => rfl) m
  constructor
  · intro b r hb hr
    obtain ⟨x, hx, h1, h2, e, e'⟩ := main b r 1 (by omega) hr
    refine ⟨x, ⟨hx, h1, h2⟩, ?_, ?_⟩
    · unfold Chol.solveMutVec; rw [hb]; simp [e]
    · unfold Chol.solveVecAt; rw [hb]; simp [e']
  · intro B r hB hn hr
    obtain ⟨x, hx, h1, h2, e, e'⟩ := main B.buf r B.m (by rw [hB, hn]) hr
    refine ⟨x, ⟨hx, h1, h2⟩, ?_, ?_⟩
    · unfold Chol.solveMutMat; rw [hn]; simp [e]
    · unfold Chol.solveMatAt; rw [hn]; simp [e']

omit [IsStrictOrderedRing T] [Sqrt T] [LawfulSqrt T] in
/-- Square storage, more rows: no value is returned.  The factor is read past its end, unless an element above
its diagonal happens to be zero and is divided by before that. -/
theorem C73_square_long (n k : Nat) (L : List T) (hlen : L.length = squareLen n) (hk : n < k) (m : Mem T) :
    (∀ b r, m.len b = k →
      (∃ e, Chol.solveMutVec true false .square n L b m = .error e ∧ (e = .ub .oob ∨ e = .nonFinite)) ∧
      (∃ e, Chol.solveVecAt true false .square n L b r m = .error e ∧ (e = .ub .oob ∨ e = .nonFinite))) ∧
    (∀ (B : MatRef) r, B.n = k → 0 < B.m →
      (∃ e, Chol.solveMutMat true false .square n L B m = .error e ∧ (e = .ub .oob ∨ e = .nonFinite)) ∧
      (∃ e, Chol.solveMatAt true false .square n L B r m = .error e ∧ (e = .ub .oob ∨ e = .nonFinite))) := by
  have main : ∀ (m : Mem T) rhs x nrow, 0 < nrow →
      ∃ e, Chol.kernel false .square k nrow L rhs x m = .error e ∧ (e = .ub .oob ∨ e = .nonFinite) := by
    intro m rhs x nrow hr
    have hj : L.length ≤ cIndex .square k n n := by
      rw [hlen]
      simp only [squareLen, cIndex]
      have := Nat.mul_le_mul_left n hk.le
      omega
    obtain ⟨e, he, hq⟩ := (Chol.kernel_never (m := m) (rhs := rhs) (x := x) hr hk (.inl ⟨rfl, hj⟩)).exists
    exact ⟨e, he, hq.imp id (fun h => h.1)⟩
  refine ⟨fun b r hb => ⟨?_, ?_⟩, fun B r hB h0 => ⟨?_, ?_⟩⟩
  · unfold Chol.solveMutVec; rw [hb]; simpa using main m b b 1 (by omega)
  · unfold Chol.solveVecAt; rw [hb]; simpa using main (m.setBuf r (m b)) b r 1 (by omega)
  · unfold Chol.solveMutMat; rw [hB]; simpa using main m B.buf B.buf B.m h0
  · unfold Chol.solveMatAt; rw [hB]; simpa using main (m.setBuf r (m B.buf)) B.buf r B.m h0

end

section
variable [Field T] [DecidableEq T]

/-- Modified factorisation, either storage, right-hand side with `k ≥ n` rows: the first `n` rows are solved,
the others are copied. -/
theorem C73_mod_long (mt : MemType) (n k : Nat) (l L : List T) (A : Nat → Nat → T) (hl : Lower mt n l A)
    (hs : Symm n A) (hL : Chol.modNew mt n l = .ok L) (hk : n ≤ k) (m : Mem T) :
    (∀ b r, m.len b = k → r ≠ b → ∃ x, Fits n 1 A x (m b) ∧
      Chol.solveMutVec true true mt n L b m = .ok (m.setBuf b x) ∧
      Chol.solveVecAt true true mt n L b r m = .ok (m.setBuf r x)) ∧
    (∀ (B : MatRef) r, B.Wf m → B.n = k → r ≠ B.buf → ∃ x, Fits n B.m A x (m B.buf) ∧
      Chol.solveMutMat true true mt n L B m = .ok (m.setBuf B.buf x) ∧
      Chol.solveMatAt true true mt n L B r m = .ok (m.setBuf r x)) := by
  obtain ⟨hlen, hd, hA, _⟩ := mod_data mt n l L A hl hs hL
  have main := Chol.kernel_both true mt n L A hlen.ge hd hA m
  constructor
  · intro b r hb hr
    obtain ⟨x, hx, h1, h2, e, e'⟩ := main b r 1 (by omega) hr
    refine ⟨x, ⟨hx, h1, h2⟩, ?_, ?_⟩
    · unfold Chol.solveMutVec; simp [e]
    · unfold Chol.solveVecAt; simp [e']
  · intro B r hB hn hr
    obtain ⟨x, hx, h1, h2, e, e'⟩ := main B.buf r B.m (by rw [hB, hn]; exact Nat.mul_le_mul_right _ hk) hr
    refine ⟨x, ⟨hx, h1, h2⟩, ?_, ?_⟩
    · unfold Chol.solveMutMat; simp [e]
    · unfold Chol.solveMatAt; simp [e']

/-- Modified factorisation, fewer rows: the right-hand side is read past its end. -/
theorem C73_mod_short (mt : MemType) (n k : Nat) (l L : List T) (A : Nat → Nat → T) (hl : Lower mt n l A)
    (hs : Symm n A) (hL : Chol.modNew mt n l = .ok L) (hk : k < n) (m : Mem T) :
    (∀ b r, m.len b = k → r ≠ b →
      Chol.solveMutVec true true mt n L b m = .error (.ub .oob) ∧
      Chol.solveVecAt true true mt n L b r m = .error (.ub .oob)) ∧
    (∀ (B : MatRef) r, B.Wf m → B.n = k → 0 < B.m → r ≠ B.buf →
      Chol.solveMutMat true true mt n L B m = .error (.ub .oob) ∧
      Chol.solveMatAt true true mt n L B r m = .error (.ub .oob)) := by
  obtain ⟨hlen, hd, _, _⟩ := mod_data mt n l L A hl hs hL
  have main : ∀ (m : Mem T) rhs x nrow, 0 < nrow → m.len rhs = k * nrow →
      Chol.kernel true mt n nrow L rhs x m = .error (.ub .oob) := by
    intro m rhs x nrow hr hlr
    refine never_oob (Chol.kernel_never hr hk (.inr hlr.le)) ?_
    rintro e (h | ⟨_, i, hi, _, h2⟩)
    · exact h
    · exact absurd h2 (hd i hi)
  have hset : ∀ b r, r ≠ b → (m.setBuf r (m b)).len b = m.len b := by
    intro b r hr
    show (m.setBuf r (m b) b).length = _
    rw [Mem.setBuf_other _ hr.symm]
  refine ⟨fun b r hb hr => ⟨?_, ?_⟩, fun B r hB hn h0 hr => ⟨?_, ?_⟩⟩
  · unfold Chol.solveMutVec
    simp [main m b b 1 (by omega) (by omega)]
  · unfold Chol.solveVecAt
    simp [main (m.setBuf r (m b)) b r 1 (by omega) (by rw [hset b r hr]; omega)]
  · have hB' : m.len B.buf = k * B.m := by rw [hB, hn]
    unfold Chol.solveMutMat
    simp [main m B.buf B.buf B.m h0 hB']
  · have hB' : m.len B.buf = k * B.m := by rw [hB, hn]
    unfold Chol.solveMatAt
    simp [main (m.setBuf r (m B.buf)) B.buf r B.m h0 (by rw [hset _ r hr]; exact hB')]

end

/-! ## Cholesky constructors on a matrix that is not square -/

section
variable [Field T] [LinearOrder T] [IsStrictOrderedRing T] [Sqrt T] [LawfulSqrt T]

/-- `DynCholeskyFactorization` of an `n x c` matrix, `c ≥ n`: what is factorised is the `n x n` matrix that
one gets by reading the elements with row length `n`; nothing reports the shape. -/
theorem C73_new_wide (n c : Nat) (l : List T) (hl : l.length = n * c) (hc : n ≤ c) (A : Nat → Nat → T)
    (hA : ∀ i j, j ≤ i → i < n → entry n l i j = A i j) (hs : Symm n A) (hp : PosDef n A) :
    ∃ L, Chol.new .square n l = .ok L ∧ L.length = l.length ∧ IsChol n (entry n L) A := by
  obtain ⟨⟨c, L⟩, e, h | h⟩ := Chol.decomp_spec .square n l
    (by rw [hl]; exact Nat.mul_le_mul_left n hc)
  · obtain ⟨h0, hI⟩ := h
    simp only at h0 hI
    subst h0
    exact ⟨L, by simp [Chol.new, e], hI.len, hI.isChol hs hA⟩
  · exact absurd hp (h.not_posDef hs hA)

omit [IsStrictOrderedRing T] [LawfulSqrt T] in
/-- Fewer columns than rows: if the first element is positive no object is made.  (If it is not, the
constructor accepts the matrix, whatever its shape: `C36_false`.) -/
theorem C73_new_narrow (n c : Nat) (l : List T) (hl : l.length = n * c) (hc : 0 < c) (hcn : c < n)
    (h0 : 0 < val0 l 0) :
    ∃ e, Chol.new .square n l = .error e ∧ (e = .ub .oob ∨ e = .nonFinite ∨ e = .throw .runtimeError) := by
  refine (Chol.new_never (by omega) (by rw [hl]; exact Nat.mul_pos (by omega) hc) h0 ?_).exists
  rw [hl]
  obtain ⟨n, rfl⟩ : ∃ t, n = t + 1 := ⟨n - 1, by omega⟩
  have h1 : (n + 1) * c ≤ (n + 1) * n := Nat.mul_le_mul_left _ (by omega)
  have h2 : (n + 1) * n = n * (n + 1) := Nat.mul_comm _ _
  simp only [cIndex, Nat.add_sub_cancel]
  omega

end

section
variable [Field T] [DecidableEq T]

/-- `DynModCholeskyFactorization` of a matrix with fewer columns than rows: no object is made. -/
theorem C73_modNew_narrow (n c : Nat) (l : List T) (hl : l.length = n * c) (hcn : c < n) :
    ∃ e, Chol.modNew .square n l = .error e ∧ (e = .ub .oob ∨ e = .nonFinite ∨ e = .throw .runtimeError) := by
  refine (Chol.modNew_never (by omega) ?_).exists
  rw [hl]
  obtain ⟨n, rfl⟩ : ∃ t, n = t + 1 := ⟨n - 1, by omega⟩
  have h1 : (n + 1) * c ≤ (n + 1) * n := Nat.mul_le_mul_left _ (by omega)
  have h2 : (n + 1) * n = n * (n + 1) := Nat.mul_comm _ _
  simp only [cIndex, Nat.add_sub_cancel]
  omega

/-! ## Tri-diagonal solver -/

/-- Vectors that are long enough: the first `n` elements of the result solve the system with the first `n`
elements of `b`, the other elements of the result stay.  A longer result passes the assertion, a longer `b`
only in a release build. -/
theorem C73_tdma_long (nd : Bool) (a : TriDiag T) (n : Nat) (hw : TriWf a n) (hn : 2 ≤ n) (b x : Nat) (m : Mem T)
    (hb : m.len b = n ∨ nd = true ∧ n ≤ m.len b) (hx : n ≤ m.len x) (hr : Regular (triFull a) n) :
    ∃ l, Tdma.solveVec nd a b x m = .ok (m.setBuf x l) ∧ l.length = m.len x ∧
      Solves n (triFull a) (val0 l) (val0 (m b)) ∧ ∀ c, n ≤ c → val0 l c = val0 (m x) c := by
  have hs : Tdma.Sizes a n 1 m b x := ⟨hn, hw.1, hw.2.1, hw.2.2.1, by omega, by omega⟩
  have hD := (Tdma.regular_iff a n).mp hr
  obtain ⟨m', e, l, rfl, hl, hsol, hk, _⟩ := Ok.exists (Sat.mono (Tdma.tdma_spec hs) (fun _ h => h)
    (fun e h => by obtain ⟨i, hi, h0⟩ := h.2; exact hD i hi (not_divAt.mp h0)))
  refine ⟨l, ?_, hl, ?_, fun c hc => hk c (by omega)⟩
  · unfold Tdma.solveVec
    have : a.shape.1 = n := hw.1
    rw [this]
    rcases hb with hb | ⟨rfl, _⟩
    · rw [hb]; simp [e]
    · simp [e]
  · have := hsol 0 (by omega)
    simpa [entry] using this

/-- A result that is too short, in builds of either kind: memory outside of it is accessed (or, for a matrix
without LU factorisation, a pivot is zero). -/
theorem C73_tdma_result (nd : Bool) (a : TriDiag T) (n : Nat) (hw : TriWf a n) (hn : 2 ≤ n) (b x : Nat) (m : Mem T)
    (hb : m.len b = n) (hx : m.len x < n) :
    ∃ e, Tdma.solveVec nd a b x m = .error e ∧ (e = .ub .oob ∨ e = .nonFinite ∧ ¬ Regular (triFull a) n) := by
  obtain ⟨e, he, hq⟩ := (Tdma.tdma_never (a := a) (nrow := 1) (b := b) (x := x) (m := m) hn hw.1 hw.2.1 hw.2.2.1
    (by omega) (.inr (by omega))).exists
  have hn' : a.shape.1 = n := hw.1
  have hq' : e = .ub .oob ∨ e = .nonFinite ∧ ¬ Regular (triFull a) n :=
    hq.imp id fun h => ⟨h.1, fun hr => by obtain ⟨i, hi, h0⟩ := h.2; exact (Tdma.regular_iff a n).mp hr i hi h0⟩
  refine ⟨e, ?_, hq'⟩
  unfold Tdma.solveVec
  rw [hn', hb, beq_self_eq_true, cassert_true, ok_bind, he]
  rcases hq with rfl | ⟨rfl, _⟩ <;> rfl

/-- A right-hand side that is too short, release build. -/
theorem C73_tdma_short (a : TriDiag T) (n : Nat) (hw : TriWf a n) (hn : 2 ≤ n) (b x : Nat) (m : Mem T)
    (hb : m.len b < n) :
    ∃ e, Tdma.solveVec true a b x m = .error e ∧ (e = .ub .oob ∨ e = .nonFinite ∧ ¬ Regular (triFull a) n) := by
  obtain ⟨e, he, hq⟩ := (Tdma.tdma_never (a := a) (nrow := 1) (b := b) (x := x) (m := m) hn hw.1 hw.2.1 hw.2.2.1
    (by omega) (.inl (by omega))).exists
  have hn' : a.shape.1 = n := hw.1
  have hq' : e = .ub .oob ∨ e = .nonFinite ∧ ¬ Regular (triFull a) n :=
    hq.imp id fun h => ⟨h.1, fun hr => by obtain ⟨i, hi, h0⟩ := h.2; exact (Tdma.regular_iff a n).mp hr i hi h0⟩
  refine ⟨e, ?_, hq'⟩
  unfold Tdma.solveVec
  rw [hn', cassert_nd, ok_bind, he]
  rcases hq with rfl | ⟨rfl, _⟩ <;> rfl

/-- Matrices in a release build: whatever the shapes say, the buffers are used with the row length of `b`. -/
theorem C73_tdma_mat (a : TriDiag T) (n : Nat) (hw : TriWf a n) (hn : 2 ≤ n) (b x : MatRef) (m : Mem T)
    (hb : n * b.m ≤ m.len b.buf) (hx : n * b.m ≤ m.len x.buf) (hr : Regular (triFull a) n) :
    ∃ l, Tdma.solveMat true a b x m = .ok (m.setBuf x.buf l) ∧ l.length = m.len x.buf ∧
      (∀ k, k < b.m → Solves n (triFull a) (fun i => entry b.m l i k) (fun i => entry b.m (m b.buf) i k)) ∧
      ∀ c, n * b.m ≤ c → val0 l c = val0 (m x.buf) c := by
  have hs : Tdma.Sizes a n b.m m b.buf x.buf := ⟨hn, hw.1, hw.2.1, hw.2.2.1, hb, hx⟩
  have hD := (Tdma.regular_iff a n).mp hr
  obtain ⟨m', e, l, rfl, hl, hsol, hk, _⟩ := Ok.exists (Sat.mono (Tdma.tdma_spec hs) (fun _ h => h)
    (fun e h => by obtain ⟨i, hi, h0⟩ := h.2; exact hD i hi (not_divAt.mp h0)))
  refine ⟨l, ?_, hl, hsol, hk⟩
  unfold Tdma.solveMat
  have : a.shape.1 = n := hw.1
  rw [this]
  simp [e]

/-! ## Incomplete LU

`Ilu::solve` compares no sizes in builds of either kind. -/

variable {M : Type} {ops : MatOps M T} {ok : M → Prop}

/-- A right-hand side with `k ≤ n` elements: the leading `k x k` parts of the factors are used, silently. -/
theorem C73_ilu_short (n k : Nat) (a : M) (F : Nat → Nat → T)
    (hF : Shows ops n a F) (hk : k ≤ n) (hd : ∀ i, i < k → F i i ≠ 0) (b : List T) (hb : b.length = k) :
    ∃ x, Ilu.solve ops a b = .ok x ∧ x.length = k ∧ Solves k (luProd k F) (val0 x) (val0 b) :=
  Ilu.solve_ok (fun i j hi hj => hF.2 i j (by omega) (by omega)) hd hb

/-- If the elimination makes no fill-in, this is the leading system of the original matrix. -/
theorem C73_ilu_leading (n k : Nat) (a : M) (A F : Nat → Nat → T) (hF : Shows ops n a F) (hI : IsIlu n A F)
    (hf : NoFill n A) (hk : k ≤ n) (hd : ∀ i, i < k → F i i ≠ 0) (b : List T) (hb : b.length = k) :
    ∃ x, Ilu.solve ops a b = .ok x ∧ x.length = k ∧ Solves k A (val0 x) (val0 b) := by
  obtain ⟨x, e, hx, hs⟩ := C73_ilu_short n k a F hF hk hd b hb
  have hI' : IsIlu k A F := isIlu_iff.mpr fun r c hr hc => isIlu_iff.mp hI r c (by omega) (by omega)
  refine ⟨x, e, hx, fun i hi => ?_⟩
  rw [← hs i hi]
  unfold mulVec
  refine Finset.sum_congr rfl fun j hj => ?_
  rw [hI'.exact (fun i j k h1 h2 => hf i j k (by omega) (by omega)) i j hi (Finset.mem_range.mp hj)]

/-- More elements than rows, dense: memory outside of the matrix is read. -/
theorem C73_ilu_long_dense (n : Nat) (a : DMat T) (h1 : a.n = n) (h2 : a.m = n) (hl : a.elems.length = n * n)
    (b : List T) (hb : n < b.length) : Ilu.solve dOps a b = .error (.ub .oob) := by
  obtain ⟨k, hk⟩ : ∃ k, b.length = k + 1 := ⟨b.length - 1, by omega⟩
  refine never_oob (Q := fun e => e = .ub .oob)
    (Ilu.solve_never (Q := fun e => e = .ub .oob) rfl (fun e h => nomatch h) (fun i j => ?_) b k hk
    (.inl ?_)) fun e h => h
  · exact Sat.mono (lrd_sat (Q := fun e => e = .ub .oob) rfl a.elems _) (fun _ _ => trivial) (fun _ h => h)
  · show Never _ (lrd a.elems (k * a.m + k))
    rw [lrd_oob]
    · exact rfl
    · rw [hl, h2]
      have : n * n ≤ k * n := Nat.mul_le_mul_right n (by omega)
      omega

/-- The same, compressed rows. -/
theorem C73_ilu_long_csr (n : Nat) (a : Csr T) (hw : a.Wf) (hn : a.nrows = n) (b : List T) (hb : n < b.length) :
    Ilu.solve csrOps a b = .error (.ub .oob) := by
  obtain ⟨k, hk⟩ : ∃ k, b.length = k + 1 := ⟨b.length - 1, by omega⟩
  have hout : ∀ i j, n ≤ i → a.get i j = .error (.ub .oob) := by
    intro i j hi
    unfold Csr.get Csr.search
    have h2 : a.rowPtr.length ≤ i + 1 := by unfold Csr.nrows at hn; omega
    by_cases h1 : i < a.rowPtr.length
    · rw [lrd_ok h1, ok_bind, lrd_oob h2]; rfl
    · rw [lrd_oob (by omega)]; rfl
  refine never_oob (Q := fun e => e = .ub .oob)
    (Ilu.solve_never (Q := fun e => e = .ub .oob) rfl (fun e h => nomatch h) (fun i j => ?_) b k hk
    (.inl ?_)) fun e h => h
  · show Sat _ _ (a.get i j)
    by_cases hi : i < n
    · unfold Csr.get
      rcases Csr.search_spec hw (by omega : i < a.nrows) j with ⟨k', h1, h2, h3⟩ | ⟨_, h1⟩
      · rw [h3, ok_bind]
        exact Sat.mono (lrd_sat (Q := fun e => e = .ub .oob) rfl a.val k') (fun _ _ => trivial) (fun _ h => h)
      · rw [h1]; trivial
    · rw [hout i j (by omega)]; exact rfl
  · show Never _ (a.get k k)
    rw [hout k k (by omega)]
    exact rfl

/-- The same, coordinates: the missing diagonal element counts as zero, and is divided by. -/
theorem C73_ilu_long_coo (n m : Nat) (a : Coo T) (hw : a.Wf) (hn : a.shape = .ok (n, m)) (b : List T) (hb : n < b.length) :
    Ilu.solve cooOps a b = .error .nonFinite := by
  refine Ilu.solve_zero (n := b.length) (F := a.elem) (fun i j _ _ => Coo.get_eq hw i j) ⟨n, hb, ?_⟩ rfl
  by_contra hc
  have hmem := Coo.mem_of_elem hw hc
  have hr : n ∈ a.row := (List.of_mem_zip hmem).1
  unfold Coo.shape at hn
  cases hm : maxElem a.row with
  | error e => rw [hm] at hn; cases hn
  | ok r =>
    rw [hm, ok_bind] at hn
    cases hc : maxElem a.col with
    | error e => rw [hc] at hn; cases hn
    | ok c =>
      rw [hc, ok_bind] at hn
      injection hn with hn
      injection hn with hn _
      obtain ⟨r', h1, _, h2⟩ := maxElem_spec (List.ne_nil_of_mem hr)
      rw [hm] at h1
      injection h1 with h1
      have := h2 n hr
      omega

end

/-! ## Concrete cases -/

/-- `[[4, 2, 0], [2, 5, 0], [0, 0, 1]]` with a right-hand side of two elements, release build: from the square
storage comes the solution of `diag(4, 1) x = (4, 1)`, from the packed storage that of `[[4, 2], [2, 5]] x = (4, 1)`. -/
theorem C73_storages_differ :
    Chol.new .square 3 [4, 2, 0, 2, 5, 0, 0, 0, (1 : ℚ)] = .ok [2, 2, 0, 1, 2, 0, 0, 0, 1] ∧
    Chol.new .triangle 3 [4, 2, 5, 0, 0, (1 : ℚ)] = .ok [2, 1, 2, 0, 0, 1] ∧
    (Chol.solveMutVec true false .square 3 [2, 2, 0, 1, 2, 0, 0, 0, (1 : ℚ)] 0 (Mem.ofList [[4, 1]])).map
      (fun m => m 0) = .ok [1, 1] ∧
    (Chol.solveMutVec true false .triangle 3 [2, 1, 2, 0, 0, (1 : ℚ)] 0 (Mem.ofList [[4, 1]])).map
      (fun m => m 0) = .ok [9 / 8, -1 / 4] := by
  refine ⟨?_, ?_, ?_, ?_⟩ <;> decide +kernel

-- the same call in a build with assertions
example : (Chol.solveMutVec false false .square 3 [2, 2, 0, 1, 2, 0, 0, 0, (1 : ℚ)] 0 (Mem.ofList [[4, 1]])).map (fun m => m 0) =
    .error .assertFail := by decide +kernel
-- too many elements
example : (Chol.solveMutVec true false .square 2 [2, 7, 1, (2 : ℚ)] 0 (Mem.ofList [[8, 12, 1]])).map (fun m => m 0) =
    .error (.ub .oob) := by decide +kernel
example : (Chol.solveMutVec true false .square 2 [2, 7, 1, (0 : ℚ)] 0 (Mem.ofList [[8, 12, 1]])).map (fun m => m 0) =
    .error (.ub .oob) := by decide +kernel
example : (Chol.solveMutVec true false .triangle 2 [2, 1, (2 : ℚ)] 0 (Mem.ofList [[8, 12, 1]])).map (fun m => m 0) =
    .error (.ub .oob) := by decide +kernel
-- modified factorisation: one element too many, one too few
example : (Chol.solveMutVec true true .square 2 [1, 2, 2, (-3 : ℚ)] 0 (Mem.ofList [[5, 4, 9]])).map
    (fun m => m 0) = .ok [1, 2, 9] := by decide +kernel
example : (Chol.solveMutVec true true .square 2 [1, 2, 2, (-3 : ℚ)] 0 (Mem.ofList [[5]])).map (fun m => m 0) =
    .error (.ub .oob) := by decide +kernel
-- the `2 x 3` matrix `[[4, 9, 2], [5, 9, 9]]` is taken for `[[4, 2], [2, 5]]`
example : Chol.new .square 2 [4, 9, 2, 5, 9, (9 : ℚ)] = .ok [2, 9, 1, 2, 9, 9] := by decide +kernel
-- the `2 x 1` matrices `(4, 2)` and `(-4, 2)`
example : Chol.new .square 2 [4, (2 : ℚ)] = .error (.ub .oob) := by decide +kernel
example : Chol.new .square 2 [-4, (2 : ℚ)] = .ok [-4, 2] := by decide +kernel
example : Chol.modNew .square 2 [4, (2 : ℚ)] = .error (.ub .oob) := by decide +kernel
-- tri-diagonal: the result has three elements, one, and the right-hand side one
example : (Tdma.solveVec false (⟨[1], [2, 3], [1]⟩ : TriDiag ℚ) 0 1 (Mem.ofList [[3, 4], [7, 8, 9]])).map
    (fun m => m 1) = .ok [1, 1, 9] := by decide +kernel
example : (Tdma.solveVec false (⟨[1], [2, 3], [1]⟩ : TriDiag ℚ) 0 1 (Mem.ofList [[3, 4], [7]])).map (fun m => m 0) =
    .error (.ub .oob) := by decide +kernel
example : (Tdma.solveVec true (⟨[1], [2, 3], [1]⟩ : TriDiag ℚ) 0 1 (Mem.ofList [[3], [7, 8]])).map (fun m => m 0) =
    .error (.ub .oob) := by decide +kernel
-- incomplete LU of `[[2, 1], [4, 5]]`
example : Ilu.new dOps (⟨2, 2, [2, 1, 4, 5]⟩ : DMat ℚ) = .ok ⟨2, 2, [2, 1, 2, 3]⟩ := by decide +kernel
example : Ilu.solve dOps (⟨2, 2, [2, 1, 2, 3]⟩ : DMat ℚ) [6] = .ok [3] := by decide +kernel
example : Ilu.solve dOps (⟨2, 2, [2, 1, 2, 3]⟩ : DMat ℚ) [3, 9, 1] = .error (.ub .oob) := by decide +kernel

end Lalib.Props
