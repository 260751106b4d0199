import Verif.Props.Inverse
import Verif.Props.Minimise
import Verif.Proofs.Cramer

/-! # Property C113: Cramer's rule, integer data, rank-one changes

In exact arithmetic. -/

namespace Lalib.Props

open Lalib Finset

variable {T M : Type}

/-! ## Cramer's rule and integer data -/

/-- Cholesky, both storages. -/
theorem C113_cramer_chol [Field T] [LinearOrder T] [IsStrictOrderedRing T] [Sqrt T] [LawfulSqrt T] (nd : Bool) (mt : MemType) (n : Nat)
    (l L : List T) (A : Nat → Nat → T) (hl : Lower mt n l A) (hs : Symm n A) (hp : PosDef n A) (hL : Chol.new mt n l = .ok L) (m : Mem T)
    (b r : Nat) (hb : m.len b = n) (hr : r ≠ b) :
    ∃ x, x.length = n ∧ Chol.solveMutVec nd false mt n L b m = .ok (m.setBuf b x) ∧
      Chol.solveVecAt nd false mt n L b r m = .ok (m.setBuf r x) ∧ Cramer n A (val0 x) (m.val b) ∧ IntResult n A (val0 x) (m.val b) := by
  obtain ⟨x, hx, sx, e1, e2⟩ := C37_vec nd mt n l L A hl hs hp hL m b r hb hr
  exact ⟨x, hx, e1, e2, cramer_of sx, int_of sx⟩

section
variable [Field T] [DecidableEq T]

/-- Modified Cholesky, for every matrix it accepts. -/
theorem C113_cramer_mod (nd : Bool) (mt : MemType) (n : Nat) (l L : List T) (A : Nat → Nat → T) (hl : Lower mt n l A) (hs : Symm n A)
    (hL : Chol.modNew mt n l = .ok L) (m : Mem T) (b r : Nat) (hb : m.len b = n) (hr : r ≠ b) :
    ∃ x, x.length = n ∧ Chol.solveMutVec nd true mt n L b m = .ok (m.setBuf b x) ∧
      Chol.solveVecAt nd true mt n L b r m = .ok (m.setBuf r x) ∧ Cramer n A (val0 x) (m.val b) ∧ IntResult n A (val0 x) (m.val b) := by
  obtain ⟨x, hx, sx, e1, e2⟩ := C39_vec nd mt n l L A hl hs hL m b r hb hr
  exact ⟨x, hx, e1, e2, cramer_of sx, int_of sx⟩

/-- The tri-diagonal solver. -/
theorem C113_cramer_tdma (nd : Bool) (a : TriDiag T) (n : Nat) (hw : TriWf a n) (hn : 2 ≤ n) (hr : Regular (triFull a) n) (m : Mem T)
    (b r : Nat) (hb : m.len b = n) (hrl : m.len r = n) :
    ∃ x, x.length = n ∧ Tdma.solveVec nd a b r m = .ok (m.setBuf r x) ∧ Cramer n (triFull a) (val0 x) (m.val b) ∧
      IntResult n (triFull a) (val0 x) (m.val b) := by
  obtain ⟨x, _, e1, h1, hx, sx⟩ := C34_vec_partial nd a n hw hn b r m hb hrl hr
  exact ⟨x, hx, h1.eq ▸ e1, cramer_of sx, int_of sx⟩

/-- Incomplete LU without fill-in. -/
theorem C113_cramer_ilu {ops : MatOps M T} {ok : M → Prop} (hst : Storage ops ok) (n : Nat) (a : M) (A : Nat → Nat → T) (hok : ok a)
    (hA : Shows ops n a A) (hnf : NoFill n A) (hr : Regular A n) :
    ∃ f, Ilu.new ops a = .ok f ∧ ∀ b : List T, b.length = n →
      ∃ x, Ilu.solve ops f b = .ok x ∧ x.length = n ∧ Cramer n A (val0 x) (val0 b) ∧ IntResult n A (val0 x) (val0 b) := by
  obtain ⟨f, _, e, -, -, h⟩ := C43_noFill hst n a A hok hA hnf hr
  refine ⟨f, e, fun b hb => ?_⟩
  obtain ⟨x, ex, hx, sx⟩ := h b hb
  exact ⟨x, ex, hx, cramer_of sx, int_of sx⟩

/-- Back substitution. -/
theorem C113_cramer_backSub (a : UTri T) (R : Nat → Nat → T) (hR : ∀ i j, i < a.n → j < a.n → a.get i j = .ok (R i j))
    (hd : ∀ i, i < a.n → R i i ≠ 0) (b : List T) (hb : b.length = a.n) :
    ∃ x, a.backSub b = .ok x ∧ x.length = a.n ∧ Cramer a.n R (val0 x) (val0 b) ∧ IntResult a.n R (val0 x) (val0 b) := by
  obtain ⟨x, e, hx, sx, -⟩ := C22_solves a R b hb hR hd
  exact ⟨x, e, hx, cramer_of sx, int_of sx⟩

end

/-! ## Rank-one changes -/

/-- `A + t u uᵀ` with Cholesky: let `x` and `y` be the solutions for `A` with the right-hand sides `b` and `u`.  The changed matrix is positive
definite exactly if `1 + t (u·y) > 0`, so for every `t ≥ 0`; then its factorisation completes, and its solution is
`x - t (u·x) / (1 + t (u·y)) y`.  If not, and the first entry is still positive, the factorisation throws. -/
theorem C113_update_chol [Field T] [LinearOrder T] [IsStrictOrderedRing T] [Sqrt T] [LawfulSqrt T] (nd : Bool) (mt : MemType) (n : Nat)
    (l l' L : List T) (A : Nat → Nat → T) (hl : Lower mt n l A) (hs : Symm n A) (hp : PosDef n A) (hL : Chol.new mt n l = .ok L) (m : Mem T)
    (b u r : Nat) (hb : m.len b = n) (hu : m.len u = n) (hrb : r ≠ b) (hru : r ≠ u) (t : T)
    (hl' : Lower mt n l' (rankOne A t (m.val u) (m.val u))) :
    ∃ x y, x.length = n ∧ y.length = n ∧ Chol.solveVecAt nd false mt n L b r m = .ok (m.setBuf r x) ∧
      Chol.solveVecAt nd false mt n L u r m = .ok (m.setBuf r y) ∧ 0 ≤ ip n (m.val u) (val0 y) ∧
      minor (rankOne A t (m.val u) (m.val u)) n = minor A n * (1 + t * ip n (m.val u) (val0 y)) ∧
      (0 < 1 + t * ip n (m.val u) (val0 y) →
        ∃ L' z, Chol.new mt n l' = .ok L' ∧ z.length = n ∧ Chol.solveVecAt nd false mt n L' b r m = .ok (m.setBuf r z) ∧
          ∀ i, i < n → val0 z i = val0 x i - t * ip n (m.val u) (val0 x) / (1 + t * ip n (m.val u) (val0 y)) * val0 y i) ∧
      (1 + t * ip n (m.val u) (val0 y) ≤ 0 → 0 < A 0 0 + t * m.val u 0 * m.val u 0 →
        Chol.new mt n l' = .error (.throw .runtimeError)) := by
  obtain ⟨x, hx, sx, -, e1⟩ := C37_vec nd mt n l L A hl hs hp hL m b r hb hrb
  obtain ⟨y, hy, sy, -, e2⟩ := C37_vec nd mt n l L A hl hs hp hL m u r hu hru
  have hs' := rankOne_symm hs t (m.val u)
  have iff := rankOne_posDef (t := t) hs hp sy
  refine ⟨x, y, hx, hy, e1, e2, ?_, rankOne_minor sy, fun h => ?_, fun h h0 => ?_⟩
  · have := hp.ip_nonneg (val0 y)
    rwa [ip_solves sy, ip_flip] at this
  · have hp' := iff.mpr h
    obtain ⟨L', eL⟩ := C36_accepts mt n l' _ hl' hs' hp'
    obtain ⟨z, hz, sz, -, ez⟩ := C37_vec nd mt n l' L' _ hl' hs' hp' eL m b r hb hrb
    exact ⟨L', z, eL, hz, ez, fun i hi => solves_unique hp'.regular.det sz (rankOne_solves sx sy h.ne') i hi⟩
  · exact C36_rejects_partial mt n l' _ hl' hs' h0 fun hp' => absurd (iff.mp hp') (not_lt.mpr h)

/-- The same with modified Cholesky, for all symmetric matrices that it accepts before and after the change. -/
theorem C113_update_mod [Field T] [DecidableEq T] (nd : Bool) (mt : MemType) (n : Nat) (l l' L L' : List T) (A : Nat → Nat → T)
    (hl : Lower mt n l A) (hs : Symm n A) (hL : Chol.modNew mt n l = .ok L) (m : Mem T) (b u r : Nat) (hb : m.len b = n) (hu : m.len u = n)
    (hrb : r ≠ b) (hru : r ≠ u) (t : T) (hl' : Lower mt n l' (rankOne A t (m.val u) (m.val u))) (hL' : Chol.modNew mt n l' = .ok L') :
    ∃ x y z, x.length = n ∧ y.length = n ∧ z.length = n ∧ Chol.solveVecAt nd true mt n L b r m = .ok (m.setBuf r x) ∧
      Chol.solveVecAt nd true mt n L u r m = .ok (m.setBuf r y) ∧ Chol.solveVecAt nd true mt n L' b r m = .ok (m.setBuf r z) ∧
      1 + t * ip n (m.val u) (val0 y) ≠ 0 ∧
      ∀ i, i < n → val0 z i = val0 x i - t * ip n (m.val u) (val0 x) / (1 + t * ip n (m.val u) (val0 y)) * val0 y i := by
  obtain ⟨x, hx, sx, -, e1⟩ := C39_vec nd mt n l L A hl hs hL m b r hb hrb
  obtain ⟨y, hy, sy, -, e2⟩ := C39_vec nd mt n l L A hl hs hL m u r hu hru
  obtain ⟨z, hz, sz, -, ez⟩ := C39_vec nd mt n l' L' _ hl' (rankOne_symm hs t (m.val u)) hL' m b r hb hrb
  have hm := (mod_data mt n l' L' _ hl' (rankOne_symm hs t (m.val u)) hL').2.2.2
  have h : 1 + t * ip n (m.val u) (val0 y) ≠ 0 := fun h0 =>
    hm ((rankOne_minor (v := m.val u) sy).trans (by rw [h0, mul_zero]))
  exact ⟨x, y, z, hx, hy, hz, e1, e2, ez, h, fun i hi => solves_unique hm sz (rankOne_solves sx sy h) i hi⟩

/-! ## Cases -/

-- determinant 1: the solution of (2, 1; 1, 1) x = (7, 5) with modified Cholesky is made of integers
example : (Chol.modNew .square 2 [2, 1, 1, (1 : ℚ)] >>= fun L => Chol.solveVecAt true true .square 2 L 0 1 (Mem.ofList [[7, 5]])).map (· 1) =
    .ok [2, 3] := by decide +kernel

-- determinant 3: three times the solution is made of integers
example : (Chol.modNew .square 2 [2, 1, 1, (2 : ℚ)] >>= fun L => Chol.solveVecAt true true .square 2 L 0 1 (Mem.ofList [[1, 0]])).map (· 1) =
    .ok [2 / 3, -1 / 3] := by decide +kernel

-- the hypotheses of the integer statement are satisfiable, and the conclusion is what it says
example : IntResult 1 (fun _ _ => (2 : ℚ)) (fun _ => 1 / 2) (fun _ => 1) ∧ ¬ IsInt (1 / 2 : ℚ) := by
  refine ⟨int_of fun i hi => by norm_num [mulVec], ?_⟩
  rintro ⟨z, hz⟩
  have : (1 : ℚ) = ((2 * z : ℤ) : ℚ) := by push_cast; linarith
  have h2 : (1 : ℤ) = 2 * z := by exact_mod_cast this
  omega

-- the matrix (1) minus t times u uᵀ with u = (1): positive definite exactly for t below 1
example (t : ℝ) : PosDef 1 (rankOne (fun _ _ => (1 : ℝ)) (-t) (fun _ => 1) (fun _ => 1)) ↔ t < 1 := by
  have h1 : Symm 1 (fun _ _ => (1 : ℝ)) := fun _ _ _ _ => rfl
  have h2 : PosDef 1 (fun _ _ => (1 : ℝ)) := fun x ⟨i, hi, hx⟩ => by
    obtain rfl : i = 0 := by omega
    simpa using hx
  have h3 : Solves 1 (fun _ _ => (1 : ℝ)) (fun _ => 1) (fun _ => 1) := fun i hi => by simp [mulVec]
  rw [rankOne_posDef h1 h2 h3]
  simp [ip]

end Lalib.Props
