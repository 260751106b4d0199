import Verif.Proofs.Tdma

/-! # Property C34: tri-diagonal solver

Full claim: for every `n >= 1`.  It is false for `n = 1` (`C34_one_false`), so the solving theorems are for
`n >= 2` and carry the suffix `_partial`. -/

namespace Lalib.Props

open Lalib

variable {T : Type}

/-- Vector right-hand side.  `b` and `x` may be the same vector (`b = x`). -/
theorem C34_vec_partial [Field T] [DecidableEq T] (nd : Bool) (a : TriDiag T) (n : Nat) (hw : TriWf a n)
    (hn : 2 ≤ n) (b x : Nat) (m : Mem T) (hb : m.len b = n) (hx : m.len x = n)
    (hr : Regular (triFull a) n) :
    ∃ l m', Tdma.solveVec nd a b x m = .ok m' ∧ Stores m m' x l ∧ l.length = n ∧
      Solves n (triFull a) (val0 l) (val0 (m b)) := by
  have hs : Tdma.Sizes a n 1 m b x := ⟨hn, hw.1, hw.2.1, hw.2.2.1, by omega, by omega⟩
  have hD := (Tdma.regular_iff a n).mp hr
  obtain ⟨m', e, l, rfl, hl, hsol, _⟩ := Ok.exists (Sat.mono (Tdma.tdma_spec hs) (fun _ h => h)
    (fun e h => by obtain ⟨i, hi, h0⟩ := h.2; exact hD i hi (not_divAt.mp h0)))
  refine ⟨l, _, ?_, stores_setBuf _ _ _, by omega, ?_⟩
  · unfold Tdma.solveVec
    have : a.shape.1 = n := hw.1
    rw [this, hb]
    simp [e]
  · have := hsol 0 (by omega)
    simpa [entry] using this

/-- Matrix right-hand side: every column is solved.  `b` and `x` may share one buffer. -/
theorem C34_mat_partial [Field T] [DecidableEq T] (nd : Bool) (a : TriDiag T) (n : Nat) (hw : TriWf a n)
    (hn : 2 ≤ n) (b x : MatRef) (m : Mem T) (hbw : b.Wf m) (hxw : x.Wf m) (hbn : b.n = n) (hxn : x.n = n)
    (hxm : x.m = b.m) (hr : Regular (triFull a) n) :
    ∃ l m', Tdma.solveMat nd a b x m = .ok m' ∧ Stores m m' x.buf l ∧ l.length = n * b.m ∧
      ∀ k, k < b.m → Solves n (triFull a) (fun i => entry b.m l i k) (fun i => entry b.m (m b.buf) i k) := by
  have h1 : m.len b.buf = n * b.m := by rw [hbw, hbn]
  have h2 : m.len x.buf = n * b.m := by rw [hxw, hxn, hxm]
  have hs : Tdma.Sizes a n b.m m b.buf x.buf := ⟨hn, hw.1, hw.2.1, hw.2.2.1, h1.ge, h2.ge⟩
  have hD := (Tdma.regular_iff a n).mp hr
  obtain ⟨m', e, l, rfl, hl, hsol, _⟩ := Ok.exists (Sat.mono (Tdma.tdma_spec hs) (fun _ h => h)
    (fun e h => by obtain ⟨i, hi, h0⟩ := h.2; exact hD i hi (not_divAt.mp h0)))
  refine ⟨l, _, ?_, stores_setBuf _ _ _, by omega, hsol⟩
  unfold Tdma.solveMat
  have : a.shape.1 = n := hw.1
  rw [this, hbn, hxn, hxm]
  simp [e]

/-- The domain is exact: if a leading principal minor vanishes the computation divides by zero. -/
theorem C34_singular [Field T] [DecidableEq T] (nd : Bool) (a : TriDiag T) (n : Nat) (hw : TriWf a n)
    (hn : 2 ≤ n) (b x : Nat) (m : Mem T) (hb : m.len b = n) (hx : m.len x = n)
    (hr : ¬ Regular (triFull a) n) : Tdma.solveVec nd a b x m = .error .nonFinite := by
  have hs : Tdma.Sizes a n 1 m b x := ⟨hn, hw.1, hw.2.1, hw.2.2.1, by omega, by omega⟩
  have h := Tdma.tdma_spec hs
  have e : Tdma.solveVec nd a b x m = noexcept (Tdma.tdma a n 1 b x m) := by
    unfold Tdma.solveVec
    have : a.shape.1 = n := hw.1
    rw [this, hb]
    simp
  rw [e]
  cases hc : Tdma.tdma a n 1 b x m with
  | ok m' =>
    rw [hc] at h
    obtain ⟨_, _, _, _, _, hD⟩ := h
    exact absurd ((Tdma.regular_iff a n).mpr (hD (by omega))) hr
  | error f => rw [hc] at h; rw [h.1]; rfl

/-- Diagonally dominant matrices qualify. -/
theorem C34_dominant [Field T] [LinearOrder T] [IsStrictOrderedRing T] (a : TriDiag T) (n : Nat)
    (hd : DiagDom (triFull a) n) : Regular (triFull a) n :=
  (Tdma.regular_iff a n).mpr fun i hi => (Tdma.dom_pivots hd i hi).1

/-- A `1 x 1` system is never solved: the kernel reads `du[0]`, which does not exist. -/
theorem C34_one_false [Field T] [DecidableEq T] (nd : Bool) (a : TriDiag T) (hw : TriWf a 1) (b x : Nat)
    (m : Mem T) (hb : m.len b = 1) : Tdma.solveVec nd a b x m = .error (.ub .oob) := by
  unfold Tdma.solveVec
  have : a.shape.1 = 1 := hw.1
  have hu : a.du = [] := List.length_eq_zero_iff.mp (by have := hw.2.2.1; omega)
  rw [this, hb]
  unfold Tdma.tdma
  rw [forRange_head (by omega)]
  simp [Tdma.column, Tdma.fwd, hu, lrd, noexcept]

-- a dominant matrix, solved in place
example : DiagDom (triFull (⟨[1, 1], [3, 3, 3], [1, 1]⟩ : TriDiag ℚ)) 3 := by
  unfold DiagDom; decide +kernel

example : (Tdma.solveVec false (⟨[1, 1], [3, 3, 3], [1, 1]⟩ : TriDiag ℚ) 0 0 (Mem.ofList [[4, 5, 4]])).map
    (fun m => m 0) = .ok [1, 1, 1] := by decide +kernel

-- two right-hand sides, a matrix that is not dominant
example : (Tdma.solveMat false (⟨[2, 1], [1, 1, 1], [3, 1]⟩ : TriDiag ℚ) ⟨0, 3, 2⟩ ⟨1, 3, 2⟩
    (Mem.ofList [[1, 0, 2, 0, 3, 6], [0, 0, 0, 0, 0, 0]])).map (fun m => m 1) =
    .ok [-1/2, -3, 1/2, 1, 5/2, 5] := by decide +kernel

end Lalib.Props
