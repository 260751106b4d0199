import Verif.Model.Tdma
import Verif.Model.Cholesky
import Mathlib.Algebra.Order.Group.Abs

/-!
# The LAPACK backend (`LALIB_LAPACK_BACKEND`)

Files: `include/lalib/solver/lapack/gtsv.hpp`, `include/lalib/solver/lapack/potr.hpp`, and the LAPACK branches
of `include/lalib/solver/tri_diag.hpp`, `include/lalib/solver/cholesky_factorization.hpp`.

`Lapack.gtsv` transcribes the reference implementation of `?gtsv` (Gaussian elimination with partial
pivoting, which overwrites the three diagonals by those of `U`); `potrf` and `potrs` are parameters, governed
by the contracts of `Verif/Spec/Lapack.lean`.  Those are assumptions about an external library, not a model of
code in /repo.  Sizes are below `2^31` (the wrappers take `int32_t`).
-/

namespace Lalib

variable {T : Type}

namespace Lapack

/-- Working arrays of `?gtsv`: the three diagonals and the right-hand sides, by row and column. -/
structure Gt (T : Type) where
  dl : Nat → T
  d : Nat → T
  du : Nat → T
  b : Nat → Nat → T

section gtsv
variable [Field T] [LinearOrder T]

/-- External: elimination of column `i`; `.inr info` ends the routine. -/
def gtStep (n i : Nat) (s : Gt T) : Res (Gt T ⊕ (Nat × Gt T)) :=
  if |s.dl i| ≤ |s.d i| then
    if s.d i = 0 then .ok (.inr (i + 1, s))
    else
      let fact := s.dl i / s.d i
      .ok (.inl {
        dl := if i + 2 < n then Function.update s.dl i 0 else s.dl
        d := Function.update s.d (i + 1) (s.d (i + 1) - fact * s.du i)
        du := s.du
        b := Function.update s.b (i + 1) (fun j => s.b (i + 1) j - fact * s.b i j) })
  else
    let fact := s.d i / s.dl i
    .ok (.inl {
      dl := if i + 2 < n then Function.update s.dl i (s.du (i + 1)) else s.dl
      d := Function.update (Function.update s.d i (s.dl i)) (i + 1) (s.du i - fact * s.d (i + 1))
      du := Function.update (if i + 2 < n then Function.update s.du (i + 1) (-fact * s.du (i + 1)) else s.du)
        i (s.d (i + 1))
      b := Function.update (Function.update s.b i (s.b (i + 1))) (i + 1)
        (fun j => s.b i j - fact * s.b (i + 1) j) })

/-- External: the elimination; `info` and the arrays it leaves. -/
def gtElim (n : Nat) (s : Gt T) : Res (Nat × Gt T) := do
  match ← forRet 0 (n - 1) (gtStep n) s with
  | .inr r => .ok r
  | .inl s => if s.d (n - 1) = 0 then .ok (n, s) else .ok (0, s)

/-- External: back substitution for the rows `k - 1, ..., 0`. -/
def gtBack (n : Nat) (s : Gt T) : Nat → (Nat → Nat → T) → (Nat → Nat → T)
  | 0, x => x
  | k + 1, x => gtBack n s k (Function.update x k fun j =>
      (x k j - (if k + 1 < n then s.du k * x (k + 1) j else 0)
        - (if k + 2 < n then s.dl k * x (k + 2) j else 0)) / s.d k)

/-- External: `LAPACKE_?gtsv(LAPACK_ROW_MAJOR, n, nrhs, dl, d, du, b, ldb)` with `ldb = nrhs`, as called in
`gtsv.hpp:26-60`: the returned `info`, the diagonals and the right-hand sides it leaves. -/
def gtsv (n nrhs : Nat) (a : TriDiag T) (b : List T) : Res (Nat × TriDiag T × List T) :=
  if a.d.length < n ∨ a.dl.length < n - 1 ∨ a.du.length < n - 1 ∨ b.length < n * nrhs then
    .error (.ub .oob)
  else if n = 0 then .ok (0, a, b)
  else do
    let r ← gtElim n ⟨val0 a.dl, val0 a.d, val0 a.du, fun i j => val0 b (i * nrhs + j)⟩
    let x := if r.1 = 0 then gtBack n r.2 n r.2.b else r.2.b
    .ok (r.1, ⟨(List.range a.dl.length).map r.2.dl, (List.range a.d.length).map r.2.d,
        (List.range a.du.length).map r.2.du⟩,
      (List.range b.length).map fun p => if p < n * nrhs then x (p / nrhs) (p % nrhs) else val0 b p)

/-- `TriDiag::solve_linear(const V&, V&)` with the LAPACK backend, `tri_diag.hpp:51-64`: the solver's matrix
after the call and the memory.  `info` is dropped. -/
def solveVec (nd : Bool) (a : TriDiag T) (b x : Nat) (m : Mem T) : Res (TriDiag T × Mem T) := noexcept do
  cassert nd (a.shape.1 == m.len b)
  let m := m.setBuf x (m b)
  let r ← gtsv a.shape.1 1 a (m x)
  .ok (r.2.1, m.setBuf x r.2.2)

/-- `TriDiag::solve_linear(const M1&, M1&)` with the LAPACK backend, `tri_diag.hpp:69-84`. -/
def solveMat (nd : Bool) (a : TriDiag T) (b x : MatRef) (m : Mem T) : Res (TriDiag T × Mem T) := noexcept do
  cassert nd (a.shape.1 == b.n)
  cassert nd (b.n == x.n && b.m == x.m)
  let m := m.setBuf x.buf (m b.buf)
  let r ← gtsv a.shape.1 b.m a (m x.buf)
  .ok (r.2.1, m.setBuf x.buf r.2.2)

end gtsv

/-! ## Cholesky -/

/-- Interface of `LAPACKE_?potrf(LAPACK_ROW_MAJOR, 'L', n, l, n)`, `potr.hpp:19-41`: `info` and the array. -/
abbrev Potrf (T : Type) := Nat → List T → Res (Nat × List T)

/-- Interface of `LAPACKE_?potrs(LAPACK_ROW_MAJOR, 'L', n, nrhs, l, n, b, nrhs)`, `potr.hpp:46-68`: the array `b`. -/
abbrev Potrs (T : Type) := Nat → Nat → List T → List T → Res (List T)

/-- `DynCholeskyFactorization(DynMat&&)` with the LAPACK backend, `cholesky_factorization.hpp:151-165`. -/
def cholNew (potrf : Potrf T) (n : Nat) (l : List T) : Res (List T) := do
  let r ← potrf n l
  throwIf (r.1 != 0) .runtimeError
  .ok r.2

/-- `solve_linear_mut(V&)` with the LAPACK backend, `cholesky_factorization.hpp:174-186`. -/
def cholMutVec (potrs : Potrs T) (nd : Bool) (n0 : Nat) (l : List T) (rhs : Nat) (m : Mem T) : Res (Mem T) := do
  cassert nd (n0 == m.len rhs)
  let x ← potrs (m.len rhs) 1 l (m rhs)
  .ok (m.setBuf rhs x)

/-- `solve_linear(const V&)` with the LAPACK backend, `cholesky_factorization.hpp:188-201`; `r` is the new
vector. -/
def cholVecAt (potrs : Potrs T) (nd : Bool) (n0 : Nat) (l : List T) (rhs r : Nat) (m : Mem T) :
    Res (Mem T) := do
  cassert nd (n0 == m.len rhs)
  let m := m.setBuf r (m rhs)
  let x ← potrs (m.len rhs) 1 l (m r)
  .ok (m.setBuf r x)

/-- `solve_linear_mut(M&)` with the LAPACK backend, `cholesky_factorization.hpp:203-217`. -/
def cholMutMat (potrs : Potrs T) (nd : Bool) (n0 : Nat) (l : List T) (rhs : MatRef) (m : Mem T) :
    Res (Mem T) := do
  cassert nd (n0 == rhs.n)
  let x ← potrs rhs.n rhs.m l (m rhs.buf)
  .ok (m.setBuf rhs.buf x)

/-- `solve_linear(const M&)` with the LAPACK backend, `cholesky_factorization.hpp:219-234`; `r` is the buffer of
the new matrix. -/
def cholMatAt (potrs : Potrs T) (nd : Bool) (n0 : Nat) (l : List T) (rhs : MatRef) (r : Nat) (m : Mem T) :
    Res (Mem T) := do
  cassert nd (n0 == rhs.n)
  let m := m.setBuf r (m rhs.buf)
  let x ← potrs rhs.n rhs.m l (m r)
  .ok (m.setBuf r x)

end Lapack

end Lalib
