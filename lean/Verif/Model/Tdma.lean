import Verif.Model.Dense
import Verif.Model.Struct

/-!
# Model of the tri-diagonal solver

Files: `include/lalib/solver/internal/tdma.hpp:10-33`, `include/lalib/solver/tri_diag.hpp:20-84`
(without `LALIB_LAPACK_BACKEND`).

`TriDiag` holds its own copy of the matrix, so the three diagonals are values here; `b` and `x` are buffers
of the memory and may be the same buffer.  `T` is the element type with exact arithmetic; a division by zero
is the outcome `nonFinite`.
-/

namespace Lalib

variable {T : Type}

namespace Tdma

section
variable [Zero T] [Add T] [Sub T] [Mul T] [Neg T] [CDiv T]

/-- One iteration of the forward sweep, `tdma.hpp:21-23`; the state is `(p, q)`. -/
def fwdStep (a : TriDiag T) (m : Mem T) (nrow b k i : Nat) (pq : List T × List T) :
    Res (List T × List T) := do
  let di ← lrd a.d i
  let l ← lrd a.dl (i - 1)
  let p1 ← lrd pq.1 (i - 1)
  let denom := di + l * p1
  let u ← lrd a.du i
  let p ← divC (-u) denom
  let bi ← m.rd b (k + i * nrow)
  let q1 ← lrd pq.2 (i - 1)
  let q ← divC (bi - l * q1) denom
  .ok (pq.1 ++ [p], pq.2 ++ [q])

/-- Forward sweep of column `k`, `tdma.hpp:14-24`. -/
def fwd (a : TriDiag T) (m : Mem T) (n nrow b k : Nat) : Res (List T × List T) := do
  let u0 ← lrd a.du 0
  let d0 ← lrd a.d 0
  let p0 ← divC (-u0) d0
  let b0 ← m.rd b k
  let q0 ← divC b0 d0
  forRange 1 (n - 1) (fwdStep a m nrow b k) ([p0], [q0])

/-- `tdma.hpp:26-27`. -/
def tailStep (a : TriDiag T) (n nrow b x k : Nat) (pq : List T × List T) (m : Mem T) : Res (Mem T) := do
  let tail := n - 1
  let bt ← m.rd b (k + tail * nrow)
  let l ← lrd a.dl (subSize tail 1)
  let q ← lrd pq.2 (subSize tail 1)
  let dt ← lrd a.d tail
  let p ← lrd pq.1 (subSize tail 1)
  let v ← divC (bt - l * q) (dt + l * p)
  m.wr x (k + tail * nrow) v

/-- `tdma.hpp:29`. -/
def backStep (nrow x k : Nat) (pq : List T × List T) (i : Nat) (m : Mem T) : Res (Mem T) := do
  let p ← lrd pq.1 i
  let xn ← m.rd x (k + (i + 1) * nrow)
  let q ← lrd pq.2 i
  m.wr x (k + i * nrow) (p * xn + q)

/-- One column, `tdma.hpp:14-30`.  The `int32_t` counter of the last loop is modelled by a natural number
(see `C47` for the range in which that is right). -/
def column (a : TriDiag T) (n nrow b x k : Nat) (m : Mem T) : Res (Mem T) := do
  let pq ← fwd a m n nrow b k
  let m ← tailStep a n nrow b x k pq m
  forDown (backStep nrow x k pq) (n - 1) m

/-- `tdma`, `tdma.hpp:12-33`. -/
def tdma (a : TriDiag T) (n nrow b x : Nat) (m : Mem T) : Res (Mem T) :=
  forRange 0 nrow (column a n nrow b x) m

/-- `TriDiag::solve_linear(const V&, V&)`, `tri_diag.hpp:51-64`. -/
def solveVec (nd : Bool) (a : TriDiag T) (b x : Nat) (m : Mem T) : Res (Mem T) := noexcept do
  cassert nd (a.shape.1 == m.len b)
  tdma a a.shape.1 1 b x m

/-- `TriDiag::solve_linear(const M1&, M1&)`, `tri_diag.hpp:69-84`. -/
def solveMat (nd : Bool) (a : TriDiag T) (b x : MatRef) (m : Mem T) : Res (Mem T) := noexcept do
  cassert nd (a.shape.1 == b.n)
  cassert nd (b.n == x.n && b.m == x.m)
  tdma a a.shape.1 b.m b.buf x.buf m

end

end Tdma

end Lalib
