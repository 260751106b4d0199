import Verif.Model.VecOps

/-!
# Level-1 BLAS calls (`LALIB_BLAS_BACKEND`)

`include/lalib/ops/vec_ops_core.hpp:163-201, 222-242, 291-309, 330-350`.  The size is passed to CBLAS, whose
size parameter is a 32-bit `int`; the conversion is modelled.  `cblas_?axpy` etc. are the documented behaviour
of the reference implementation (an external assumption): no effect / zero if `n <= 0`, and `axpy` returns at once
if `alpha = 0`.  Only strides of one occur.
-/

namespace Lalib

variable {T : Type}

/-- Conversion of a `size_t` to a 32-bit `int`. -/
def toInt32 (n : Nat) : Int :=
  if n % 2 ^ 32 < 2 ^ 31 then (n % 2 ^ 32 : Nat) else ((n % 2 ^ 32 : Nat) : Int) - 2 ^ 32

/-- External: `cblas_?axpy(n, alpha, x, 1, y, 1)`. -/
def cblasAxpy [Zero T] [DecidableEq T] [Add T] [Mul T] (n : Int) (alpha : T) (x y : Nat) (m : Mem T) : Res (Mem T) :=
  if n ≤ 0 ∨ alpha = 0 then .ok m
  else forRange 0 n.toNat (fun i m => do
    let yi ← m.rd y i
    let xi ← m.rd x i
    m.wr y i (yi + alpha * xi)) m

/-- External: `cblas_?dot(n, x, 1, y, 1)`. -/
def cblasDot [Zero T] [Add T] [Mul T] (n : Int) (x y : Nat) (m : Mem T) : Res T :=
  forRange 0 n.toNat (fun i r => do
    let xi ← m.rd x i
    let yi ← m.rd y i
    .ok (r + xi * yi)) 0

/-- External: `cblas_?scal(n, alpha, x, 1)`. -/
def cblasScal [Mul T] (n : Int) (alpha : T) (x : Nat) (m : Mem T) : Res (Mem T) :=
  forRange 0 n.toNat (fun i m => do
    let xi ← m.rd x i
    m.wr x i (alpha * xi)) m

/-- External: `cblas_?nrm2(n, x, 1)`, in exact arithmetic (scaling does not change the value). -/
def cblasNrm2 [Zero T] [Add T] [Mul T] [LT T] [DecidableLT T] [Sqrt T] (n : Int) (x : Nat) (m : Mem T) : Res T :=
  if n ≤ 0 then .ok 0
  else do
    let r ← cblasDot n x x m
    sqrtC r

/-- `axpy_core<float / double / complex>` with the BLAS backend, `vec_ops_core.hpp:163-201`. -/
def axpyBlas [Zero T] [DecidableEq T] [Add T] [Mul T] (alpha : T) (m : Mem T) (x y size : Nat) : Res (Mem T) :=
  cblasAxpy (toInt32 size) alpha x y m

/-- `dot_core<float / double>` with the BLAS backend, `vec_ops_core.hpp:222-242`. -/
def dotBlas [Zero T] [Add T] [Mul T] (m : Mem T) (x y size : Nat) : Res T := cblasDot (toInt32 size) x y m

/-- `scal_core<float / double>` with the BLAS backend, `vec_ops_core.hpp:291-309`. -/
def scalBlas [Mul T] (alpha : T) (m : Mem T) (x size : Nat) : Res (Mem T) := cblasScal (toInt32 size) alpha x m

/-- `norm2_core<float / double>` with the BLAS backend, `vec_ops_core.hpp:330-350`. -/
def norm2Blas [Zero T] [Add T] [Mul T] [LT T] [DecidableLT T] [Sqrt T] (m : Mem T) (x size : Nat) : Res T :=
  cblasNrm2 (toInt32 size) x m

/-- `axpy(T, DynVec, DynVec&)` (`vec_ops.hpp:375-381`) with the BLAS backend. -/
def axpyDBlas [Zero T] [DecidableEq T] [Add T] [Mul T] (alpha : T) (m : Mem T) (x y : Nat) : Res (Mem T) := noexcept do
  checkSize (m.len x) (m.len y)
  axpyBlas alpha m x y (m.len x)

/-- `scale(T, DynVec&)` (`vec_ops.hpp:387-396`) with the BLAS backend. -/
def scaleVBlas [Mul T] (alpha : T) (m : Mem T) (x : Nat) : Res (Mem T) :=
  noexcept (scalBlas alpha m x (m.len x))

/-- `dot(DynVec, DynVec)` (`vec_ops.hpp:460-466`) with the BLAS backend. -/
def dotDDBlas [Zero T] [Add T] [Mul T] (m : Mem T) (x y : Nat) : Res T := noexcept do
  checkSize (m.len x) (m.len y)
  dotBlas m x y (m.len x)

/-- `DynVec::norm2` (`dyn_vec.hpp:191-197`) with the BLAS backend. -/
def vecNorm2Blas [Zero T] [Add T] [Mul T] [LT T] [DecidableLT T] [Sqrt T] (m : Mem T) (x : Nat) : Res T :=
  noexcept (norm2Blas m x (m.len x))

end Lalib
