import Verif.Model.VecOps
import Verif.Model.Dense
import Verif.Model.Struct

/-!
# Model of the Cholesky factorisations

Files: `include/lalib/solver/internal/cholesky_decomposition.hpp:9-108`,
`include/lalib/solver/cholesky_factorization.hpp:16-295` (without `LALIB_LAPACK_BACKEND`).

The kernels are templates over the storage (`MemType`), and so are the functions here.  The factorisation
object owns its matrix, which is therefore a value (`List T`); right-hand sides and results are buffers of
the memory.  The counters are natural numbers (`C47` treats their width).  `std::pow(x, 2)` is `x * x`.
-/

namespace Lalib

variable {T : Type}

/-- `MemType`, `cholesky_decomposition.hpp:9`. -/
inductive MemType where
  | square
  | triangle
  deriving DecidableEq, Repr

/-- `index<MType>(n, i, j)`, `cholesky_decomposition.hpp:14-22`. -/
def cIndex : MemType → Nat → Nat → Nat → Nat
  | .square, n, i, j => i * n + j
  | .triangle, _, i, j => i * (i + 1) / 2 + j

namespace Chol

section decomp
variable [Zero T] [Sub T] [Mul T] [CDiv T] [CZero T]

/-- `l[at] -= l[p] * l[q]`, `cholesky_decomposition.hpp:30, 36` (there with `p = q`). -/
def subMul (at' p q : Nat) (l : List T) : Res (List T) := do
  let v ← lrd l at'
  let a ← lrd l p
  let b ← lrd l q
  lwr l at' (v - a * b)

/-- Body of the loop over `j`, `cholesky_decomposition.hpp:29-32`. -/
def offDiag (ix : Nat → Nat → Nat) (i j : Nat) (l : List T) : Res (List T) := do
  let l ← forRange 0 j (fun k l => subMul (ix i j) (ix i k) (ix j k) l) l
  let v ← lrd l (ix i j)
  let d ← lrd l (ix j j)
  let q ← divC v d
  lwr l (ix i j) q

/-- Body of the loop over `i`, `cholesky_decomposition.hpp:28-46`; `.inr (i, l)` is `return i`. -/
def row [LT T] [DecidableLT T] [CSqrt T] (ix : Nat → Nat → Nat) (i : Nat) (l : List T) :
    Res (List T ⊕ (Nat × List T)) := do
  let l ← forRange 0 i (offDiag ix i) l
  let l ← forRange 0 i (fun k l => subMul (ix i i) (ix i k) (ix i k) l) l
  let v ← lrd l (ix i i)
  if IsZ v then .ok (.inr (i, l))
  else if v < 0 then .ok (.inr (i, l))
  else do
    let s ← sqrtC v
    let l ← lwr l (ix i i) s
    .ok (.inl l)

/-- `cholesky_decomposition`, `cholesky_decomposition.hpp:25-49`: return code and contents of `l`. -/
def decomp [LT T] [DecidableLT T] [CSqrt T] (mt : MemType) (n : Nat) (l : List T) :
    Res (Nat × List T) := do
  match ← forRet 0 n (row (cIndex mt n)) l with
  | .inl l => .ok (0, l)
  | .inr r => .ok r

/-- The constructors `DynTriCholeskyFactorization(DynHermiteMat&&)`, `cholesky_factorization.hpp:86-96`
(`mt = triangle`; `n`, `l` are the members of the `DynHermiteMat`, which `into_lower_mat` hands over), and
`DynCholeskyFactorization(DynMat&&)`, `:151-165` (`mt = square`; `n` is the number of rows).  The result is
the data of the stored matrix. -/
def new [LT T] [DecidableLT T] [CSqrt T] (mt : MemType) (n : Nat) (l : List T) : Res (List T) := do
  let r ← decomp mt n l
  throwIf (r.1 != 0) .runtimeError
  .ok r.2

/-- Body of the loop over `k`, `cholesky_decomposition.hpp:79`. -/
def modSub (ix : Nat → Nat → Nat) (i j k : Nat) (l : List T) : Res (List T) := do
  let v ← lrd l (ix i j)
  let a ← lrd l (ix i k)
  let b ← lrd l (ix j k)
  let d ← lrd l (ix k k)
  let q ← divC (a * b) d
  lwr l (ix i j) (v - q)

/-- Body of the loop over `i`, `cholesky_decomposition.hpp:77-84`. -/
def modRow (ix : Nat → Nat → Nat) (i : Nat) (l : List T) : Res (List T) := do
  let l ← forRange 0 (i + 1) (fun j l => forRange 0 j (modSub ix i j) l) l
  let v ← lrd l (ix i i)
  throwIf (IsZ v) .runtimeError
  .ok l

/-- `mod_cholesky_decomposition`, `cholesky_decomposition.hpp:74-87`, and
`DynModCholeskyFactorization(DynMat&&)`, `cholesky_factorization.hpp:237-243`. -/
def modNew (mt : MemType) (n : Nat) (l : List T) : Res (List T) :=
  forRange 0 n (modRow (cIndex mt n)) l

end decomp

section solve
variable [Zero T] [Sub T] [Mul T] [CDiv T] [CZero T]

/-- `rslt[at] -= c * rslt[at']`. -/
def subCell (x at' p : Nat) (c : Res T) (m : Mem T) : Res (Mem T) := do
  let v ← m.rd x at'
  let c ← c
  let y ← m.rd x p
  m.wr x at' (v - c * y)

/-- `rslt[at] /= l[q]`. -/
def divCell (x at' : Nat) (l : List T) (q : Nat) (m : Mem T) : Res (Mem T) := do
  let v ← m.rd x at'
  let d ← lrd l q
  let w ← divC v d
  m.wr x at' w

/-- Forward process, one row, `cholesky_decomposition.hpp:56-60`. -/
def fwdRow (ix : Nat → Nat → Nat) (nrow : Nat) (l : List T) (rhs x k i : Nat) (m : Mem T) : Res (Mem T) := do
  let b ← m.rd rhs (i * nrow + k)
  let m ← m.wr x (i * nrow + k) b
  let m ← forRange 0 i (fun j m => subCell x (i * nrow + k) (j * nrow + k) (lrd l (ix i j)) m) m
  divCell x (i * nrow + k) l (ix i i) m

/-- Backward process, one row, `cholesky_decomposition.hpp:65-68` and `:102-105`. -/
def bwdRow (ix : Nat → Nat → Nat) (n nrow : Nat) (l : List T) (x k i : Nat) (m : Mem T) : Res (Mem T) := do
  let m ← forRange (i + 1) n (fun j m => subCell x (i * nrow + k) (j * nrow + k) (lrd l (ix j i)) m) m
  divCell x (i * nrow + k) l (ix i i) m

/-- `cholesky_linear`, `cholesky_decomposition.hpp:51-72`. -/
def linear (mt : MemType) (n nrow : Nat) (l : List T) (rhs x : Nat) (m : Mem T) : Res (Mem T) :=
  forRange 0 nrow (fun k m => do
    let m ← forRange 0 n (fwdRow (cIndex mt n) nrow l rhs x k) m
    forDown (bwdRow (cIndex mt n) n nrow l x k) n m) m

/-- Forward process of the modified factorisation, one row, `cholesky_decomposition.hpp:94-97`. -/
def modFwdRow (ix : Nat → Nat → Nat) (nrow : Nat) (l : List T) (rhs x k i : Nat) (m : Mem T) :
    Res (Mem T) := do
  let b ← m.rd rhs (i * nrow + k)
  let m ← m.wr x (i * nrow + k) b
  forRange 0 i (fun j m => subCell x (i * nrow + k) (j * nrow + k) (do
    let a ← lrd l (ix i j)
    let d ← lrd l (ix j j)
    divC a d) m) m

/-- `mod_cholesky_linear`, `cholesky_decomposition.hpp:89-108`. -/
def modLinear (mt : MemType) (n nrow : Nat) (l : List T) (rhs x : Nat) (m : Mem T) : Res (Mem T) :=
  forRange 0 nrow (fun k m => do
    let m ← forRange 0 n (modFwdRow (cIndex mt n) nrow l rhs x k) m
    forDown (bwdRow (cIndex mt n) n nrow l x k) n m) m

/-- Which of the two kernels: `cholesky_linear` or `mod_cholesky_linear`. -/
def kernel (md : Bool) : MemType → Nat → Nat → List T → Nat → Nat → Mem T → Res (Mem T) :=
  if md then modLinear else linear

/-- `solve_linear_mut(V&)`: `cholesky_factorization.hpp:105-112` (triangle), `:174-186` (square),
`:250-257` (modified).  `n0` is the size of the factorised matrix; the plain kernels are called with
`rhs.size()`, the modified one with `_n`. -/
def solveMutVec (nd md : Bool) (mt : MemType) (n0 : Nat) (l : List T) (rhs : Nat) (m : Mem T) :
    Res (Mem T) := do
  cassert nd (n0 == m.len rhs)
  kernel md mt (if md then n0 else m.len rhs) 1 l rhs rhs m

/-- `solve_linear(const V&)`: `cholesky_factorization.hpp:115-123`, `:189-201`, `:260-268`; `r` is the
new vector. -/
def solveVecAt (nd md : Bool) (mt : MemType) (n0 : Nat) (l : List T) (rhs r : Nat) (m : Mem T) :
    Res (Mem T) := do
  cassert nd (n0 == m.len rhs)
  kernel md mt (if md then n0 else m.len rhs) 1 l rhs r (m.setBuf r (m rhs))

/-- `solve_linear_mut(M&)`: `cholesky_factorization.hpp:126-135`, `:204-217`, `:272-281`.  (The other two
asserts compare `rhs` with itself.) -/
def solveMutMat (nd md : Bool) (mt : MemType) (n0 : Nat) (l : List T) (rhs : MatRef) (m : Mem T) :
    Res (Mem T) := do
  cassert nd (n0 == rhs.n)
  kernel md mt (if md then n0 else rhs.n) rhs.m l rhs.buf rhs.buf m

/-- `solve_linear(const M&)`: `cholesky_factorization.hpp:138-149`, `:220-234`, `:284-295`; `r` is the
buffer of the new matrix. -/
def solveMatAt (nd md : Bool) (mt : MemType) (n0 : Nat) (l : List T) (rhs : MatRef) (r : Nat) (m : Mem T) :
    Res (Mem T) := do
  cassert nd (n0 == rhs.n)
  kernel md mt (if md then n0 else rhs.n) rhs.m l rhs.buf r (m.setBuf r (m rhs.buf))

end solve

end Chol

end Lalib
