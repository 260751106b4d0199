import Verif.Model.Dense
import Verif.Model.Struct

/-!
# Model of the address arithmetic

The other model files compute positions in a storage with unbounded numbers.  Here the same accessors are run as
the machine does, with `size_t` of 64 bits: sums and products are taken modulo `2^64`, after every operation.
-/

namespace Lalib.SizeT

variable {T : Type}

/-- `a + b` on `size_t`. -/
def add (a b : Nat) : Nat := (a + b) % 2 ^ 64

/-- `a * b` on `size_t`. -/
def mul (a b : Nat) : Nat := (a * b) % 2 ^ 64

/-- `i * m + j`: `dyn_mat.hpp:151, 159`, `sized_mat.hpp:175, 182`, and in the kernels `mat_vec_ops_core.hpp:37, 47`,
`mat_mat_ops_core.hpp:32-44`, `cholesky_decomposition.hpp:16`; as `k + i * nrow` in `tdma.hpp:23-29`. -/
def cell (m i j : Nat) : Nat := add (mul i m) j

/-- `i * (i + 1) / 2 + j` behind `std::swap`: `dyn_mat.hpp:673-683, 753-763`, `sized_mat.hpp:400-410, 478-488`, and
without it `cholesky_decomposition.hpp:21`. -/
def pack (i j : Nat) : Nat :=
  let p := if i < j then (j, i) else (i, j)
  add (mul p.1 (add p.1 1) / 2) p.2

/-- `((j + 1) * j) / 2`, `dyn_mat.hpp:571, 581`. -/
def colOffset (j : Nat) : Nat := mul (add j 1) j / 2

/-- `((j + 1) * j) / 2 + j`, `dyn_mat.hpp:429, 439, 476`. -/
def hessOffset (j : Nat) : Nat := add (mul (add j 1) j / 2) j

/-- `DynMat::operator()` and `at`, `dyn_mat.hpp:147-167`. -/
def dGet (a : DMat T) (i j : Nat) : Res T := lrd a.elems (cell a.m i j)

/-- `mat(i, j) = v`, `dyn_mat.hpp:155-173`. -/
def dSet (a : DMat T) (i j : Nat) (v : T) : Res (DMat T) := do
  let e ← lwr a.elems (cell a.m i j) v
  .ok { a with elems := e }

/-- `DynLowerTriMat::operator()`, `dyn_mat.hpp:673-693`. -/
def lGet (a : LTri T) (i j : Nat) : Res T := lrd a.l (pack i j)

/-- `mat(i, j) = v`, same lines. -/
def lSet (a : LTri T) (i j : Nat) (v : T) : Res (LTri T) := do
  let l ← lwr a.l (pack i j) v
  .ok { a with l := l }

/-- `DynHermiteMat::operator()`, `dyn_mat.hpp:753-773`. -/
def hGet (a : Herm T) (i j : Nat) : Res T := lrd a.l (pack i j)

/-- `mat(i, j) = v`, same lines. -/
def hSet (a : Herm T) (i j : Nat) (v : T) : Res (Herm T) := do
  let l ← lwr a.l (pack i j) v
  .ok { a with l := l }

/-- `DynUpperTriMat::operator() const`, `dyn_mat.hpp:568-576`. -/
def uGet [Zero T] (a : UTri T) (i j : Nat) : Res T :=
  if i ≤ j then lrd a.u (add (colOffset j) i) else .ok 0

/-- `mat(i, j) = v`, `dyn_mat.hpp:578-586`. -/
def uSet (a : UTri T) (i j : Nat) (v : T) : Res (UTri T) :=
  if i ≤ j then do
    let u ← lwr a.u (add (colOffset j) i) v
    .ok { a with u := u }
  else .error (.throw .invalidArgument)

/-- `HessenbergMat::operator() const`, `dyn_mat.hpp:426-434`. -/
def hessGet [Zero T] (a : Hess T) (i j : Nat) : Res T :=
  if i ≤ add j 1 then lrd a.h (add (hessOffset j) i) else .ok 0

/-- `mat(i, j) = v`, `dyn_mat.hpp:436-444`. -/
def hessSet (a : Hess T) (i j : Nat) (v : T) : Res (Hess T) :=
  if i ≤ add j 1 then do
    let h ← lwr a.h (add (hessOffset j) i) v
    .ok { a with h := h }
  else .error (.throw .invalidArgument)

/-- `get_col`, `dyn_mat.hpp:474-479`. -/
def hessCol (a : Hess T) (j : Nat) : Res (List T) :=
  let offset := hessOffset j
  let endOffset := min (add (add offset j) 2) a.h.length
  if offset ≤ endOffset then .ok ((a.h.drop offset).take (endOffset - offset))
  else .error (.ub .oob)

/-- `HessenbergMat::_calc_size`, `dyn_mat.hpp:393-405`; `rt` as in `Hess.calcSize`. -/
def hessSize (rt : Nat → Nat) (n : Nat) : Res Nat :=
  if n = 0 then .ok 0
  else
    let ac := add 17 (mul 8 n)
    let acSq := rt ac
    if ac ≠ mul acSq acSq then .error (.throw .invalidArgument)
    else .ok (subSize acSq 3 / 2)

/-- `DynUpperTriMat::_calc_size`, `dyn_mat.hpp:537-547`. -/
def upperSize (rt : Nat → Nat) (n : Nat) : Res Nat :=
  let ac := add 1 (mul 8 n)
  let acSq := rt ac
  if ac ≠ mul acSq acSq then .error (.throw .invalidArgument)
  else .ok (subSize acSq 1 / 2)

/-- `DynMat::uninit`, `dyn_mat.hpp:100-104`: `std::vector<T>(k)` throws `std::length_error` if `k` exceeds
`max_size()`, here `maxSize`, and the function is `noexcept`.  (Failure of the allocation is not modelled.) -/
def uninit [Zero T] (maxSize n m : Nat) : Res (DMat T) :=
  if mul n m ≤ maxSize then .ok ⟨n, m, List.replicate (mul n m) 0⟩ else .error .terminate

end Lalib.SizeT
