import Verif.Model.VecOps
import Verif.Model.Dense

/-!
# Model of the sums with `LALIB_USE_ACCELERATOR`

`__add_core_accelerator` (`vec_ops_core.hpp:48-55`) and `__sub_core_accelerator` (`:98-105`) are loops under
`#pragma omp target teams distribute parallel for` without a `map` clause.  By the rules of OpenMP (4.5 and later) for
a pointer that occurs in a target region without a clause, the array it points to is looked up among those which the
program has mapped before; nothing is copied.  If it is found, the pointer refers to the copy on the device; if it is
not, the pointer does not refer to memory of the device, and dereferencing it there is undefined behaviour.  A device
that shares the memory of the host (or no device at all, when the loop runs on the host) has no copies.

Simplification: a mapped section starts at the first element of its buffer; its length is that of the copy.
`__axpy_core_accelerator` (`:148-155`) is called from nowhere.
-/

namespace Lalib

variable {T : Type}

/-- The default device: does it share the memory of the host, and which buffers of the host have a copy on it? -/
structure Dev where
  shared : Bool
  copy : Nat → Option Nat

/-- Memory of the host and of the device. -/
structure TwoMem (T : Type) where
  host : Mem T
  dev : Mem T

/-- The address on the device of buffer `b` of the host, at a dereference. -/
def Dev.ptr (d : Dev) (b : Nat) : Res Nat :=
  match d.copy b with
  | some p => .ok p
  | none => .error (.ub .dangling)

/-- The statement `vr[i] = f(v1[i], v2[i])` on a device with its own memory. -/
def elem2Dev (f : T → T → T) (d : Dev) (v1 v2 vr : Nat) (i : Nat) (m : Mem T) : Res (Mem T) := do
  let p ← d.ptr v1
  let a ← m.rd p i
  let q ← d.ptr v2
  let b ← m.rd q i
  let r ← d.ptr vr
  m.wr r i (f a b)

/-- A loop under `#pragma omp target teams distribute parallel for`; `ord` is the order of the iterations. -/
def targetLoop (f : T → T → T) (d : Dev) (ord : List Nat) (w : TwoMem T) (v1 v2 vr : Nat) : Res (TwoMem T) :=
  if d.shared then do
    let m ← forOrder (elem2 f v1 v2 vr) ord w.host
    .ok ⟨m, w.dev⟩
  else do
    let m ← forOrder (elem2Dev f d v1 v2 vr) ord w.dev
    .ok ⟨w.host, m⟩

/-- Code that runs on the host. -/
def onHost (w : TwoMem T) (k : Mem T → Res (Mem T)) : Res (TwoMem T) := do
  let m ← k w.host
  .ok ⟨m, w.dev⟩

/-- `__add_core_accelerator`, `vec_ops_core.hpp:48-55`. -/
def addCoreTarget [Add T] (d : Dev) (ord : List Nat) (w : TwoMem T) (v1 v2 vr : Nat) : Res (TwoMem T) :=
  targetLoop (· + ·) d ord w v1 v2 vr

/-- `add_core` with `LALIB_USE_ACCELERATOR`, `vec_ops_core.hpp:66-77`. -/
def addCoreAcc [Add T] (d : Dev) (ord : List Nat) (w : TwoMem T) (v1 v2 vr size : Nat) : Res (TwoMem T) :=
  if size < 16 then onHost w fun m => addCoreSimd m v1 v2 vr size else addCoreTarget d ord w v1 v2 vr

/-- `__sub_core_accelerator`, `vec_ops_core.hpp:98-105`. -/
def subCoreTarget [Sub T] (d : Dev) (ord : List Nat) (w : TwoMem T) (v1 v2 vr : Nat) : Res (TwoMem T) :=
  targetLoop (· - ·) d ord w v1 v2 vr

/-- `sub_core` with `LALIB_USE_ACCELERATOR`, `vec_ops_core.hpp:116-127`. -/
def subCoreAcc [Sub T] (d : Dev) (ord : List Nat) (w : TwoMem T) (v1 v2 vr size : Nat) : Res (TwoMem T) :=
  if size < 16 then onHost w fun m => subCoreSimd m v1 v2 vr size else subCoreTarget d ord w v1 v2 vr

/-- `add(DynVec, DynVec, DynVec&)`, `vec_ops.hpp:296-301` (of `SizedVec`s, `:273-278`: the check never fails). -/
def addDDAcc [Add T] (d : Dev) (ord : List Nat) (w : TwoMem T) (v1 v2 vr : Nat) : Res (TwoMem T) := do
  checkSize (w.host.len v1) (w.host.len v2)
  addCoreAcc d ord w v1 v2 vr (w.host.len v1)

/-- `sub(DynVec, DynVec, DynVec&)`, `vec_ops.hpp:343-348` (of `SizedVec`s, `:321-325`). -/
def subDDAcc [Sub T] (d : Dev) (ord : List Nat) (w : TwoMem T) (v1 v2 vr : Nat) : Res (TwoMem T) := do
  checkSize (w.host.len v1) (w.host.len v2)
  subCoreAcc d ord w v1 v2 vr (w.host.len v1)

/-- `operator+(DynVec, DynVec)`, `vec_ops.hpp:304-317`; `r` is the new object, a copy of `v1` made on the host. -/
def addOpAcc [Add T] (d : Dev) (ord : List Nat) (w : TwoMem T) (v1 v2 r : Nat) : Res (TwoMem T) :=
  addDDAcc d ord ⟨w.host.setBuf r (w.host v1), w.dev⟩ v1 v2 r

/-- `operator-(DynVec, DynVec)`, `vec_ops.hpp:351-364`. -/
def subOpAcc [Sub T] (d : Dev) (ord : List Nat) (w : TwoMem T) (v1 v2 r : Nat) : Res (TwoMem T) :=
  subDDAcc d ord ⟨w.host.setBuf r (w.host v1), w.dev⟩ v1 v2 r

/-- `add(DynMat, DynMat, DynMat&)`, `mat_mat_ops.hpp:37-43`. -/
def matAddAcc [Add T] (nd : Bool) (d : Dev) (ord : List Nat) (m1 m2 mr : MatRef) (w : TwoMem T) : Res (TwoMem T) :=
  noexcept do
    cassert nd (m1.n == m2.n && m1.m == m2.m)
    cassert nd (m1.n == mr.n && m1.m == mr.m)
    addCoreAcc d ord w m1.buf m2.buf mr.buf (m1.n * m1.m)

/-- `sub(DynMat, DynMat, DynMat&)`, `mat_mat_ops.hpp:84-90`. -/
def matSubAcc [Sub T] (nd : Bool) (d : Dev) (ord : List Nat) (m1 m2 mr : MatRef) (w : TwoMem T) : Res (TwoMem T) :=
  noexcept do
    cassert nd (m1.n == m2.n && m1.m == m2.m)
    cassert nd (m1.n == mr.n && m1.m == mr.m)
    subCoreAcc d ord w m1.buf m2.buf mr.buf (m1.n * m1.m)

/-- `operator+(DynMat, DynMat)`, `mat_mat_ops.hpp:52-57` (`SizedMat`: `:45-50`); `r` is the new matrix, a copy of `a`
made on the host. -/
def matAddOpAcc [Add T] (nd : Bool) (d : Dev) (ord : List Nat) (w : TwoMem T) (a b : MatRef) (r : Nat) : Res (TwoMem T) :=
  noexcept (matAddAcc nd d ord a b ⟨r, a.n, a.m⟩ ⟨w.host.setBuf r (w.host a.buf), w.dev⟩)

/-- `operator-(DynMat, DynMat)`, `mat_mat_ops.hpp:99-104` (`SizedMat`: `:92-97`). -/
def matSubOpAcc [Sub T] (nd : Bool) (d : Dev) (ord : List Nat) (w : TwoMem T) (a b : MatRef) (r : Nat) : Res (TwoMem T) :=
  noexcept (matSubAcc nd d ord a b ⟨r, a.n, a.m⟩ ⟨w.host.setBuf r (w.host a.buf), w.dev⟩)

/-! The directives a program may put around the calls (they are not in the library). -/

/-- `#pragma omp target update to(b[0:n])`, the whole buffer; also the copy made by `target enter data map(to: ...)`. -/
def updateTo (d : Dev) (b : Nat) (w : TwoMem T) : TwoMem T :=
  match d.shared, d.copy b with
  | false, some p => ⟨w.host, w.dev.setBuf p (w.host b)⟩
  | _, _ => w

/-- `#pragma omp target update from(b[0:n])`. -/
def updateFrom (d : Dev) (b : Nat) (w : TwoMem T) : TwoMem T :=
  match d.shared, d.copy b with
  | false, some p => ⟨w.host.setBuf b (w.dev p), w.dev⟩
  | _, _ => w

end Lalib
