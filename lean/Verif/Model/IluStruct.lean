import Verif.Model.Ilu
import Verif.Model.Struct

/-!
# Incomplete LU factorisation over the packed matrix classes

File: `include/lalib/solver/ilu.hpp:37-93` with `M` one of the classes of `Model/Struct.lean`.

`_decomp_lu_inplace(M& mat)` (`ilu.hpp:37-63`) works on a mutable matrix, so every `mat(i, j)` there selects the
mutable overload of `operator()`; `solve() const` (`ilu.hpp:74-93`) selects the other one.  The two differ off the
stored part: the first throws.  So each class has one `MatOps` for the constructor (`…Mut`) and one for `solve`.
The constructor is not `noexcept`, so what the accessors throw reaches the caller.
-/

namespace Lalib

variable {T : Type}

/-- `DynTriDiagMat` / `SizedTriDiagMat` in the constructor: `dyn_mat.hpp:280-285, 295-302, 310-314`,
`sized_mat.hpp:295-299, 309-316, 324-328`. -/
def triMut (sized : Bool) : MatOps (TriDiag T) T :=
  ⟨fun a => .ok a.shape, TriDiag.getMut sized, TriDiag.set sized⟩

/-- The same in `solve`: `dyn_mat.hpp:287-294`, `sized_mat.hpp:301-308`. -/
def triOps (sized : Bool) : MatOps (TriDiag T) T :=
  ⟨fun a => .ok a.shape, TriDiag.get, TriDiag.set sized⟩

/-- `HessenbergMat` in the constructor: `dyn_mat.hpp:421-424, 436-444, 451-454`. -/
def hessMut : MatOps (Hess T) T := ⟨fun a => .ok a.shape, Hess.getMut, Hess.set⟩

/-- The same in `solve`: `dyn_mat.hpp:426-434`. -/
def hessOps [Zero T] : MatOps (Hess T) T := ⟨fun a => .ok a.shape, Hess.get, Hess.set⟩

/-- `DynUpperTriMat` in the constructor: `dyn_mat.hpp:563-566, 578-586, 593-596`. -/
def uTriMut : MatOps (UTri T) T := ⟨fun a => .ok a.shape, UTri.getMut, UTri.set⟩

/-- The same in `solve`: `dyn_mat.hpp:568-576`. -/
def uTriOps [Zero T] : MatOps (UTri T) T := ⟨fun a => .ok a.shape, UTri.get, UTri.set⟩

/-- `DynLowerTriMat` / `SizedLowerTriMat`, whose two overloads read the same elements:
`dyn_mat.hpp:668-693`, `sized_mat.hpp:394-420`. -/
def lTriOps : MatOps (LTri T) T := ⟨fun a => .ok (a.n, a.n), LTri.get, LTri.set⟩

/-- `DynHermiteMat` / `SizedHermiteMat`: `dyn_mat.hpp:748-773`, `sized_mat.hpp:473-498`. -/
def hermOps : MatOps (Herm T) T := ⟨fun a => .ok (a.n, a.n), Herm.get, Herm.set⟩

end Lalib
