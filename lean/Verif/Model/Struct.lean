import Verif.Core.Mem

/-!
# Model of the structured matrices

Files: `include/lalib/mat/dyn_mat.hpp:225-783`, `include/lalib/mat/sized_mat.hpp:247-508`.

A member function returning `T&` is modelled by the two things a caller can do with the reference: `getMut`
(read through it) and `set` (write through it).  `get` is a read through the `const` overload.
-/

namespace Lalib

variable {T : Type}

/-- `a - b` on `size_t`. -/
def subSize (a b : Nat) : Nat := if b ≤ a then a - b else 2 ^ 64 + a - b

/-! ## Tri-diagonal matrices -/

/-- `DynTriDiagMat<T>` (`dyn_mat.hpp:264-267`), `SizedTriDiagMat<T,N>` (`sized_mat.hpp:284-287`; there the
lengths are `N-1`, `N`, `N-1` by type). -/
structure TriDiag (T : Type) where
  dl : List T
  d : List T
  du : List T
  deriving Repr, DecidableEq

namespace TriDiag

/-- `DynTriDiagMat(dl, d, du)`, `dyn_mat.hpp:270-278` (no check of the sizes), and
`SizedTriDiagMat(dl, d, du)`, `sized_mat.hpp:290-293`. -/
def new (dl d du : List T) : Res (TriDiag T) := .ok ⟨dl, d, du⟩

/-- `shape()`, `dyn_mat.hpp:280-285`, `sized_mat.hpp:295-299`. -/
def shape (a : TriDiag T) : Nat × Nat := (a.d.length, a.d.length)

/-- `operator()(i, j) const` / `at`, `dyn_mat.hpp:287-294, 304-308`, `sized_mat.hpp:301-308, 318-322`.
The last branch returns a reference to the temporary `Zero<T>::value()`, which is destroyed before the
caller can read it. -/
def get (a : TriDiag T) (i j : Nat) : Res T :=
  if i = j then lrd a.d i
  else if i = subSize j 1 then lrd a.du i
  else if i = j + 1 then lrd a.dl (i - 1)
  else .error (.ub .dangling)

/-- Which exception the mutable overload throws outside the band: `std::invalid_argument` for
`DynTriDiagMat` (`dyn_mat.hpp:301`), `std::out_of_range` for `SizedTriDiagMat` (`sized_mat.hpp:315`). -/
def bandExn (sized : Bool) : Exn := if sized then .outOfRange else .invalidArgument

/-- Read through `operator()(i, j)` / `mut_at`, `dyn_mat.hpp:295-302, 310-314`,
`sized_mat.hpp:309-316, 324-328`. -/
def getMut (sized : Bool) (a : TriDiag T) (i j : Nat) : Res T :=
  if i = j then lrd a.d i
  else if i = subSize j 1 then lrd a.du i
  else if i = j + 1 then lrd a.dl (i - 1)
  else .error (.throw (bandExn sized))

/-- Write through `operator()(i, j)` / `mut_at`, same lines as `getMut`. -/
def set (sized : Bool) (a : TriDiag T) (i j : Nat) (v : T) : Res (TriDiag T) :=
  if i = j then do
    let d ← lwr a.d i v
    .ok { a with d := d }
  else if i = subSize j 1 then do
    let du ← lwr a.du i v
    .ok { a with du := du }
  else if i = j + 1 then do
    let dl ← lwr a.dl (i - 1) v
    .ok { a with dl := dl }
  else .error (.throw (bandExn sized))

end TriDiag

/-! ## Hessenberg matrices -/

/-- `HessenbergMat<T>` (`dyn_mat.hpp:387-391`); the constant member `_zero` is the `0` of `T`. -/
structure Hess (T : Type) where
  n : Nat
  h : List T
  deriving Repr, DecidableEq

namespace Hess

/-- `_calc_size`, `dyn_mat.hpp:393-405`.  `rt k` is `static_cast<size_t>(std::sqrt(k))`; the theorems
assume of it only that it is exact on perfect squares below `2^64`, which `C19_sqrt_double` proves of IEEE-754 double arithmetic.
The theorems assume that `17 + 8*n` is below `2^64`.  `acSq * acSq` can wrap only if `acSq = 2^32`, and then the
wrapped value 0 differs from `ac` as the exact one does. -/
def calcSize (rt : Nat → Nat) (n : Nat) : Res Nat :=
  if n = 0 then .ok 0
  else
    let ac := 17 + 8 * n
    let acSq := rt ac
    if ac ≠ acSq * acSq then .error (.throw .invalidArgument)
    else .ok ((acSq - 3) / 2)

/-- `HessenbergMat(std::vector&&)`, `dyn_mat.hpp:408-412`. -/
def new (rt : Nat → Nat) (v : List T) : Res (Hess T) := do
  let n ← calcSize rt v.length
  .ok ⟨n, v⟩

/-- `with_capacity`, `dyn_mat.hpp:414-419`. -/
def withCapacity (rt : Nat → Nat) (_cap : Nat) : Res (Hess T) := noexcept (new rt [])

/-- `shape()`, `dyn_mat.hpp:421-424`. -/
def shape (a : Hess T) : Nat × Nat := (a.n, a.n)

/-- `operator()(i, j) const` / `at`, `dyn_mat.hpp:426-434, 446-449`. -/
def get [Zero T] (a : Hess T) (i j : Nat) : Res T :=
  if i ≤ j + 1 then lrd a.h (((j + 1) * j) / 2 + j + i) else .ok 0

/-- Read through `operator()(i, j)` / `mut_at`, `dyn_mat.hpp:436-444, 451-454`. -/
def getMut (a : Hess T) (i j : Nat) : Res T :=
  if i ≤ j + 1 then lrd a.h (((j + 1) * j) / 2 + j + i) else .error (.throw .invalidArgument)

/-- Write through `operator()(i, j)` / `mut_at`, same lines as `getMut`. -/
def set (a : Hess T) (i j : Nat) (v : T) : Res (Hess T) :=
  if i ≤ j + 1 then do
    let h ← lwr a.h (((j + 1) * j) / 2 + j + i) v
    .ok { a with h := h }
  else .error (.throw .invalidArgument)

/-- `extend_with_zero`, `dyn_mat.hpp:456-463`. -/
def extendWithZero [Zero T] (a : Hess T) : Res (Hess T) :=
  let newElems : List T := if a.n = 0 then List.replicate 1 0 else List.replicate (a.n + 2) 0
  .ok ⟨a.n + 1, a.h ++ newElems⟩

/-- `extend_with`, `dyn_mat.hpp:465-472`. -/
def extendWith (a : Hess T) (newElems : List T) : Res (Hess T) := do
  throwIf (newElems.length != a.n + 2) .invalidArgument
  .ok ⟨a.n + 1, a.h ++ newElems⟩

/-- `extend_with`, `dyn_mat.hpp:465-472`, statement by statement, keeping the object. -/
def extendWithKept (newElems : List T) : Hess T → Kept (Hess T) := Kept.run [
  Kept.check fun a => throwIf (newElems.length != a.n + 2) .invalidArgument,
  fun a => .ok { a with h := a.h ++ newElems },
  fun a => .ok { a with n := a.n + 1 }]

/-- The elements of the `std::span` returned by `get_col`, `dyn_mat.hpp:474-479`.  A pointer beyond the end
of the storage, or a negative (wrapped) length, is undefined behaviour. -/
def getCol (a : Hess T) (j : Nat) : Res (List T) :=
  let offset := ((j + 1) * j) / 2 + j
  let endOffset := min (offset + j + 2) a.h.length
  if offset ≤ endOffset then .ok ((a.h.drop offset).take (endOffset - offset))
  else .error (.ub .oob)

end Hess

/-! ## Upper-triangular matrices -/

/-- `DynUpperTriMat<T>` (`dyn_mat.hpp:531-535`). -/
structure UTri (T : Type) where
  n : Nat
  u : List T
  deriving Repr, DecidableEq

namespace UTri

/-- `_calc_size`, `dyn_mat.hpp:537-547`; `rt` as in `Hess.calcSize`. -/
def calcSize (rt : Nat → Nat) (n : Nat) : Res Nat :=
  let ac := 1 + 8 * n
  let acSq := rt ac
  if ac ≠ acSq * acSq then .error (.throw .invalidArgument)
  else .ok ((acSq - 1) / 2)

/-- `DynUpperTriMat(std::vector&&) noexcept`, `dyn_mat.hpp:550-554`. -/
def new (rt : Nat → Nat) (v : List T) : Res (UTri T) := noexcept do
  let n ← calcSize rt v.length
  .ok ⟨n, v⟩

/-- `with_capacity`, `dyn_mat.hpp:556-561`. -/
def withCapacity (rt : Nat → Nat) (_cap : Nat) : Res (UTri T) := noexcept (new rt [])

/-- `shape()`, `dyn_mat.hpp:563-566`. -/
def shape (a : UTri T) : Nat × Nat := (a.n, a.n)

/-- `operator()(i, j) const` / `at`, `dyn_mat.hpp:568-576, 588-591`. -/
def get [Zero T] (a : UTri T) (i j : Nat) : Res T :=
  if i ≤ j then lrd a.u (((j + 1) * j) / 2 + i) else .ok 0

/-- Read through `operator()(i, j)` / `mut_at`, `dyn_mat.hpp:578-586, 593-596`. -/
def getMut (a : UTri T) (i j : Nat) : Res T :=
  if i ≤ j then lrd a.u (((j + 1) * j) / 2 + i) else .error (.throw .invalidArgument)

/-- Write through `operator()(i, j)` / `mut_at`, same lines as `getMut`. -/
def set (a : UTri T) (i j : Nat) (v : T) : Res (UTri T) :=
  if i ≤ j then do
    let u ← lwr a.u (((j + 1) * j) / 2 + i) v
    .ok { a with u := u }
  else .error (.throw .invalidArgument)

/-- `extend_with_zero`, `dyn_mat.hpp:598-603`. -/
def extendWithZero [Zero T] (a : UTri T) : Res (UTri T) :=
  .ok ⟨a.n + 1, a.u ++ List.replicate (a.n + 1) 0⟩

/-- `extend_with`, `dyn_mat.hpp:605-612`. -/
def extendWith (a : UTri T) (newElems : List T) : Res (UTri T) := do
  throwIf (newElems.length != a.n + 1) .invalidArgument
  .ok ⟨a.n + 1, a.u ++ newElems⟩

/-- `extend_with`, `dyn_mat.hpp:605-612`, statement by statement, keeping the object. -/
def extendWithKept (newElems : List T) : UTri T → Kept (UTri T) := Kept.run [
  Kept.check fun a => throwIf (newElems.length != a.n + 1) .invalidArgument,
  fun a => .ok { a with u := a.u ++ newElems },
  fun a => .ok { a with n := a.n + 1 }]

/-- The loops of `back_sub`, `dyn_mat.hpp:621-628`.  `y` is the range; it does not overlap the storage of the matrix.
The signed counter `int64_t i` counts down from `n - 1` to `0`. -/
def backSubLoop [Zero T] [Sub T] [Mul T] [CDiv T] (a : UTri T) (y : List T) : Res (List T) :=
  forDown (fun i y => do
    let y ← forRange (i + 1) a.n (fun j y => do
      let yi ← lrd y i
      let rij ← a.get i j
      let yj ← lrd y j
      lwr y i (yi - rij * yj)) y
    let yi ← lrd y i
    let rii ← a.get i i
    let q ← divC yi rii
    lwr y i q) a.n y

/-- `back_sub`, `dyn_mat.hpp:614-629`. -/
def backSub [Zero T] [Sub T] [Mul T] [CDiv T] (a : UTri T) (y : List T) :
    Res (List T) := do
  throwIf (y.length != a.n) .invalidArgument
  a.backSubLoop y

/-- `back_sub`, `dyn_mat.hpp:614-629`, keeping the range.  (The loops throw nothing.) -/
def backSubKept [Zero T] [Sub T] [Mul T] [CDiv T] (a : UTri T) : List T → Kept (List T) := Kept.run [
  Kept.check fun y => throwIf (y.length != a.n) .invalidArgument,
  a.backSubLoop]

end UTri

/-! ## Lower-triangular and Hermitian matrices -/

/-- `DynLowerTriMat<T>` (`dyn_mat.hpp:657-659`) and `SizedLowerTriMat<T,N>` (`sized_mat.hpp:385-386`, where
the number of elements is `N*(N+1)/2` by type). -/
structure LTri (T : Type) where
  n : Nat
  l : List T
  deriving Repr, DecidableEq

/-- `DynHermiteMat<T>` (`dyn_mat.hpp:730-732`) and `SizedHermiteMat<T,N>` (`sized_mat.hpp:457-458`). -/
structure Herm (T : Type) where
  n : Nat
  l : List T
  deriving Repr, DecidableEq

/-- `if (i < j) { std::swap(i, j); }` and the index `i * (i + 1) / 2 + j`: `dyn_mat.hpp:673-683, 753-763`,
`sized_mat.hpp:400-410, 478-488`. -/
def packIdx (i j : Nat) : Nat :=
  let p := if i < j then (j, i) else (i, j)
  p.1 * (p.1 + 1) / 2 + p.2

namespace LTri

/-- `DynLowerTriMat(n, std::vector&&)`, `dyn_mat.hpp:662-666` (no check); `SizedLowerTriMat(std::array)`,
`sized_mat.hpp:389-392`. -/
def new (n : Nat) (l : List T) : Res (LTri T) := .ok ⟨n, l⟩

/-- `operator()(i, j) const` / `at` and reads through the mutable overload:
`dyn_mat.hpp:673-693`, `sized_mat.hpp:400-420`. -/
def get (a : LTri T) (i j : Nat) : Res T := lrd a.l (packIdx i j)

/-- Write through `operator()(i, j)` / `mut_at`, same lines as `get`. -/
def set (a : LTri T) (i j : Nat) (v : T) : Res (LTri T) := do
  let l ← lwr a.l (packIdx i j) v
  .ok { a with l := l }

end LTri

namespace Herm

/-- `DynHermiteMat(n, std::vector&&)`, `dyn_mat.hpp:735-739` (no check); `SizedHermiteMat(std::array)`,
`sized_mat.hpp:461-464`. -/
def new (n : Nat) (l : List T) : Res (Herm T) := .ok ⟨n, l⟩

/-- `operator()(i, j) const` / `at` and reads through the mutable overload:
`dyn_mat.hpp:753-773`, `sized_mat.hpp:478-498`. -/
def get (a : Herm T) (i j : Nat) : Res T := lrd a.l (packIdx i j)

/-- Write through `operator()(i, j)` / `mut_at`, same lines as `get`. -/
def set (a : Herm T) (i j : Nat) (v : T) : Res (Herm T) := do
  let l ← lwr a.l (packIdx i j) v
  .ok { a with l := l }

/-- `into_lower_mat`, `dyn_mat.hpp:742-746`, `sized_mat.hpp:467-471`.  (After the move the vector of the
`DynHermiteMat` is unspecified; that object is not returned.) -/
def intoLowerMat (a : Herm T) : Res (LTri T) := LTri.new a.n a.l

end Herm

end Lalib
