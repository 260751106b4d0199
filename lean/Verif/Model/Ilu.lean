import Verif.Model.Dense
import Verif.Model.Sparse

/-!
# Model of the incomplete LU factorisation

File: `include/lalib/solver/ilu.hpp:14-93`.

`Ilu<T, M>` is a template over the matrix class; the model is a function of the member functions it uses.
`Ilu` owns its matrix, `solve` works on its own vectors, so matrices and vectors are values here.  The bounds
`mat.shape()` of the loops are read once (`mut_at` changes no shape: see `Rep.set`).
-/

namespace Lalib

variable {T M : Type}

/-- The member functions of the matrix class which `Ilu` uses. -/
structure MatOps (M T : Type) where
  shape : M → Res (Nat × Nat)
  get : M → Nat → Nat → Res T
  set : M → Nat → Nat → T → Res M

/-- `DynMat` (and `SizedMat`): `dyn_mat.hpp:73, 147-173`. -/
def dOps : MatOps (DMat T) T := ⟨fun a => .ok (a.n, a.m), DMat.get, DMat.set⟩

/-- `SpCooMat`: `sp_mat.hpp:309-345`. -/
def cooOps [Zero T] : MatOps (Coo T) T := ⟨Coo.shape, Coo.get, Coo.set⟩

/-- `SpMat`: `sp_mat.hpp:521-557`. -/
def csrOps [Zero T] : MatOps (Csr T) T := ⟨Csr.shape, Csr.get, Csr.set⟩

namespace Ilu

variable [Zero T] [Sub T] [Mul T] [CDiv T] [CZero T]

/-- `sum -= mat(i, k) * mat(k, j)` for `k < c`, `ilu.hpp:44-46, 54-56`. -/
def reduce (ops : MatOps M T) (a : M) (i j c : Nat) (v : T) : Res T :=
  forRange 0 c (fun k sum => do
    let x ← ops.get a i k
    let y ← ops.get a k j
    .ok (sum - x * y)) v

/-- Body of the loop over `j < i`, `ilu.hpp:40-48`; `.inr` is `return false`. -/
def lowCell (ops : MatOps M T) (i j : Nat) (a : M) : Res (M ⊕ M) := do
  let v ← ops.get a i j
  if ¬ IsZ v then do
    let d ← ops.get a j j
    if IsZ d then .ok (.inr a)
    else do
      let sum ← reduce ops a i j j v
      let q ← divC sum d
      let a ← ops.set a i j q
      .ok (.inl a)
  else .ok (.inl a)

/-- Body of the loop over `j >= i`, `ilu.hpp:52-58`. -/
def upCell (ops : MatOps M T) (i j : Nat) (a : M) : Res M := do
  let v ← ops.get a i j
  if ¬ IsZ v then do
    let sum ← reduce ops a i j i v
    ops.set a i j sum
  else .ok a

/-- Body of the loop over `i`, `ilu.hpp:39-59`. -/
def row (ops : MatOps M T) (m i : Nat) (a : M) : Res (M ⊕ M) := do
  match ← forRet 0 i (lowCell ops i) a with
  | .inr a => .ok (.inr a)
  | .inl a => do
    let a ← forRange i m (upCell ops i) a
    .ok (.inl a)

/-- `_decomp_lu_inplace`, `ilu.hpp:37-63`: the result and the contents of the matrix. -/
def decomp (ops : MatOps M T) (a : M) : Res (Bool × M) := do
  let sh ← ops.shape a
  match ← forRet 0 sh.1 (row ops sh.2) a with
  | .inl a => .ok (true, a)
  | .inr a => .ok (false, a)

/-- `Ilu(M&&)`, `ilu.hpp:67-71`. -/
def new (ops : MatOps M T) (a : M) : Res M := do
  let r ← decomp ops a
  throwIf (!r.1) .runtimeError
  .ok r.2

/-- Forward substitution, one row, `ilu.hpp:77-81`. -/
def fwdRow (ops : MatOps M T) (a : M) (rhs : List T) (i : Nat) (y : List T) : Res (List T) := do
  let b ← lrd rhs i
  let sum ← forRange 0 i (fun j sum => do
    let l ← ops.get a i j
    let yj ← lrd y j
    .ok (sum - l * yj)) b
  lwr y i sum

/-- Backward substitution, one row, `ilu.hpp:86-90`. -/
def bwdRow (ops : MatOps M T) (a : M) (n : Nat) (y : List T) (i : Nat) (x : List T) : Res (List T) := do
  let v ← lrd y i
  let sum ← forRange (i + 1) n (fun j sum => do
    let u ← ops.get a i j
    let xj ← lrd x j
    .ok (sum - u * xj)) v
  let d ← ops.get a i i
  let q ← divC sum d
  lwr x i q

/-- `solve(rhs)`, `ilu.hpp:74-93`. -/
def solve (ops : MatOps M T) (a : M) (rhs : List T) : Res (List T) := noexcept do
  let y ← forRange 0 rhs.length (fwdRow ops a rhs) (List.replicate rhs.length 0)
  forDown (bwdRow ops a rhs.length y) rhs.length (List.replicate rhs.length 0)

end Ilu

end Lalib
