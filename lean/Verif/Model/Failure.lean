import Verif.Model.Store
import Verif.Model.Struct
import Verif.Model.Cholesky
import Verif.Model.Gmres

/-!
# Calls that fail, and what they leave behind

Files: `include/lalib/mat/sp_mat.hpp`, `include/lalib/mat/dyn_mat.hpp`,
`include/lalib/solver/cholesky_factorization.hpp`, `include/lalib/solver/ilu.hpp`, `include/lalib/solver/gmres.hpp`
(without `LALIB_LAPACK_BACKEND`).

The calls that construct an object from objects of the program or make one larger, here as code that runs on those
objects step by step: when an exception ends the code, the objects are what the steps so far have made of them.  Memory
may run out: wherever the standard library may ask for memory the code makes a *request*, which may be refused.

`std::vector` by contract:
* copying a vector and making one of a given size may ask for memory; moving one does not, and leaves the source empty;
* `reserve` and the insertion at the end may ask for memory and, if refused, change nothing; after `reserve(c)` no
  insertion does that keeps the size within `c`;
* the construction of an exception object with its message may ask for memory.
`std::ranges::sort` does not ask for memory.
-/

namespace Lalib

variable {T α β : Type}

/-- The objects of the program. -/
structure World (T : Type) where
  /-- `std::vector<T>` -/
  vec : Nat → List T
  /-- `std::vector<size_t>` -/
  ids : Nat → List Nat
  /-- `DynMat<T>` -/
  dn : Nat → DMat T
  coo : Nat → Coo T
  csr : Nat → Csr T
  herm : Nat → Herm T
  hess : Nat → Hess T
  up : Nat → UTri T

/-- `f` with the value `v` at `x`. -/
def put (f : Nat → α) (x : Nat) (v : α) : Nat → α := fun q => if q = x then v else f q

/-- How code that did not finish ended. -/
inductive Stop
  | fault (f : Fault)
  | badAlloc
  deriving DecidableEq, Repr

/-- Code on the objects and the number of requests made so far. -/
def Code (T α : Type) : Type := World T × Nat → Except Stop α × (World T × Nat)

namespace Code

def val (a : α) : Code T α := fun s => (.ok a, s)

/-- One step after the other; nothing follows a step that did not finish. -/
def andThen (c : Code T α) (f : α → Code T β) : Code T β := fun s =>
  match c s with
  | (.ok a, s) => f a s
  | (.error e, s) => (.error e, s)

instance : Monad (Code T) where
  pure := val
  bind := andThen

/-- A request for memory; `g k` tells whether request number `k` is granted. -/
def request (g : Nat → Bool) : Code T Unit := fun s =>
  (if g s.2 then .ok () else .error .badAlloc, (s.1, s.2 + 1))

/-- `n` requests in a row. -/
def requests (g : Nat → Bool) : Nat → Code T Unit
  | 0 => val ()
  | n + 1 => do request g; requests g n

/-- The objects as they are now. -/
def now : Code T (World T) := fun s => (.ok s.1, s)

/-- A modification of the objects. -/
def upd (f : World T → World T) : Code T Unit := fun s => (.ok (), (f s.1, s.2))

/-- `std::move` of a `std::vector<T>` into a new one. -/
def takeVec (v : Nat) : Code T (List T) := fun s =>
  (.ok (s.1.vec v), ({ s.1 with vec := put s.1.vec v [] }, s.2))

/-- `std::move` of a `std::vector<size_t>` into a new one. -/
def takeIds (v : Nat) : Code T (List Nat) := fun s =>
  (.ok (s.1.ids v), ({ s.1 with ids := put s.1.ids v [] }, s.2))

/-- `std::move` of a `SpCooMat`, `sp_mat.hpp:36`. -/
def takeCoo (x : Nat) : Code T (Coo T) := fun s =>
  (.ok (s.1.coo x), ({ s.1 with coo := put s.1.coo x ⟨[], [], []⟩ }, s.2))

/-- `std::move` of a `SpMat`, `sp_mat.hpp:166`. -/
def takeCsr (x : Nat) : Code T (Csr T) := fun s =>
  (.ok (s.1.csr x), ({ s.1 with csr := put s.1.csr x ⟨[], [], []⟩ }, s.2))

/-- `into_lower_mat`, `dyn_mat.hpp:742-746`: the vector is moved, `_n` stays. -/
def takeHerm (x : Nat) : Code T (LTri T) := fun s =>
  (.ok ⟨(s.1.herm x).n, (s.1.herm x).l⟩, ({ s.1 with herm := put s.1.herm x { s.1.herm x with l := [] } }, s.2))

/-- The end by a fault. -/
def stop (f : Fault) : Code T α := fun s => (.error (.fault f), s)

/-- A computation on values; the exception it throws is built first (message and copy of the message). -/
def eval (g : Nat → Bool) : Res α → Code T α
  | .ok a => val a
  | .error (.throw e) => do
    requests g 2
    stop (.throw e)
  | .error f => stop f

/-- `noexcept`. -/
def nothrow (c : Code T α) : Code T α := fun s =>
  match c s with
  | (.error .badAlloc, s) => (.error (.fault .terminate), s)
  | (.error (.fault (.throw _)), s) => (.error (.fault .terminate), s)
  | r => r

end Code

/-- What a call makes. -/
inductive Made (T : Type)
  | nothing
  | coo (a : Coo T)
  | csr (a : Csr T)
  | low (a : LTri T)
  | herm (a : Herm T)
  | hess (a : Hess T)
  | up (a : UTri T)
  /-- a Cholesky factorisation -/
  | chol (n : Nat) (l : List T)
  | iluDense (a : DMat T)
  | iluCoo (a : Coo T)
  | iluCsr (a : Csr T)
  | gmresDense (g : Gmres (DMat T) T)
  | gmresCsr (g : Gmres (Csr T) T)

/-- Calls. -/
inductive Call (T : Type)
  /-- `SpCooMat(v, r, c)` -/
  | cooCopy (v r c : Nat)
  /-- `SpCooMat(std::move(v), std::move(r), std::move(c))` -/
  | cooMove (v r c : Nat)
  /-- `SpCooMat::unit(n)` -/
  | cooUnit (n : Nat)
  /-- `x += y` -/
  | cooAdd (x y : Nat)
  /-- `SpMat(v, p, c)` -/
  | csrCopy (v p c : Nat)
  /-- `SpMat(std::move(v), std::move(p), std::move(c))` -/
  | csrMove (v p c : Nat)
  /-- `SpMat::unit(n)` -/
  | csrUnit (n : Nat)
  /-- `SpMat(x)` -/
  | csrOfCoo (x : Nat)
  /-- `SpMat(std::move(x))` -/
  | csrOfCooMove (x : Nat)
  /-- `HessenbergMat(std::move(v))` -/
  | hessNew (v : Nat)
  /-- `DynUpperTriMat(std::move(v))` -/
  | upNew (v : Nat)
  /-- `DynLowerTriMat(n, std::move(v))` -/
  | lowNew (n v : Nat)
  /-- `DynHermiteMat(n, std::move(v))` -/
  | hermNew (n v : Nat)
  /-- `x.extend_with_zero()`, Hessenberg -/
  | hessZero (x : Nat)
  /-- `x.extend_with(std::move(v))`, Hessenberg -/
  | hessWith (x v : Nat)
  /-- `x.extend_with_zero()`, upper triangular -/
  | upZero (x : Nat)
  /-- `x.extend_with(std::move(v))`, upper triangular -/
  | upWith (x v : Nat)
  /-- `x.into_lower_mat()` -/
  | hermLower (x : Nat)
  /-- `DynTriCholeskyFactorization(std::move(x))` -/
  | triChol (x : Nat)
  /-- `DynCholeskyFactorization(std::move(x))` -/
  | chol (x : Nat)
  /-- `DynModCholeskyFactorization(std::move(x))` -/
  | modChol (x : Nat)
  /-- `Ilu<T, DynMat<T>>(std::move(x))` -/
  | iluDense (x : Nat)
  /-- `Ilu<T, SpCooMat<T>>(std::move(x))` -/
  | iluCoo (x : Nat)
  /-- `Ilu<T, SpMat<T>>(std::move(x))` -/
  | iluCsr (x : Nat)
  /-- `Gmres<T, DynMat<T>>(std::move(x), tol)` -/
  | gmresDense (x : Nat) (tol : T)
  /-- `Gmres<T, SpMat<T>>(std::move(x), tol)` -/
  | gmresCsr (x : Nat) (tol : T)

namespace Call

open Code

section
variable (g : Nat → Bool)

/-- `_sort`, `sp_mat.hpp:426-450`: four vectors (`:428, 438-440`), the assignments move. -/
def sortC (srt : SortFn) (a : Coo T) : Code T (Coo T) := nothrow do
  requests g 4
  eval g (a.sort srt)

/-- The body of the constructors of `SpCooMat`, `sp_mat.hpp:277-282, 287-292`. -/
def cooBody (srt : SortFn) (val : List T) (row col : List Nat) : Code T (Coo T) := do
  eval g (throwIf (val.length != row.length || val.length != col.length) .runtimeError)
  sortC g srt ⟨val, row, col⟩

/-- `SpCooMat(const std::vector&, ...)`, `sp_mat.hpp:274-282`. -/
def cooCopyC (srt : SortFn) (val : List T) (row col : List Nat) : Code T (Coo T) := do
  requests g 3
  cooBody g srt val row col

/-- `SpCooMat::unit(n)`, `sp_mat.hpp:294-306`. -/
def cooUnitC [One T] (srt : SortFn) (n : Nat) : Code T (Coo T) := do
  requests g 3
  let (row, col) ← eval g (forRange 0 n (fun i (p : List Nat × List Nat) => do
    let row ← lwr p.1 i i
    let col ← lwr p.2 i i
    .ok (row, col)) (List.replicate n 0, List.replicate n 0))
  cooCopyC g srt (List.replicate n 1) row col

variable [Zero T] [One T] [Add T] [Sub T] [Mul T] [CDiv T] [CZero T] [CSqrt T] [LT T] [DecidableLT T]

/-- The calls, step by step. -/
def run (srt : SortFn) (rt : Nat → Nat) (nd : Bool) : Call T → Code T (Made T)
  | .cooCopy v r c => do
    let w ← now
    let a ← cooCopyC g srt (w.vec v) (w.ids r) (w.ids c)
    val (.coo a)
  -- `sp_mat.hpp:284-292`
  | .cooMove v r c => do
    let v ← takeVec v
    let r ← takeIds r
    let c ← takeIds c
    let a ← cooBody g srt v r c
    val (.coo a)
  | .cooUnit n => do
    let a ← cooUnitC g srt n
    val (.coo a)
  -- `sp_mat.hpp:365-423`: three times `reserve`, the merge in place, `_sort`
  | .cooAdd x y => do
    requests g 3
    let w ← now
    let rhs : Coo T → Coo T := if y = x then id else fun _ => w.coo y
    let b := w.coo y
    let s ← eval g (Coo.addRows rhs ((w.coo x).val.length + b.nnz) (w.coo x).row.length b.row.length
      (b.row.foldr max 0 + 1) 0 ⟨w.coo x, 0, 0⟩)
    upd fun w => { w with coo := put w.coo x s.a }
    let t ← sortC g srt s.a
    upd fun w => { w with coo := put w.coo x t }
    val .nothing
  -- `sp_mat.hpp:487-494`
  | .csrCopy v p c => do
    let w ← now
    requests g 3
    let a ← eval g (Csr.new (w.vec v) (w.ids p) (w.ids c))
    val (.csr a)
  -- `sp_mat.hpp:496-503`
  | .csrMove v p c => do
    let v ← takeVec v
    let p ← takeIds p
    let c ← takeIds c
    let a ← eval g (Csr.new v p c)
    val (.csr a)
  -- `sp_mat.hpp:505-518`: three vectors, copied by the constructor
  | .csrUnit n => do
    requests g 6
    let a ← eval g (Csr.unit n)
    val (.csr a)
  -- `sp_mat.hpp:473-478`: two copies, `reserve` and insertions in `_convert_coo_crs`
  | .csrOfCoo x => do
    let w ← now
    let a ← nothrow (do requests g 4; eval g (Csr.ofCoo (w.coo x)))
    val (.csr a)
  -- `sp_mat.hpp:480-485`: `values()` and `col_indices()` are references to constants (`:108, 118`), so `std::move`
  -- of them copies
  | .csrOfCooMove x => do
    let w ← now
    let a ← nothrow (do requests g 4; eval g (Csr.ofCoo (w.coo x)))
    val (.csr a)
  -- `dyn_mat.hpp:408-412`: `_n` is initialised first (`:388-389`), so the vector is moved after the check
  | .hessNew v => do
    let w ← now
    let n ← eval g (Hess.calcSize rt (w.vec v).length)
    let h ← takeVec v
    val (.hess ⟨n, h⟩)
  -- `dyn_mat.hpp:550-554`
  | .upNew v => nothrow do
    let w ← now
    let n ← eval g (UTri.calcSize rt (w.vec v).length)
    let u ← takeVec v
    val (.up ⟨n, u⟩)
  -- `dyn_mat.hpp:662-666`
  | .lowNew n v => nothrow do
    let l ← takeVec v
    val (.low ⟨n, l⟩)
  -- `dyn_mat.hpp:735-739`
  | .hermNew n v => nothrow do
    let l ← takeVec v
    val (.herm ⟨n, l⟩)
  -- `dyn_mat.hpp:456-463`
  | .hessZero x => nothrow do
    let w ← now
    requests g 2
    let new : List T := if (w.hess x).n = 0 then List.replicate 1 0 else List.replicate ((w.hess x).n + 2) 0
    upd fun w => { w with hess := put w.hess x { w.hess x with h := (w.hess x).h ++ new } }
    upd fun w => { w with hess := put w.hess x { w.hess x with n := (w.hess x).n + 1 } }
    val .nothing
  -- `dyn_mat.hpp:465-472`: the new elements are copied
  | .hessWith x v => do
    let w ← now
    eval g (throwIf ((w.vec v).length != (w.hess x).n + 2) .invalidArgument)
    request g
    upd fun w => { w with hess := put w.hess x { w.hess x with h := (w.hess x).h ++ w.vec v } }
    upd fun w => { w with hess := put w.hess x { w.hess x with n := (w.hess x).n + 1 } }
    val .nothing
  -- `dyn_mat.hpp:598-603`
  | .upZero x => nothrow do
    requests g 2
    upd fun w => { w with up := put w.up x { w.up x with u := (w.up x).u ++ List.replicate ((w.up x).n + 1) 0 } }
    upd fun w => { w with up := put w.up x { w.up x with n := (w.up x).n + 1 } }
    val .nothing
  -- `dyn_mat.hpp:605-612`
  | .upWith x v => do
    let w ← now
    eval g (throwIf ((w.vec v).length != (w.up x).n + 1) .invalidArgument)
    request g
    upd fun w => { w with up := put w.up x { w.up x with u := (w.up x).u ++ w.vec v } }
    upd fun w => { w with up := put w.up x { w.up x with n := (w.up x).n + 1 } }
    val .nothing
  -- `dyn_mat.hpp:742-746`
  | .hermLower x => nothrow do
    let l ← takeHerm x
    val (.low l)
  -- `cholesky_factorization.hpp:86-96`
  | .triChol x => do
    let a ← nothrow (takeHerm x)
    let l ← eval g (Chol.new .triangle a.n a.l)
    val (.chol a.n l)
  -- `cholesky_factorization.hpp:151-165`: `DynMat` has no move operations (`dyn_mat.hpp:36`)
  | .chol x => do
    let w ← now
    nothrow (request g)
    let l ← eval g (Chol.new .square (w.dn x).n (w.dn x).elems)
    val (.chol (w.dn x).n l)
  -- `cholesky_factorization.hpp:237-243`
  | .modChol x => do
    let w ← now
    nothrow (request g)
    let l ← eval g (Chol.modNew .square (w.dn x).n (w.dn x).elems)
    val (.chol (w.dn x).n l)
  -- `ilu.hpp:67-71`
  | .iluDense x => do
    let w ← now
    nothrow (request g)
    let a ← eval g (Ilu.new dOps (w.dn x))
    val (.iluDense a)
  -- `ilu.hpp:67-71`; the matrix is moved
  | .iluCoo x => do
    let a ← takeCoo x
    let a ← eval g (Ilu.new cooOps a)
    val (.iluCoo a)
  -- `ilu.hpp:67-71`; the matrix is moved
  | .iluCsr x => do
    let a ← takeCsr x
    let a ← eval g (Ilu.new csrOps a)
    val (.iluCsr a)
  -- `gmres.hpp:22`: a copy (`M(mat)`), then the constructor of `Ilu`
  | .gmresDense x tol => do
    let w ← now
    nothrow (request g)
    nothrow (request g)
    let a ← eval g (Gmres.new (dGOps nd) (w.dn x) tol)
    val (.gmresDense a)
  | .gmresCsr x tol => do
    nothrow (requests g 3)
    let a ← takeCsr x
    let a ← eval g (Gmres.new (csrGOps nd) a tol)
    val (.gmresCsr a)

/-- A program: calls, each in a `try` block of its own with a handler for every exception. -/
def runAll (srt : SortFn) (rt : Nat → Nat) (nd : Bool) : List (Call T) → Code T Unit
  | [] => val ()
  | c :: cs => fun s =>
    match run g srt rt nd c s with
    | (.ok _, s) => runAll srt rt nd cs s
    | (.error .badAlloc, s) => runAll srt rt nd cs s
    | (.error (.fault (.throw _)), s) => runAll srt rt nd cs s
    | (.error e, s) => (.error e, s)

end

end Call

end Lalib
