import Verif.Model.DenseStore
import Verif.Model.Store
import Verif.Model.Struct

/-!
# References, pointers and iterators into the storage of vectors and matrices

Files: `include/lalib/vec/dyn_vec.hpp`, `include/lalib/mat/dyn_mat.hpp`, `include/lalib/mat/sp_mat.hpp`.

Every object keeps its elements in a `std::vector`, that is in an array on the free store (`dyn_vec.hpp:100`,
`dyn_mat.hpp:93, 389, 533`, `sp_mat.hpp:130, 261`).  `operator[]`, `operator()`, `at`, `mut_at`, `begin`, `end` and
`data` hand out references to elements, iterators and pointers.  Here the arrays have identities, and these values
are pairs of an array and an offset.

`std::vector` by contract:
* the move assignment takes over the array of the source and frees the array of the target;
* the copy assignment and an insertion at the end either use the array there is or allocate a new one; which of the
  two depends on the capacity, which is not modelled: each statement carries the choice that was made;
* no other member the library calls on an existing vector replaces its array.

`SizedVec` and `SizedMat` keep their elements in the object (`sized_vec.hpp:82`, `sized_mat.hpp:91`); a reference to
one of them is a reference into the object, which no statement moves.  They are not objects of this model.
-/

namespace Lalib

variable {T : Type}

/-- An array on the free store: the object it was allocated for, and how many arrays that object had been given
before. -/
abbrev Blk := Nat × Nat

/-- Which arrays are allocated, and which object each belongs to. -/
structure Sto where
  /-- the array of an object -/
  own : Nat → Blk
  /-- the object an array belongs to; `none` if it is not allocated -/
  owner : Blk → Option Nat
  /-- the number of arrays allocated for an object so far -/
  gen : Nat → Nat

/-- What a statement does to the arrays. -/
inductive Upd where
  /-- object `p` gets a new array, its old one is freed -/
  | fresh (p : Nat)
  /-- object `p` takes over the array of `q`; its old one is freed, and `q` gets a new one -/
  | take (p q : Nat)
  deriving DecidableEq, Repr

namespace Sto

/-- Object `p` gets a new array. -/
def fresh (p : Nat) (o : Sto) : Sto where
  own := fun r => if r = p then (p, o.gen p) else o.own r
  owner := fun b => if b = (p, o.gen p) then some p else if b = o.own p then none else o.owner b
  gen := fun r => if r = p then o.gen p + 1 else o.gen r

/-- Object `p` takes over the array of another object `q`. -/
def take (p q : Nat) (o : Sto) : Sto where
  own := fun r => if r = p then o.own q else if r = q then (q, o.gen q) else o.own r
  owner := fun b => if b = (q, o.gen q) then some q else if b = o.own q then some p else
    if b = o.own p then none else o.owner b
  gen := fun r => if r = q then o.gen q + 1 else o.gen r

/-- One step.  A vector that is moved to itself is left in an unspecified state; its array counts as replaced. -/
def step (o : Sto) : Upd → Sto
  | .fresh p => o.fresh p
  | .take p q => if p = q then o.fresh p else o.take p q

/-- The objects at the start of a program, each with its first array. -/
def init : Sto where
  own := fun p => (p, 0)
  owner := fun b => if b.2 = 0 then some b.1 else none
  gen := fun _ => 1

end Sto

/-- The objects whose array may change identity. -/
def Upd.hits : Upd → List Nat
  | .fresh p => [p]
  | .take p q => [p, q]

/-- A kind of objects and the statements about them. -/
structure Lang (St S T : Type) where
  /-- the effect of a statement on the objects -/
  act : St → S → Res S
  /-- the elements in the array of an object -/
  val : S → Nat → List T
  /-- overwrites the elements of an object -/
  put : S → Nat → List T → S
  /-- the effect on the arrays, given the choice of `std::vector` -/
  upd : St → Bool → List Upd

/-- Statements about objects and about variables which hold references, pointers or iterators. -/
inductive VStmt (St T : Type)
  /-- a statement about the objects, with the choice of `std::vector` -/
  | plain (st : St) (c : Bool)
  /-- a statement about the objects which is given `*r`: a scalar parameter, which the kernels take by value
  (`vec_ops_core.hpp:158, 286`, `mat_vec_ops_core.hpp:67`, `mat_mat_ops_core.hpp:53`), also where the caller passes it
  on by reference (`mat_ops.hpp:18-40`) -/
  | given (r : Nat) (f : T → St) (c : Bool)
  /-- `T& r = p[k];` -/
  | elem (r p k : Nat)
  /-- `auto r = p.begin() + k;` or `T* r = p.data() + k;` -/
  | iter (r p k : Nat)
  /-- `++r;` -/
  | incr (r : Nat)
  /-- `*r = v;` -/
  | store (r : Nat) (v : T)

/-- The objects, their arrays, and the variables for references. -/
structure VState (S : Type) where
  st : S
  sto : Sto
  ref : Nat → Option (Blk × Nat)

namespace VState

variable {St S : Type}

/-- The object and the position a variable refers to.  A variable which has not been given a value, or whose array
has been freed, must not be used. -/
def find (s : VState S) (r : Nat) : Res (Nat × Nat) :=
  match s.ref r with
  | none => .error (.ub .uninit)
  | some (b, k) =>
    match s.sto.owner b with
    | none => .error (.ub .dangling)
    | some p => .ok (p, k)

/-- `*r` -/
def load (L : Lang St S T) (s : VState S) (r : Nat) : Res T := do
  let (p, k) ← s.find r
  lrd (L.val s.st p) k

/-- Gives a variable a value. -/
def bind (s : VState S) (r : Nat) (b : Blk) (k : Nat) : VState S :=
  { s with ref := fun q => if q = r then some (b, k) else s.ref q }

end VState

namespace VStmt

variable {St S : Type}

/-- A statement about the objects. -/
def obj (L : Lang St S T) (st : St) (c : Bool) (s : VState S) : Res (VState S) := do
  let s' ← L.act st s.st
  .ok { s with st := s', sto := (L.upd st c).foldl Sto.step s.sto }

/-- `operator[]` (`dyn_vec.hpp:158-167`) and the accesses `_elems[i * m + j]` (`dyn_mat.hpp:147-173`),
`_val[cnt]` (`sp_mat.hpp:322-345`), `_h[offset + i]`, `_upper_elems[offset + i]` (`dyn_mat.hpp:426-454, 568-596`)
want an element; `begin()`, `end()` and `data()` (`dyn_vec.hpp:122-179`, `dyn_mat.hpp:176-223`,
`sp_mat.hpp:103-104, 233-234`) with an offset want an element or the end. -/
def exec (L : Lang St S T) : VStmt St T → VState S → Res (VState S)
  | .plain st c, s => obj L st c s
  | .given r f c, s => do
    let v ← s.load L r
    obj L (f v) c s
  | .elem r p k, s => if k < (L.val s.st p).length then .ok (s.bind r (s.sto.own p) k) else .error (.ub .oob)
  | .iter r p k, s => if k ≤ (L.val s.st p).length then .ok (s.bind r (s.sto.own p) k) else .error (.ub .oob)
  | .incr r, s => do
    let (p, k) ← s.find r
    if k < (L.val s.st p).length then .ok (s.bind r (s.sto.own p) (k + 1)) else .error (.ub .oob)
  | .store r v, s => do
    let (p, k) ← s.find r
    let l ← lwr (L.val s.st p) k v
    .ok { s with st := L.put s.st p l }

/-- A program, each statement in a `try` block of its own.  Every failure other than an exception ends the program. -/
def run (L : Lang St S T) : List (VStmt St T) → VState S → Res (VState S)
  | [], s => .ok s
  | i :: is, s =>
    match i.exec L s with
    | .ok s' => run L is s'
    | .error (.throw _) => run L is s
    | .error f => .error f

/-- `for (auto& e : p) e = f(e);`, on the iterator `r`: it stops where `p.end()` was before the loop.  `fuel` bounds
the number of rounds. -/
def rangeFor (L : Lang St S T) (f : T → T) (r : Nat) : Nat → Blk × Nat → VState S → Res (VState S)
  | 0, _, _ => .error .diverge
  | fuel + 1, e, s =>
    if s.ref r = some e then .ok s
    else do
      let v ← s.load L r
      let s ← (VStmt.store r (f v)).exec L s
      let s ← (VStmt.incr r).exec L s
      rangeFor L f r fuel e s

end VStmt

/-! ## Vectors and dense matrices -/

/-- `DynVec`: the operators return a new object and the assignment moves it (`dyn_vec.hpp:66`).  `DynMat` has no move
assignment, the new object is copied (`dyn_mat.hpp:63`).  The functions with a result parameter write elements. -/
def DnStmt.upd : DnStmt T → Bool → List Upd
  | .vecNew x _, _ | .vecFilled x _ _, _ | .vecAdd x _ _, _ | .vecSub x _ _, _ | .vecNeg x _, _ | .vecSmul x _ _, _
  | .matVec x _ _, _ => [.fresh (vbuf x)]
  | .vecCopy x _, c => if c then [.fresh (vbuf x)] else []
  | .vecMove x y _, _ => [.take (vbuf x) (vbuf y)]
  | .matNew x _ _ _, c | .matFilled x _ _ _, c | .matDiag x _ _, c | .matIdentity x _, c | .matCopy x _, c
  | .matMove x _, c | .matAdd x _ _, c | .matSub x _ _, c | .matSmul x _ _, c | .matNeg x _, c
  | .matMul x _ _, c => if c then [.fresh (mbuf x)] else []
  | .vecSet .., _ | .vecAddTo .., _ | .vecSubTo .., _ | .vecNegTo .., _ | .axpy .., _ | .vecScale .., _
  | .dotMember .., _ | .dotFree .., _ | .matSet .., _ | .matAddTo .., _ | .matSubTo .., _ | .matScale .., _
  | .gemv .., _ | .gemm .., _ => []

/-- Vectors and dense matrices; object `vbuf x` is vector `x`, object `mbuf x` is matrix `x`. -/
def dnLang [CommRing T] (nd : Bool) (ord : Nat → List Nat) : Lang (DnStmt T) (DnStore T) T where
  act := fun st => st.act nd ord
  val := fun s p => s.mem p
  put := fun s p l => { s with mem := s.mem.setBuf p l }
  upd := DnStmt.upd

/-! ## Sparse matrices -/

/-- Object number of `SpCooMat` `x`. -/
def cooObj (x : Nat) : Nat := 2 * x

/-- Object number of `SpMat` `x`. -/
def csrObj (x : Nat) : Nat := 2 * x + 1

/-- `SpCooMat`: the operators return a new object and the assignment moves it (`sp_mat.hpp:356-363`).  `operator+=`
ends with `_sort`, which moves a new vector into `_val` (`sp_mat.hpp:421, 438, 447`). -/
def CooStmt.upd : CooStmt T → Bool → List Upd
  | .construct x _ _ _, _ | .unit x _, _ | .addAssign x _, _ | .add x _ _, _ | .sub x _ _, _ | .smul x _ _, _
  | .neg x _, _ => [.fresh (cooObj x)]
  | .copy x _, c => if c then [.fresh (cooObj x)] else []
  | .move x y _, _ => [.take (cooObj x) (cooObj y)]
  | .write .., _ | .scale .., _ => []

/-- `SpMat`, likewise (`sp_mat.hpp:559-575`). -/
def SpStmt.upd : SpStmt T → Bool → List Upd
  | .coo st, c => st.upd c
  | .ofCoo x _, _ | .construct x _ _ _, _ | .unit x _, _ | .smul x _ _, _ | .neg x _, _ => [.fresh (csrObj x)]
  | .copy x _, c => if c then [.fresh (csrObj x)] else []
  | .move x y _, _ => [.take (csrObj x) (csrObj y)]
  | .write .., _ | .scale .., _ => []

/-- Sparse matrices: the array of the values (`_val`). -/
def spLang [Zero T] [One T] [Neg T] [Add T] [Mul T] (srt : SortFn) : Lang (SpStmt T) (SpStore T) T where
  act := fun st => st.act srt
  val := fun s p => if p % 2 = 0 then (s.coo (p / 2)).val else (s.csr (p / 2)).val
  put := fun s p l => if p % 2 = 0 then { s with coo := s.coo.setVal (p / 2) l }
    else { s with csr := s.csr.setVal (p / 2) l }
  upd := SpStmt.upd

/-! ## Hessenberg and triangular matrices -/

/-- `HessenbergMat` and `DynUpperTriMat` objects. -/
structure ExtStore (T : Type) where
  hess : Nat → Hess T
  up : Nat → UTri T

/-- Statements about them. -/
inductive ExtStmt (T : Type)
  /-- `x.extend_with_zero();` for a Hessenberg matrix. -/
  | hessZero (x : Nat)
  /-- `x.extend_with(l);` for a Hessenberg matrix. -/
  | hessWith (x : Nat) (l : List T)
  /-- `x(i, j) = v;` for a Hessenberg matrix. -/
  | hessSet (x i j : Nat) (v : T)
  /-- `x.extend_with_zero();` for an upper triangular matrix. -/
  | upZero (x : Nat)
  /-- `x.extend_with(l);` for an upper triangular matrix. -/
  | upWith (x : Nat) (l : List T)
  /-- `x(i, j) = v;` for an upper triangular matrix. -/
  | upSet (x i j : Nat) (v : T)

namespace ExtStore

/-- Replaces Hessenberg matrix `x`. -/
def putHess (s : ExtStore T) (x : Nat) (a : Hess T) : ExtStore T := { s with hess := fun q => if q = x then a else s.hess q }

/-- Replaces upper triangular matrix `x`. -/
def putUp (s : ExtStore T) (x : Nat) (a : UTri T) : ExtStore T := { s with up := fun q => if q = x then a else s.up q }

end ExtStore

namespace ExtStmt

/-- The effect of a statement on the objects. -/
def act [Zero T] : ExtStmt T → ExtStore T → Res (ExtStore T)
  | .hessZero x, s => do
    let a ← (s.hess x).extendWithZero
    .ok (s.putHess x a)
  | .hessWith x l, s => do
    let a ← (s.hess x).extendWith l
    .ok (s.putHess x a)
  | .hessSet x i j v, s => do
    let a ← (s.hess x).set i j v
    .ok (s.putHess x a)
  | .upZero x, s => do
    let a ← (s.up x).extendWithZero
    .ok (s.putUp x a)
  | .upWith x l, s => do
    let a ← (s.up x).extendWith l
    .ok (s.putUp x a)
  | .upSet x i j v, s => do
    let a ← (s.up x).set i j v
    .ok (s.putUp x a)

/-- The insertions at the end, `dyn_mat.hpp:461, 470, 601, 610`. -/
def upd : ExtStmt T → Bool → List Upd
  | .hessZero x, c | .hessWith x _, c => if c then [.fresh (2 * x)] else []
  | .upZero x, c | .upWith x _, c => if c then [.fresh (2 * x + 1)] else []
  | .hessSet .., _ | .upSet .., _ => []

end ExtStmt

/-- Hessenberg and upper triangular matrices. -/
def extLang [Zero T] : Lang (ExtStmt T) (ExtStore T) T where
  act := ExtStmt.act
  val := fun s p => if p % 2 = 0 then (s.hess (p / 2)).h else (s.up (p / 2)).u
  put := fun s p l => if p % 2 = 0 then s.putHess (p / 2) { s.hess (p / 2) with h := l }
    else s.putUp (p / 2) { s.up (p / 2) with u := l }
  upd := ExtStmt.upd

end Lalib
