import Verif.Model.Dense

/-!
# Programs over several vectors and dense matrices

Files: `include/lalib/vec/dyn_vec.hpp`, `include/lalib/mat/dyn_mat.hpp`, `include/lalib/ops/vec_ops.hpp`,
`include/lalib/ops/mat_ops.hpp`, `include/lalib/ops/mat_vec_ops.hpp`, `include/lalib/ops/mat_mat_ops.hpp`.

Named `DynVec` and `DynMat` objects.  Every statement runs the function of `Model/VecOps.lean` or
`Model/Dense.lean` on the memory which holds all of them, so operands and results may be the same object.
-/

namespace Lalib

variable {T : Type}

/-- All the objects: the elements of every object and the shape (`_shape`, `dyn_mat.hpp:94`) of every matrix.
Buffer `0` is for temporaries, `2x+1` for vector `x`, `2x+2` for matrix `x`. -/
structure DnStore (T : Type) where
  mem : Mem T
  dim : Nat → Nat × Nat

/-- The buffer of vector `x`. -/
def vbuf (x : Nat) : Nat := 2 * x + 1

/-- The buffer of matrix `x`. -/
def mbuf (x : Nat) : Nat := 2 * x + 2

namespace DnStore

/-- Matrix `x` as an argument. -/
def mref (s : DnStore T) (x : Nat) : MatRef := ⟨mbuf x, (s.dim x).1, (s.dim x).2⟩

/-- Sets the shape of matrix `x`. -/
def setDim (d : Nat → Nat × Nat) (x : Nat) (v : Nat × Nat) : Nat → Nat × Nat := fun q => if q = x then v else d q

/-- `x = t` for a temporary vector `t`: move assignment, `dyn_vec.hpp:66`; the temporary dies. -/
def vecTmp (x : Nat) (d : Nat → Nat × Nat) (m : Mem T) : DnStore T := ⟨(m.setBuf (vbuf x) (m 0)).setBuf 0 [], d⟩

/-- `x = t` for a temporary matrix `t` of shape `v`: copy assignment, because `DynMat` declares its copy
operations and no move operations (`dyn_mat.hpp:36, 63`); the temporary dies. -/
def matTmp (x : Nat) (v : Nat × Nat) (d : Nat → Nat × Nat) (m : Mem T) : DnStore T :=
  ⟨(m.setBuf (mbuf x) (m 0)).setBuf 0 [], setDim d x v⟩

end DnStore

/-- Statements over named `DynVec` and `DynMat` objects. -/
inductive DnStmt (T : Type)
  /-- `x = DynVec(l);` -/
  | vecNew (x : Nat) (l : List T)
  /-- `x = DynVec::filled(n, v);` -/
  | vecFilled (x n : Nat) (v : T)
  /-- `x = y;` -/
  | vecCopy (x y : Nat)
  /-- `x = std::move(y);` which leaves `left` in `y`. -/
  | vecMove (x y : Nat) (left : List T)
  /-- `x[i] = v;` -/
  | vecSet (x i : Nat) (v : T)
  /-- `add(y, z, x);` -/
  | vecAddTo (y z x : Nat)
  /-- `sub(y, z, x);` -/
  | vecSubTo (y z x : Nat)
  /-- `neg(y, x);` -/
  | vecNegTo (y x : Nat)
  /-- `axpy(alpha, y, x);` -/
  | axpy (alpha : T) (y x : Nat)
  /-- `scale(alpha, x);` -/
  | vecScale (alpha : T) (x : Nat)
  /-- `x = y + z;` -/
  | vecAdd (x y z : Nat)
  /-- `x = y - z;` -/
  | vecSub (x y z : Nat)
  /-- `x = -y;` -/
  | vecNeg (x y : Nat)
  /-- `x = alpha * y;` -/
  | vecSmul (x : Nat) (alpha : T) (y : Nat)
  /-- `x[i] = y.dot(z);` -/
  | dotMember (x i y z : Nat)
  /-- `x[i] = dot(y, z);` -/
  | dotFree (x i y z : Nat)
  /-- `x = DynMat(n, m, arr);` -/
  | matNew (x n m : Nat) (arr : List T)
  /-- `x = DynMat::filled(v, n, m);` -/
  | matFilled (x : Nat) (v : T) (n m : Nat)
  /-- `x = DynMat::diag(v, n);` -/
  | matDiag (x : Nat) (v : T) (n : Nat)
  /-- `x = DynMat::identity(n);` -/
  | matIdentity (x n : Nat)
  /-- `x = y;` -/
  | matCopy (x y : Nat)
  /-- `x = std::move(y);` -/
  | matMove (x y : Nat)
  /-- `x(i, j) = v;` -/
  | matSet (x i j : Nat) (v : T)
  /-- `add(a, b, x);` -/
  | matAddTo (a b x : Nat)
  /-- `sub(a, b, x);` -/
  | matSubTo (a b x : Nat)
  /-- `scale(alpha, x);` -/
  | matScale (alpha : T) (x : Nat)
  /-- `x = a + b;` -/
  | matAdd (x a b : Nat)
  /-- `x = a - b;` -/
  | matSub (x a b : Nat)
  /-- `x = alpha * a;` -/
  | matSmul (x : Nat) (alpha : T) (a : Nat)
  /-- `x = -a;` -/
  | matNeg (x a : Nat)
  /-- `mul(alpha, a, v, beta, w);` for a matrix `a` and vectors `v`, `w`. -/
  | gemv (alpha : T) (a v : Nat) (beta : T) (w : Nat)
  /-- `w = a * v;` for a matrix `a` and vectors `v`, `w`. -/
  | matVec (w a v : Nat)
  /-- `mul(alpha, a, b, beta, c);` -/
  | gemm (alpha : T) (a b : Nat) (beta : T) (c : Nat)
  /-- `x = a * b;` -/
  | matMul (x a b : Nat)

namespace DnStmt

open DnStore

/-- The effect of a statement on the objects.  `nd` tells whether `NDEBUG` is defined, `ord n` is the order in which
a parallel loop runs its `n` iterations.  A call that throws has modified nothing: the checks
(`vec_ops.hpp:298, 313, 345, 360`, `dyn_vec.hpp:186`) precede all writes. -/
def act [CommRing T] (nd : Bool) (ord : Nat → List Nat) : DnStmt T → DnStore T → Res (DnStore T)
  | .vecNew x l, s => .ok (vecTmp x s.dim (s.mem.setBuf 0 l))
  | .vecFilled x n v, s => .ok (vecTmp x s.dim (s.mem.setBuf 0 (dynVecFilled n v)))
  | .vecCopy x y, s => .ok { s with mem := s.mem.setBuf (vbuf x) (s.mem (vbuf y)) }
  | .vecMove x y left, s =>
    .ok { s with mem := (s.mem.setBuf (vbuf x) (s.mem (vbuf y))).setBuf (vbuf y) left }
  | .vecSet x i v, s => do
    let m ← s.mem.wr (vbuf x) i v
    .ok { s with mem := m }
  | .vecAddTo y z x, s => do
    let m ← addDD (ord (s.mem.len (vbuf y))) s.mem (vbuf y) (vbuf z) (vbuf x)
    .ok { s with mem := m }
  | .vecSubTo y z x, s => do
    let m ← subDD (ord (s.mem.len (vbuf y))) s.mem (vbuf y) (vbuf z) (vbuf x)
    .ok { s with mem := m }
  | .vecNegTo y x, s => do
    let m ← negD s.mem (vbuf y) (vbuf x)
    .ok { s with mem := m }
  | .axpy alpha y x, s => do
    let m ← axpyD alpha s.mem (vbuf y) (vbuf x)
    .ok { s with mem := m }
  | .vecScale alpha x, s => do
    let m ← scaleV alpha s.mem (vbuf x)
    .ok { s with mem := m }
  | .vecAdd x y z, s => do
    let m ← addOpAt (ord (s.mem.len (vbuf y))) s.mem (vbuf y) (vbuf z) 0
    .ok (vecTmp x s.dim m)
  | .vecSub x y z, s => do
    let m ← subOpAt (ord (s.mem.len (vbuf y))) s.mem (vbuf y) (vbuf z) 0
    .ok (vecTmp x s.dim m)
  | .vecNeg x y, s => do
    let m ← negOpAt s.mem (vbuf y) 0
    .ok (vecTmp x s.dim m)
  | .vecSmul x alpha y, s => do
    let m ← smulOpAt alpha s.mem (vbuf y) 0
    .ok (vecTmp x s.dim m)
  | .dotMember x i y z, s => do
    let v ← dynDot s.mem (vbuf y) (vbuf z)
    let m ← s.mem.wr (vbuf x) i v
    .ok { s with mem := m }
  | .dotFree x i y z, s => do
    let v ← dotDD s.mem (vbuf y) (vbuf z)
    let m ← s.mem.wr (vbuf x) i v
    .ok { s with mem := m }
  | .matNew x n m arr, s => do
    let t ← DMat.new n m arr
    .ok (matTmp x (t.n, t.m) s.dim (s.mem.setBuf 0 t.elems))
  | .matFilled x v n m, s => do
    let t ← DMat.filled v n m
    .ok (matTmp x (t.n, t.m) s.dim (s.mem.setBuf 0 t.elems))
  | .matDiag x v n, s => do
    let t ← DMat.diagConst v n
    .ok (matTmp x (t.n, t.m) s.dim (s.mem.setBuf 0 t.elems))
  | .matIdentity x n, s => do
    let t ← DMat.identity n
    .ok (matTmp x (t.n, t.m) s.dim (s.mem.setBuf 0 t.elems))
  | .matCopy x y, s => .ok ⟨s.mem.setBuf (mbuf x) (s.mem (mbuf y)), setDim s.dim x (s.dim y)⟩
  | .matMove x y, s => .ok ⟨s.mem.setBuf (mbuf x) (s.mem (mbuf y)), setDim s.dim x (s.dim y)⟩
  | .matSet x i j v, s => do
    let m ← s.mem.wr (mbuf x) (i * (s.dim x).2 + j) v
    .ok { s with mem := m }
  | .matAddTo a b x, s => do
    let m ← matAddDD nd (ord ((s.dim a).1 * (s.dim a).2)) (s.mref a) (s.mref b) (s.mref x) s.mem
    .ok { s with mem := m }
  | .matSubTo a b x, s => do
    let m ← matSubDD nd (ord ((s.dim a).1 * (s.dim a).2)) (s.mref a) (s.mref b) (s.mref x) s.mem
    .ok { s with mem := m }
  | .matScale alpha x, s => do
    let m ← Lalib.matScale alpha (s.mref x) s.mem
    .ok { s with mem := m }
  | .matAdd x a b, s => do
    let m ← matAddAt nd (ord ((s.dim a).1 * (s.dim a).2)) s.mem (s.mref a) (s.mref b) 0
    .ok (matTmp x (s.dim a) s.dim m)
  | .matSub x a b, s => do
    let m ← matSubAt nd (ord ((s.dim a).1 * (s.dim a).2)) s.mem (s.mref a) (s.mref b) 0
    .ok (matTmp x (s.dim a) s.dim m)
  | .matSmul x alpha a, s => do
    let m ← matSmulAt alpha s.mem (s.mref a) 0
    .ok (matTmp x (s.dim a) s.dim m)
  | .matNeg x a, s => do
    let m ← matNegAt s.mem (s.mref a) 0
    .ok (matTmp x (s.dim a) s.dim m)
  | .gemv alpha a v beta w, s => do
    let m ← gemvDD nd alpha (s.mref a) (vbuf v) beta (vbuf w) s.mem
    .ok { s with mem := m }
  | .matVec w a v, s => do
    let m ← matVecAt nd s.mem (s.mref a) (vbuf v) 0
    .ok (vecTmp w s.dim m)
  | .gemm alpha a b beta c, s => do
    let m ← gemmDDD nd alpha (s.mref a) (s.mref b) beta (s.mref c) s.mem
    .ok { s with mem := m }
  | .matMul x a b, s => do
    let m ← matMulAt nd s.mem (s.mref a) (s.mref b) 0
    .ok (matTmp x ((s.dim a).1, (s.dim b).2) s.dim m)

/-- A program, each statement in a `try` block of its own: the final objects and, for each statement, the
exception it threw.  Every other failure ends the program.  `ord k` gives the orders of the `k`-th statement. -/
def runAll [CommRing T] (nd : Bool) :
    (Nat → Nat → List Nat) → List (DnStmt T) → DnStore T → Res (DnStore T × List (Option Exn))
  | _, [], s => .ok (s, [])
  | ord, st :: p, s =>
    match (Kept.run [st.act nd (ord 0)] s).res with
    | .ok _ => do
      let r ← runAll nd (fun k => ord (k + 1)) p (Kept.run [st.act nd (ord 0)] s).obj
      .ok (r.1, none :: r.2)
    | .error (.throw e) => do
      let r ← runAll nd (fun k => ord (k + 1)) p (Kept.run [st.act nd (ord 0)] s).obj
      .ok (r.1, some e :: r.2)
    | .error f => .error f

/-- The vectors a statement may modify. -/
def vecTargets : DnStmt T → List Nat
  | .vecNew x _ | .vecFilled x _ _ | .vecCopy x _ | .vecSet x _ _ | .vecAddTo _ _ x | .vecSubTo _ _ x
  | .vecNegTo _ x | .axpy _ _ x | .vecScale _ x | .vecAdd x _ _ | .vecSub x _ _ | .vecNeg x _ | .vecSmul x _ _
  | .dotMember x _ _ _ | .dotFree x _ _ _ | .gemv _ _ _ _ x | .matVec x _ _ => [x]
  | .vecMove x y _ => [x, y]
  | _ => []

/-- The matrices a statement may modify. -/
def matTargets : DnStmt T → List Nat
  | .matNew x _ _ _ | .matFilled x _ _ _ | .matDiag x _ _ | .matIdentity x _ | .matCopy x _ | .matMove x _
  | .matSet x _ _ _ | .matAddTo _ _ x | .matSubTo _ _ x | .matScale _ x | .matAdd x _ _ | .matSub x _ _
  | .matSmul x _ _ | .matNeg x _ | .gemm _ _ _ _ x | .matMul x _ _ => [x]
  | _ => []

end DnStmt

end Lalib
