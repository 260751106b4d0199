import Verif.Model.DenseStore
import Verif.Model.Cholesky
import Verif.Model.Tdma
import Verif.Model.Gmres

/-!
# Programs over vectors, dense matrices and solver objects

Files: those of `Model/DenseStore.lean`, `include/lalib/solver/cholesky_factorization.hpp`,
`include/lalib/solver/tri_diag.hpp`, `include/lalib/solver/ilu.hpp`, `include/lalib/solver/gmres.hpp`
(without `LALIB_LAPACK_BACKEND`).

The objects of `Model/DenseStore.lean` and, beside them, named solver objects.  A solver object holds its matrix by
value (`cholesky_factorization.hpp:59, 83`, `tri_diag.hpp:34`, `ilu.hpp:32`, `gmres.hpp:30-32`).  The constructors take
`DynMat<T>&&` (`cholesky_factorization.hpp:41, 65`) or `M&&` (`ilu.hpp:18`, `gmres.hpp:22`, here with `M = DynMat<T>`);
`DynMat` declares its copy operations and no move operations (`dyn_mat.hpp:36, 63`), so `_data(std::move(mat))` copies
and the matrix handed over keeps its value.
-/

namespace Lalib

variable {T : Type}

/-- A solver object. -/
inductive Solver (T : Type)
  /-- `DynCholeskyFactorization<T>` (`md = false`), `cholesky_factorization.hpp:39-60`, and
  `DynModCholeskyFactorization<T>` (`md = true`), `:63-83`: the members `_n` and `_data`. -/
  | chol (md : Bool) (n : Nat) (l : List T)
  /-- `TriDiag<DynTriDiagMat<T>>`, `tri_diag.hpp:20-35`. -/
  | tri (a : TriDiag T)
  /-- `Ilu<T, DynMat<T>>`, `ilu.hpp:14-33`. -/
  | ilu (a : DMat T)
  /-- `Gmres<T, DynMat<T>>`, `gmres.hpp:17-35`. -/
  | gmres (g : Gmres (DMat T) T)

/-- All the objects. -/
structure SvStore (T : Type) where
  dn : DnStore T
  slv : Nat → Option (Solver T)

namespace SvStore

/-- Sets solver object `s`. -/
def setSlv (f : Nat → Option (Solver T)) (s : Nat) (v : Solver T) : Nat → Option (Solver T) :=
  fun q => if q = s then some v else f q

/-- Matrix `x` as a value. -/
def dmat (st : SvStore T) (x : Nat) : DMat T := ⟨(st.dn.dim x).1, (st.dn.dim x).2, st.dn.mem (mbuf x)⟩

end SvStore

/-- Statements over named vectors, matrices and solver objects. -/
inductive SvStmt (T : Type)
  /-- A statement without solver objects. -/
  | dense (st : DnStmt T)
  /-- `DynCholeskyFactorization<T> s(std::move(x));` -/
  | cholNew (s x : Nat)
  /-- `DynModCholeskyFactorization<T> s(std::move(x));` -/
  | modCholNew (s x : Nat)
  /-- `TriDiag s(DynTriDiagMat<T>(dl, d, du));` -/
  | triNew (s : Nat) (dl d du : List T)
  /-- `Ilu<T, DynMat<T>> s(std::move(x));` -/
  | iluNew (s x : Nat)
  /-- `Gmres<T, DynMat<T>> s(std::move(x), tol);` -/
  | gmresNew (s x : Nat) (tol : T)
  /-- `s.solve_linear_mut(v);` for a factorisation and a vector. -/
  | cholSolveMut (s v : Nat)
  /-- `w = s.solve_linear(v);` for a factorisation and vectors. -/
  | cholSolve (w s v : Nat)
  /-- `s.solve_linear_mut(b);` for a factorisation and a matrix. -/
  | cholSolveMutMat (s b : Nat)
  /-- `x = s.solve_linear(b);` for a factorisation and matrices. -/
  | cholSolveMat (x s b : Nat)
  /-- `s.solve_linear(b, x);` for a `TriDiag` and vectors. -/
  | triSolve (s b x : Nat)
  /-- `s.solve_linear(b, x);` for a `TriDiag` and matrices. -/
  | triSolveMat (s b x : Nat)
  /-- `w = s.solve(v);` for an `Ilu`. -/
  | iluSolve (w s v : Nat)
  /-- `w = s.solve(v);` for a `Gmres`. -/
  | gmresSolve (w s v : Nat)

namespace SvStmt

open DnStore SvStore

section
variable [Field T] [LinearOrder T] [Sqrt T]

/-- The solver object `s`, which has to exist. -/
def withSlv (st : SvStore T) (s : Nat) (f : Solver T → Res (SvStore T)) : Res (SvStore T) :=
  match st.slv s with
  | some v => f v
  | none => .error (.ub .uninit)

/-- The effect of a statement on the objects; `nd` and `ord` as in `DnStmt.act`, `rt` as in `Gmres.solve`.  A constructor
that throws makes no object.  A member function of another class than that of the object does not exist (the outcome
`uninit` is never reached in a program that compiles). -/
def act (rt : Nat → Nat) (nd : Bool) (ord : Nat → List Nat) : SvStmt T → SvStore T → Res (SvStore T)
  | .dense st, q => do
    let d ← st.act nd ord q.dn
    .ok { q with dn := d }
  | .cholNew s x, q => do
    let l ← Chol.new .square (q.dn.dim x).1 (q.dn.mem (mbuf x))
    .ok { q with slv := setSlv q.slv s (.chol false (q.dn.dim x).1 l) }
  | .modCholNew s x, q => do
    let l ← Chol.modNew .square (q.dn.dim x).1 (q.dn.mem (mbuf x))
    .ok { q with slv := setSlv q.slv s (.chol true (q.dn.dim x).1 l) }
  | .triNew s dl d du, q => do
    let a ← TriDiag.new dl d du
    .ok { q with slv := setSlv q.slv s (.tri a) }
  | .iluNew s x, q => do
    let a ← Ilu.new dOps (q.dmat x)
    .ok { q with slv := setSlv q.slv s (.ilu a) }
  | .gmresNew s x tol, q => do
    let g ← Gmres.new (dGOps nd) (q.dmat x) tol
    .ok { q with slv := setSlv q.slv s (.gmres g) }
  | .cholSolveMut s v, q => withSlv q s fun
    | .chol md n l => do
      let m ← Chol.solveMutVec nd md .square n l (vbuf v) q.dn.mem
      .ok { q with dn := { q.dn with mem := m } }
    | _ => .error (.ub .uninit)
  | .cholSolve w s v, q => withSlv q s fun
    | .chol md n l => do
      let m ← Chol.solveVecAt nd md .square n l (vbuf v) 0 q.dn.mem
      .ok { q with dn := vecTmp w q.dn.dim m }
    | _ => .error (.ub .uninit)
  | .cholSolveMutMat s b, q => withSlv q s fun
    | .chol md n l => do
      let m ← Chol.solveMutMat nd md .square n l (q.dn.mref b) q.dn.mem
      .ok { q with dn := { q.dn with mem := m } }
    | _ => .error (.ub .uninit)
  | .cholSolveMat x s b, q => withSlv q s fun
    | .chol md n l => do
      let m ← Chol.solveMatAt nd md .square n l (q.dn.mref b) 0 q.dn.mem
      .ok { q with dn := matTmp x (q.dn.dim b) q.dn.dim m }
    | _ => .error (.ub .uninit)
  | .triSolve s b x, q => withSlv q s fun
    | .tri a => do
      let m ← Tdma.solveVec nd a (vbuf b) (vbuf x) q.dn.mem
      .ok { q with dn := { q.dn with mem := m } }
    | _ => .error (.ub .uninit)
  | .triSolveMat s b x, q => withSlv q s fun
    | .tri a => do
      let m ← Tdma.solveMat nd a (q.dn.mref b) (q.dn.mref x) q.dn.mem
      .ok { q with dn := { q.dn with mem := m } }
    | _ => .error (.ub .uninit)
  | .iluSolve w s v, q => withSlv q s fun
    | .ilu a => do
      let l ← Ilu.solve dOps a (q.dn.mem (vbuf v))
      .ok { q with dn := vecTmp w q.dn.dim (q.dn.mem.setBuf 0 l) }
    | _ => .error (.ub .uninit)
  | .gmresSolve w s v, q => withSlv q s fun
    | .gmres g => do
      let l ← Gmres.solve rt nd (dGOps nd) g (q.dn.mem (vbuf v))
      .ok { q with dn := vecTmp w q.dn.dim (q.dn.mem.setBuf 0 l) }
    | _ => .error (.ub .uninit)

/-- A program, each statement in a `try` block of its own: the final objects and, for each statement, the exception
it threw.  Every other failure ends the program. -/
def runAll (rt : Nat → Nat) (nd : Bool) :
    (Nat → Nat → List Nat) → List (SvStmt T) → SvStore T → Res (SvStore T × List (Option Exn))
  | _, [], s => .ok (s, [])
  | ord, st :: p, s =>
    match st.act rt nd (ord 0) s with
    | .ok s' => do
      let r ← runAll rt nd (fun k => ord (k + 1)) p s'
      .ok (r.1, none :: r.2)
    | .error (.throw e) => do
      let r ← runAll rt nd (fun k => ord (k + 1)) p s
      .ok (r.1, some e :: r.2)
    | .error f => .error f

end

/-- The solver objects a statement may modify. -/
def slvTargets : SvStmt T → List Nat
  | .cholNew s _ | .modCholNew s _ | .triNew s _ _ _ | .iluNew s _ | .gmresNew s _ _ => [s]
  | _ => []

/-- The vectors a statement may modify. -/
def vecTargets : SvStmt T → List Nat
  | .dense st => st.vecTargets
  | .cholSolveMut _ x | .cholSolve x _ _ | .triSolve _ _ x | .iluSolve x _ _ | .gmresSolve x _ _ => [x]
  | _ => []

/-- The matrices a statement may modify: a constructor modifies none, in spite of `std::move`. -/
def matTargets : SvStmt T → List Nat
  | .dense st => st.matTargets
  | .cholSolveMutMat _ x | .cholSolveMat x _ _ | .triSolveMat _ _ x => [x]
  | _ => []

end SvStmt

end Lalib
