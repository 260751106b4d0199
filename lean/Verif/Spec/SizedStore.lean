import Verif.Model.SizedStore
import Verif.Spec.DenseStore
import Mathlib.Logic.Function.Basic

/-!
# Vector- and matrix-valued variables of fixed size

The mathematical reading of the statements of `Model/SizedStore.lean`: the variable `(N, x)` holds a vector
`Fin N → T`, the variable `(N, M, x)` a matrix `Matrix (Fin N) (Fin M) T`, the variable `d` a list.
-/

namespace Lalib

open Matrix Function

variable {T : Type}

/-- The variables. -/
structure SzVars (T : Type) where
  vec : (p : Nat × Nat) → Fin p.1 → T
  mat : (p : Nat × Nat × Nat) → Matrix (Fin p.1) (Fin p.2.1) T
  dyn : Nat → List T

/-- Every variable is represented by its object; matrices row by row. -/
structure SzVars.ShownBy (a : SzVars T) (s : Mem T) : Prop where
  vec : ∀ N x, s (svBuf N x) = List.ofFn (a.vec (N, x))
  mat : ∀ N M x, (s (smBuf N M x)).length = N * M ∧
    ∀ (i : Fin N) (j : Fin M), (s (smBuf N M x))[i.val * M + j.val]? = some (a.mat (N, M, x) i j)
  dyn : ∀ d, s (dvBuf d) = a.dyn d

namespace SzVars

/-- Assigns to a vector. -/
def setVec (a : SzVars T) (N x : Nat) (v : Fin N → T) : SzVars T := { a with vec := update a.vec (N, x) v }

/-- Assigns to a matrix. -/
def setMat (a : SzVars T) (N M x : Nat) (v : Matrix (Fin N) (Fin M) T) : SzVars T :=
  { a with mat := update a.mat (N, M, x) v }

/-- Assigns to one element of a vector. -/
def setElem (a : SzVars T) (N x i : Nat) (v : T) : SzVars T :=
  a.setVec N x fun k => if k.val = i then v else a.vec (N, x) k

end SzVars

namespace SzStmt

open SzVars

/-- The statement on vectors and matrices: the new variables, an exception, or the end of the program. -/
def step [CommRing T] : SzStmt T → SzVars T → Res (SzVars T)
  | .vecNew N x l, a => if h : l.length = N then .ok (a.setVec N x fun i => l[i]) else .error (.throw .runtimeError)
  | .vecUninit N x, a => .ok (a.setVec N x 0)
  | .vecFilled N x v, a => .ok (a.setVec N x fun _ => v)
  | .vecCopy N x y, a => .ok (a.setVec N x (a.vec (N, y)))
  | .vecSet N x i v, a => .ok (a.setElem N x i v)
  | .vecAddTo N y z x, a | .vecAdd N x y z, a => .ok (a.setVec N x (a.vec (N, y) + a.vec (N, z)))
  | .vecSubTo N y z x, a | .vecSub N x y z, a => .ok (a.setVec N x (a.vec (N, y) - a.vec (N, z)))
  | .vecNegTo N y x, a | .vecNeg N x y, a => .ok (a.setVec N x (-a.vec (N, y)))
  | .axpy N alpha y x, a => .ok (a.setVec N x (alpha • a.vec (N, y) + a.vec (N, x)))
  | .vecScale N alpha x, a => .ok (a.setVec N x (alpha • a.vec (N, x)))
  | .vecSmul N x alpha y, a => .ok (a.setVec N x (alpha • a.vec (N, y)))
  | .dotTo K x i N y z, a => .ok (a.setElem K x i (a.vec (N, y) ⬝ᵥ a.vec (N, z)))
  | .dynNew d l, a => .ok { a with dyn := update a.dyn d l }
  | .dynSet d i v, a => .ok { a with dyn := update a.dyn d ((a.dyn d).set i v) }
  | .addSizedDyn N y d x, a =>
    if h : (a.dyn d).length = N then .ok (a.setVec N x fun i => a.vec (N, y) i + (a.dyn d)[i])
    else .error (.throw (.sizeMismatched N (a.dyn d).length))
  | .addDynSized N d y x, a =>
    if h : (a.dyn d).length = N then .ok (a.setVec N x fun i => (a.dyn d)[i] + a.vec (N, y) i)
    else .error (.throw (.sizeMismatched (a.dyn d).length N))
  | .subDynSized N d y x, a =>
    if h : (a.dyn d).length = N then .ok (a.setVec N x fun i => (a.dyn d)[i] - a.vec (N, y) i)
    else .error (.throw (.sizeMismatched (a.dyn d).length N))
  | .dotSizedDyn K x i N y d, a => .ok (a.setElem K x i (∑ k : Fin N, a.vec (N, y) k * (a.dyn d).getD k 0))
  | .dotDynSized K x i d N y, a =>
    if (a.dyn d).length = N then .ok (a.setElem K x i (∑ k : Fin N, (a.dyn d).getD k 0 * a.vec (N, y) k))
    else .error (.throw (.sizeMismatched (a.dyn d).length N))
  | .matNew N M x l, a =>
    if l.length = N * M then .ok (a.setMat N M x fun i j => l.getD (i * M + j) 0) else .error (.throw .runtimeError)
  | .matUninit N M x, a => .ok (a.setMat N M x 0)
  | .matFilled N M x v, a => .ok (a.setMat N M x fun _ _ => v)
  | .matDiagOf x l, a => .ok (a.setMat l.length l.length x (diagonal fun i => l[i]))
  | .matDiag N x v, a => .ok (a.setMat N N x (diagonal fun _ => v))
  | .matIdentity N x, a => .ok (a.setMat N N x 1)
  | .matCopy N M x y, a => .ok (a.setMat N M x (a.mat (N, M, y)))
  | .matSet N M x i j v, a =>
    .ok (a.setMat N M x fun k l => if k.val = i ∧ l.val = j then v else a.mat (N, M, x) k l)
  | .matAddTo N M b c x, a | .matAdd N M x b c, a => .ok (a.setMat N M x (a.mat (N, M, b) + a.mat (N, M, c)))
  | .matSubTo N M b c x, a | .matSub N M x b c, a => .ok (a.setMat N M x (a.mat (N, M, b) - a.mat (N, M, c)))
  | .matScale N M alpha x, a => .ok (a.setMat N M x (alpha • a.mat (N, M, x)))
  | .matSmul N M x alpha b, a => .ok (a.setMat N M x (alpha • a.mat (N, M, b)))
  | .matNeg N M x b, a => .ok (a.setMat N M x (-a.mat (N, M, b)))
  | .gemv N M alpha b v beta w, a =>
    .ok (a.setVec N w (alpha • (a.mat (N, M, b) *ᵥ a.vec (M, v)) + beta • a.vec (N, w)))
  | .gemvDyn N M alpha b d beta w, a =>
    if h : (a.dyn d).length = M then
      .ok (a.setVec N w (alpha • (a.mat (N, M, b) *ᵥ fun k => (a.dyn d)[k]) + beta • a.vec (N, w)))
    else .error .assertFail
  | .matVec N M w b v, a => .ok (a.setVec N w (a.mat (N, M, b) *ᵥ a.vec (M, v)))
  | .gemm N L M alpha b c beta x, a =>
    .ok (a.setMat N M x (alpha • (a.mat (N, L, b) * a.mat (L, M, c)) + beta • a.mat (N, M, x)))
  | .matMul N L M x b c, a => .ok (a.setMat N M x (a.mat (N, L, b) * a.mat (L, M, c)))

/-- Indices are in range, inner products are not of empty vectors, the second operand of `SizedVec::dot(DynVec)` is
long enough, and — with `NDEBUG` — so are the shapes in `mul` with a `DynVec`. -/
def Valid (nd : Bool) : SzStmt T → SzVars T → Prop
  | .vecSet N _ i _, _ => i < N
  | .dotTo K _ i N _ _, _ => i < K ∧ 0 < N
  | .dynSet d i _, a => i < (a.dyn d).length
  | .dotSizedDyn K _ i N _ d, a => i < K ∧ 0 < N ∧ N ≤ (a.dyn d).length
  | .dotDynSized K _ i _ N _, _ => i < K ∧ 0 < N
  | .matSet N M _ i j _, _ => i < N ∧ j < M
  | .gemvDyn _ M _ _ d _ _, a => nd = true → (a.dyn d).length = M
  | _, _ => True

/-- The program on vectors and matrices: the final variables and the exceptions, or what ends it. -/
def stepAll [CommRing T] : List (SzStmt T) → SzVars T → Res (SzVars T × List (Option Exn))
  | [], a => .ok (a, [])
  | st :: p, a =>
    match st.step a with
    | .ok a' => (stepAll p a').map fun r => (r.1, none :: r.2)
    | .error (.throw e) => (stepAll p a).map fun r => (r.1, some e :: r.2)
    | .error f => .error f

/-- Every statement is valid when it is reached. -/
def ValidAll [CommRing T] (nd : Bool) : List (SzStmt T) → SzVars T → Prop
  | [], _ => True
  | st :: p, a => st.Valid nd a ∧
    match st.step a with
    | .ok a' => ValidAll nd p a'
    | .error (.throw _) => ValidAll nd p a
    | .error _ => True

end SzStmt

end Lalib
