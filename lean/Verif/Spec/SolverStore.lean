import Verif.Spec.DenseStore
import Verif.Model.SolverStore
import Mathlib.LinearAlgebra.Matrix.NonsingularInverse
import Mathlib.LinearAlgebra.Matrix.Symmetric

/-!
# Solver objects as matrices

The mathematical reading of the statements of `Model/SolverStore.lean`: beside the vectors and matrices of
`Spec/DenseStore.lean` a variable may stand for a system of equations, given by its matrix.
-/

namespace Lalib

open Matrix

variable {T : Type}

/-- `xᵀ A x > 0` for every `x ≠ 0`. -/
def PosForm [CommRing T] [LT T] {n : Nat} (A : Matrix (Fin n) (Fin n) T) : Prop := ∀ x, x ≠ 0 → 0 < x ⬝ᵥ A *ᵥ x

/-- The leading block of order `k`. -/
def lead {n : Nat} (A : Matrix (Fin n) (Fin n) T) (k : Nat) (h : k ≤ n) : Matrix (Fin k) (Fin k) T :=
  A.submatrix (Fin.castLE h) (Fin.castLE h)

/-- No leading principal minor vanishes. -/
def LeadRegular [CommRing T] {n : Nat} (A : Matrix (Fin n) (Fin n) T) : Prop := ∀ k (h : k ≤ n), (lead A k h).det ≠ 0

/-- `L` (unit lower triangular) and `U` (upper triangular) are incomplete factors of `A`: zero outside the pattern of `A`,
and `L U` agrees with `A` on it.  Where there is something to eliminate the pivot is not zero. -/
structure IluOf [CommRing T] {n : Nat} (A L U : Matrix (Fin n) (Fin n) T) : Prop where
  low : ∀ i j, i < j → L i j = 0
  one : ∀ i, L i i = 1
  up : ∀ i j, j < i → U i j = 0
  lpat : ∀ i j, j < i → A i j = 0 → L i j = 0
  upat : ∀ i j, i ≤ j → A i j = 0 → U i j = 0
  prod : ∀ i j, A i j ≠ 0 → (L * U) i j = A i j
  piv : ∀ i j, j < i → A i j ≠ 0 → U j j ≠ 0

/-- The leading square block of a matrix that has as many columns as rows or more. -/
def leadSq {n m : Nat} (A : Matrix (Fin n) (Fin m) T) (h : n ≤ m) : Matrix (Fin n) (Fin n) T := A.submatrix id (Fin.castLE h)

/-- The tri-diagonal matrix with the given diagonals. -/
def triMat [Zero T] (dl d du : List T) : Matrix (Fin d.length) (Fin d.length) T := fun i j =>
  if i.val = j.val then d[i] else if i.val + 1 = j.val then du.getD i 0 else if i.val = j.val + 1 then dl.getD j 0 else 0

/-- What a solver variable stands for. -/
inductive SVal (T : Type)
  /-- A factorised matrix; the second kind is that of `DynModCholeskyFactorization`. -/
  | chol (md : Bool) (n : Nat) (A : Matrix (Fin n) (Fin n) T)
  /-- A tri-diagonal matrix. -/
  | tri (n : Nat) (A : Matrix (Fin n) (Fin n) T)
  /-- The product of incomplete factors. -/
  | ilu (n : Nat) (P : Matrix (Fin n) (Fin n) T)
  /-- A matrix, the product of its incomplete factors and a tolerance. -/
  | gmres (n : Nat) (A P : Matrix (Fin n) (Fin n) T) (tol : T)

/-- The variables. -/
structure SState (T : Type) where
  var : VStore T
  slv : Nat → Option (SVal T)

namespace SState

def setSlv (a : SState T) (s : Nat) (v : SVal T) : SState T :=
  { a with slv := fun q => if q = s then some v else a.slv q }

def setVec (a : SState T) (x : Nat) {n : Nat} (v : Fin n → T) : SState T := { a with var := a.var.setVec x (some ⟨n, v⟩) }

def setMat (a : SState T) (x : Nat) {n m : Nat} (v : Matrix (Fin n) (Fin m) T) : SState T :=
  { a with var := a.var.setMat x (some ⟨n, m, v⟩) }

/-- Vector `x` is `v`. -/
def Vec (a : SState T) (x : Nat) {n : Nat} (v : Fin n → T) : Prop := a.var.vec x = some ⟨n, v⟩

/-- Matrix `x` is `v`. -/
def Mat (a : SState T) (x : Nat) {n m : Nat} (v : Matrix (Fin n) (Fin m) T) : Prop := a.var.mat x = some ⟨n, m, v⟩

end SState

/-- What a statement does: it ends normally, throws, or ends the program. -/
inductive SOut (T : Type)
  | done (s : SState T)
  | throws (e : Exn)
  | stops (f : Fault)

/-- The outcome of a statement without solvers. -/
def SOut.lift (a : SState T) : VOut T → SOut T
  | .done v => .done { a with var := v }
  | .throws e => .throws e
  | .stops f => .stops f

namespace SvStmt

section
variable [Field T] [LinearOrder T]

/-- What the statement may do to vectors, matrices and systems: one outcome, except that the result of GMRES is only
known up to the tolerance. -/
def Does : SvStmt T → SState T → SOut T → Prop
  | .dense st, a, o => o = SOut.lift a (st.step a.var)
  | .cholNew s x, a, o => ∃ (n : Nat) (A : Matrix (Fin n) (Fin n) T), a.Mat x A ∧
      (PosForm A ∧ o = .done (a.setSlv s (.chol false n A)) ∨ ¬ PosForm A ∧ o = .throws .runtimeError)
  | .modCholNew s x, a, o => ∃ (n : Nat) (A : Matrix (Fin n) (Fin n) T), a.Mat x A ∧
      (LeadRegular A ∧ o = .done (a.setSlv s (.chol true n A)) ∨ ¬ LeadRegular A ∧ o = .throws .runtimeError)
  | .triNew s dl d du, a, o => o = .done (a.setSlv s (.tri d.length (triMat dl d du)))
  | .iluNew s x, a, o => ∃ (n m : Nat) (h : n ≤ m) (A : Matrix (Fin n) (Fin m) T), a.Mat x A ∧
      ((∃ L U, IluOf (leadSq A h) L U ∧ o = .done (a.setSlv s (.ilu n (L * U)))) ∨
        (¬ ∃ L U, IluOf (leadSq A h) L U) ∧ o = .throws .runtimeError)
  | .gmresNew s x tol, a, o => ∃ (n : Nat) (A : Matrix (Fin n) (Fin n) T), a.Mat x A ∧
      ((∃ L U, IluOf A L U ∧ o = .done (a.setSlv s (.gmres n A (L * U) tol))) ∨
        (¬ ∃ L U, IluOf A L U) ∧ o = .throws .runtimeError)
  | .cholSolveMut s v, a, o => ∃ md n A m, ∃ b : Fin m → T, a.slv s = some (.chol md n A) ∧ a.Vec v b ∧
      (if h : m = n then o = .done (a.setVec v (A⁻¹ *ᵥ fun i => b (i.cast h.symm))) else o = .stops .assertFail)
  | .cholSolve w s v, a, o => ∃ md n A m, ∃ b : Fin m → T, a.slv s = some (.chol md n A) ∧ a.Vec v b ∧
      (if h : m = n then o = .done (a.setVec w (A⁻¹ *ᵥ fun i => b (i.cast h.symm))) else o = .stops .assertFail)
  | .cholSolveMutMat s x, a, o => ∃ md n A m k, ∃ B : Matrix (Fin m) (Fin k) T, a.slv s = some (.chol md n A) ∧ a.Mat x B ∧
      (if h : m = n then o = .done (a.setMat x (A⁻¹ * B.submatrix (Fin.cast h.symm) id)) else o = .stops .assertFail)
  | .cholSolveMat w s x, a, o => ∃ md n A m k, ∃ B : Matrix (Fin m) (Fin k) T, a.slv s = some (.chol md n A) ∧ a.Mat x B ∧
      (if h : m = n then o = .done (a.setMat w (A⁻¹ * B.submatrix (Fin.cast h.symm) id)) else o = .stops .assertFail)
  | .triSolve s v w, a, o => ∃ n A m, ∃ b : Fin m → T, a.slv s = some (.tri n A) ∧ a.Vec v b ∧
      (if h : m = n then o = .done (a.setVec w (A⁻¹ *ᵥ fun i => b (i.cast h.symm))) else o = .stops .assertFail)
  | .triSolveMat s x w, a, o => ∃ n A m k m' k', ∃ (B : Matrix (Fin m) (Fin k) T) (C : Matrix (Fin m') (Fin k') T),
      a.slv s = some (.tri n A) ∧ a.Mat x B ∧ a.Mat w C ∧
      (if h : m = n ∧ m' = n ∧ k' = k then o = .done (a.setMat w (A⁻¹ * B.submatrix (Fin.cast h.1.symm) id))
        else o = .stops .assertFail)
  | .iluSolve w s v, a, o => ∃ n P, ∃ b : Fin n → T, a.slv s = some (.ilu n P) ∧ a.Vec v b ∧
      o = .done (a.setVec w (P⁻¹ *ᵥ b))
  | .gmresSolve w s v, a, o => ∃ n A P tol, ∃ b x z : Fin n → T, a.slv s = some (.gmres n A P tol) ∧ a.Vec v b ∧
      P *ᵥ z = b - A *ᵥ x ∧ z ⬝ᵥ z < tol ^ 2 ∧ o = .done (a.setVec w x)

/-- When the statement's effect is one of those: the operands exist, matrices to be factorised are square (for `Ilu` they may have
more columns than rows) and — for the Cholesky factorisations — symmetric, for `DynCholeskyFactorization` with a positive first entry (see `C36_false`); a
tri-diagonal matrix has at least two rows (see `C34_one_false`); `TriDiag`, `Ilu` and `Gmres` solve no singular systems, and
`Gmres` none with a zero right-hand side (see `C45_zero_rhs`); and — with `NDEBUG`, or where the library has no
assertion — the sizes fit. -/
def Valid (nd : Bool) : SvStmt T → SState T → Prop
  | .dense st, a => st.Valid nd a.var
  | .cholNew _ x, a => ∃ (n : Nat) (A : Matrix (Fin n) (Fin n) T), a.Mat x A ∧ A.IsSymm ∧ ∀ i : Fin n, i.val = 0 → 0 < A i i
  | .modCholNew _ x, a => ∃ (n : Nat) (A : Matrix (Fin n) (Fin n) T), a.Mat x A ∧ A.IsSymm
  | .triNew _ dl d du, _ => dl.length + 1 = d.length ∧ du.length + 1 = d.length ∧ 2 ≤ d.length ∧ d.length < 2 ^ 64
  | .iluNew _ x, a => ∃ (n m : Nat) (A : Matrix (Fin n) (Fin m) T), n ≤ m ∧ a.Mat x A
  | .gmresNew _ x _, a => ∃ (n : Nat) (A : Matrix (Fin n) (Fin n) T), a.Mat x A
  | .cholSolveMut s v, a | .cholSolve _ s v, a => ∃ md n A m, ∃ b : Fin m → T,
      a.slv s = some (.chol md n A) ∧ a.Vec v b ∧ (nd = true → m = n)
  | .cholSolveMutMat s x, a | .cholSolveMat _ s x, a => ∃ md n A m k, ∃ B : Matrix (Fin m) (Fin k) T,
      a.slv s = some (.chol md n A) ∧ a.Mat x B ∧ (nd = true → m = n)
  | .triSolve s v w, a => ∃ n A m m', ∃ (b : Fin m → T) (c : Fin m' → T), a.slv s = some (.tri n A) ∧ a.Vec v b ∧
      a.Vec w c ∧ LeadRegular A ∧ (nd = true → m = n) ∧ m' = n
  | .triSolveMat s x w, a => ∃ n A m k m' k', ∃ (B : Matrix (Fin m) (Fin k) T) (C : Matrix (Fin m') (Fin k') T),
      a.slv s = some (.tri n A) ∧ a.Mat x B ∧ a.Mat w C ∧ LeadRegular A ∧ (nd = true → m = n ∧ m' = n ∧ k' = k)
  | .iluSolve _ s v, a => ∃ n P, ∃ b : Fin n → T, a.slv s = some (.ilu n P) ∧ a.Vec v b ∧ P.det ≠ 0
  | .gmresSolve _ s v, a => ∃ n A P tol, ∃ b : Fin n → T, a.slv s = some (.gmres n A P tol) ∧ a.Vec v b ∧
      A.det ≠ 0 ∧ P.det ≠ 0 ∧ 0 < tol ∧ b ≠ 0

/-- What a program may do: the final variables and the exceptions, or what ends it. -/
inductive DoesAll : List (SvStmt T) → SState T → Except Fault (SState T × List (Option Exn)) → Prop
  | nil (a : SState T) : DoesAll [] a (.ok (a, []))
  | done {st : SvStmt T} {p : List (SvStmt T)} {a a' : SState T} {r : Except Fault (SState T × List (Option Exn))}
      (h : st.Does a (.done a')) (hp : DoesAll p a' r) : DoesAll (st :: p) a (r.map fun r => (r.1, none :: r.2))
  | throws {st : SvStmt T} {p : List (SvStmt T)} {a : SState T} {r : Except Fault (SState T × List (Option Exn))} {e : Exn}
      (h : st.Does a (.throws e)) (hp : DoesAll p a r) : DoesAll (st :: p) a (r.map fun r => (r.1, some e :: r.2))
  | stops {st : SvStmt T} {p : List (SvStmt T)} {a : SState T} {f : Fault}
      (h : st.Does a (.stops f)) : DoesAll (st :: p) a (.error f)

/-- Every statement is valid whenever it is reached. -/
def ValidAll (nd : Bool) : List (SvStmt T) → SState T → Prop
  | [], _ => True
  | st :: p, a => st.Valid nd a ∧ (∀ a', st.Does a (.done a') → ValidAll nd p a') ∧
    ∀ e, st.Does a (.throws e) → ValidAll nd p a

end

end SvStmt

end Lalib
