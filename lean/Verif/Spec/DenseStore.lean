import Verif.Model.DenseStore
import Mathlib.Data.Matrix.Mul
import Mathlib.Data.Matrix.Diagonal

/-!
# Vector- and matrix-valued variables

The mathematical reading of the statements of `Model/DenseStore.lean`, with the vectors `Fin n → T` and the matrices
`Matrix (Fin n) (Fin m) T` of Mathlib: a variable holds a vector or a matrix of some size, or nothing (never
assigned, or moved from).
-/

namespace Lalib

open Matrix

variable {T : Type}

/-- A vector of some size. -/
structure VVal (T : Type) where
  n : Nat
  x : Fin n → T

/-- A matrix of some shape. -/
structure MVal (T : Type) where
  n : Nat
  m : Nat
  a : Matrix (Fin n) (Fin m) T

/-- The elements `l` are those of the vector `v`. -/
def VVal.Shown (v : VVal T) (l : List T) : Prop := l = List.ofFn v.x

/-- The shape `d` and the elements `l`, row by row, are those of the matrix `a`. -/
def MVal.Shown (a : MVal T) (d : Nat × Nat) (l : List T) : Prop :=
  d = (a.n, a.m) ∧ l.length = a.n * a.m ∧ ∀ (i : Fin a.n) (j : Fin a.m), l[i.val * a.m + j.val]? = some (a.a i j)

/-- The variables. -/
structure VStore (T : Type) where
  vec : Nat → Option (VVal T)
  mat : Nat → Option (MVal T)

/-- Every variable that holds something is represented by its object. -/
structure DnStore.Shows (s : DnStore T) (a : VStore T) : Prop where
  vec : ∀ x v, a.vec x = some v → v.Shown (s.mem (vbuf x))
  mat : ∀ x v, a.mat x = some v → v.Shown (s.dim x) (s.mem (mbuf x))

namespace VVal

/-- The same vector, of a size equal to its own. -/
def as (v : VVal T) (n : Nat) (h : v.n = n) : Fin n → T := fun i => v.x (i.cast h.symm)

end VVal

namespace MVal

/-- The same matrix, of a shape equal to its own. -/
def as (v : MVal T) (n m : Nat) (h : v.n = n ∧ v.m = m) : Matrix (Fin n) (Fin m) T :=
  fun i j => v.a (i.cast h.1.symm) (j.cast h.2.symm)

end MVal

namespace VStore

/-- Assigns to vector `x`. -/
def setVec (s : VStore T) (x : Nat) (v : Option (VVal T)) : VStore T :=
  { s with vec := fun q => if q = x then v else s.vec q }

/-- Assigns to matrix `x`. -/
def setMat (s : VStore T) (x : Nat) (v : Option (MVal T)) : VStore T :=
  { s with mat := fun q => if q = x then v else s.mat q }

end VStore

/-- What a statement does: it ends normally, throws, or ends the program. -/
inductive VOut (T : Type)
  | done (s : VStore T)
  | throws (e : Exn)
  | stops (f : Fault)

namespace DnStmt

open VStore

/-- `r` with its first elements replaced by those of `f u v`. -/
def into (f : T → T → T) (u : VVal T) (v : Fin u.n → T) (r : VVal T) : VVal T :=
  ⟨r.n, fun i => if h : i.val < u.n then f (u.x ⟨i, h⟩) (v ⟨i, h⟩) else r.x i⟩

/-- The statement on vectors and matrices. -/
def step [CommRing T] : DnStmt T → VStore T → VOut T
  | .vecNew x l, s => .done (s.setVec x (some ⟨l.length, fun i => l[i]⟩))
  | .vecFilled x n v, s => .done (s.setVec x (some ⟨n, fun _ => v⟩))
  | .vecCopy x y, s => .done (s.setVec x (s.vec y))
  | .vecMove x y _, s => .done ((s.setVec x (s.vec y)).setVec y none)
  | .vecSet x i v, s =>
    .done (s.setVec x ((s.vec x).map fun u => ⟨u.n, fun k => if k.val = i then v else u.x k⟩))
  | .vecAddTo y z x, s =>
    match s.vec y, s.vec z, s.vec x with
    | some u, some v, some r =>
      if h : v.n = u.n then .done (s.setVec x (some (into (· + ·) u (v.as _ h) r)))
      else .throws (.sizeMismatched u.n v.n)
    | _, _, _ => .done s
  | .vecSubTo y z x, s =>
    match s.vec y, s.vec z, s.vec x with
    | some u, some v, some r =>
      if h : v.n = u.n then .done (s.setVec x (some (into (· - ·) u (v.as _ h) r)))
      else .throws (.sizeMismatched u.n v.n)
    | _, _, _ => .done s
  | .vecNegTo y x, s =>
    match s.vec y, s.vec x with
    | some u, some r => if u.n = r.n then .done (s.setVec x (some ⟨u.n, -u.x⟩)) else .stops .terminate
    | _, _ => .done s
  | .axpy alpha y x, s =>
    match s.vec y, s.vec x with
    | some u, some r =>
      if h : r.n = u.n then .done (s.setVec x (some ⟨u.n, alpha • u.x + r.as _ h⟩)) else .stops .terminate
    | _, _ => .done s
  | .vecScale alpha x, s => .done (s.setVec x ((s.vec x).map fun u => ⟨u.n, alpha • u.x⟩))
  | .vecAdd x y z, s =>
    match s.vec y, s.vec z with
    | some u, some v =>
      if h : v.n = u.n then .done (s.setVec x (some ⟨u.n, u.x + v.as _ h⟩)) else .throws (.sizeMismatched u.n v.n)
    | _, _ => .done s
  | .vecSub x y z, s =>
    match s.vec y, s.vec z with
    | some u, some v =>
      if h : v.n = u.n then .done (s.setVec x (some ⟨u.n, u.x - v.as _ h⟩)) else .throws (.sizeMismatched u.n v.n)
    | _, _ => .done s
  | .vecNeg x y, s => .done (s.setVec x ((s.vec y).map fun u => ⟨u.n, -u.x⟩))
  | .vecSmul x alpha y, s => .done (s.setVec x ((s.vec y).map fun u => ⟨u.n, alpha • u.x⟩))
  | .dotMember x i y z, s =>
    match s.vec y, s.vec z with
    | some u, some v =>
      if h : v.n = u.n then .done (s.setVec x ((s.vec x).map fun r =>
        ⟨r.n, fun k => if k.val = i then u.x ⬝ᵥ v.as _ h else r.x k⟩)) else .throws (.sizeMismatched u.n v.n)
    | _, _ => .done s
  | .dotFree x i y z, s =>
    match s.vec y, s.vec z with
    | some u, some v =>
      if h : v.n = u.n then .done (s.setVec x ((s.vec x).map fun r =>
        ⟨r.n, fun k => if k.val = i then u.x ⬝ᵥ v.as _ h else r.x k⟩)) else .stops .terminate
    | _, _ => .done s
  | .matNew x n m arr, s => .done (s.setMat x (some ⟨n, m, fun i j => arr.getD (i * m + j) 0⟩))
  | .matFilled x v n m, s => .done (s.setMat x (some ⟨n, m, fun _ _ => v⟩))
  | .matDiag x v n, s => .done (s.setMat x (some ⟨n, n, diagonal fun _ => v⟩))
  | .matIdentity x n, s => .done (s.setMat x (some ⟨n, n, 1⟩))
  | .matCopy x y, s => .done (s.setMat x (s.mat y))
  | .matMove x y, s => .done (s.setMat x (s.mat y))
  | .matSet x i j v, s =>
    .done (s.setMat x ((s.mat x).map fun a => ⟨a.n, a.m, fun k l => if k.val = i ∧ l.val = j then v else a.a k l⟩))
  | .matAddTo a b x, s =>
    match s.mat a, s.mat b, s.mat x with
    | some p, some q, some r =>
      if h : (q.n = p.n ∧ q.m = p.m) ∧ r.n = p.n ∧ r.m = p.m then
        .done (s.setMat x (some ⟨p.n, p.m, p.a + q.as _ _ h.1⟩))
      else .stops .assertFail
    | _, _, _ => .done s
  | .matSubTo a b x, s =>
    match s.mat a, s.mat b, s.mat x with
    | some p, some q, some r =>
      if h : (q.n = p.n ∧ q.m = p.m) ∧ r.n = p.n ∧ r.m = p.m then
        .done (s.setMat x (some ⟨p.n, p.m, p.a - q.as _ _ h.1⟩))
      else .stops .assertFail
    | _, _, _ => .done s
  | .matScale alpha x, s => .done (s.setMat x ((s.mat x).map fun a => ⟨a.n, a.m, alpha • a.a⟩))
  | .matAdd x a b, s =>
    match s.mat a, s.mat b with
    | some p, some q =>
      if h : q.n = p.n ∧ q.m = p.m then .done (s.setMat x (some ⟨p.n, p.m, p.a + q.as _ _ h⟩))
      else .stops .assertFail
    | _, _ => .done s
  | .matSub x a b, s =>
    match s.mat a, s.mat b with
    | some p, some q =>
      if h : q.n = p.n ∧ q.m = p.m then .done (s.setMat x (some ⟨p.n, p.m, p.a - q.as _ _ h⟩))
      else .stops .assertFail
    | _, _ => .done s
  | .matSmul x alpha a, s => .done (s.setMat x ((s.mat a).map fun p => ⟨p.n, p.m, alpha • p.a⟩))
  | .matNeg x a, s => .done (s.setMat x ((s.mat a).map fun p => ⟨p.n, p.m, -p.a⟩))
  | .gemv alpha a v beta w, s =>
    match s.mat a, s.vec v, s.vec w with
    | some p, some u, some r =>
      if h : u.n = p.m ∧ r.n = p.n then
        .done (s.setVec w (some ⟨p.n, alpha • (p.a *ᵥ u.as _ h.1) + beta • r.as _ h.2⟩))
      else .stops .assertFail
    | _, _, _ => .done s
  | .matVec w a v, s =>
    match s.mat a, s.vec v with
    | some p, some u =>
      if h : u.n = p.m then .done (s.setVec w (some ⟨p.n, p.a *ᵥ u.as _ h⟩)) else .stops .assertFail
    | _, _ => .done s
  | .gemm alpha a b beta c, s =>
    match s.mat a, s.mat b, s.mat c with
    | some p, some q, some r =>
      if h : q.n = p.m ∧ r.n = p.n ∧ r.m = q.m then
        .done (s.setMat c (some ⟨p.n, q.m, alpha • (p.a * q.as _ _ ⟨h.1, rfl⟩) + beta • r.as _ _ h.2⟩))
      else .stops .assertFail
    | _, _, _ => .done s
  | .matMul x a b, s =>
    match s.mat a, s.mat b with
    | some p, some q =>
      if h : q.n = p.m then .done (s.setMat x (some ⟨p.n, q.m, p.a * q.as _ _ ⟨h, rfl⟩⟩)) else .stops .assertFail
    | _, _ => .done s

/-- The operands hold something, indices are in range, `add`/`sub` have a result vector that is long enough, inner
products are not of empty vectors, a constructed matrix has as many elements as its shape says, and — with
`NDEBUG` — the shapes of matrix operands conform. -/
def Valid (nd : Bool) : DnStmt T → VStore T → Prop
  | .vecNew _ _, _ | .vecFilled _ _ _, _ | .matFilled _ _ _ _, _ | .matDiag _ _ _, _ | .matIdentity _ _, _ => True
  | .vecCopy _ y, s | .vecMove _ y _, s | .vecNeg _ y, s | .vecSmul _ _ y, s | .vecScale _ y, s =>
    ∃ u, s.vec y = some u
  | .vecSet x i _, s => ∃ u, s.vec x = some u ∧ i < u.n
  | .vecAddTo y z x, s | .vecSubTo y z x, s =>
    ∃ u v r, s.vec y = some u ∧ s.vec z = some v ∧ s.vec x = some r ∧ (u.n = v.n → u.n ≤ r.n)
  | .vecNegTo y x, s | .axpy _ y x, s | .vecAdd _ y x, s | .vecSub _ y x, s =>
    ∃ u v, s.vec y = some u ∧ s.vec x = some v
  | .dotMember x i y z, s | .dotFree x i y z, s =>
    ∃ u v r, s.vec y = some u ∧ s.vec z = some v ∧ s.vec x = some r ∧ (u.n = v.n → 0 < u.n ∧ i < r.n)
  | .matNew _ n m arr, _ => arr.length = n * m
  | .matCopy _ y, s | .matMove _ y, s | .matScale _ y, s | .matSmul _ _ y, s | .matNeg _ y, s => ∃ a, s.mat y = some a
  | .matSet x i j _, s => ∃ a, s.mat x = some a ∧ i < a.n ∧ j < a.m
  | .matAddTo a b x, s | .matSubTo a b x, s =>
    ∃ p q r, s.mat a = some p ∧ s.mat b = some q ∧ s.mat x = some r ∧
      (nd = true → (q.n = p.n ∧ q.m = p.m) ∧ r.n = p.n ∧ r.m = p.m)
  | .matAdd _ a b, s | .matSub _ a b, s =>
    ∃ p q, s.mat a = some p ∧ s.mat b = some q ∧ (nd = true → q.n = p.n ∧ q.m = p.m)
  | .gemv _ a v _ w, s =>
    ∃ p u r, s.mat a = some p ∧ s.vec v = some u ∧ s.vec w = some r ∧ (nd = true → u.n = p.m ∧ r.n = p.n)
  | .matVec _ a v, s => ∃ p u, s.mat a = some p ∧ s.vec v = some u ∧ (nd = true → u.n = p.m)
  | .gemm _ a b _ c, s =>
    ∃ p q r, s.mat a = some p ∧ s.mat b = some q ∧ s.mat c = some r ∧
      (nd = true → q.n = p.m ∧ r.n = p.n ∧ r.m = q.m)
  | .matMul _ a b, s => ∃ p q, s.mat a = some p ∧ s.mat b = some q ∧ (nd = true → q.n = p.m)

/-- The program on vectors and matrices: the final variables and the exceptions, or what ends it. -/
def stepAll [CommRing T] : List (DnStmt T) → VStore T → Except Fault (VStore T × List (Option Exn))
  | [], s => .ok (s, [])
  | st :: p, s =>
    match st.step s with
    | .done s' => (stepAll p s').map fun r => (r.1, none :: r.2)
    | .throws e => (stepAll p s).map fun r => (r.1, some e :: r.2)
    | .stops f => .error f

/-- Every statement is valid when it is reached. -/
def ValidAll [CommRing T] (nd : Bool) : List (DnStmt T) → VStore T → Prop
  | [], _ => True
  | st :: p, s => st.Valid nd s ∧
    match st.step s with
    | .done s' => ValidAll nd p s'
    | .throws _ => ValidAll nd p s
    | .stops _ => True

end DnStmt

end Lalib
