import Verif.Spec.Store
import Verif.Spec.Basic
import Mathlib.Algebra.BigOperators.Group.Finset.Basic
import Mathlib.Data.Finset.Lattice.Fold

/-! # Matrix-valued variables of the compressed format -/

namespace Lalib

variable {T : Type}

/-- A matrix of `n` rows with a set of stored positions. -/
structure RMat (T : Type) where
  n : Nat
  pos : Nat → Nat → Bool
  elem : Nat → Nat → T

/-- The object `c` represents the matrix `a`. -/
structure Csr.Shows [Zero T] (c : Csr T) (a : RMat T) : Prop where
  wf : c.Wf
  distinct : c.Distinct
  rows : c.nrows = a.n
  pos : ∀ i j, i < a.n → ((∃ k, c.StoredAt i j k) ↔ a.pos i j = true)
  elem : ∀ i j, i < a.n → c.get i j = .ok (a.elem i j)

/-- Variables of both kinds. -/
structure ASp (T : Type) where
  coo : AStore T
  csr : Nat → Option (RMat T)

namespace RMat

/-- Entrywise map. -/
def map (f : T → T) (a : RMat T) : RMat T := ⟨a.n, a.pos, fun i j => f (a.elem i j)⟩

/-- Index `k` of the arrays belongs to row `i` and column `j`. -/
def At (ptr col : List Nat) (i j k : Nat) : Prop := ptr.getD i 0 ≤ k ∧ k < ptr.getD (i + 1) 0 ∧ col[k]? = some j

instance (ptr col : List Nat) (i j k : Nat) : Decidable (At ptr col i j k) :=
  inferInstanceAs (Decidable (_ ∧ _ ∧ _))

/-- The matrix given by three arrays. -/
def ofArrays [CommRing T] (val : List T) (ptr col : List Nat) : RMat T :=
  ⟨ptr.length - 1, fun i j => (List.range col.length).any fun k => At ptr col i j k,
    fun i j => ∑ k ∈ Finset.range val.length, if At ptr col i j k then val0 val k else 0⟩

/-- The matrix of a variable of the coordinate format: rows up to the last stored one. -/
def ofAMat (a : AMat T) : RMat T := ⟨a.pos.sup (fun p => p.1 + 1), fun i j => decide ((i, j) ∈ a.pos), a.elem⟩

end RMat

namespace SpStmt

/-- `x` holds the outcome `r`. -/
def set (s : ASp T) (x : Nat) (r : Option (RMat T)) : ASp T := { s with csr := fun q => if q = x then r else s.csr q }

/-- The statement on matrices: the new variables and the exception. -/
def step [CommRing T] : SpStmt T → ASp T → ASp T × Option Exn
  | .coo st, s => ({ s with coo := (st.step s.coo).1 }, (st.step s.coo).2)
  | .ofCoo x y, s => (set s x ((s.coo y).map RMat.ofAMat), none)
  | .construct x val ptr col, s =>
    if val.length = col.length then (set s x (some (RMat.ofArrays val ptr col)), none) else (s, some .runtimeError)
  | .unit x n, s => (set s x (some ⟨n, fun i j => decide (i = j), fun i j => if i = j then 1 else 0⟩), none)
  | .copy x y, s => (set s x (s.csr y), none)
  | .move x y _, s => (set (set s x (s.csr y)) y none, none)
  | .write x i j v, s =>
    match s.csr x with
    | none => (s, none)
    | some a =>
      if a.pos i j then
        (set s x (some ⟨a.n, a.pos, fun i' j' => if i' = i ∧ j' = j then v else a.elem i' j'⟩), none)
      else (s, some .outOfRange)
  | .scale x alpha, s => (set s x ((s.csr x).map (RMat.map (alpha * ·))), none)
  | .smul x alpha y, s => (set s x ((s.csr y).map (RMat.map (alpha * ·))), none)
  | .neg x y, s => (set s x ((s.csr y).map (RMat.map (- ·))), none)

/-- The operands hold matrices; element access stays within the rows; arrays given to the constructor start at 0,
do not decrease, end at the number of elements and have no column twice in a row. -/
def Valid : SpStmt T → ASp T → Prop
  | .coo st, s => st.Valid s.coo
  | .ofCoo _ y, s => ∃ a, s.coo y = some a
  | .construct _ val ptr col, _ => val.length = col.length →
    ptr[0]? = some 0 ∧ ptr.Pairwise (· ≤ ·) ∧ ptr.getLast? = some val.length ∧
      ∀ i j k k', RMat.At ptr col i j k → RMat.At ptr col i j k' → k = k'
  | .unit _ _, _ => True
  | .copy _ y, s | .move _ y _, s | .smul _ _ y, s | .neg _ y, s => ∃ a, s.csr y = some a
  | .write x i _ _, s => ∃ a, s.csr x = some a ∧ i < a.n
  | .scale x _, s => ∃ a, s.csr x = some a

/-- The program on matrices. -/
def stepAll [CommRing T] : List (SpStmt T) → ASp T → ASp T × List (Option Exn)
  | [], s => (s, [])
  | st :: p, s => ((stepAll p (st.step s).1).1, (st.step s).2 :: (stepAll p (st.step s).1).2)

/-- Every statement is valid when it is reached. -/
def ValidAll [CommRing T] : List (SpStmt T) → ASp T → Prop
  | [], _ => True
  | st :: p, s => st.Valid s ∧ ValidAll p (st.step s).1

end SpStmt

/-- Every variable that holds a matrix is represented by its object. -/
def SpStore.Shows [Zero T] (s : SpStore T) (a : ASp T) : Prop :=
  s.coo.Shows a.coo ∧ ∀ x m, a.csr x = some m → (s.csr x).Shows m

end Lalib
