import Verif.Model.Store
import Verif.Spec.Sparse
import Mathlib.Data.Finset.Image
import Mathlib.Data.Finset.Range
import Mathlib.Algebra.Ring.Defs

/-!
# Matrix-valued variables

The mathematical reading of the statements of `Model/Store.lean`: a variable holds a matrix over all index pairs
together with the finite set of its stored positions, or nothing (never assigned, or moved from).
-/

namespace Lalib

variable {T : Type}

/-- A matrix with a set of stored positions. -/
structure AMat (T : Type) where
  pos : Finset (Nat × Nat)
  elem : Nat → Nat → T

/-- The variables. -/
abbrev AStore (T : Type) := Nat → Option (AMat T)

/-- The object `c` represents the matrix `a`: what every caller can observe through the accessors. -/
structure Coo.Shows [Zero T] (c : Coo T) (a : AMat T) : Prop where
  wf : c.Wf
  sorted : c.Sorted
  distinct : c.Distinct
  pos : ∀ p, p ∈ c.pos ↔ p ∈ a.pos
  elem : ∀ i j, c.get i j = .ok (a.elem i j)

namespace AMat

/-- `p` is the first element of `S` in row-major order. -/
def First (S : Nat × Nat → Prop) (p : Nat × Nat) : Prop := S p ∧ ∀ q, S q → posLe p q

/-- The safe domain of `A += B` in terms of stored positions (`Coo.AddSafe`): `B` has a stored position, and for
every row `i` stored in `B` but not in `A`, the first position of `A` below row `i` — or, if there is none, the first position of `B`
above row `i` missing in `A` — exists and its column is not stored by `B` in row `i`. -/
def Addable (P Q : Finset (Nat × Nat)) : Prop :=
  Q.Nonempty ∧ ∀ i, (∃ j, (i, j) ∈ Q) → (∀ j, (i, j) ∉ P) →
    ∃ r c, (i, c) ∉ Q ∧ (First (fun p => p ∈ P ∧ i < p.1) (r, c) ∨
      (∀ p ∈ P, p.1 ≤ i) ∧ First (fun p => p ∈ Q ∧ p.1 < i ∧ p ∉ P) (r, c))

/-- Entrywise combination; a position of either matrix is stored. -/
def zip (f : T → T → T) (a b : AMat T) : AMat T := ⟨a.pos ∪ b.pos, fun i j => f (a.elem i j) (b.elem i j)⟩

/-- Entrywise map. -/
def map (f : T → T) (a : AMat T) : AMat T := ⟨a.pos, fun i j => f (a.elem i j)⟩

end AMat

namespace CooStmt

/-- `x` holds the outcome `r`. -/
def set (s : AStore T) (x : Nat) (r : Option (AMat T)) : AStore T := fun q => if q = x then r else s q

/-- The statement on matrices: the new variables and the exception. -/
def step [CommRing T] : CooStmt T → AStore T → AStore T × Option Exn
  | .construct x val row col, s =>
    if val.length = row.length ∧ val.length = col.length then
      (set s x (some ⟨(row.zip col).toFinset, fun i j => ((triplets val row col).lookup (i, j)).getD 0⟩), none)
    else (s, some .runtimeError)
  | .unit x n, s =>
    (set s x (some ⟨(Finset.range n).image fun i => (i, i), fun i j => if i = j ∧ i < n then 1 else 0⟩), none)
  | .copy x y, s => (set s x (s y), none)
  | .move x y _, s => (set (set s x (s y)) y none, none)
  | .write x i j v, s =>
    match s x with
    | none => (s, none)
    | some a =>
      if (i, j) ∈ a.pos then
        (set s x (some ⟨a.pos, fun i' j' => if i' = i ∧ j' = j then v else a.elem i' j'⟩), none)
      else (s, some .outOfRange)
  | .scale x alpha, s => (set s x ((s x).map (AMat.map (alpha * ·))), none)
  | .addAssign x y, s => (set s x ((s x).bind fun a => (s y).map fun b => a.zip (· + ·) b), none)
  | .add x y z, s => (set s x ((s y).bind fun a => (s z).map fun b => a.zip (· + ·) b), none)
  | .sub x y z, s => (set s x ((s y).bind fun a => (s z).map fun b => a.zip (· - ·) b), none)
  | .smul x alpha y, s => (set s x ((s y).map (AMat.map (alpha * ·))), none)
  | .neg x y, s => (set s x ((s y).map (AMat.map (- ·))), none)

/-- The operands hold matrices, constructed matrices have distinct positions, sums are in the safe domain. -/
def Valid : CooStmt T → AStore T → Prop
  | .construct _ _ row col, _ => (row.zip col).Nodup
  | .unit _ _, _ => True
  | .copy _ y, s | .move _ y _, s | .smul _ _ y, s | .neg _ y, s => ∃ a, s y = some a
  | .write x _ _ _, s | .scale x _, s => ∃ a, s x = some a
  | .addAssign x y, s => ∃ a b, s x = some a ∧ s y = some b ∧ AMat.Addable a.pos b.pos
  | .add _ y z, s | .sub _ y z, s => ∃ a b, s y = some a ∧ s z = some b ∧ AMat.Addable a.pos b.pos

/-- The program on matrices. -/
def stepAll [CommRing T] : List (CooStmt T) → AStore T → AStore T × List (Option Exn)
  | [], s => (s, [])
  | st :: p, s => ((stepAll p (st.step s).1).1, (st.step s).2 :: (stepAll p (st.step s).1).2)

/-- Every statement is valid when it is reached. -/
def ValidAll [CommRing T] : List (CooStmt T) → AStore T → Prop
  | [], _ => True
  | st :: p, s => st.Valid s ∧ ValidAll p (st.step s).1

end CooStmt

/-- Every variable that holds a matrix is represented by its object. -/
def CooStore.Shows [Zero T] (s : CooStore T) (a : AStore T) : Prop := ∀ x m, a x = some m → (s x).Shows m

end Lalib
