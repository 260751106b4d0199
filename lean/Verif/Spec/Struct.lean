import Verif.Model.Struct

/-! # Specification vocabulary for the structured matrices -/

namespace Lalib

variable {T : Type}

/-- The diagonals fit an `n x n` matrix. -/
def TriWf (a : TriDiag T) (n : Nat) : Prop :=
  a.d.length = n ∧ a.dl.length + 1 = n ∧ a.du.length + 1 = n ∧ n < 2 ^ 64

/-- `(i, j)` lies on one of the three diagonals. -/
def InBand (i j : Nat) : Prop := i = j ∨ i + 1 = j ∨ i = j + 1

/-- The element a tri-diagonal matrix holds at an in-band position. -/
def triElem (a : TriDiag T) (i j : Nat) : Option T :=
  if i = j then a.d[i]? else if i < j then a.du[i]? else a.dl[j]?

/-- The sizes a packed `s x s` Hessenberg matrix can have. -/
def HessSize (L s : Nat) : Prop := (L = 0 ∧ s = 0) ∨ (1 ≤ s ∧ L + 1 = s * (s + 3) / 2)

/-- Storage of an `n x n` Hessenberg matrix, without (`tail = false`) or with (`tail = true`) the element
`(n, n-1)` just below the square. -/
def HessLen (n : Nat) (tail : Bool) (L : Nat) : Prop :=
  if tail then L = n * (n + 3) / 2 else L + 1 = n * (n + 3) / 2

/-- The position lies in the stored part. -/
def HessStored (n : Nat) (tail : Bool) (i j : Nat) : Prop := j < n ∧ i ≤ j + 1 ∧ (i < n ∨ tail = true)

/-- Abstract Hessenberg matrix: size, whether the element just below the square is stored, elements. -/
structure HView (T : Type) where
  n : Nat
  tail : Bool
  f : Nat → Nat → T

/-- Operations of a history. -/
inductive HOp (T : Type) where
  | write (i j : Nat) (v : T)
  | extZero
  | ext (es : List T)

/-- What the operations mean. -/
def HView.step [Zero T] (s : HView T) : HOp T → HView T
  | .write i j v => if i ≤ j + 1 then { s with f := fun p q => if p = i ∧ q = j then v else s.f p q } else s
  | .extZero =>
    if s.n = 0 then ⟨1, false, fun _ _ => 0⟩
    else ⟨s.n + 1, s.tail, fun i j =>
      if j = s.n ∨ (j + 1 = s.n ∧ i = s.n ∧ s.tail = false) then 0 else s.f i j⟩
  | .ext es =>
    if es.length ≠ s.n + 2 then s
    else if s.tail then ⟨s.n + 1, true, fun i j => if j = s.n then val0 es i else s.f i j⟩
    else ⟨s.n + 1, false, fun i j => if j = s.n then val0 es (i + 1)
      else if j + 1 = s.n ∧ i = s.n then val0 es 0 else s.f i j⟩

/-- Writes of a history address the square or a position below the sub-diagonal (which throws). -/
def HOp.Valid (n : Nat) : HOp T → Prop
  | .write i j _ => (i < n ∧ j < n) ∨ j + 1 < i
  | _ => True

/-- Run one operation; an exception leaves the matrix as it was. -/
def hessExec [Zero T] (a : Hess T) (op : HOp T) : Res (Hess T) :=
  let r := match op with
    | .write i j v => a.set i j v
    | .extZero => a.extendWithZero
    | .ext es => a.extendWith es
  match r with
  | .error (.throw _) => .ok a
  | r => r

/-- The matrix shows exactly the abstract elements. -/
def HShows [Zero T] (a : Hess T) (s : HView T) : Prop :=
  a.n = s.n ∧ HessLen s.n s.tail a.h.length ∧
    ∀ i j, HessStored s.n s.tail i j → a.get i j = .ok (s.f i j)

/-- All writes of a history are valid in the state in which they happen. -/
def HValid [Zero T] : HView T → List (HOp T) → Prop
  | _, [] => True
  | s, op :: h => op.Valid s.n ∧ HValid (s.step op) h

/-- Abstract upper-triangular matrix. -/
structure UView (T : Type) where
  n : Nat
  f : Nat → Nat → T

/-- What the operations (the same as for Hessenberg matrices) mean on an upper-triangular matrix. -/
def UView.step [Zero T] (s : UView T) : HOp T → UView T
  | .write i j v => if i ≤ j then { s with f := fun p q => if p = i ∧ q = j then v else s.f p q } else s
  | .extZero => ⟨s.n + 1, fun i j => if j = s.n then 0 else s.f i j⟩
  | .ext es =>
    if es.length ≠ s.n + 1 then s
    else ⟨s.n + 1, fun i j => if j = s.n then val0 es i else s.f i j⟩

/-- Writes of a history address the square or a position below the diagonal (which throws). -/
def HOp.UValid (n : Nat) : HOp T → Prop
  | .write i j _ => (i < n ∧ j < n) ∨ j < i
  | _ => True

/-- All writes of a history are valid in the state in which they happen. -/
def UValid [Zero T] : UView T → List (HOp T) → Prop
  | _, [] => True
  | s, op :: h => op.UValid s.n ∧ UValid (s.step op) h

/-- Run one operation; an exception leaves the matrix as it was. -/
def utriExec [Zero T] (a : UTri T) (op : HOp T) : Res (UTri T) :=
  let r := match op with
    | .write i j v => a.set i j v
    | .extZero => a.extendWithZero
    | .ext es => a.extendWith es
  match r with
  | .error (.throw _) => .ok a
  | r => r

/-- The matrix shows exactly the abstract elements. -/
def UShows [Zero T] (a : UTri T) (s : UView T) : Prop :=
  a.n = s.n ∧ a.u.length = s.n * (s.n + 1) / 2 ∧
    ∀ i j, j < s.n → i ≤ j → a.get i j = .ok (s.f i j)

end Lalib
