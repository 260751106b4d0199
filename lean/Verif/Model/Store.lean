import Verif.Model.Sparse

/-!
# Programs over several sparse-matrix objects

Files: `include/lalib/mat/sp_mat.hpp`, `include/lalib/ops/mat_ops.hpp`, `include/lalib/ops/sp_mat_ops.hpp`.

The functions of `Model/Sparse.lean` take and return values.  Here they act on named objects, so that operands
and results may be the same object, and an exception leaves a definite state behind.
-/

namespace Lalib

variable {T : Type}

/-- Objects of type `SpCooMat<T>`; a reference is an identifier. -/
abbrev CooStore (T : Type) := Nat → Coo T

namespace CooStore

/-- Replaces object `x`. -/
def put (s : CooStore T) (x : Nat) (a : Coo T) : CooStore T := fun q => if q = x then a else s q

/-- `x._val = v`. -/
def setVal (s : CooStore T) (x : Nat) (v : List T) : CooStore T := s.put x { s x with val := v }

/-- `x._row_ids = v`. -/
def setRow (s : CooStore T) (x : Nat) (v : List Nat) : CooStore T := s.put x { s x with row := v }

/-- `x._col_ids = v`. -/
def setCol (s : CooStore T) (x : Nat) (v : List Nat) : CooStore T := s.put x { s x with col := v }

/-- `x = y`, `sp_mat.hpp:347-354`. -/
def copyAssign (x y : Nat) (s : CooStore T) : CooStore T :=
  let s := s.setVal x (s y).val
  let s := s.setRow x (s y).row
  s.setCol x (s y).col

/-- `x = std::move(y)`, `sp_mat.hpp:356-363`.  A vector that has been moved from has unspecified contents, given
by `left`; this includes the vector moved to itself. -/
def moveAssign (left : Coo T) (x y : Nat) (s : CooStore T) : CooStore T :=
  let s := (s.setVal x (s y).val).setVal y left.val
  let s := (s.setRow x (s y).row).setRow y left.row
  (s.setCol x (s y).col).setCol y left.col

/-- `x = t` for a temporary `t` (move assignment, `sp_mat.hpp:356-363`); the temporary dies. -/
def assignTmp (x : Nat) (t : Coo T) (s : CooStore T) : CooStore T :=
  ((s.setVal x t.val).setRow x t.row).setCol x t.col

end CooStore

/-- Statements over named `SpCooMat` objects. -/
inductive CooStmt (T : Type)
  /-- `x = SpCooMat(val, row_ids, col_ids);` -/
  | construct (x : Nat) (val : List T) (row col : List Nat)
  /-- `x = SpCooMat::unit(n);` -/
  | unit (x n : Nat)
  /-- `x = y;` -/
  | copy (x y : Nat)
  /-- `x = std::move(y);` which leaves `left` in `y`. -/
  | move (x y : Nat) (left : Coo T)
  /-- `x.mut_at(i, j) = v;` -/
  | write (x i j : Nat) (v : T)
  /-- `scale(alpha, x);` -/
  | scale (x : Nat) (alpha : T)
  /-- `x += y;` -/
  | addAssign (x y : Nat)
  /-- `x = y + z;` -/
  | add (x y z : Nat)
  /-- `x = y - z;` -/
  | sub (x y z : Nat)
  /-- `x = alpha * y;` -/
  | smul (x : Nat) (alpha : T) (y : Nat)
  /-- `x = -y;` -/
  | neg (x y : Nat)

namespace CooStmt

/-- The effect of a statement on the objects; a call that throws has assigned nothing, because every modification
of an object in the functions concerned follows the last `throw`
(`sp_mat.hpp:274-292` constructor, `:337-345` `mut_at`). -/
def act [Zero T] [One T] [Neg T] [Add T] [Mul T] (srt : SortFn) : CooStmt T → CooStore T → Res (CooStore T)
  | .construct x val row col, s => do
    let t ← Coo.new srt val row col
    .ok (s.assignTmp x t)
  | .unit x n, s => do
    let t ← Coo.unit srt n
    .ok (s.assignTmp x t)
  | .copy x y, s => .ok (s.copyAssign x y)
  | .move x y left, s => .ok (s.moveAssign left x y)
  | .write x i j v, s => do
    let a ← (s x).set i j v
    .ok (s.put x a)
  | .scale x alpha, s => do
    let a ← (s x).scale alpha
    .ok (s.put x a)
  | .addAssign x y, s => do
    -- the argument is read through a reference to object `y`
    let a ← Coo.addAssign srt (fun cur => if y = x then cur else s y) (s x)
    .ok (s.put x a)
  | .add x y z, s => do
    let t ← Coo.add srt (s y) (s z)
    .ok (s.assignTmp x t)
  | .sub x y z, s => do
    let t ← Coo.sub srt (s y) (s z)
    .ok (s.assignTmp x t)
  | .smul x alpha y, s => do
    let t ← (s y).smul alpha
    .ok (s.assignTmp x t)
  | .neg x y, s => do
    let t ← (s y).neg
    .ok (s.assignTmp x t)

/-- A statement with the objects it leaves behind. -/
def exec [Zero T] [One T] [Neg T] [Add T] [Mul T] (srt : SortFn) (st : CooStmt T) (s : CooStore T) :
    Kept (CooStore T) := Kept.run [st.act srt] s

/-- A program, each statement in a `try` block of its own: the final objects and, for each statement, the
exception it threw.  Every other failure ends the program. -/
def runAll [Zero T] [One T] [Neg T] [Add T] [Mul T] (srt : SortFn) :
    List (CooStmt T) → CooStore T → Res (CooStore T × List (Option Exn))
  | [], s => .ok (s, [])
  | st :: p, s =>
    match (st.exec srt s).res with
    | .ok _ => do
      let r ← runAll srt p (st.exec srt s).obj
      .ok (r.1, none :: r.2)
    | .error (.throw e) => do
      let r ← runAll srt p (st.exec srt s).obj
      .ok (r.1, some e :: r.2)
    | .error f => .error f

/-- The objects a statement may modify. -/
def targets : CooStmt T → List Nat
  | .construct x _ _ _ | .unit x _ | .copy x _ | .write x _ _ _ | .scale x _ | .addAssign x _
  | .add x _ _ | .sub x _ _ | .smul x _ _ | .neg x _ => [x]
  | .move x y _ => [x, y]

end CooStmt

/-! ## Compressed matrices as objects -/

/-- Objects of type `SpMat<T>`. -/
abbrev CsrStore (T : Type) := Nat → Csr T

namespace CsrStore

/-- Replaces object `x`. -/
def put (s : CsrStore T) (x : Nat) (a : Csr T) : CsrStore T := fun q => if q = x then a else s q

/-- `x._val = v`. -/
def setVal (s : CsrStore T) (x : Nat) (v : List T) : CsrStore T := s.put x { s x with val := v }

/-- `x._row_ptr = v`. -/
def setPtr (s : CsrStore T) (x : Nat) (v : List Nat) : CsrStore T := s.put x { s x with rowPtr := v }

/-- `x._col_ids = v`. -/
def setCol (s : CsrStore T) (x : Nat) (v : List Nat) : CsrStore T := s.put x { s x with col := v }

/-- `x = y`, `sp_mat.hpp:559-566`. -/
def copyAssign (x y : Nat) (s : CsrStore T) : CsrStore T :=
  let s := s.setVal x (s y).val
  let s := s.setPtr x (s y).rowPtr
  s.setCol x (s y).col

/-- `x = std::move(y)`, `sp_mat.hpp:568-575`; `left` as for `CooStore.moveAssign`. -/
def moveAssign (left : Csr T) (x y : Nat) (s : CsrStore T) : CsrStore T :=
  let s := (s.setVal x (s y).val).setVal y left.val
  let s := (s.setPtr x (s y).rowPtr).setPtr y left.rowPtr
  (s.setCol x (s y).col).setCol y left.col

/-- `x = t` for a temporary `t`, `sp_mat.hpp:568-575`. -/
def assignTmp (x : Nat) (t : Csr T) (s : CsrStore T) : CsrStore T :=
  ((s.setVal x t.val).setPtr x t.rowPtr).setCol x t.col

end CsrStore

/-- Statements over named `SpCooMat` and `SpMat` objects. -/
inductive SpStmt (T : Type)
  /-- A statement about `SpCooMat` objects only. -/
  | coo (st : CooStmt T)
  /-- `x = SpMat(y);` with a `SpCooMat` object `y`. -/
  | ofCoo (x y : Nat)
  /-- `x = SpMat(val, row_ptr, col_ids);` -/
  | construct (x : Nat) (val : List T) (rowPtr col : List Nat)
  /-- `x = SpMat::unit(n);` -/
  | unit (x n : Nat)
  /-- `x = y;` -/
  | copy (x y : Nat)
  /-- `x = std::move(y);` which leaves `left` in `y`. -/
  | move (x y : Nat) (left : Csr T)
  /-- `x.mut_at(i, j) = v;` -/
  | write (x i j : Nat) (v : T)
  /-- `scale(alpha, x);` -/
  | scale (x : Nat) (alpha : T)
  /-- `x = alpha * y;` -/
  | smul (x : Nat) (alpha : T) (y : Nat)
  /-- `x = -y;` -/
  | neg (x y : Nat)

/-- All the objects. -/
structure SpStore (T : Type) where
  coo : CooStore T
  csr : CsrStore T

namespace SpStmt

/-- The effect of a statement on the objects; a call that throws has assigned nothing (`sp_mat.hpp:487-503`
constructor, `:549-557` `mut_at`). -/
def act [Zero T] [One T] [Neg T] [Add T] [Mul T] (srt : SortFn) : SpStmt T → SpStore T → Res (SpStore T)
  | .coo st, s => do
    let c ← st.act srt s.coo
    .ok { s with coo := c }
  | .ofCoo x y, s => do
    let t ← Csr.ofCoo (s.coo y)
    .ok { s with csr := s.csr.assignTmp x t }
  | .construct x val rowPtr col, s => do
    let t ← Csr.new val rowPtr col
    .ok { s with csr := s.csr.assignTmp x t }
  | .unit x n, s => do
    let t ← Csr.unit n
    .ok { s with csr := s.csr.assignTmp x t }
  | .copy x y, s => .ok { s with csr := s.csr.copyAssign x y }
  | .move x y left, s => .ok { s with csr := s.csr.moveAssign left x y }
  | .write x i j v, s => do
    let a ← (s.csr x).set i j v
    .ok { s with csr := s.csr.put x a }
  | .scale x alpha, s => do
    let a ← (s.csr x).scale alpha
    .ok { s with csr := s.csr.put x a }
  | .smul x alpha y, s => do
    let t ← (s.csr y).smul alpha
    .ok { s with csr := s.csr.assignTmp x t }
  | .neg x y, s => do
    let t ← (s.csr y).neg
    .ok { s with csr := s.csr.assignTmp x t }

/-- A statement with the objects it leaves behind. -/
def exec [Zero T] [One T] [Neg T] [Add T] [Mul T] (srt : SortFn) (st : SpStmt T) (s : SpStore T) :
    Kept (SpStore T) := Kept.run [st.act srt] s

/-- A program, as `CooStmt.runAll`. -/
def runAll [Zero T] [One T] [Neg T] [Add T] [Mul T] (srt : SortFn) :
    List (SpStmt T) → SpStore T → Res (SpStore T × List (Option Exn))
  | [], s => .ok (s, [])
  | st :: p, s =>
    match (st.exec srt s).res with
    | .ok _ => do
      let r ← runAll srt p (st.exec srt s).obj
      .ok (r.1, none :: r.2)
    | .error (.throw e) => do
      let r ← runAll srt p (st.exec srt s).obj
      .ok (r.1, some e :: r.2)
    | .error f => .error f

/-- The `SpCooMat` objects a statement may modify. -/
def cooTargets : SpStmt T → List Nat
  | .coo st => st.targets
  | _ => []

/-- The `SpMat` objects a statement may modify. -/
def csrTargets : SpStmt T → List Nat
  | .coo _ => []
  | .ofCoo x _ | .construct x _ _ _ | .unit x _ | .copy x _ | .write x _ _ _ | .scale x _ | .smul x _ _
  | .neg x _ => [x]
  | .move x y _ => [x, y]

end SpStmt

end Lalib
