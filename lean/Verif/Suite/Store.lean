import Verif.Model.Views
import Verif.Model.Error
import Verif.Proofs.Sparse

/-! # The tests of `/repo/test` about copies, moves and exceptions

Objects are variables of the stores of C55, C76 and C78.  The declaration of a variable with a copy of another one is the copy
assignment to a fresh variable; the two have the same effect (`Model/Store.lean`, `Model/DenseStore.lean`).  The elements are
small integers in all of these tests, so exact numbers are used. -/

namespace Lalib.Suite

open Lalib

def dn0 : DnStore Int := ⟨fun _ => [], fun _ => (0, 0)⟩

def dnRun (p : List (DnStmt Int)) : Res (DnStore Int × List (Option Exn)) := DnStmt.runAll false (fun _ => List.range) p dn0

/-- Vectors 0 and 1 afterwards. -/
def vecs (p : List (DnStmt Int)) : Option (List Int × List Int) :=
  match dnRun p with
  | .ok (s, _) => some (s.mem (vbuf 0), s.mem (vbuf 1))
  | .error _ => none

/-- Matrices 0 and 1 afterwards. -/
def mats (p : List (DnStmt Int)) : Option ((List Int × Nat × Nat) × List Int × Nat × Nat) :=
  match dnRun p with
  | .ok (s, _) => some ((s.mem (mbuf 0), s.dim 0), s.mem (mbuf 1), s.dim 1)
  | .error _ => none

/-- `CopyConstTest` (`vec/dyn_vec.cc:10-17`). -/
example : vecs [.vecNew 0 [0, 1, 2], .vecCopy 1 0] = some ([0, 1, 2], [0, 1, 2]) := by decide +kernel
/-- `CopyAssignTest` (`vec/dyn_vec.cc:30-38`). -/
example : vecs [.vecNew 0 [0, 1, 2], .vecNew 1 [2, 1, 0], .vecCopy 1 0] = some ([0, 1, 2], [0, 1, 2]) := by decide +kernel

def a8 : List Int := [1, 2, 3, 4, 2, 1, 5, 3]

/-- `CopyConstTest` (`mat/dyn_mat.cc:4-20`). -/
example : mats [.matNew 0 2 4 a8, .matCopy 1 0] = some ((a8, 2, 4), a8, 2, 4) := by decide +kernel
/-- `CopyAssignTest` (`mat/dyn_mat.cc:22-39`).  (What `uninit` leaves in the elements is the 7.) -/
example : mats [.matNew 0 2 4 a8, .matFilled 1 7 2 4, .matCopy 1 0] = some ((a8, 2, 4), a8, 2, 4) := by decide +kernel

/-! ## Sparse matrices -/

def spRun (p : List (SpStmt Int)) : Res (SpStore Int × List (Option Exn)) :=
  SpStmt.runAll Coo.insSort p ⟨fun _ => ⟨[], [], []⟩, fun _ => ⟨[], [0], []⟩⟩

/-- The elements `(i, j)`, `i, j < 2`, of the COO matrix `x` afterwards. -/
def cooEls (p : List (SpStmt Int)) (x : Nat) : Res (List Int) := do
  let (s, _) ← spRun p
  [(0, 0), (0, 1), (1, 0), (1, 1)].mapM fun (i, j) => (s.coo x).get i j

/-- The same for the CSR matrix `x`. -/
def csrEls (p : List (SpStmt Int)) (x : Nat) : Res (List Int) := do
  let (s, _) ← spRun p
  [(0, 0), (0, 1), (1, 0), (1, 1)].mapM fun (i, j) => (s.csr x).get i j

def cooNew (x : Nat) : SpStmt Int := .coo (.construct x [1, 2, 3, 4] [0, 0, 1, 1] [0, 1, 0, 1])
def csrNew (x : Nat) : SpStmt Int := .construct x [1, 2, 3, 4] [0, 2, 4] [0, 1, 0, 1]

/-- `SpCooMatCopyTest` (`mat/sp_mat.cc:49-62`). -/
example : (cooEls [cooNew 0, .coo (.copy 1 0)] 1).toOption = some [1, 2, 3, 4] ∧
    (cooEls [cooNew 0, .coo (.copy 1 0)] 0).toOption = some [1, 2, 3, 4] := by decide +kernel
/-- `SpCooMatCopyAssignTest` (`mat/sp_mat.cc:64-78`). -/
example : (cooEls [cooNew 0, .coo (.construct 1 [] [] []), .coo (.copy 1 0)] 1).toOption = some [1, 2, 3, 4] ∧
    (cooEls [cooNew 0, .coo (.construct 1 [] [] []), .coo (.copy 1 0)] 0).toOption = some [1, 2, 3, 4] := by decide +kernel
/-- `SpMatCopyTest` (`mat/sp_mat.cc:141-154`). -/
example : (csrEls [csrNew 0, .copy 1 0] 1).toOption = some [1, 2, 3, 4] ∧
    (csrEls [csrNew 0, .copy 1 0] 0).toOption = some [1, 2, 3, 4] := by decide +kernel
/-- `SpMatCopyAssignTest` (`mat/sp_mat.cc:156-170`). -/
example : (csrEls [csrNew 0, .construct 1 [] [0] [], .copy 1 0] 1).toOption = some [1, 2, 3, 4] ∧
    (csrEls [csrNew 0, .construct 1 [] [0] [], .copy 1 0] 0).toOption = some [1, 2, 3, 4] := by decide +kernel

/-! ## Addresses

An address is an array and a position in it.  The tests take the addresses of the elements of `vec` before it is moved from, and
compare them with those of the elements of `vec_move` afterwards. -/

/-- The addresses of the elements of vector 0 are kept in the variables 0, 1, 2 at the time of the `elem` statements; are they
those of vector 1 in the end? -/
def addrs (p : List (VStmt (DnStmt Int) Int)) : Option Bool :=
  match VStmt.run (dnLang false List.range) p ⟨dn0, .init, fun _ => none⟩ with
  | .ok s => some ((List.range 3).all fun k => s.ref k == some (s.sto.own (vbuf 1), k))
  | .error _ => none

def keep3 : List (VStmt (DnStmt Int) Int) := [.elem 0 (vbuf 0) 0, .elem 1 (vbuf 0) 1, .elem 2 (vbuf 0) 2]

/-- `MoveConstTest` (`vec/dyn_vec.cc:19-28`), whether or not `std::vector` allocates for `{0, 1, 2}` anew. -/
example : ∀ c d, addrs (.plain (.vecNew 0 [0, 1, 2]) c :: keep3 ++ [.plain (.vecMove 1 0 []) d]) = some true := by decide +kernel
/-- `MoveAssignTest` (`vec/dyn_vec.cc:40-50`). -/
example : ∀ c d, addrs (.plain (.vecNew 0 [0, 1, 2]) c :: .plain (.vecNew 1 [2, 1, 0]) c :: keep3 ++
    [.plain (.vecMove 1 0 []) d]) = some true := by decide +kernel
/-- A copy does not have the addresses of the original. -/
example : ∀ c d, addrs (.plain (.vecNew 0 [0, 1, 2]) c :: keep3 ++ [.plain (.vecCopy 1 0) d]) = some false := by decide +kernel

/-! ## Exceptions -/

/-- `VecSizeMismatchedErrorTest` (`err/error.cc:4-11`): the handler for `SizeMismatched` takes `SizeMismatched(2, 3, …)`. -/
example : ExnClass.sizeMismatched.catches (Exn.sizeMismatched 2 3).cls = true := by decide +kernel

end Lalib.Suite
