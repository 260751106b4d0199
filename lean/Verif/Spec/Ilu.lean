import Verif.Spec.LinAlg
import Verif.Spec.Sparse
import Verif.Model.Ilu

/-! # Specification of incomplete LU factorisations

Both factors are kept in one array `F`: strictly below the diagonal `L`, whose diagonal is 1, and the rest
is `U`. -/

namespace Lalib

variable {T : Type}

/-- Entry of the unit lower-triangular factor. -/
def unitLow [Zero T] [One T] (F : Nat → Nat → T) (i k : Nat) : T :=
  if k < i then F i k else if k = i then 1 else 0

/-- Entry of the upper-triangular factor. -/
def upper [Zero T] (F : Nat → Nat → T) (k j : Nat) : T := if k ≤ j then F k j else 0

/-- Entry of the product `L U`. -/
def luProd [CommRing T] (n : Nat) (F : Nat → Nat → T) (i j : Nat) : T :=
  ∑ k ∈ Finset.range n, unitLow F i k * upper F k j

/-- `F` is the ILU(0) factorisation of `A`: no entry outside the pattern of `A`, `L U` equals `A` on the
pattern, and there is a non-zero pivot for every column that has something to eliminate. -/
structure IsIlu [CommRing T] (n : Nat) (A F : Nat → Nat → T) : Prop where
  zero : ∀ i j, i < n → j < n → A i j = 0 → F i j = 0
  prod : ∀ i j, i < n → j < n → A i j ≠ 0 → luProd n F i j = A i j
  piv : ∀ i j, j < i → i < n → A i j ≠ 0 → F j j ≠ 0

/-- Elimination of `A` makes no new non-zero entries, judged by the positions alone. -/
def NoFill [Zero T] (n : Nat) (A : Nat → Nat → T) : Prop :=
  ∀ i j k, i < n → j < n → k < i → k < j → A i k ≠ 0 → A k j ≠ 0 → A i j ≠ 0

/-! ## Storage classes -/

/-- Seen through `shape()` and `operator()`, the object `a` is the `n x n` matrix `A`. -/
def Shows {M : Type} (ops : MatOps M T) (n : Nat) (a : M) (A : Nat → Nat → T) : Prop :=
  ops.shape a = .ok (n, n) ∧ ∀ i j, i < n → j < n → ops.get a i j = .ok (A i j)

/-- The same for an `n x m` matrix. -/
def ShowsRect {M : Type} (ops : MatOps M T) (n m : Nat) (a : M) (A : Nat → Nat → T) : Prop :=
  ops.shape a = .ok (n, m) ∧ ∀ i j, i < n → j < m → ops.get a i j = .ok (A i j)

/-- The three matrix classes with the invariants of their objects: `DynMat` / `SizedMat`, `SpCooMat`
(any order, positions may even repeat), `SpMat`. -/
inductive Storage [Zero T] : {M : Type} → MatOps M T → (M → Prop) → Prop
  | dense : Storage dOps (fun a => a.elems.length = a.n * a.m)
  | coo : Storage cooOps Coo.Wf
  | csr : Storage csrOps (fun a => a.Wf ∧ a.Distinct)

end Lalib
