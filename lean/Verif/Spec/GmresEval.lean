import Verif.Spec.Eval
import Verif.Spec.Gmres

/-! # What GMRES computes, as expressions

The recurrences of the solver with every operation in its place; no law of arithmetic is assumed. -/

namespace Lalib

variable {T : Type}

/-- `g (k-1) + (.. + (g 1 + (g 0 + t)))`. -/
def addUpL [Add T] (g : Nat → T) : Nat → T → T
  | 0, t => t
  | k + 1, t => g k + addUpL g k t

/-- `std::abs`. -/
def absT [Zero T] [Neg T] [LT T] [DecidableLT T] (x : T) : T := if x < 0 then -x else x

/-- The Euclidean norm. -/
def normUp [Zero T] [Add T] [Mul T] [Sqrt T] (n : Nat) (x : Nat → T) : T :=
  Sqrt.sqrt (addUp (fun l => x l * x l) 0 n 0)

/-- The scalar product of two vectors that are not empty. -/
def dotUp [Add T] [Mul T] (n : Nat) (x y : Nat → T) : T := addUp (fun l => x l * y l) 1 n (x 0 * y 0)

variable [Zero T] [One T] [Add T] [Sub T] [Mul T] [Neg T] [Div T] [Sqrt T]

/-- Iteration `i`: `v` is the image of the basis vector `q i` under the preconditioned matrix (`S`), `H` the projections,
`h` the norm of what is left, `q (i+1)` the next basis vector, `ρ` the entries of the new column while the earlier
rotations `(c, s)` are applied, `R` the triangular factor, `γ` the norms of the residuals. -/
structure GmresCol (n : Nat) (S : (Nat → T) → (Nat → T) → Prop) (i : Nat) (q H : Nat → Nat → T) (h : Nat → T)
    (R : Nat → Nat → T) (c s γ v ρ : Nat → T) : Prop where
  op : S (q i) v
  proj : ∀ j, j ≤ i → H j i = dotUp n (q j) v
  norm : h i = normUp n fun l => addUpL (fun j => -1 * (H j i * q j l)) (i + 1) (v l)
  next : ∀ l, l < n → q (i + 1) l = 1 / h i * addUpL (fun j => -1 * (H j i * q j l)) (i + 1) (v l)
  rot0 : ρ 0 = H 0 i
  rot : ∀ j, j < i → ρ (j + 1) = -s j * ρ j + c j * H (j + 1) i
  col : ∀ j, j < i → R j i = c j * ρ j + s j * H (j + 1) i
  sin : s i = h i / Sqrt.sqrt (ρ i * ρ i + h i * h i)
  cos : c i = ρ i / Sqrt.sqrt (ρ i * ρ i + h i * h i)
  diag : R i i = c i * ρ i + s i * h i
  res : γ (i + 1) = -s i * γ i

/-- A whole run with `k` iterations: `b` is the preconditioned right-hand side, `x` the result. -/
structure GmresRec [LT T] [DecidableLT T] (n : Nat) (S : (Nat → T) → (Nat → T) → Prop) (tol : T) (b x : Nat → T) (k : Nat)
    (q H : Nat → Nat → T) (h : Nat → T) (R : Nat → Nat → T) (c s γ y : Nat → T) : Prop where
  le : k ≤ n
  pos : 0 < n → 0 < k
  beta : γ 0 = normUp n b
  first : ∀ l, l < n → q 0 l = 1 / γ 0 * b l
  cols : ∀ i, i < k → ∃ v ρ, GmresCol n S i q H h R c s γ v ρ
  go : ∀ i, 0 < i → i < k → ¬ absT (γ i) < tol
  stop : k = n ∨ absT (γ k) < tol
  tri : BackSubRec k R (fun i => c i * γ i) y
  comb : ∀ l, l < n → x l = addUpL (fun i => 1 * (y i * q i l)) k 0

/-- `w` is the product of the dense matrix `a` of `n` rows and columns with `x`. -/
def dProd (n : Nat) (a : DMat T) (x w : Nat → T) : Prop :=
  ∀ i, i < n → w i = addUp (fun j => 1 * val0 a.elems (i * n + j) * x j) 0 n (0 * 0)

/-- `w` is the product of the sparse matrix `a` of `n` rows with `x`. -/
def csrProd (n : Nat) (a : Csr T) (x w : Nat → T) : Prop :=
  ∀ i, i < n → w i = addUp (fun k => 1 * val0 a.val k * x (a.col.getD k 0)) (a.rowPtr.getD i 0)
    (a.rowPtr.getD (i + 1) 0) (0 * 0)

/-- The matrix classes of `GStorage` and how they multiply. -/
inductive GKind : {M : Type} → (Bool → GOps M T) → (M → Prop) → (Nat → M → (Nat → T) → (Nat → T) → Prop) → Prop
  | dense : GKind dGOps (fun a => a.elems.length = a.n * a.m) dProd
  | csr : GKind csrGOps (fun a => a.Wf ∧ a.Distinct) csrProd

/-- Product with the matrix, then solution with the factors `G` of the preconditioner. -/
def GOp {M : Type} (prod : Nat → M → (Nat → T) → (Nat → T) → Prop) (n : Nat) (a : M) (G : Nat → Nat → T)
    (u v : Nat → T) : Prop :=
  ∃ w, prod n a u w ∧ IluSolveRec n G w v

end Lalib
