import Verif.Model.Lapack
import Verif.Spec.LinAlg

/-! # Contracts of the LAPACK Cholesky routines

External assumptions (LAPACK documentation of `?potrf`, `?potrs` for row-major lower storage), in exact
arithmetic.  Matrices are given by their lower triangle; what is above the diagonal is neither read nor
written. -/

namespace Lalib

variable {T : Type} [Field T] [LinearOrder T]

/-- `l` shows the symmetric matrix `A` in its lower triangle. -/
structure LowerOf (n : Nat) (l : List T) (A : Nat → Nat → T) : Prop where
  len : l.length = n * n
  val : ∀ i j, j ≤ i → i < n → entry n l i j = A i j
  symm : Symm n A

/-- `?potrf`: success exactly on positive definite matrices, and then the Cholesky factor. -/
structure LawfulPotrf (potrf : Lapack.Potrf T) : Prop where
  accept : ∀ n l A, LowerOf n l A → PosDef n A → ∃ L, potrf n l = .ok (0, L) ∧ L.length = l.length ∧
    IsChol n (entry n L) A ∧ ∀ i j, i < j → j < n → entry n L i j = entry n l i j
  reject : ∀ n l A, LowerOf n l A → ¬ PosDef n A → ∃ info L, potrf n l = .ok (info, L) ∧ info ≠ 0

/-- `?potrs`: solves with a given Cholesky factor. -/
structure LawfulPotrs (potrs : Lapack.Potrs T) : Prop where
  solve : ∀ n nrhs L A b, L.length = n * n → IsChol n (entry n L) A → b.length = n * nrhs →
    ∃ x, potrs n nrhs L b = .ok x ∧ x.length = n * nrhs ∧
      ∀ k, k < nrhs → Solves n A (fun i => entry nrhs x i k) (fun i => entry nrhs b i k)

end Lalib
