import Verif.Spec.Ilu
import Verif.Spec.Orth
import Verif.Model.Gmres

/-! # Vocabulary of the GMRES specifications -/

namespace Lalib

variable {T : Type}

/-- The matrix classes `Gmres` can be instantiated with (the argument is `NDEBUG`) and the invariants of their
objects. -/
inductive GStorage [Zero T] [One T] [Add T] [Mul T] : {M : Type} → (Bool → GOps M T) → (M → Prop) → Prop
  | dense : GStorage dGOps (fun a => a.elems.length = a.n * a.m)
  | csr : GStorage csrGOps (fun a => a.Wf ∧ a.Distinct)

/-- Component `i` of the residual `b - A x`. -/
def resid [Ring T] (n : Nat) (A : Nat → Nat → T) (x b : Nat → T) (i : Nat) : T := b i - mulVec n A x i

/-- Square of the Euclidean norm. -/
def normSq [Semiring T] (n : Nat) (x : Nat → T) : T := ∑ i ∈ Finset.range n, x i ^ 2

/-- `z` is the preconditioned residual of `x`: `P z = b - A x`. -/
def PResid [Ring T] (n : Nat) (P A : Nat → Nat → T) (b x z : Nat → T) : Prop := Solves n P z (resid n A x b)

/-- `u 0 = P⁻¹ b`, `u (i+1) = P⁻¹ A u i`: the vectors that span the Krylov spaces. -/
def IsKrylov [Ring T] (n : Nat) (P A : Nat → Nat → T) (b : Nat → T) (u : Nat → Nat → T) : Prop :=
  Solves n P (u 0) b ∧ ∀ i, Solves n P (u (i + 1)) (mulVec n A (u i))

/-- `x` is in the span of the first `k` Krylov vectors, its preconditioned residual is below the tolerance and the
smallest of that span, and the span of fewer vectors (but at least one) has no residual below the tolerance. -/
structure IsGmres [Field T] [LinearOrder T] (n : Nat) (P A : Nat → Nat → T) (b : Nat → T) (tol : T)
    (u : Nat → Nat → T) (x : Nat → T) (k : Nat) (z : Nat → T) : Prop where
  pos : 0 < k
  le : k ≤ n
  comb : Comb n k u x
  res : PResid n P A b x z
  small : normSq n z < tol ^ 2
  minimal : ∀ y w, Comb n k u y → PResid n P A b y w → normSq n z ≤ normSq n w
  first : ∀ j, 0 < j → j < k → ∀ y w, Comb n j u y → PResid n P A b y w → tol ^ 2 ≤ normSq n w

end Lalib
