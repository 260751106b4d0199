import Verif.Spec.GmresEval

/-! # What Gram-Schmidt orthogonalisation computes, as expressions

The recurrence with every operation in its place; no law of arithmetic is assumed. -/

namespace Lalib

variable {T : Type} [Add T] [Mul T] [Neg T] [CDiv T]

/-- Vectors `w 0, .., w (J-1)` of dimension `n` from the vectors `a`: `c k j` is the quotient of `- (w k . a j)` and
`w k . w k`, and the multiples `c k j * w k` are added to `a j` in the order `k = 0, 1, ..`. -/
structure CgsRec (n J : Nat) (a w c : Nat → Nat → T) : Prop where
  coef : ∀ j, j < J → ∀ k, k < j → divC (-dotUp n (w k) (a j)) (dotUp n (w k) (w k)) = .ok (c k j)
  vec : ∀ j, j < J → ∀ i, i < n → w j i = addUpL (fun k => c k j * w k i) j (a j i)

end Lalib
