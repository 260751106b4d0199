import Verif.Spec.LinAlg
import Verif.Spec.Orth

/-! # Energy and distance

Used by property C112. -/

namespace Lalib

variable {T : Type}

/-- The energy `x·A x - 2 b·x`. -/
def energy [CommRing T] (n : Nat) (A : Nat → Nat → T) (b x : Nat → T) : T := ip n x (mulVec n A x) - 2 * ip n b x

/-- The square of the distance of `x` and `y`. -/
def dist2 [CommRing T] (n : Nat) (x y : Nat → T) : T := ip n (fun i => x i - y i) (fun i => x i - y i)

/-- The entries of the transpose of `a` (`p` rows, `n` columns), row by row. -/
def IsTransp (p n : Nat) (a t : Nat → Nat → T) : Prop := ∀ i j, i < p → j < n → t j i = a i j

end Lalib
