import Verif.Spec.Mat

/-! # Linear combinations and unit vectors

Used by property C110. -/

namespace Lalib

variable {T : Type}

/-- The vector `c` is `s * b + t * d`. -/
def IsComb [Semiring T] (n : Nat) (s t : T) (b d c : List T) : Prop :=
  c.length = n ∧ ∀ i, i < n → val0 c i = s * val0 b i + t * val0 d i

/-- The vector with 1 at `k` and 0 elsewhere. -/
def unitVec [Zero T] [One T] (n k : Nat) : List T := (List.range n).map fun i => if i = k then 1 else 0

/-- The matrix with the given columns, row by row. -/
def ofCols [Zero T] (n : Nat) (x : Nat → List T) : List T := matOf n n fun i k => val0 (x k) i

end Lalib
