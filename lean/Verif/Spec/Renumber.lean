import Verif.Spec.LinAlg

/-! # Vocabulary for changes of variables -/

namespace Lalib

open Finset

variable {T : Type}

/-- `A' = P A M`, for `n x n` matrices. -/
def Changed [CommRing T] (n : Nat) (P A M A' : Nat → Nat → T) : Prop :=
  ∀ i j, i < n → j < n → A' i j = ∑ p ∈ range n, ∑ q ∈ range n, P i p * A p q * M q j

/-- The tri-diagonal matrix with rows and columns in the opposite order. -/
def revTri (a : TriDiag T) : TriDiag T := ⟨a.du.reverse, a.d.reverse, a.dl.reverse⟩

end Lalib
