import Verif.Core.Res

/-! # Vocabulary for loops that may not terminate -/

namespace Lalib

variable {σ α : Type}

/-- The body executed for the listed indices, one after another. -/
def visit (f : Nat → σ → Res σ) (l : List Nat) (s : σ) : Res σ := l.foldlM (fun s i => f i s) s

/-- The run terminates with `r`: from some amount of fuel on, that is the answer. -/
def Yields (run : Nat → Option α) (r : α) : Prop := ∃ k, ∀ fuel, k ≤ fuel → run fuel = some r

/-- The run never terminates. -/
def Forever (run : Nat → Option α) : Prop := ∀ fuel, run fuel = none

/-- `body` keeps the invariant and never fails on indices below `n`. -/
def NeverFails (n : Nat) (I : σ → Prop) (f : Nat → σ → Res σ) : Prop :=
  ∀ i s, i < n → I s → ∃ s', f i s = .ok s' ∧ I s'

end Lalib
