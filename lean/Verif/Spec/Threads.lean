import Verif.Model.Threads

/-! # Specification vocabulary for concurrent iterations -/

namespace Lalib

variable {T : Type}

/-- The cell which the next access touches, and whether it is a store. -/
def Thread.next : Thread T → Option ((Nat × Nat) × Bool)
  | .stop => none
  | .load p c _ => some ((p, c), false)
  | .store p c _ _ => some ((p, c), true)
  | .fail _ => none

/-- Two iterations are about to touch the same cell, and one of them stores. -/
def Pool.Race (n : Nat) (s : Pool T) : Prop :=
  ∃ i j c w w', i < n ∧ j < n ∧ i ≠ j ∧ (s.th i).next = some (c, w) ∧ (s.th j).next = some (c, w') ∧
    (w = true ∨ w' = true)

/-- All iterations are at their end. -/
def Pool.Finished (n : Nat) (s : Pool T) : Prop := ∀ i, i < n → s.th i = .stop

/-- The loop over `n` concurrent iterations `th` from memory `m` amounts to the outcome `r`: no schedule leads to a
race, a finished execution has this outcome, and if it is a memory no execution fails or gets stuck. -/
def Concurrent (n : Nat) (th : Nat → Thread T) (m : Mem T) (r : Res (Mem T)) : Prop :=
  ∀ sched : List Nat, (∀ i ∈ sched, i < n) →
    (∀ s, Pool.exec sched ⟨m, th⟩ = .ok s → ¬ s.Race n ∧ (s.Finished n → r = .ok s.mem)) ∧
    (∀ m', r = .ok m' → ∃ ext s, (∀ i ∈ ext, i < n) ∧ Pool.exec (sched ++ ext) ⟨m, th⟩ = .ok s ∧ s.Finished n)

end Lalib
