import Verif.Model.Clients

/-! # Specification vocabulary for programs with several threads -/

namespace Lalib

variable {T : Type}

/-- Every iteration of a team makes its three accesses; iterations that are at their end may be named again. -/
def LawfulSched (sched : Nat → List Nat) : Prop := ∀ n, (∀ i ∈ sched n, i < n) ∧ ∀ i, i < n → 3 ≤ (sched n).count i

/-- All loads are from the objects `ps`. -/
def Look.Within {α : Type} (ps : List Nat) : Look T α → Prop
  | ret _ => True
  | load p _ k => p ∈ ps ∧ ∀ v, (k v).Within ps
  | fail _ => True

/-- The loads of a const member function are from the objects it is given. -/
def Job.Honest : Job T → Prop
  | .look ps f _ => ∀ sz, (f sz).Within ps
  | _ => True

/-- A call of thread `t` writes to an object of this thread, and is given objects and a solver of this thread or objects
and a solver nobody writes to.  `own p` is the thread that the object `p` belongs to; `none` stands for objects shared
by all threads.  The arrays of a solver object are private to it, so they are not the result. -/
def Job.Fits (own : Nat → Option Nat) (t : Nat) (c : Job T) : Prop :=
  own c.target = some t ∧ (∀ p ∈ c.operands ++ c.arrays, own p = some t ∨ own p = none) ∧ c.target ∉ c.arrays ∧ c.Honest

end Lalib
