import Verif.Model.VecOps
import Verif.Spec.LinAlg

/-! # A program: implicit time steps

```
add(x, f, x);  solver.solve_linear(x, x);     // or solve_linear_mut(x); repeated
```
so that `A x_new = x_old + f`, as for the heat equation. -/

namespace Lalib

open Finset

variable {T : Type}

section
variable [Add T]

/-- One step; `solve` replaces the contents of `x` by the solution.  `ord` is the order in which the elements of a long sum are computed. -/
def timeStep (solve : Mem T → Res (Mem T)) (ord : List Nat) (f x : Nat) (m : Mem T) : Res (Mem T) := do
  let m ← addDD ord m x f x
  solve m

/-- `k` steps. -/
def timeSteps (solve : Mem T → Res (Mem T)) (ord : List Nat) (f x : Nat) : Nat → Mem T → Res (Mem T)
  | 0, m => .ok m
  | k + 1, m => do
    let m ← timeSteps solve ord f x k m
    timeStep solve ord f x m

end

/-- No entry outside the diagonal is positive, and every row adds up to `c` or more. -/
structure StepMatrix [Field T] [LinearOrder T] (n : Nat) (A : Nat → Nat → T) (c : T) : Prop where
  off : ∀ i j, i < n → j < n → i ≠ j → A i j ≤ 0
  row : ∀ i, i < n → c ≤ ∑ j ∈ range n, A i j

/-- `u k` is the vector after `k` steps. -/
def Evolves [Field T] (n : Nat) (A : Nat → Nat → T) (f : Nat → T) (u : Nat → Nat → T) : Prop :=
  ∀ k, Solves n A (u (k + 1)) (fun i => u k i + f i)

end Lalib
