import Verif.Model.VecOps
import Verif.Model.Dense
import Verif.Spec.Forward

/-! # Iterative refinement, as a user writes it

```
r = b;                       // copy
mul(-1, A, x, 1, r);         // residual
d = solver.solve(r);         // correction
axpy(1, d, x);               // x += d
```
repeated `k` times. -/

namespace Lalib

variable {T : Type} [Zero T] [One T] [Neg T] [Add T] [Mul T]

/-- One step.  `sv` is the call of the solver, from vector `r` to vector `d`. -/
def refineStep (nd : Bool) (a : MatRef) (sv : Mem T → Res (Mem T)) (b x r d : Nat) (m : Mem T) : Res (Mem T) := do
  let m := m.setBuf r (m b)
  let m ← gemvDD nd (-1) a x 1 r m
  let m ← sv m
  axpyD 1 m d x

/-- `k` steps. -/
def refineTimes (nd : Bool) (a : MatRef) (sv : Mem T → Res (Mem T)) (b x r d : Nat) : Nat → Mem T → Res (Mem T)
  | 0, m => .ok m
  | k + 1, m => do
    let m ← refineTimes nd a sv b x r d k m
    refineStep nd a sv b x r d m

/-- The call stores in `d` the exact solution, for the vector in `r`, of a system whose matrix differs from `A` by at most
`E`; nothing else changes. -/
def SolverFor {R : Rounding} (n : ℕ) (A E : ℕ → ℕ → ℝ) (r d : ℕ) (sv : Mem (Fl R) → Res (Mem (Fl R))) : Prop :=
  ∀ m : Mem (Fl R), m.len r = n → m.len d = n → ∃ l, sv m = .ok (m.setBuf d l) ∧ l.length = n ∧
    NearSolves n A E (fun i => (val0 l i).val) (fun i => (m.val r i).val)

/-- The factor by which a step reduces the error: `K` bounds the inverse, `S` the rows of the matrix, `c` those of the
solver's backward error, `g` is the error of the residual. -/
noncomputable def refRate (u K S c g : ℝ) : ℝ := (1 + u) * (K * (c + g * S) / (1 - K * c))

/-- What remains, relative to the solution. -/
noncomputable def refRest (u K S c g : ℝ) : ℝ := u + 2 * (1 + u) * (K * (g * S) / (1 - K * c))

end Lalib
