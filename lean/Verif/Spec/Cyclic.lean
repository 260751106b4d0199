import Verif.Model.VecOps
import Verif.Model.Tdma
import Verif.Spec.LinAlg

/-! # A program: periodic tri-diagonal systems

A tri-diagonal matrix with two further entries in the corners, `beta` on the upper right and `alpha` on the lower left, is a
tri-diagonal matrix (two diagonal entries changed) plus `u v^T`:
```
a.solve_linear(b, y);  a.solve_linear(u, z);
c = (y[0] + g*y[n-1]) / (1 + (z[0] + g*z[n-1]));  axpy(-c, z, y);                 // g = beta / gamma
``` -/

namespace Lalib

variable {T : Type}

/-- The program; the result is in `y`. -/
def cyclicSolve [Zero T] [One T] [Neg T] [Add T] [Sub T] [Mul T] [CDiv T] (nd : Bool) (a : TriDiag T) (g : T) (n b u y z : Nat) (m : Mem T) :
    Res (Mem T) := do
  let m ← Tdma.solveVec nd a b y m
  let m ← Tdma.solveVec nd a u z m
  let y0 ← m.rd y 0
  let yn ← m.rd y (n - 1)
  let z0 ← m.rd z 0
  let zn ← m.rd z (n - 1)
  let c ← divC (y0 + g * yn) (1 + (z0 + g * zn))
  axpyD (-c) m z y

/-- The first vector of the change: `gamma` and `alpha` at the ends. -/
def cycU [Zero T] (n : Nat) (gamma alpha : T) (i : Nat) : T := if i = 0 then gamma else if i = n - 1 then alpha else 0

/-- The second vector: `1` and `g` at the ends. -/
def cycV [Zero T] [One T] (n : Nat) (g : T) (i : Nat) : T := if i = 0 then 1 else if i = n - 1 then g else 0

/-- The periodic matrix with the diagonals of `t` and the corners `beta` and `alpha`. -/
def cyclic [Zero T] [Add T] (n : Nat) (t : TriDiag T) (alpha beta : T) (i j : Nat) : T :=
  triFull t i j + (if i = 0 ∧ j = n - 1 then beta else 0) + (if i = n - 1 ∧ j = 0 then alpha else 0)

end Lalib
