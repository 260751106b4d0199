import Verif.Model.VecOps
import Verif.Spec.LinAlg
import Verif.Spec.Orth

/-! # Programs: inverse iteration and power iteration

```
auto y = f.solve_linear(x);  auto lam = dot(x, y) / dot(y, y);  x = y / y.norm2();      // inverse iteration
auto y = a * x;              auto lam = dot(x, y) / dot(x, x);  x = y / y.norm2();      // power iteration
```
The temporary on the right of the last assignment is moved to `x` (`dyn_vec.hpp:66`); it has the storage of `x` here. -/

namespace Lalib

variable {T : Type}

section
variable [Zero T] [One T] [Add T] [Mul T] [CDiv T] [CSqrt T]

/-- One step of the inverse iteration; `solve` makes `y` the solution for the right-hand side `x`. -/
def invStep (solve : Mem T → Res (Mem T)) (x y : Nat) (m : Mem T) : Res (T × Mem T) := do
  let m ← solve m
  let p ← dotDD m x y
  let q ← dotDD m y y
  let lam ← divC p q
  let r ← vecNorm2 m y
  let m ← divOpAt m y r x
  .ok (lam, m)

/-- One step of the power iteration; `mul` makes `y` the product with `x`. -/
def powStep (mul : Mem T → Res (Mem T)) (x y : Nat) (m : Mem T) : Res (T × Mem T) := do
  let m ← mul m
  let p ← dotDD m x y
  let q ← dotDD m x x
  let lam ← divC p q
  let r ← vecNorm2 m y
  let m ← divOpAt m y r x
  .ok (lam, m)

/-- `k` steps, and the numbers `lam` which they gave. -/
def iterate (step : Mem T → Res (T × Mem T)) : Nat → Mem T → Res (List T × Mem T)
  | 0, m => .ok ([], m)
  | k + 1, m => do
    let (ls, m) ← iterate step k m
    let (lam, m) ← step m
    .ok (ls ++ [lam], m)

end

/-- The Rayleigh quotient `y·A y / y·y`. -/
def rayleigh [Field T] (n : Nat) (A : Nat → Nat → T) (y : Nat → T) : T := ip n y (mulVec n A y) / ip n y y

/-- The vector is not zero. -/
def NonZero [Zero T] (n : Nat) (y : Nat → T) : Prop := ∃ i, i < n ∧ y i ≠ 0

end Lalib
