import Verif.Model.Gmres
import Verif.Spec.IluDom

/-! # A program of the user: iteration with incomplete factors

```
auto ilu = Ilu(a);
x = x + ilu.solve(b - a * x);     // repeated
``` -/

namespace Lalib

variable {T M : Type}

section
variable [Zero T] [Add T] [Sub T] [Mul T] [CDiv T] [CZero T]

/-- `x = x + ilu.solve(b - a * x);`.  `f` is the matrix inside the `Ilu` object, `ord` the order in which the elements
of a long sum or difference are computed. -/
def iluStep (ops : GOps M T) (ord : List Nat) (a f : M) (b x : List T) : Res (List T) := do
  let p ← ops.mul a x
  let r ← subOp ord b p
  let z ← Ilu.solve ops.toMatOps f r
  addOp ord x z

/-- `k` times. -/
def iluTimes (ops : GOps M T) (ord : List Nat) (a f : M) (b : List T) : Nat → List T → Res (List T)
  | 0, x => .ok x
  | k + 1, x => do
    let y ← iluTimes ops ord a f b k x
    iluStep ops ord a f b y

end

/-- In weights `w` the error is at most `s` in every component. -/
def ErrLe [Lattice T] [AddCommGroup T] [Mul T] (n : ℕ) (w x z : ℕ → T) (s : T) : Prop := ∀ i, i < n → |x i - z i| ≤ s * w i

end Lalib
