import Verif.Spec.Stationary

/-! # A program of the user: iteration with incomplete factors until nothing changes much

```
auto ilu = Ilu(a);
for (;;) {
    auto y = x + ilu.solve(b - a * x);
    auto d = (y - x).norm2();
    x = y;
    if (d < tol) break;
}
``` -/

namespace Lalib

variable {T M : Type} [Zero T] [Add T] [Sub T] [Mul T] [CDiv T] [CZero T] [CSqrt T] [LT T] [DecidableRel ((· < ·) : T → T → Prop)]

/-- The loop, observed for at most `k` passes: `none` if it has not ended by then. -/
def iluUntil (ops : GOps M T) (ord : List Nat) (a f : M) (b : List T) (tol : T) : Nat → List T → Res (Option (List T))
  | 0, _ => .ok none
  | k + 1, x => do
    let y ← iluStep ops ord a f b x
    let c ← subOp ord y x
    let d ← Gmres.norm2 c
    if d < tol then .ok (some y) else iluUntil ops ord a f b tol k y

end Lalib
