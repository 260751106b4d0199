import Verif.Model.VecOps
import Verif.Spec.LinAlg
import Verif.Spec.Orth

/-! # A program: conjugate gradients

```
// r = b - A x, p = r
while ((c = dot(r, r)) != 0) {
    q = A * p;  alpha = c / dot(p, q);  axpy(alpha, p, x);  axpy(-alpha, q, r);
    beta = dot(r, r) / c;  scale(beta, p);  axpy(1, r, p);
}
``` -/

namespace Lalib

open Finset

variable {T : Type}

section
variable [Zero T] [One T] [Neg T] [Add T] [Mul T] [CDiv T] [DecidableEq T]

/-- One pass of the loop; `mul` makes `q` the product with `p`.  After the end of the loop nothing changes. -/
def cgStep (mul : Mem T → Res (Mem T)) (x r p q : Nat) (m : Mem T) : Res (Mem T) := do
  let c ← dotDD m r r
  if c = 0 then .ok m else do
    let m ← mul m
    let d ← dotDD m p q
    let alpha ← divC c d
    let m ← axpyD alpha m p x
    let m ← axpyD (-alpha) m q r
    let e ← dotDD m r r
    let beta ← divC e c
    let m ← scaleV beta m p
    axpyD 1 m r p

/-- `k` passes. -/
def cgSteps (mul : Mem T → Res (Mem T)) (x r p q : Nat) : Nat → Mem T → Res (Mem T)
  | 0, m => .ok m
  | k + 1, m => do
    let m ← cgSteps mul x r p q k m
    cgStep mul x r p q m

end

/-- Vectors `x k`, `r k`, `p k` which satisfy the equations of the method, as long as the residual is not zero. -/
structure CgSeq [Field T] (n : Nat) (A : Nat → Nat → T) (b : Nat → T) (x r p : Nat → Nat → T) : Prop where
  r0 : ∀ i, i < n → r 0 i = b i - mulVec n A (x 0) i
  p0 : ∀ i, i < n → p 0 i = r 0 i
  stop : ∀ k, ip n (r k) (r k) = 0 → (∀ i, i < n → x (k + 1) i = x k i) ∧ (∀ i, i < n → r (k + 1) i = r k i)
  xs : ∀ k, ip n (r k) (r k) ≠ 0 → ∀ i, i < n → x (k + 1) i = x k i + ip n (r k) (r k) / ip n (p k) (mulVec n A (p k)) * p k i
  rs : ∀ k, ip n (r k) (r k) ≠ 0 → ∀ i, i < n →
    r (k + 1) i = r k i - ip n (r k) (r k) / ip n (p k) (mulVec n A (p k)) * mulVec n A (p k) i
  ps : ∀ k, ip n (r k) (r k) ≠ 0 → ∀ i, i < n →
    p (k + 1) i = r (k + 1) i + ip n (r (k + 1)) (r (k + 1)) / ip n (r k) (r k) * p k i

end Lalib
