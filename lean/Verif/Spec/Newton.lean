import Verif.Model.VecOps
import Verif.Spec.Forward
import Verif.Spec.Refine

/-! # A program: nonlinear systems with a factorised matrix

```
r = F(x);  f.solve_linear_mut(r);  sub(x, r, x);      // repeated; F is a function of the caller
```
the simplified Newton method for `F(x) = 0`: the matrix, near the derivative, is factorised once. -/

namespace Lalib

open Finset

variable {T : Type}

section
variable [Sub T]

/-- One step; `fn` writes the value of the function to `r`, `solve` replaces the contents of `r` by the solution; `ord` is the order in which
the elements of a long difference are computed. -/
def chordStep (fn solve : Mem T → Res (Mem T)) (ord : List Nat) (x r : Nat) (m : Mem T) : Res (Mem T) := do
  let m ← fn m
  let m ← solve m
  subDD ord m x r x

/-- `k` steps. -/
def chordSteps (fn solve : Mem T → Res (Mem T)) (ord : List Nat) (x r : Nat) : Nat → Mem T → Res (Mem T)
  | 0, m => .ok m
  | k + 1, m => do
    let m ← chordSteps fn solve ord x r k m
    chordStep fn solve ord x r m

end

/-- In the cube of radius `rho` around `s`, a zero of `F`, the matrix `A` predicts the values of `F` up to `L` times the distance from `s`. -/
structure Predicts (n : ℕ) (F : (ℕ → ℝ) → ℕ → ℝ) (A : ℕ → ℕ → ℝ) (s : ℕ → ℝ) (rho L : ℝ) : Prop where
  nonneg : 0 ≤ L
  near : ∀ (x : ℕ → ℝ) (e : ℝ), e ≤ rho → MaxLe n (fun i => x i - s i) e → MaxLe n (fun i => F x i - mulVec n A (fun j => x j - s j) i) (L * e)

/-- The function of the caller stores in `r` the value of `F` at the vector in `x`, up to `phi`, if that vector is in the cube; nothing else changes. -/
def EvalFor {R : Rounding} (n : ℕ) (F : (ℕ → ℝ) → ℕ → ℝ) (s : ℕ → ℝ) (rho phi : ℝ) (x r : ℕ) (fn : Mem (Fl R) → Res (Mem (Fl R))) : Prop :=
  ∀ m : Mem (Fl R), m.len x = n → m.len r = n → MaxLe n (fun i => (m.val x i).val - s i) rho → ∃ l, fn m = .ok (m.setBuf r l) ∧ l.length = n ∧
    MaxLe n (fun i => (val0 l i).val - F (fun j => (m.val x j).val) i) phi

/-- The factor by which a step reduces the error: `K` bounds the inverse, `S` the rows of the matrix, `c` those of the solver's backward error. -/
noncomputable def chordRate (u K S L c : ℝ) : ℝ := (1 + u) * (K * (L + c * (K * (S + L) / (1 - K * c))))

/-- What a step adds: `sig` bounds the zero. -/
noncomputable def chordRest (u K c phi sig : ℝ) : ℝ := (1 + u) * (K * (phi + c * (K * phi / (1 - K * c)))) + u * sig

end Lalib
