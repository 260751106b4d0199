import Verif.Spec.Ieee

/-! # Backward errors with underflow -/

namespace Lalib

/-- `x` is the exact solution of a system whose matrix differs from `A`, entry by entry, by at most `E`, and whose
right-hand side differs from `b` by at most `e`. -/
def NearSolves2 (n : ℕ) (A E : ℕ → ℕ → ℝ) (e x b : ℕ → ℝ) : Prop :=
  ∃ (dA : ℕ → ℕ → ℝ) (db : ℕ → ℝ), (∀ i j, i < n → j < n → |dA i j| ≤ E i j) ∧ (∀ i, i < n → |db i| ≤ e i) ∧
    Solves n (fun i j => A i j + dA i j) x (fun i => b i + db i)

/-- The real numbers which the entries of a matrix stand for. -/
def Fp.mat {F : Fmt} (A : ℕ → ℕ → Fp F) (i j : ℕ) : ℝ := (A i j).val

end Lalib
