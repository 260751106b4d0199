import Mathlib.Data.ZMod.Basic
import Mathlib.Algebra.BigOperators.Group.Finset.Basic
import Verif.Spec.Basic

/-! # Signed integers as element type

`SInt b` is a signed integer type with `b` value bits (`b = 31`: a 32-bit `int`), no narrower than `int`, so that no
promotion takes place.  An operation whose exact result does not fit is undefined behaviour in C++; here it gives `over`,
and so does every operation on `over`.  A function whose result contains `over` has had undefined behaviour. -/

namespace Lalib

/-- The integers of the type. -/
def InRange (b : ℕ) (z : ℤ) : Prop := -2 ^ b ≤ z ∧ z < 2 ^ b

instance (b : ℕ) (z : ℤ) : Decidable (InRange b z) := inferInstanceAs (Decidable (_ ∧ _))

inductive SInt (b : ℕ) where
  | num (z : ℤ) (h : InRange b z)
  | over

namespace SInt
variable {b : ℕ}

/-- The result of an operation whose exact result is `z`. -/
def of (b : ℕ) (z : ℤ) : SInt b := if h : InRange b z then num z h else over

def op2 (f : ℤ → ℤ → ℤ) : SInt b → SInt b → SInt b
  | num x _, num y _ => of b (f x y)
  | _, _ => over

instance : Add (SInt b) := ⟨op2 (· + ·)⟩
instance : Sub (SInt b) := ⟨op2 (· - ·)⟩
instance : Mul (SInt b) := ⟨op2 (· * ·)⟩
instance : Neg (SInt b) := ⟨fun | num x _ => of b (-x) | over => over⟩
instance : Zero (SInt b) := ⟨of b 0⟩

/-- `v` is the number `z`. -/
def Is (v : SInt b) (z : ℤ) : Prop := ∃ h, v = num z h

/-- `v` is the number `z` if `P` holds, and otherwise there was an overflow. -/
def Gives (v : SInt b) (P : Prop) (z : ℤ) : Prop := (P → v.Is z) ∧ (¬ P → v = over)

/-- The first `n` elements of buffer `p` are the numbers `f`. -/
def Holds (m : Mem (SInt b)) (p n : ℕ) (f : ℕ → ℤ) : Prop := ∀ i, i < n → (m.val p i).Is (f i)

end SInt

/-- `α Σ a k * x k + t`, the products being added to `t` one by one from the left: all intermediate results fit. -/
def AccFits (b : ℕ) (n : ℕ) (alpha : ℤ) (a x : ℕ → ℤ) (t : ℤ) : Prop :=
  InRange b t ∧ ∀ k, k < n → InRange b (alpha * a k) ∧ InRange b (alpha * a k * x k) ∧
    InRange b (t + ∑ j ∈ Finset.range (k + 1), alpha * a j * x j)

end Lalib
