import Verif.Props.SoftFloat
import Verif.Proofs.Sparse

/-! # The project's own tests, replayed

`/repo/test` holds the tests of the project.  They are replayed here on the model, with `double` in executable form
(`Spec/SoftFloat.lean`, equal to the IEEE numbers by C95).  Each example cites the test and evaluates its assertions in the
kernel.  `ASSERT_DOUBLE_EQ` allows four units in the last place; where nothing else is said the numbers agree exactly.

This is no proof about the library: it checks that the model behaves as the authors of the code say the code does. -/

namespace Lalib.Suite

open Lalib

/-- Literals. -/
scoped instance (n : Nat) : OfNat Dbl n := ⟨Sf.ofFrac binary64 false n 1⟩

/-- The literal `n / d`. -/
def frac (n d : Nat) : Dbl := Sf.ofFrac binary64 false n d

/-- `a == b` for finite numbers. -/
def eq (a b : Dbl) : Bool := Sf.isZero (a - b)

/-- `a` and `b` differ by less than `t`. -/
def near (t a b : Dbl) : Bool := Sf.lt (a - b) t && Sf.lt (b - a) t

/-- The call returns this number. -/
def isNum (r : Res Dbl) (e : Dbl) : Bool := match r with
  | .ok v => eq v e
  | .error _ => false

/-- The call returns these numbers. -/
def isVec (r : Res (List Dbl)) (e : List Dbl) : Bool := match r with
  | .ok v => v.length == e.length && (List.zipWith eq v e).all id
  | .error _ => false

/-- The call returns these numbers up to `t`. -/
def nearVec (t : Dbl) (r : Res (List Dbl)) (e : List Dbl) : Bool := match r with
  | .ok v => v.length == e.length && (List.zipWith (near t) v e).all id
  | .error _ => false

/-- The call returns a matrix with these entries. -/
def isMat (r : Res (DMat Dbl)) (n m : Nat) (e : List Dbl) : Bool := match r with
  | .ok a => a.n == n && a.m == m && isVec (.ok a.elems) e
  | .error _ => false

/-- Buffer `p` afterwards. -/
def buf (p : Nat) (r : Res (Mem Dbl)) : Res (List Dbl) := r.map fun m => m p

/-- The call throws this. -/
def throws {α : Type} (r : Res α) (e : Exn) : Bool := match r with
  | .error (.throw f) => f == e
  | _ => false

/-- The call returns. -/
def returns {α : Type} (r : Res α) : Bool := match r with
  | .ok _ => true
  | .error _ => false

/-- All entries of a matrix, read with `()`. -/
def entries (n m : Nat) (get : Nat → Nat → Res Dbl) : Res (List Dbl) :=
  ((List.range n).flatMap fun i => (List.range m).map fun j => (i, j)).mapM fun p => get p.1 p.2

/-- The bits of a finite `double` without the sign. -/
def bits : Dbl → Nat
  | .fin _ m e =>
    if m = 0 then 0
    else
      let k := min (52 - (Nat.log2 m : Int)) (e + 1074)
      ((e - k + 1074) * 2 ^ 52 + (m : Int) * 2 ^ k.toNat).toNat
  | _ => 0

/-- `b` is `k` representable numbers away from `a`, both positive. -/
def steps (k : Nat) (a b : Dbl) : Bool := Sf.lt 0 a && Sf.lt 0 b && (bits a - bits b) + (bits b - bits a) == k

/-- The call returns positive numbers that are this many representable numbers away from these.  `ASSERT_DOUBLE_EQ` accepts up
to four. -/
def stepsVec (r : Res (List Dbl)) (e : List (Dbl × Nat)) : Bool := match r with
  | .ok v => v.length == e.length && (List.zipWith (fun x p => steps p.2 x p.1) v e).all id
  | .error _ => false

/-- Neighbours of 1, and the smallest normal number next to the largest subnormal one. -/
example : steps 1 1 (frac (2 ^ 52 + 1) (2 ^ 52)) = true ∧ steps 1 1 (frac (2 ^ 53 - 1) (2 ^ 53)) = true ∧
    steps 1 (frac 1 (2 ^ 1022)) (frac (2 ^ 52 - 1) (2 ^ 1074)) = true ∧ steps 2 (frac 1 (2 ^ 1074)) (frac 3 (2 ^ 1074)) = true ∧
    bits 1 = 0x3FF0000000000000 ∧ bits (frac 3 2) = 0x3FF8000000000000 := by decide +kernel

end Lalib.Suite
