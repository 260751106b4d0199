import Verif.Spec.Ieee

/-! # Executable IEEE 754 arithmetic

The numbers of `Spec/Ieee.lean` are real numbers, which cannot be computed with.  Here the same operations are given on
pairs of integers: significand and exponent.  `Proofs/SoftFloat.lean` proves that they are the operations of
`Spec/Ieee.lean`, bit for bit. -/

namespace Lalib

/-- Numbers of a format: `fin s m e` is `(-1)^s m 2^e`. -/
inductive Sf (F : Fmt) : Type where
  | nan : Sf F
  | inf (s : Bool) : Sf F
  | fin (s : Bool) (m : Nat) (e : Int) : Sf F
  deriving DecidableEq

namespace Sf
variable {F : Fmt}

/-- The continuation gets the number in evaluated form. -/
def force {α : Type} (n : Nat) (k : Nat → α) : α :=
  match n with
  | 0 => k 0
  | n + 1 => k (n + 1)

theorem force_eq {α : Type} (n : Nat) (k : Nat → α) : force n k = k n := by cases n <;> rfl

/-- The continuation gets the number in evaluated form. -/
def forceInt {α : Type} (z : Int) (k : Int → α) : α :=
  match z with
  | .ofNat n => force n fun n => k (.ofNat n)
  | .negSucc n => force n fun n => k (.negSucc n)

theorem forceInt_eq {α : Type} (z : Int) (k : Int → α) : forceInt z k = k z := by
  cases z <;> simp only [forceInt, force_eq]

/-- `k / 2^j`, to nearest, ties to even. -/
def nearest (n j : Nat) : Nat :=
  let k := n >>> j
  let r := n - k <<< j
  if 2 * r < 1 <<< j then k else if 1 <<< j < 2 * r then k + 1 else if k % 2 = 0 then k else k + 1

/-- Overflow. -/
def over (F : Fmt) (s : Bool) (m : Nat) (e : Int) : Sf F :=
  if m ≠ 0 ∧ F.emax ≤ (Nat.log2 m : Int) + e then .inf s else force m fun m => forceInt e fun e => .fin s m e

/-- The number `(-1)^s n 2^e`, rounded; `z` is the sign of zero. -/
def round (F : Fmt) (s z : Bool) (n : Nat) (e : Int) : Sf F :=
  if n = 0 then .fin z 0 F.emin
  else
    let q := max ((Nat.log2 n : Int) + e + 1 - F.p) F.emin
    if q ≤ e then over F s n e else over F s (nearest n (q - e).toNat) q

instance : Zero (Sf F) := ⟨.fin false 0 F.emin⟩
instance : One (Sf F) := ⟨.fin false 1 0⟩

instance : Neg (Sf F) := ⟨fun a => match a with
  | nan => nan
  | inf s => inf (!s)
  | fin s m e => fin (!s) m e⟩

/-- Significand at exponent `e' ≤ e`, with sign. -/
def align (s : Bool) (m : Nat) (e e' : Int) : Int :=
  if s then -((m <<< (e - e').toNat : Nat) : Int) else ((m <<< (e - e').toNat : Nat) : Int)

def add : Sf F → Sf F → Sf F
  | nan, _ => nan
  | _, nan => nan
  | inf s, inf t => if s = t then inf s else nan
  | inf s, fin _ _ _ => inf s
  | fin _ _ _, inf t => inf t
  | fin s m e, fin t n f =>
    let g := min e f
    let z := align s m e g + align t n f g
    round F (decide (z < 0)) (s && t) z.natAbs g

instance : Add (Sf F) := ⟨add⟩
instance : Sub (Sf F) := ⟨fun a b => a + -b⟩

def mul : Sf F → Sf F → Sf F
  | nan, _ => nan
  | _, nan => nan
  | inf s, inf t => inf (s ^^ t)
  | inf s, fin t n _ => if n = 0 then nan else inf (s ^^ t)
  | fin s m _, inf t => if m = 0 then nan else inf (s ^^ t)
  | fin s m e, fin t n f => round F (s ^^ t) (s ^^ t) (m * n) (e + f)

instance : Mul (Sf F) := ⟨mul⟩

/-- A number that is not a multiple of `2^e` is replaced by the middle of the gap it lies in. -/
def sticky (exact : Bool) (n : Nat) : Nat := if exact then 2 * n else 2 * n + 1

def div : Sf F → Sf F → Sf F
  | nan, _ => nan
  | _, nan => nan
  | inf _, inf _ => nan
  | inf s, fin t _ _ => inf (s ^^ t)
  | fin s _ _, inf t => fin (s ^^ t) 0 F.emin
  | fin s m e, fin t n f =>
    if n = 0 then (if m = 0 then nan else inf (s ^^ t))
    else
      let k := F.p + 2 + Nat.log2 n
      let a := m <<< k
      round F (s ^^ t) (s ^^ t) (sticky (a % n == 0) (a / n)) (e - f - k - 1)

/-- Integer square root, from the leading bit downwards. -/
def isqrt (a : Nat) : Nat → Nat → Nat
  | 0, r => r
  | b + 1, r => if (r + 1 <<< b) * (r + 1 <<< b) ≤ a then force (r + 1 <<< b) (isqrt a b) else isqrt a b r

def sqrt : Sf F → Sf F
  | nan => nan
  | inf s => if s then nan else inf false
  | fin s m e =>
    if m = 0 then fin s m e
    else if s then nan
    else
      let t := 2 * (F.p + 2) + (e % 2).toNat
      let a := m <<< t
      let r := isqrt a (Nat.log2 a / 2 + 1) 0
      round F false false (sticky (r * r == a) r) ((e - t) / 2 - 1)

def lt : Sf F → Sf F → Bool
  | nan, _ => false
  | _, nan => false
  | inf s, inf t => s && !t
  | inf s, fin _ _ _ => s
  | fin _ _ _, inf t => !t
  | fin s m e, fin t n f => align s m e (min e f) < align t n f (min e f)

instance : LT (Sf F) := ⟨fun a b => lt a b = true⟩
instance : DecidableLT (Sf F) := fun a b => inferInstanceAs (Decidable (lt a b = true))

def isZero : Sf F → Bool
  | fin _ m _ => m == 0
  | _ => false

instance : CZero (Sf F) := ⟨fun a => isZero a = true, fun _ => inferInstance⟩
instance : CDiv (Sf F) := ⟨fun a b => .ok (div a b)⟩
instance : CSqrt (Sf F) := ⟨fun a => .ok (sqrt a)⟩

/-- The number nearest to `n / d`. -/
def ofFrac (F : Fmt) (s : Bool) (n d : Nat) : Sf F :=
  let k := F.p + 2 + Nat.log2 d
  let a := n <<< k
  round F s s (sticky (a % d == 0) (a / d)) (-k - 1)

/-- The executable number `a` is the number `b`. -/
def Is : Sf F → Fp F → Prop
  | nan, .nan => True
  | inf s, .inf t => s = t
  | fin s m e, .fin t x _ => s = t ∧ x = m * 2 ^ e
  | _, _ => False

/-- The number meant. -/
noncomputable def toFp : Sf F → Fp F
  | nan => .nan
  | inf s => .inf s
  | fin s m e => Fp.round F s ((if s then -1 else 1) * (m * 2 ^ e))

/-- The significand has at most `p` bits and the exponent is in range. -/
def ok : Sf F → Bool
  | fin _ m e => m == 0 || (decide (max ((Nat.log2 m : Int) + e + 1 - F.p) F.emin ≤ e) && decide ((Nat.log2 m : Int) + e < F.emax))
  | _ => true

end Sf

/-- `float`, executable. -/
abbrev Flt := Sf binary32
/-- `double`, executable. -/
abbrev Dbl := Sf binary64

end Lalib
