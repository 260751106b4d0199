import Verif.Spec.Scaling
import Verif.Model.Gmres
import Verif.Model.Tdma
import Verif.Model.Cholesky
import Verif.Model.Cgs
import Mathlib.Algebra.Field.Basic

/-! # Two number types

A relation between the numbers of two types which the operations keep.  Examples: a field and a larger one, a number and its
complex conjugate, the floating-point numbers of `Spec/Ieee.lean` and their executable form. -/

namespace Lalib

/-- `rel a b`: the number `b` of the second type stands for the number `a` of the first. -/
structure Twin (T T' : Type) [Zero T] [One T] [Neg T] [Add T] [Sub T] [Mul T] [CDiv T]
    [Zero T'] [One T'] [Neg T'] [Add T'] [Sub T'] [Mul T'] [CDiv T'] where
  rel : T → T' → Prop
  zero : rel 0 0
  one : rel 1 1
  neg : ∀ {a a'}, rel a a' → rel (-a) (-a')
  add : ∀ {a a' b b'}, rel a a' → rel b b' → rel (a + b) (a' + b')
  sub : ∀ {a a' b b'}, rel a a' → rel b b' → rel (a - b) (a' - b')
  mul : ∀ {a a' b b'}, rel a a' → rel b b' → rel (a * b) (a' * b')
  div : ∀ {a a' b b'}, rel a a' → rel b b' → SameOut rel (divC a b) (divC a' b')

namespace Twin

variable {T T' : Type} [Zero T] [One T] [Neg T] [Add T] [Sub T] [Mul T] [CDiv T]
    [Zero T'] [One T'] [Neg T'] [Add T'] [Sub T'] [Mul T'] [CDiv T'] (S : Twin T T')

/-- The same numbers are zero. -/
def SameZ [CZero T] [CZero T'] : Prop := ∀ {a a'}, S.rel a a' → (IsZ a ↔ IsZ a')

/-- The same numbers have a root, and the roots correspond. -/
def SameSqrt [CSqrt T] [CSqrt T'] : Prop := ∀ {a a'}, S.rel a a' → SameOut S.rel (sqrtC a) (sqrtC a')

/-- The order is the same. -/
def SameLt [LT T] [LT T'] : Prop := ∀ {a a' b b'}, S.rel a a' → S.rel b b' → (a < b ↔ a' < b')

/-- Vectors, entry by entry. -/
def L : List T → List T' → Prop := List.Forall₂ S.rel

/-- Memories, buffer by buffer. -/
def M (m : Mem T) (m' : Mem T') : Prop := ∀ p, S.L (m p) (m' p)

/-- Dense matrices. -/
structure D (a : DMat T) (a' : DMat T') : Prop where
  n : a.n = a'.n
  m : a.m = a'.m
  elems : S.L a.elems a'.elems

/-- Coordinate matrices. -/
structure C (a : Coo T) (a' : Coo T') : Prop where
  val : S.L a.val a'.val
  row : a.row = a'.row
  col : a.col = a'.col

/-- Compressed row matrices. -/
structure R (a : Csr T) (a' : Csr T') : Prop where
  val : S.L a.val a'.val
  ptr : a.rowPtr = a'.rowPtr
  col : a.col = a'.col

/-- Tri-diagonal matrices. -/
structure Tri (a : TriDiag T) (a' : TriDiag T') : Prop where
  dl : S.L a.dl a'.dl
  d : S.L a.d a'.d
  du : S.L a.du a'.du

/-- Hessenberg matrices. -/
structure H (a : Hess T) (a' : Hess T') : Prop where
  n : a.n = a'.n
  h : S.L a.h a'.h

/-- Upper triangular matrices. -/
structure U (a : UTri T) (a' : UTri T') : Prop where
  n : a.n = a'.n
  u : S.L a.u a'.u

/-- Lower triangular matrices. -/
structure Lo (a : LTri T) (a' : LTri T') : Prop where
  n : a.n = a'.n
  l : S.L a.l a'.l

/-- Hermitian matrices. -/
structure He (a : Herm T) (a' : Herm T') : Prop where
  n : a.n = a'.n
  l : S.L a.l a'.l

/-- Matrix classes whose objects correspond by `K`: shape, reading and writing do. -/
structure Ops {A A' : Type} (ops : MatOps A T) (ops' : MatOps A' T') (K : A → A' → Prop) : Prop where
  shape : ∀ {a a'}, K a a' → ops.shape a = ops'.shape a'
  get : ∀ {a a'}, K a a' → ∀ i j, SameOut S.rel (ops.get a i j) (ops'.get a' i j)
  set : ∀ {a a' v v'}, K a a' → ∀ i j, S.rel v v' → SameOut K (ops.set a i j v) (ops'.set a' i j v')

/-- Matrix classes with a product by a vector. -/
structure GOps' {A A' : Type} (ops : GOps A T) (ops' : GOps A' T') (K : A → A' → Prop) : Prop
    extends S.Ops ops.toMatOps ops'.toMatOps K where
  mul : ∀ {a a' x x'}, K a a' → S.L x x' → SameOut S.L (ops.mul a x) (ops'.mul a' x')

/-- Fields and a homomorphism between them. -/
def hom {K L : Type} [Field K] [Field L] [DecidableEq K] [DecidableEq L] (f : K →+* L) : Twin K L where
  rel a b := b = f a
  zero := (map_zero f).symm
  one := (map_one f).symm
  neg h := by rw [h, map_neg]
  add h h' := by rw [h, h', map_add]
  sub h h' := by rw [h, h', map_sub]
  mul h h' := by rw [h, h', map_mul]
  div := by
    intro a a' b b' h h'
    subst h; subst h'
    show SameOut _ (if b = 0 then .error .nonFinite else .ok (a / b)) (if f b = 0 then .error .nonFinite else .ok (f a / f b))
    by_cases hb : b = 0
    · rw [if_pos hb, if_pos (by rw [hb, map_zero])]; rfl
    · rw [if_neg hb, if_neg (fun k => hb ((map_eq_zero f).mp k))]; exact (map_div₀ f a b).symm

theorem hom_z {K L : Type} [Field K] [Field L] [DecidableEq K] [DecidableEq L] (f : K →+* L) : (hom f).SameZ := by
  intro a b h
  show a = 0 ↔ b = 0
  rw [show b = f a from h, map_eq_zero]

end Twin

end Lalib
