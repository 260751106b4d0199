import Verif.Props.Vec
import Verif.Props.Struct

/-! # C01, C10, C18, C21, C23: operators that return vectors, factories, shapes -/

namespace Lalib.Props

open Lalib

variable {T : Type}

/-! ## C01: the operators that return a vector -/

/-- `x + y`, `x - y`, `-x`, `alpha * x`, `scaled(alpha, x)`, `x * alpha` for any type with any arithmetic. -/
theorem C01_operators [Add T] [Sub T] [Neg T] [Zero T] [Mul T] (ord : List Nat) (x y : List T) (alpha : T)
    (h : y.length = x.length) (hp : ord.Perm (List.range x.length)) :
    addOp ord x y = .ok (List.zipWith (fun a b => a + b) x y) ∧
    subOp ord x y = .ok (List.zipWith (fun a b => a - b) x y) ∧
    negOp x = .ok (x.map fun a => -a) ∧
    smulOp alpha x = .ok (x.map fun a => alpha * a) ∧
    scaled alpha x = .ok (x.map fun a => alpha * a) ∧
    mulsOp x alpha = .ok (x.map fun a => alpha * a) := by
  refine ⟨addOp_eq hp h, subOp_eq hp h, negOp_eq x, smulOp_eq alpha x, by unfold scaled; rw [smulOp_eq]; rfl, ?_⟩
  unfold mulsOp
  rw [scalCore_eq (by simp [Mem.len]), Mem.setBuf_self, Mem.setBuf_setBuf, ok_bind, Mem.setBuf_self]
  rfl

/-- `x / alpha`, where the quotient `1 / alpha` is `r`. -/
theorem C01_quotient [Zero T] [One T] [CDiv T] [Mul T] (x : List T) (alpha r : T) (h : divC 1 alpha = .ok r) :
    divOp x alpha = .ok (x.map fun a => r * a) := by
  unfold divOp divOpAt reciprocal
  rw [h, ok_bind, scalCore_eq (by simp [Mem.len]), Mem.setBuf_self, Mem.setBuf_setBuf, noexcept_ok, ok_bind]
  simp [Mem.ofList]

example : subOp [1, 0, 2] [5, 7, 9] [1, 2, (3 : Int)] = .ok [4, 5, 6] := by decide +kernel
example : divOp [2, 4] (2 : ℚ) = .ok [1, 2] := by decide +kernel

/-! ## C10: factories of vectors -/

/-- `DynVec::uninit(n)`, `DynVec::filled(n, v)`, `SizedVec::filled(v)`: sizes and elements. -/
theorem C10_vec_factories [Zero T] (n : Nat) (v : T) :
    (dynVecUninit n : List T).length = n ∧ (∀ i, i < n → lrd (dynVecUninit n : List T) i = .ok 0) ∧
    (dynVecFilled n v).length = n ∧ (∀ i, i < n → lrd (dynVecFilled n v) i = .ok v) ∧
    (sizedVecFilled n v).length = n ∧ (∀ i, i < n → lrd (sizedVecFilled n v) i = .ok v) := by
  simp +contextual [dynVecUninit, dynVecFilled, sizedVecFilled, lrd]

/-! ## C18: shape -/

/-- The constructor accepts any three vectors, the shape is the length of the diagonal, whatever the others are. -/
theorem C18_shape (dl d du : List T) : ∃ a, TriDiag.new dl d du = .ok a ∧ a.shape = (d.length, d.length) ∧
    a.dl = dl ∧ a.d = d ∧ a.du = du := ⟨_, rfl, rfl, rfl, rfl, rfl⟩

/-! ## C21: starting points -/

/-- An empty upper triangular matrix with capacity is a starting point for `C21_history`. -/
theorem C21_start_empty [Zero T] (rt : Nat → Nat) (hrt : SqrtExact rt) (cap : Nat) (f : Nat → Nat → T) :
    ∃ a, UTri.withCapacity rt cap = .ok a ∧ a.shape = (0, 0) ∧ UShows a ⟨0, f⟩ := by
  obtain ⟨a, e, hs, hu⟩ := (C21_construct_partial (T := T) rt hrt [] (by norm_num)).1 0 rfl
  refine ⟨a, by unfold UTri.withCapacity; rw [e]; rfl, hs, ?_, by simp [hu], fun i j h => absurd h (by simp)⟩
  simpa [UTri.shape] using hs

/-- Both extensions add one row and one column and keep every element of the old square; `extend_with_zero` puts zeros
there, `extend_with` the given column. -/
theorem C21_extend [Zero T] (a : UTri T) (hl : a.u.length = a.n * (a.n + 1) / 2) (es : List T)
    (he : es.length = a.n + 1) :
    (∃ b, a.extendWithZero = .ok b ∧ b.shape = (a.n + 1, a.n + 1) ∧
      (∀ i j, i < a.n → j < a.n → b.get i j = a.get i j) ∧
      ∀ i j, i ≤ a.n → j ≤ a.n → (i = a.n ∨ j = a.n) → b.get i j = .ok 0) ∧
    ∃ b, a.extendWith es = .ok b ∧ b.shape = (a.n + 1, a.n + 1) ∧
      (∀ i j, i < a.n → j < a.n → b.get i j = a.get i j) ∧
      ∀ i, i ≤ a.n → b.get i a.n = .ok (val0 es i) := by
  have hoff : ∀ j, j < a.n → (j + 1) * j / 2 + j < a.n * (a.n + 1) / 2 := by
    intro j hj
    have h1 : (j + 1) * j / 2 + j + 1 = (j + 2) * (j + 1) / 2 := by
      have : (j + 2) * (j + 1) = (j + 1) * j + 2 * (j + 1) := by ring
      omega
    have h2 : (j + 2) * (j + 1) / 2 ≤ a.n * (a.n + 1) / 2 := by
      refine Nat.div_le_div_right ?_
      rw [Nat.mul_comm a.n]
      exact Nat.mul_le_mul (by omega) (by omega)
    omega
  have hend : (a.n + 1) * a.n / 2 = a.u.length := by rw [hl, Nat.mul_comm]
  have old : ∀ (k : Nat) (l : List T) i j, i < a.n → j < a.n → (⟨k, a.u ++ l⟩ : UTri T).get i j = a.get i j := by
    intro k l i j hi hj
    unfold UTri.get
    by_cases hij : i ≤ j
    · have hlt : (j + 1) * j / 2 + i < a.u.length := by have := hoff j hj; omega
      rw [if_pos hij, if_pos hij]
      unfold lrd
      rw [List.getElem?_append_left hlt]
    · rw [if_neg hij, if_neg hij]
  have new : ∀ (k : Nat) (l : List T) i, l.length = a.n + 1 → i ≤ a.n →
      (⟨k, a.u ++ l⟩ : UTri T).get i a.n = .ok (val0 l i) := by
    intro k l i hl' hi
    unfold UTri.get
    rw [if_pos hi, hend]
    unfold lrd val0
    rw [List.getElem?_append_right (by omega), show a.u.length + i - a.u.length = i by omega,
      List.getElem?_eq_getElem (by omega)]
    simp [show i < l.length by omega]
  refine ⟨⟨_, rfl, rfl, fun i j hi hj => old _ _ i j hi hj, fun i j hi hj hn => ?_⟩,
    ⟨⟨a.n + 1, a.u ++ es⟩, by unfold UTri.extendWith; rw [he]; simp, rfl, fun i j hi hj => old _ _ i j hi hj,
      fun i hi => new _ _ i he hi⟩⟩
  by_cases h : j = a.n
  · subst h
    rw [new _ _ i (by simp) hi]
    simp [val0, show i < a.n + 1 by omega]
  · unfold UTri.get
    rw [if_neg (by omega)]

/-! ## C23: construction -/

/-- The constructors take the elements as they are: no check of their number. -/
theorem C23_construct (n : Nat) (l : List T) : ∃ a b, Herm.new n l = .ok a ∧ LTri.new n l = .ok b ∧ a.n = n ∧ b.n = n ∧
    a.l = l ∧ b.l = l ∧ ∀ i j, j ≤ i → a.get i j = lrd l (i * (i + 1) / 2 + j) ∧ b.get i j = lrd l (i * (i + 1) / 2 + j) :=
  ⟨_, _, rfl, rfl, rfl, rfl, rfl, rfl, fun i j h => by
    constructor <;> simp [Herm.get, LTri.get, packIdx, _root_.not_lt.mpr h]⟩

end Lalib.Props
