import Verif.Spec.Renumber
import Verif.Proofs.LinAlg
import Mathlib.LinearAlgebra.Matrix.NonsingularInverse
import Mathlib.LinearAlgebra.Matrix.Permutation

/-! # Changes of variables in a linear system -/

namespace Lalib

open Finset

variable {T : Type}

/-- The entries below `n`, as a matrix. -/
abbrev toMat (n : Nat) (A : Nat → Nat → T) : Matrix (Fin n) (Fin n) T := Matrix.of fun i j => A i j

section ring
variable [CommRing T] {n : Nat}

theorem mulVec_toMat (A : Nat → Nat → T) (x : Nat → T) (i : Fin n) :
    (toMat n A).mulVec (fun j : Fin n => x j) i = mulVec n A x i := by
  simp [mulVec, Matrix.mulVec, dotProduct, Finset.sum_range]

theorem solves_toMat {A : Nat → Nat → T} {x b : Nat → T} :
    Solves n A x b ↔ (toMat n A).mulVec (fun j : Fin n => x j) = fun i : Fin n => b i := by
  constructor
  · intro h
    funext i
    rw [mulVec_toMat, h i i.2]
  · intro h i hi
    have := congrFun h ⟨i, hi⟩
    rwa [mulVec_toMat] at this

theorem quad_toMat (A : Nat → Nat → T) (x : Nat → T) :
    ∑ i ∈ range n, ∑ j ∈ range n, x i * A i j * x j =
      (fun i : Fin n => x i) ⬝ᵥ (toMat n A).mulVec (fun j : Fin n => x j) := by
  simp only [dotProduct, Matrix.mulVec, Finset.sum_range, Finset.mul_sum, Matrix.of_apply, mul_assoc]

theorem Changed.toMat {P A M A' : Nat → Nat → T} (h : Changed n P A M A') :
    toMat n A' = toMat n P * (toMat n A * toMat n M) := by
  ext i j
  simp only [Matrix.mul_apply, Matrix.of_apply, h i j i.2 j.2, Finset.sum_range, Finset.mul_sum, mul_assoc]

theorem Changed.symm {A M A' : Nat → Nat → T} (h : Changed n (fun i j => M j i) A M A') (hs : Symm n A) : Symm n A' := by
  intro i j hi hj
  rw [h i j hi hj, h j i hj hi, Finset.sum_comm]
  refine sum_congr rfl fun q hq => sum_congr rfl fun p hp => ?_
  rw [hs p q (mem_range.mp hp) (mem_range.mp hq)]
  ring

end ring

section field
variable [Field T] {n : Nat}

theorem Changed.solves {P A M A' : Nat → Nat → T} (h : Changed n P A M A') (hP : minor P n ≠ 0) {x' b b' : Nat → T}
    (hb : ∀ i, i < n → b' i = mulVec n P b i) (hx : Solves n A' x' b') : Solves n A (mulVec n M x') b := by
  rw [solves_toMat] at hx
  rw [h.toMat, ← Matrix.mulVec_mulVec, ← Matrix.mulVec_mulVec] at hx
  have hu : IsUnit (Lalib.toMat n P).det := isUnit_iff_ne_zero.mpr hP
  have hb' : (fun i : Fin n => b' i) = (Lalib.toMat n P).mulVec fun i : Fin n => b i := by
    funext i
    rw [mulVec_toMat, hb i i.2]
  rw [hb'] at hx
  have := Matrix.mulVec_injective_of_isUnit ((Matrix.isUnit_iff_isUnit_det _).mpr hu) hx
  rw [solves_toMat, ← this]
  congr 1
  funext i
  exact (mulVec_toMat _ _ _).symm

variable [LinearOrder T]

theorem Changed.posDef {A M A' : Nat → Nat → T} (h : Changed n (fun i j => M j i) A M A') (hM : minor M n ≠ 0)
    (hp : PosDef n A) : PosDef n A' := by
  intro x hx
  rw [quad_toMat, h.toMat, ← Matrix.mulVec_mulVec, ← Matrix.mulVec_mulVec]
  have e : Lalib.toMat n (fun i j => M j i) = (Lalib.toMat n M).transpose := by ext i j; rfl
  rw [e, Matrix.dotProduct_mulVec, Matrix.vecMul_transpose]
  have e1 : (Lalib.toMat n M).mulVec (fun j : Fin n => x j) = fun i : Fin n => mulVec n M x i := by
    funext i; exact mulVec_toMat _ _ _
  rw [e1, ← quad_toMat]
  refine hp _ ?_
  by_contra hc
  push Not at hc
  obtain ⟨i, hi, h0⟩ := hx
  have hu : IsUnit (Lalib.toMat n M).det := isUnit_iff_ne_zero.mpr hM
  have hz : (Lalib.toMat n M).mulVec (fun j : Fin n => x j) = (Lalib.toMat n M).mulVec 0 := by
    rw [e1, Matrix.mulVec_zero]
    funext i
    exact hc i i.2
  have := Matrix.mulVec_injective_of_isUnit ((Matrix.isUnit_iff_isUnit_det _).mpr hu) hz
  exact h0 (congrFun this ⟨i, hi⟩)

end field

section perm
variable [CommRing T] {n : Nat}

/-- The matrix that puts component `i` of a vector at the place `σ i`. -/
def permMat (σ : Equiv.Perm (Fin n)) (p i : Nat) : T := if h : i < n then (if p = σ ⟨i, h⟩ then 1 else 0) else 0

theorem permMat_det [Nontrivial T] (σ : Equiv.Perm (Fin n)) : minor (permMat σ : Nat → Nat → T) n ≠ 0 := by
  have : (Matrix.of fun i j : Fin n => (permMat σ i j : T)) = (Equiv.Perm.permMatrix T σ).transpose := by
    ext i j
    simp [permMat, Equiv.Perm.permMatrix, PEquiv.toMatrix_apply, Fin.ext_iff, eq_comm]
  unfold minor
  rw [this, Matrix.det_transpose, Matrix.det_permutation]
  rcases Int.units_eq_one_or (Equiv.Perm.sign σ) with h | h <;> simp [h]

theorem permMat_changed (σ : Equiv.Perm (Fin n)) {A A' : Nat → Nat → T} (h : ∀ i j : Fin n, A' i j = A (σ i) (σ j)) :
    Changed n (fun i j => permMat σ j i) A (permMat σ) A' := by
  intro i j hi hj
  have e1 : ∀ p, (permMat σ p i : T) = if p = σ ⟨i, hi⟩ then 1 else 0 := fun p => by simp [permMat, hi]
  have e2 : ∀ p, (permMat σ p j : T) = if p = σ ⟨j, hj⟩ then 1 else 0 := fun p => by simp [permMat, hj]
  have := h ⟨i, hi⟩ ⟨j, hj⟩
  simp only at this
  simp [e1, e2, this]

theorem permMat_mulVec (σ : Equiv.Perm (Fin n)) (x : Nat → T) (i : Fin n) : mulVec n (permMat σ) x (σ i) = x i := by
  have : ∀ q : Fin n, (permMat σ (σ i) q : T) = if q = i then 1 else 0 := fun q => by
    simp [permMat, Fin.ext_iff.symm, eq_comm]
  simp [mulVec, Finset.sum_range, this]

theorem permMat_transpose_mulVec (σ : Equiv.Perm (Fin n)) (x : Nat → T) (i : Fin n) :
    mulVec n (fun i j => permMat σ j i) x i = x (σ i) := by
  simp [mulVec, permMat]

end perm

end Lalib
