import Verif.Spec.Cramer
import Verif.Proofs.Minimise
import Verif.Proofs.Renumber
import Mathlib.LinearAlgebra.Matrix.Adjugate
import Mathlib.LinearAlgebra.Matrix.SchurComplement

/-! # Cramer's rule and rank-one changes -/

namespace Lalib

open Finset

variable {T : Type} {n : Nat}

section
variable [CommRing T]

theorem cramer_of {A : Nat → Nat → T} {x b : Nat → T} (h : Solves n A x b) : Cramer n A x b := by
  intro i hi
  rw [solves_toMat] at h
  have e : (toMat n A).updateCol ⟨i, hi⟩ (fun j : Fin n => b j) = toMat n (setCol A i b) := by
    ext p q
    simp only [Matrix.updateCol_apply, Matrix.of_apply, setCol, Fin.ext_iff]
  have := Matrix.cramer_apply (toMat n A) (fun j : Fin n => b j) ⟨i, hi⟩
  rw [e, ← h, Matrix.cramer_eq_adjugate_mulVec, Matrix.mulVec_mulVec, Matrix.adjugate_mul, Matrix.smul_mulVec, Matrix.one_mulVec] at this
  simpa [minor] using this

theorem minor_int {A : Nat → Nat → T} (h : ∀ i j, i < n → j < n → IsInt (A i j)) : IsInt (minor A n) := by
  choose! z hz using h
  refine ⟨(Matrix.of fun i j : Fin n => z i j).det, ?_⟩
  have := RingHom.map_det (Int.castRingHom T) (Matrix.of fun i j : Fin n => z i j)
  simp only [Int.coe_castRingHom] at this
  rw [this]
  unfold minor
  congr 1
  ext i j
  simp [hz i j i.2 j.2]

theorem int_of {A : Nat → Nat → T} {x b : Nat → T} (h : Solves n A x b) : IntResult n A x b := by
  intro hA hb
  obtain ⟨d, hd⟩ := minor_int hA
  have hx : ∀ i, i < n → IsInt (d * x i) := fun i hi => by
    rw [← hd, cramer_of h i hi]
    refine minor_int fun p q hp hq => ?_
    unfold setCol
    split
    · exact hb p hp
    · exact hA p q hp hq
  refine ⟨d, hd, hx, fun h1 i hi => ?_⟩
  obtain ⟨z, hz⟩ := hx i hi
  rcases h1 with rfl | rfl
  · exact ⟨z, by simpa using hz⟩
  · refine ⟨-z, ?_⟩
    simp only [Int.cast_neg, Int.cast_one, neg_mul, one_mul] at hz
    rw [Int.cast_neg, ← hz, neg_neg]

theorem rankOne_apply (A : Nat → Nat → T) (t : T) (u v z : Nat → T) (i : Nat) :
    mulVec n (rankOne A t u v) z i = mulVec n A z i + t * u i * ip n v z := by
  unfold mulVec rankOne ip
  rw [mul_sum, ← sum_add_distrib]
  exact sum_congr rfl fun j _ => by ring

theorem rankOne_symm {A : Nat → Nat → T} (h : Symm n A) (t : T) (u : Nat → T) : Symm n (rankOne A t u u) := fun i j hi hj => by
  unfold rankOne
  rw [h i j hi hj]
  ring

theorem rankOne_form (A : Nat → Nat → T) (t : T) (u z : Nat → T) :
    ip n z (mulVec n (rankOne A t u u) z) = ip n z (mulVec n A z) + t * ip n u z ^ 2 := by
  have : ip n z (mulVec n (rankOne A t u u) z) = ip n z (fun i => mulVec n A z i + t * ip n u z * u i) :=
    sum_congr rfl fun i _ => by rw [rankOne_apply]; ring
  rw [this, ip_add_right, ip_smul_right, ip_flip z u]
  ring

/-- The determinant of a rank-one change. -/
theorem rankOne_minor {A : Nat → Nat → T} {t : T} {u v y : Nat → T} (h : Solves n A y u) :
    minor (rankOne A t u v) n = minor A n * (1 + t * ip n v y) := by
  rw [solves_toMat] at h
  have e : toMat n (rankOne A t u v) = toMat n A * (1 + Matrix.replicateCol Unit (fun j : Fin n => y j) *
      Matrix.replicateRow Unit (fun j : Fin n => t * v j)) := by
    rw [mul_add, mul_one, ← Matrix.mul_assoc]
    ext i j
    have := congrFun h i
    simp only [Matrix.add_apply, Matrix.of_apply, rankOne, Matrix.mul_apply, Matrix.replicateCol_apply, Matrix.replicateRow_apply,
      univ_unique, sum_singleton]
    simp only [Matrix.mulVec, dotProduct, Matrix.of_apply] at this
    rw [this]
    ring
  have := congrArg Matrix.det e
  rw [Matrix.det_mul, Matrix.det_one_add_replicateCol_mul_replicateRow] at this
  have f : (fun j : Fin n => t * v j) ⬝ᵥ (fun j : Fin n => y j) = t * ip n v y := by
    unfold ip
    rw [mul_sum, sum_range]
    exact sum_congr rfl fun j _ => by ring
  rw [f] at this
  exact this

end

section
variable [Field T]

/-- The solution after a rank-one change. -/
theorem rankOne_solves {A : Nat → Nat → T} {t : T} {u v x y b : Nat → T} (hx : Solves n A x b) (hy : Solves n A y u)
    (h : 1 + t * ip n v y ≠ 0) :
    Solves n (rankOne A t u v) (fun i => x i - t * ip n v x / (1 + t * ip n v y) * y i) b := by
  intro i hi
  rw [rankOne_apply, mulVec_diff, ip_diff_right, hx i hi, ip_smul_right]
  have : mulVec n A (fun j => t * ip n v x / (1 + t * ip n v y) * y j) i = t * ip n v x / (1 + t * ip n v y) * u i := by
    rw [← hy i hi]
    unfold mulVec
    rw [mul_sum]
    exact sum_congr rfl fun j _ => by ring
  rw [this]
  generalize hc : ip n v y = c at h
  generalize ip n v x = w
  field_simp
  ring

variable [LinearOrder T] [IsStrictOrderedRing T]

theorem rankOne_posDef {A : Nat → Nat → T} (hs : Symm n A) (hp : PosDef n A) {t : T} {u y : Nat → T} (hy : Solves n A y u) :
    PosDef n (rankOne A t u u) ↔ 0 < 1 + t * ip n u y := by
  have ey : ip n y (mulVec n A y) = ip n u y := by rw [ip_solves hy, ip_flip]
  have y0 : 0 ≤ ip n u y := ey ▸ hp.ip_nonneg y
  constructor
  · intro h
    by_contra hc
    have hc : 1 + t * ip n u y ≤ 0 := not_lt.mp hc
    have hne : ip n u y ≠ 0 := fun h0 => by rw [h0, mul_zero] at hc; linarith
    have hy0 : ∃ i, i < n ∧ y i ≠ 0 := by
      by_contra hz
      push Not at hz
      exact hne (sum_eq_zero fun i hi => by rw [hz i (mem_range.mp hi), mul_zero])
    have := h.ip_pos hy0
    rw [rankOne_form, ey] at this
    nlinarith
  · intro h z hz
    rw [← ip_form, rankOne_form]
    have zp := hp.ip_pos hz
    have sw := energy_schwarz hs hp hy z
    rcases le_or_gt 0 t with ht | ht
    · nlinarith [mul_nonneg ht (sq_nonneg (ip n u z))]
    · nlinarith [mul_le_mul_of_nonpos_left sw ht.le, mul_pos h zp]

end

end Lalib
