import Mathlib.LinearAlgebra.Matrix.SchurComplement
import Verif.Spec.Schur
import Verif.Proofs.Minimise

/-! # Subsystems and elimination in two stages -/

namespace Lalib

open Finset

variable {T : Type}

section closed
variable [CommRing T] {n k : Nat} {f : Nat → Nat} {A : Nat → Nat → T}

theorem ClosedSub.mulVec_eq (h : ClosedSub n k f A) (x : Nat → T) {i : Nat} (hi : i < k) :
    mulVec n A x (f i) = mulVec k (fun i j => A (f i) (f j)) (fun j => x (f j)) i := by
  unfold mulVec
  have e : ∑ j ∈ range k, A (f i) (f j) * x (f j) = ∑ j ∈ (range k).image f, A (f i) j * x j := by
    rw [sum_image]
    intro a ha b hb
    exact h.inj a b (by simpa using ha) (by simpa using hb)
  rw [e]
  symm
  refine sum_subset (fun j hj => ?_) fun j hj hn => ?_
  · obtain ⟨s, hs, rfl⟩ := mem_image.mp hj
    exact mem_range.mpr (h.lt s (mem_range.mp hs))
  · rw [h.zero i j hi (mem_range.mp hj) fun s hs he => hn (mem_image.mpr ⟨s, mem_range.mpr hs, he⟩), zero_mul]

theorem ClosedSub.solves (h : ClosedSub n k f A) {x b : Nat → T} (hx : Solves n A x b) :
    Solves k (fun i j => A (f i) (f j)) (fun i => x (f i)) (fun i => b (f i)) := fun i hi =>
  (h.mulVec_eq x hi).symm.trans (hx (f i) (h.lt i hi))

theorem ClosedSub.symm (h : ClosedSub n k f A) (hs : Symm n A) : Symm k (fun i j => A (f i) (f j)) := fun i j hi hj =>
  hs _ _ (h.lt i hi) (h.lt j hj)

theorem ClosedSub.posDef [LT T] (h : ClosedSub n k f A) (hp : PosDef n A) : PosDef k (fun i j => A (f i) (f j)) := by
  rintro y ⟨i, hi, hy⟩
  classical
  have key : ∀ g : Nat → T, ∑ j ∈ range n, g j * (∑ s ∈ range k, if f s = j then y s else 0) = ∑ s ∈ range k, g (f s) * y s := by
    intro g
    simp only [mul_sum]
    rw [sum_comm]
    refine sum_congr rfl fun s hs => ?_
    rw [sum_eq_single (f s)]
    · simp
    · intro j _ hj
      rw [if_neg (Ne.symm hj), mul_zero]
    · intro hc
      exact absurd (mem_range.mpr (h.lt s (mem_range.mp hs))) hc
  have := hp (fun j => ∑ s ∈ range k, if f s = j then y s else 0) ⟨f i, h.lt i hi, by
    rw [sum_eq_single i]
    · simpa using hy
    · intro s hs hne
      exact if_neg fun he => hne (h.inj s i (mem_range.mp hs) hi he)
    · intro hc
      exact absurd (mem_range.mpr hi) hc⟩
  refine lt_of_lt_of_eq this ?_
  simp only [key]
  have e := fun j => key fun i => A i j
  calc ∑ i ∈ range n, ∑ s ∈ range k, (∑ s ∈ range k, if f s = i then y s else 0) * A i (f s) * y s
      = ∑ i ∈ range n, (∑ s ∈ range k, A i (f s) * y s) * (∑ s ∈ range k, if f s = i then y s else 0) := by
        refine sum_congr rfl fun i _ => ?_
        rw [sum_mul]
        exact sum_congr rfl fun s _ => by ring
    _ = ∑ s ∈ range k, (∑ t ∈ range k, A (f s) (f t) * y t) * y s := key fun i => ∑ s ∈ range k, A i (f s) * y s
    _ = _ := by
        refine sum_congr rfl fun s _ => ?_
        rw [sum_mul]
        exact sum_congr rfl fun t _ => by ring

end closed

section schur
variable [CommRing T] {p q : Nat} {A Y : Nat → Nat → T}

theorem schur_symm (hs : Symm (p + q) A) (hY : ∀ j, j < q → Solves p A (fun i => Y i j) (fun i => A i (p + j))) :
    Symm q (schur p A Y) := by
  intro i j hi hj
  unfold schur
  rw [hs (p + i) (p + j) (by omega) (by omega)]
  congr 1
  have e : ∀ i j, i < q → j < q → ∑ k ∈ range p, A (p + i) k * Y k j = ∑ k ∈ range p, ∑ s ∈ range p, Y s i * A k s * Y k j := by
    intro i j hi hj
    refine sum_congr rfl fun k hk => ?_
    rw [hs (p + i) k (by omega) (by have := mem_range.mp hk; omega), 
      show A k (p + i) = mulVec p A (fun s => Y s i) k from (hY i hi k (mem_range.mp hk)).symm]
    simp only [mulVec, sum_mul]
    exact sum_congr rfl fun s _ => by ring
  rw [e i j hi hj, e j i hj hi, sum_comm]
  refine sum_congr rfl fun s hs' => sum_congr rfl fun k hk => ?_
  rw [hs k s (by have := mem_range.mp hk; omega) (by have := mem_range.mp hs'; omega)]
  ring

/-- What elimination leaves: row `p + i` of the whole system, for vectors which fulfil the first `p` equations. -/
theorem schur_row (hY : ∀ j, j < q → Solves p A (fun i => Y i j) (fun i => A i (p + j))) {z b y v : Nat → T}
    (hz : Solves p A z b) (h1 : ∀ i, i < p → v i = z i - ∑ j ∈ range q, Y i j * y j) (h2 : ∀ j, j < q → v (p + j) = y j) :
    (∀ i, i < p → mulVec (p + q) A v i = b i) ∧
    ∀ i, mulVec (p + q) A v (p + i) = mulVec q (schur p A Y) y i + ∑ k ∈ range p, A (p + i) k * z k := by
  have gen : ∀ r, mulVec (p + q) A v r = (∑ k ∈ range p, A r k * z k) +
      ∑ j ∈ range q, (A r (p + j) - ∑ k ∈ range p, A r k * Y k j) * y j := by
    intro r
    unfold mulVec
    rw [sum_range_add]
    have e1 : ∑ k ∈ range p, A r k * v k = (∑ k ∈ range p, A r k * z k) - ∑ j ∈ range q, (∑ k ∈ range p, A r k * Y k j) * y j := by
      simp only [sum_mul]
      rw [sum_comm, ← sum_sub_distrib]
      refine sum_congr rfl fun k hk => ?_
      rw [h1 k (mem_range.mp hk), mul_sub, mul_sum]
      congr 1
      exact sum_congr rfl fun j _ => by ring
    have e2 : ∑ j ∈ range q, A r (p + j) * v (p + j) = ∑ j ∈ range q, A r (p + j) * y j :=
      sum_congr rfl fun j hj => by rw [h2 j (mem_range.mp hj)]
    rw [e1, e2]
    simp only [sub_mul, sum_sub_distrib]
    ring
  refine ⟨fun i hi => ?_, fun i => ?_⟩
  · rw [gen i, show ∑ k ∈ range p, A i k * z k = b i from hz i hi, sum_eq_zero, add_zero]
    intro j hj
    rw [show ∑ k ∈ range p, A i k * Y k j = A i (p + j) from hY j (mem_range.mp hj) i hi, sub_self, zero_mul]
  · rw [gen (p + i), add_comm]
    rfl

theorem schur_solves (hY : ∀ j, j < q → Solves p A (fun i => Y i j) (fun i => A i (p + j))) {z b y v : Nat → T}
    (hz : Solves p A z b) (hy : Solves q (schur p A Y) y (schurRhs p A z b))
    (h1 : ∀ i, i < p → v i = z i - ∑ j ∈ range q, Y i j * y j) (h2 : ∀ j, j < q → v (p + j) = y j) :
    Solves (p + q) A v b := by
  obtain ⟨a, c⟩ := schur_row hY hz h1 h2
  intro i hi
  by_cases h : i < p
  · exact a i h
  · obtain ⟨j, rfl⟩ : ∃ j, i = p + j := ⟨i - p, by omega⟩
    rw [c j, hy j (by omega), schurRhs, sub_add_cancel]

theorem schur_minor (hY : ∀ j, j < q → Solves p A (fun i => Y i j) (fun i => A i (p + j))) {k : Nat} (hk : k ≤ q) :
    minor A (p + k) = minor A p * minor (schur p A Y) k := by
  have e : (Matrix.of fun i j : Fin (p + k) => A i j).submatrix finSumFinEquiv finSumFinEquiv =
      Matrix.fromBlocks (Matrix.of fun i j : Fin p => A i j) 0 (Matrix.of fun (i : Fin k) (j : Fin p) => A (p + i) j)
        (Matrix.of fun i j : Fin k => schur p A Y i j) *
      Matrix.fromBlocks 1 (Matrix.of fun (i : Fin p) (j : Fin k) => Y i j) 0 1 := by
    rw [Matrix.fromBlocks_multiply]
    ext i j
    rcases i with i | i <;> rcases j with j | j
    · simp
    · have := hY j (by omega) i i.2
      rw [mulVec, ← Fin.sum_univ_eq_sum_range fun k => A i k * Y k j] at this
      simp [Matrix.mul_apply, this]
    · simp
    · simp [Matrix.mul_apply, schur, ← Fin.sum_univ_eq_sum_range fun s => A (p + i) s * Y s j]
  unfold minor
  rw [← Matrix.det_submatrix_equiv_self finSumFinEquiv, e, Matrix.det_mul, Matrix.det_fromBlocks_zero₁₂,
    Matrix.det_fromBlocks_zero₂₁]
  simp

theorem schur_regular [NoZeroDivisors T] (hY : ∀ j, j < q → Solves p A (fun i => Y i j) (fun i => A i (p + j))) (hr : Regular A (p + q)) :
    Regular (schur p A Y) q := by
  intro k hk h
  refine hr (p + k) (by omega) ?_
  rw [show p + k + 1 = p + (k + 1) by omega, schur_minor hY (by omega), h, mul_zero]

end schur

theorem schur_posDef [Field T] [LinearOrder T] [IsStrictOrderedRing T] {p q : Nat} {A Y : Nat → Nat → T}
    (hY : ∀ j, j < q → Solves p A (fun i => Y i j) (fun i => A i (p + j))) (hp : PosDef (p + q) A) :
    PosDef q (schur p A Y) := by
  rintro y ⟨i, hi, hy⟩
  obtain ⟨a, c⟩ := schur_row (v := fun i => if i < p then 0 - ∑ j ∈ range q, Y i j * y j else y (i - p)) (z := fun _ => 0)
    (b := fun _ => 0) (y := y) hY (fun i _ => by simp [mulVec]) (fun i hi => if_pos hi) (fun j hj => by simp)
  have := hp.ip_pos (x := fun i => if i < p then 0 - ∑ j ∈ range q, Y i j * y j else y (i - p)) ⟨p + i, by omega, by simpa using hy⟩
  refine lt_of_lt_of_eq this ?_
  unfold ip
  rw [sum_range_add, sum_eq_zero fun i hi => by rw [a i (mem_range.mp hi), mul_zero], zero_add]
  refine sum_congr rfl fun i _ => ?_
  rw [c i]
  simp [mulVec, mul_sum, mul_assoc]

theorem PosDef.leading [CommRing T] [LT T] {p q : Nat} {A : Nat → Nat → T} (hp : PosDef (p + q) A) : PosDef p A := by
  rintro y ⟨i, hi, hy⟩
  have := hp (fun i => if i < p then y i else 0) ⟨i, by omega, by simpa [hi] using hy⟩
  refine lt_of_lt_of_eq this ?_
  rw [sum_range_add, sum_eq_zero (s := range q) fun i _ => by simp, add_zero]
  refine sum_congr rfl fun i hi => ?_
  rw [sum_range_add, sum_eq_zero (s := range q) fun i _ => by simp, add_zero]
  refine sum_congr rfl fun j hj => ?_
  simp [mem_range.mp hi, mem_range.mp hj]

end Lalib
