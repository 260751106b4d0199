import Verif.Proofs.LinAlg
import Verif.Proofs.Dense
import Verif.Spec.Inverse

/-! # Inverses column by column -/

namespace Lalib

open Finset

variable {T : Type} [Field T] {n : Nat} {A X : Nat → Nat → T}

private theorem pick (p : Nat) (hp : p < n) (f : Nat → T) : ∑ j ∈ range n, (if p = j then 1 else 0) * f j = f p := by
  rw [sum_eq_single p (fun j _ h => by rw [if_neg (Ne.symm h), zero_mul]) (fun h => absurd (mem_range.mpr hp) h), if_pos rfl, one_mul]

/-- `X b` solves the system with right-hand side `b`. -/
theorem inv_solves (hX : ∀ k, k < n → Solves n A (fun i => X i k) fun i => if i = k then 1 else 0) (b : Nat → T) :
    Solves n A (fun i => ∑ j ∈ range n, X i j * b j) b := by
  intro p hp
  have : mulVec n A (fun i => ∑ j ∈ range n, X i j * b j) p = ∑ j ∈ range n, mulVec n A (fun i => X i j) p * b j := by
    unfold mulVec
    simp only [mul_sum, sum_mul]
    rw [sum_comm]
    exact sum_congr rfl fun j _ => sum_congr rfl fun i _ => by ring
  rw [this, sum_congr rfl fun j hj => by rw [hX j (mem_range.mp hj) p hp]]
  exact pick p hp b

theorem inv_apply (hm : minor A n ≠ 0) (hX : ∀ k, k < n → Solves n A (fun i => X i k) fun i => if i = k then 1 else 0)
    {x b : Nat → T} (h : Solves n A x b) : ∀ i, i < n → ∑ j ∈ range n, X i j * b j = x i :=
  fun i hi => solves_unique hm (inv_solves hX b) h i hi

theorem inv_left (hm : minor A n ≠ 0) (hX : ∀ k, k < n → Solves n A (fun i => X i k) fun i => if i = k then 1 else 0) :
    ∀ i k, i < n → k < n → ∑ j ∈ range n, X i j * A j k = if i = k then 1 else 0 := by
  intro i k hi hk
  refine inv_apply hm hX (x := fun i => if i = k then 1 else 0) (b := fun j => A j k) (fun p hp => ?_) i hi
  unfold mulVec
  refine Eq.trans ?_ (pick (n := n) k hk fun j => A p j)
  exact sum_congr rfl fun j _ => by rw [mul_comm]; simp only [eq_comm (a := j)]

theorem inv_symm (hm : minor A n ≠ 0) (hX : ∀ k, k < n → Solves n A (fun i => X i k) fun i => if i = k then 1 else 0)
    (hs : Symm n A) : Symm n X := by
  intro i k hi hk
  refine solves_unique hm (hX k hk) (fun p hp => ?_) i hi
  unfold mulVec
  have := inv_left hm hX k p hk hp
  simp only [eq_comm (a := p)]
  rw [← this]
  exact sum_congr rfl fun j hj => by rw [hs p j hp (mem_range.mp hj), mul_comm]

theorem inv_posDef [LinearOrder T] (hX : ∀ k, k < n → Solves n A (fun i => X i k) fun i => if i = k then 1 else 0)
    (hp : PosDef n A) : PosDef n X := by
  intro x hx
  have h := inv_solves hX x
  have hy : ∃ i, i < n ∧ (∑ j ∈ range n, X i j * x j) ≠ 0 := by
    by_contra hc
    push Not at hc
    obtain ⟨i, hi, h0⟩ := hx
    apply h0
    rw [← h i hi]
    exact sum_eq_zero fun j hj => by
      simp only [hc j (mem_range.mp hj), mul_zero]
  have := hp _ hy
  refine this.trans_eq (sum_congr rfl fun i hi => ?_)
  have e := h i (mem_range.mp hi)
  unfold mulVec at e
  calc _ = (∑ j ∈ range n, X i j * x j) * ∑ j ∈ range n, A i j * ∑ k ∈ range n, X j k * x k := by
        rw [mul_sum]; exact sum_congr rfl fun j _ => by ring
    _ = _ := by rw [e, sum_mul]; exact sum_congr rfl fun j _ => by ring

theorem solves_comb {x x' b b' : Nat → T} (s t : T) (h : Solves n A x b) (h' : Solves n A x' b') :
    Solves n A (fun i => s * x i + t * x' i) fun i => s * b i + t * b' i := by
  intro i hi
  show _ = s * b i + t * b' i
  rw [← h i hi, ← h' i hi]
  unfold mulVec
  rw [mul_sum, mul_sum, ← sum_add_distrib]
  exact sum_congr rfl fun j _ => by ring

/-- The products in the library, for lists. -/
theorem inv_products (nd : Bool) (hm : minor A n ≠ 0) {a x : List T} (ha : a.length = n * n) (hx : x.length = n * n)
    (haA : ∀ i j, i < n → j < n → entry n a i j = A i j)
    (hX : ∀ k, k < n → Solves n A (fun i => entry n x i k) fun i => if i = k then 1 else 0) :
    matMul nd ⟨n, n, a⟩ ⟨n, n, x⟩ = DMat.identity n ∧ matMul nd ⟨n, n, x⟩ ⟨n, n, a⟩ = DMat.identity n := by
  unfold DMat.identity
  rw [diagConst_eq, matMul_eq ha hx rfl, matMul_eq hx ha rfl]
  refine ⟨?_, ?_⟩
  all_goals
    congr 2
    refine mat_ext (n := n) (m := n) (by simp) (by simp) fun i j hi hj => ?_
    rw [entry_matOf _ hi hj, entry_matOf _ hi hj]
  · refine Eq.trans ?_ (hX j hj i hi)
    exact sum_congr rfl fun k hk => by rw [haA i k hi (mem_range.mp hk)]
  · rw [← inv_left hm hX i j hi hj]
    exact sum_congr rfl fun k hk => by rw [haA k j (mem_range.mp hk) hj]

theorem inv_matVec (nd : Bool) (hm : minor A n ≠ 0) {x y b : List T} (hx : x.length = n * n)
    (hX : ∀ k, k < n → Solves n A (fun i => entry n x i k) fun i => if i = k then 1 else 0) (hy : y.length = n) (hb : b.length = n)
    (h : Solves n A (val0 y) (val0 b)) : matVec nd ⟨n, n, x⟩ b = .ok y := by
  rw [matVec_eq hx hb]
  congr 1
  refine list_ext_val0 (by simp [hy]) fun i hi => ?_
  have hi : i < n := by simpa using hi
  rw [val0_map_range, if_pos hi]
  exact inv_apply hm hX h i hi

end Lalib
