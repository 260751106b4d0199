import Verif.Proofs.GmresRun
import Mathlib.LinearAlgebra.FiniteDimensional.Lemmas
import Mathlib.LinearAlgebra.Dimension.Constructions

/-! # Krylov spaces: how many vectors are needed -/

namespace Lalib.Gmres

open Lalib Finset

variable {T : Type}

section field
variable [Field T] {n : Nat} {P A : Nat → Nat → T} {b : Nat → T} {u : Nat → Nat → T}

theorem mulVec_comb (B : Nat → Nat → T) (c : Nat → T) (v : Nat → Nat → T) (m i : Nat) :
    mulVec n B (fun j => ∑ l ∈ range m, c l * v l j) i = ∑ l ∈ range m, c l * mulVec n B (v l) i := by
  unfold mulVec
  simp only [mul_sum]
  rw [sum_comm]
  exact sum_congr rfl fun l _ => sum_congr rfl fun j _ => by ring

theorem mulVec_congr (B : Nat → Nat → T) {x y : Nat → T} (h : ∀ j, j < n → x j = y j) (i : Nat) :
    mulVec n B x i = mulVec n B y i := sum_congr rfl fun j hj => by rw [h j (mem_range.mp hj)]

theorem comb_mono {v : Nat → Nat → T} {x : Nat → T} {k m : Nat} (h : Comb n k v x) (hkm : k ≤ m) : Comb n m v x := by
  obtain ⟨c, hc⟩ := h
  refine ⟨fun l => if l < k then c l else 0, fun i hi => ?_⟩
  rw [hc i hi, ← sum_subset (range_subset_range.mpr hkm) fun l _ hl => by
    beta_reduce; rw [if_neg (fun h => hl (mem_range.mpr h)), zero_mul]]
  exact sum_congr rfl fun l hl => by beta_reduce; rw [if_pos (mem_range.mp hl)]

theorem comb_axpy {v : Nat → Nat → T} {x y : Nat → T} {m : Nat} (hx : Comb n m v x) (hy : Comb n m v y) (t : T) :
    Comb n m v fun i => x i + t * y i := by
  obtain ⟨c, hc⟩ := hx
  obtain ⟨d, hd⟩ := hy
  refine ⟨fun l => c l + t * d l, fun i hi => ?_⟩
  simp only
  rw [hc i hi, hd i hi, mul_sum, ← sum_add_distrib]
  exact sum_congr rfl fun l _ => by ring

/-- The image of a combination of Krylov vectors. -/
theorem comb_step (hP : minor P n ≠ 0) (hu : IsKrylov n P A b u) {w v : Nat → T} {m : Nat} (hw : Comb n m u w)
    (hv : Solves n P v (mulVec n A w)) : Comb n (m + 1) u v := by
  obtain ⟨c, hc⟩ := hw
  have h : ∀ i, i < n → v i = ∑ l ∈ range m, c l * u (l + 1) i := by
    refine solves_unique hP hv fun i hi => ?_
    rw [mulVec_comb, mulVec_congr A hc, mulVec_comb]
    exact sum_congr rfl fun l _ => by rw [hu.2 l i hi]
  refine ⟨fun l => match l with | 0 => 0 | l + 1 => c l, fun i hi => ?_⟩
  rw [sum_range_succ', h i hi]
  simp

/-- One step of Richardson's iteration. -/
theorem presid_axpy {x z v : Nat → T} (hz : PResid n P A b x z) (hv : Solves n P v (mulVec n A z)) (t : T) :
    PResid n P A b (fun i => x i + t * z i) (fun i => z i - t * v i) := by
  intro i hi
  have e : ∀ (B : Nat → Nat → T) (x y : Nat → T) (s : T), mulVec n B (fun i => x i + s * y i) i = mulVec n B x i + s * mulVec n B y i := by
    intro B x y s
    unfold mulVec
    rw [mul_sum, ← sum_add_distrib]
    exact sum_congr rfl fun j _ => by ring
  have e2 : mulVec n P (fun i => z i - t * v i) i = mulVec n P z i - t * mulVec n P v i := by
    have := e P z v (-t)
    simp only [neg_mul, ← sub_eq_add_neg] at this
    exact this
  rw [e2, hz i hi, hv i hi]
  unfold resid
  rw [e]
  ring

theorem presid_zero (hu : IsKrylov n P A b u) : PResid n P A b (fun _ => 0) (u 0) := by
  intro i hi
  rw [hu.1 i hi]
  simp [resid, mulVec]

/-- A linear relation between the first `m + 1` Krylov vectors: the exact solution is a combination of `m` of them. -/
theorem krylov_relation (hA : minor A n ≠ 0) (hu : IsKrylov n P A b u) : ∀ (m : Nat) (a : Nat → T),
    (∀ i, i < n → ∑ l ∈ range (m + 1), a l * u l i = 0) → (∃ l, l ≤ m ∧ a l ≠ 0) →
    ∃ y, Comb n m u y ∧ Solves n A y b := by
  intro m
  induction m with
  | zero =>
    rintro a h ⟨l, hl, hne⟩
    obtain rfl : l = 0 := by omega
    refine ⟨fun _ => 0, ⟨fun _ => 0, by simp⟩, fun i hi => ?_⟩
    have h0 : ∀ j, j < n → u 0 j = 0 := fun j hj => by
      have := h j hj
      rw [sum_range_one] at this
      exact (mul_eq_zero.mp this).resolve_left hne
    rw [← hu.1 i hi, mulVec_congr P h0]
    simp [mulVec]
  | succ m ih =>
    rintro a h ⟨l, hl, hne⟩
    have hsh : ∀ i, i < n → mulVec n A (fun j => ∑ l ∈ range (m + 1), a (l + 1) * u l j) i = -(a 0 * b i) := by
      intro i hi
      rw [mulVec_comb]
      have e : ∀ l, mulVec n A (u l) i = mulVec n P (u (l + 1)) i := fun l => (hu.2 l i hi).symm
      simp only [e]
      have : mulVec n P (fun j => ∑ l ∈ range (m + 2), a l * u l j) i = 0 := by
        rw [mulVec_congr P (y := fun _ => 0) (fun j hj => h j hj)]
        simp [mulVec]
      rw [mulVec_comb, sum_range_succ'] at this
      rw [hu.1 i hi] at this
      linear_combination this
    by_cases h0 : a 0 = 0
    · obtain ⟨y, hy, hs⟩ := ih (fun l => a (l + 1)) (by
        refine solves_unique hA (y := fun _ => 0) (b := fun _ => 0) (fun i hi => ?_) (fun i _ => by simp [mulVec])
        rw [hsh i hi, h0]; simp) ⟨l - 1, by omega, by
          have : l ≠ 0 := by rintro rfl; exact hne h0
          rwa [Nat.sub_add_cancel (by omega)]⟩
      exact ⟨y, comb_mono hy (by omega), hs⟩
    · refine ⟨fun j => ∑ l ∈ range (m + 1), -(a (l + 1) / a 0) * u l j, ⟨_, fun _ _ => rfl⟩, fun i hi => ?_⟩
      have e : ∀ j, (∑ l ∈ range (m + 1), -(a (l + 1) / a 0) * u l j) = -(1 / a 0) * ∑ l ∈ range (m + 1), a (l + 1) * u l j := by
        intro j
        rw [mul_sum]
        exact sum_congr rfl fun l _ => by ring
      simp only [e]
      have e2 : mulVec n A (fun j => -(1 / a 0) * ∑ l ∈ range (m + 1), a (l + 1) * u l j) i =
          -(1 / a 0) * mulVec n A (fun j => ∑ l ∈ range (m + 1), a (l + 1) * u l j) i := by
        unfold mulVec
        rw [mul_sum]
        exact sum_congr rfl fun j _ => by ring
      rw [e2, hsh i hi]
      field_simp

/-- The preconditioner differs from the matrix by a matrix of rank at most `r`: the solution is a combination of `r + 1` Krylov
vectors. -/
theorem krylov_rank {ι : Type} [Fintype ι] (hP : minor P n ≠ 0) (hA : minor A n ≠ 0) (hu : IsKrylov n P A b u)
    (C : Nat → ι → T) (D : ι → Nat → T) (h : ∀ i j, i < n → j < n → A i j = P i j + ∑ l, C i l * D l j) :
    ∃ y, Comb n (Fintype.card ι + 1) u y ∧ Solves n A y b := by
  classical
  set r := Fintype.card ι
  let f : (Fin (r + 1) → T) →ₗ[T] (ι → T) :=
    { toFun := fun c l => ∑ k : Fin (r + 1), c k * ∑ j ∈ range n, D l j * u k j
      map_add' := fun c d => by ext l; simp [add_mul, sum_add_distrib]
      map_smul' := fun s c => by ext l; simp [mul_sum, mul_assoc] }
  have hk : LinearMap.ker f ≠ ⊥ := LinearMap.ker_ne_bot_of_finrank_lt (by simp [r])
  obtain ⟨c, hc, hne⟩ := (Submodule.ne_bot_iff _).mp hk
  let a : Nat → T := fun k => if hk : k < r + 1 then c ⟨k, hk⟩ else 0
  have ha : ∀ g : Nat → T, ∑ k ∈ range (r + 1), a k * g k = ∑ k : Fin (r + 1), c k * g k := by
    intro g
    rw [← Fin.sum_univ_eq_sum_range (fun k => a k * g k)]
    exact sum_congr rfl fun k _ => by simp only [a, dif_pos k.2]
  -- the combination with `D v = 0`
  have hv0 : ∀ l : ι, ∑ j ∈ range n, D l j * (∑ k ∈ range (r + 1), a k * u k j) = 0 := by
    intro l
    have := congrFun (LinearMap.mem_ker.mp hc) l
    have e : f c l = ∑ k : Fin (r + 1), c k * ∑ j ∈ range n, D l j * u k j := rfl
    rw [e] at this
    rw [← (ha fun k => ∑ j ∈ range n, D l j * u k j)] at this
    simp only [mul_sum] at this ⊢
    rw [sum_comm]
    rw [← (show _ = (0 : T) from this)]
    exact sum_congr rfl fun k _ => sum_congr rfl fun j _ => by ring
  -- is a fixed point
  have hfix : ∀ i, i < n → ∑ k ∈ range (r + 1), a k * u (k + 1) i = ∑ k ∈ range (r + 1), a k * u k i := by
    refine solves_unique hP (b := mulVec n A fun j => ∑ k ∈ range (r + 1), a k * u k j) (fun i hi => ?_) (fun i hi => ?_)
    · rw [mulVec_comb, mulVec_comb]
      exact sum_congr rfl fun l _ => by rw [hu.2 l i hi]
    · have : mulVec n A (fun j => ∑ k ∈ range (r + 1), a k * u k j) i =
          mulVec n P (fun j => ∑ k ∈ range (r + 1), a k * u k j) i +
            ∑ l, C i l * ∑ j ∈ range n, D l j * (∑ k ∈ range (r + 1), a k * u k j) := by
        unfold mulVec
        simp only [mul_sum (s := range n)]
        rw [sum_comm (t := range n), ← sum_add_distrib]
        refine sum_congr rfl fun j hj => ?_
        rw [h i j hi (mem_range.mp hj), add_mul, sum_mul]
        congr 1
        exact sum_congr rfl fun l _ => by ring
      rw [this]
      simp [hv0]
  -- the relation `(M - 1) v = 0`
  let a' : Nat → T := fun k => (match k with | 0 => 0 | k + 1 => a k) - a k
  have hlast : a (r + 1) = 0 := by simp [a]
  refine krylov_relation hA hu (r + 1) a' (fun i hi => ?_) ?_
  · have e1 : ∑ l ∈ range (r + 1 + 1), a l * u l i = ∑ l ∈ range (r + 1), a l * u l i := by
      rw [sum_range_succ, hlast, zero_mul, add_zero]
    have e2 : ∑ l ∈ range (r + 1 + 1), (match l with | 0 => 0 | k + 1 => a k) * u l i = ∑ l ∈ range (r + 1), a l * u (l + 1) i := by
      rw [sum_range_succ']; simp
    simp only [a', sub_mul, sum_sub_distrib]
    rw [e1, e2, hfix i hi, sub_self]
  · by_contra hcon
    push Not at hcon
    apply hne
    have hz : ∀ k, k ≤ r → a k = 0 := by
      intro k hk
      induction k with
      | zero => simpa [a'] using hcon 0 (by omega)
      | succ k ih => simpa [a', ih (by omega)] using hcon (k + 1) (by omega)
    ext k
    have := hz k (by omega)
    simp only [a, dif_pos k.2] at this
    exact this

end field

section ordered
variable [Field T] [LinearOrder T] [IsStrictOrderedRing T] {n : Nat} {P A : Nat → Nat → T} {b : Nat → T} {u : Nat → Nat → T}

/-- An exact solution in a Krylov space stops the iteration. -/
theorem isGmres_le {tol : T} {x z y : Nat → T} {k m : Nat} (ht : 0 < tol)
    (h : IsGmres n P A b tol u x k z) (hm : 0 < m) (hy : Comb n m u y) (hs : Solves n A y b) :
    k ≤ m ∧ (k = m → Solves n A x b) := by
  have hw : PResid n P A b y fun _ => 0 := fun i hi => by
    unfold resid
    rw [hs i hi]
    simp [mulVec]
  have h0 : normSq n (fun _ => (0 : T)) = 0 := by simp [normSq]
  constructor
  · by_contra hc
    have := h.first m hm (by omega) y _ hy hw
    rw [h0] at this
    exact absurd this (not_le.mpr (by positivity))
  · rintro rfl
    have := h.minimal y _ hy hw
    rw [h0] at this
    have hz := normSq_zero this
    intro i hi
    have := h.res i hi
    rw [mulVec_congr P hz] at this
    unfold resid at this
    have e : mulVec n P (fun _ => (0 : T)) i = 0 := by simp [mulVec]
    rw [e] at this
    linear_combination this

/-- Richardson's iteration with a factor that shrinks all vectors. -/
theorem richardson (hP : minor P n ≠ 0) (hu : IsKrylov n P A b u) (t rho : T) (hr : 0 ≤ rho)
    (hc : ∀ v w, Solves n P w (mulVec n A v) → normSq n (fun i => v i - t * w i) ≤ rho * normSq n v) (m : Nat) :
    ∃ y w, Comb n m u y ∧ Comb n (m + 1) u w ∧ PResid n P A b y w ∧ normSq n w ≤ rho ^ m * normSq n (u 0) := by
  induction m with
  | zero =>
    exact ⟨fun _ => 0, u 0, ⟨fun _ => 0, by simp⟩, ⟨fun _ => 1, by simp⟩, presid_zero hu, by simp⟩
  | succ m ih =>
    obtain ⟨y, w, hy, hw, hz, hn⟩ := ih
    obtain ⟨v, hv⟩ := exists_solves hP (mulVec n A w)
    refine ⟨_, _, comb_axpy (comb_mono hy (Nat.le_succ m)) hw t, ?_, presid_axpy hz hv t, ?_⟩
    · have := comb_axpy (comb_mono hw (Nat.le_succ _)) (comb_step hP hu hw hv) (-t)
      simp only [neg_mul, ← sub_eq_add_neg] at this
      exact this
    · refine (hc w v hv).trans ?_
      rw [pow_succ', mul_assoc]
      exact mul_le_mul_of_nonneg_left hn hr

end ordered

end Lalib.Gmres
