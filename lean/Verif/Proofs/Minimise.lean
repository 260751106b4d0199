import Verif.Spec.Minimise
import Verif.Proofs.Orth
import Verif.Proofs.LinAlg
import Mathlib.Tactic.Linarith

/-! # Minimisers of the energy, least squares -/

namespace Lalib

open Finset

variable {T : Type} {n : Nat}

section
variable [CommRing T]

theorem ip_form (A : Nat → Nat → T) (x : Nat → T) : ip n x (mulVec n A x) = ∑ i ∈ range n, ∑ j ∈ range n, x i * A i j * x j := by
  unfold ip mulVec
  refine sum_congr rfl fun i _ => ?_
  rw [mul_sum]
  exact sum_congr rfl fun j _ => by ring

theorem ip_symm {A : Nat → Nat → T} (h : Symm n A) (x y : Nat → T) : ip n x (mulVec n A y) = ip n y (mulVec n A x) := by
  unfold ip mulVec
  simp only [mul_sum]
  rw [sum_comm]
  refine sum_congr rfl fun i hi => sum_congr rfl fun j hj => ?_
  rw [h i j (mem_range.mp hi) (mem_range.mp hj)]
  ring

theorem mulVec_diff (A : Nat → Nat → T) (x y : Nat → T) (i : Nat) :
    mulVec n A (fun j => x j - y j) i = mulVec n A x i - mulVec n A y i := by
  unfold mulVec
  rw [← sum_sub_distrib]
  exact sum_congr rfl fun j _ => by ring

theorem ip_diff_left (x y z : Nat → T) : ip n (fun i => x i - y i) z = ip n x z - ip n y z := by
  unfold ip
  rw [← sum_sub_distrib]
  exact sum_congr rfl fun j _ => by ring

theorem ip_diff_right (x y z : Nat → T) : ip n z (fun i => x i - y i) = ip n z x - ip n z y := by
  unfold ip
  rw [← sum_sub_distrib]
  exact sum_congr rfl fun j _ => by ring

theorem ip_flip (x y : Nat → T) : ip n x y = ip n y x := sum_congr rfl fun _ _ => mul_comm _ _

theorem ip_solves {A : Nat → Nat → T} {x b : Nat → T} (h : Solves n A x b) (z : Nat → T) : ip n z (mulVec n A x) = ip n z b :=
  sum_congr rfl fun i hi => by rw [h i (mem_range.mp hi)]

/-- The energy around a solution. -/
theorem energy_split {A : Nat → Nat → T} (hs : Symm n A) {x b : Nat → T} (h : Solves n A x b) (y : Nat → T) :
    energy n A b y = energy n A b x + ip n (fun i => y i - x i) (mulVec n A fun i => y i - x i) := by
  have e : ip n (fun i => y i - x i) (mulVec n A fun i => y i - x i) =
      ip n (fun i => y i - x i) (fun i => mulVec n A y i - mulVec n A x i) := sum_congr rfl fun i _ => by rw [mulVec_diff]
  rw [e, ip_diff_left, ip_diff_right, ip_diff_right, ip_symm hs x y]
  unfold energy
  rw [ip_solves h y, ip_solves h x, ip_flip b y, ip_flip b x]
  ring

theorem energy_at {A : Nat → Nat → T} {x b : Nat → T} (h : Solves n A x b) : energy n A b x = -ip n b x := by
  unfold energy
  rw [ip_solves h x, ip_flip b x]
  ring

/-- Multiplying by the transpose. -/
theorem ip_transp {p : Nat} {a t : Nat → Nat → T} (h : IsTransp p n a t) (x y : Nat → T) :
    ip n x (fun j => ∑ i ∈ range p, t j i * y i) = ip p (mulVec n a x) y := by
  unfold ip mulVec
  simp only [mul_sum, sum_mul]
  rw [sum_comm]
  refine sum_congr rfl fun i hi => sum_congr rfl fun j hj => ?_
  rw [h i j (mem_range.mp hi) (mem_range.mp hj)]
  ring

theorem normal_apply {p : Nat} {a t C : Nat → Nat → T}
    (hC : ∀ i j, i < n → j < n → C i j = ∑ k ∈ range p, t i k * a k j) (x : Nat → T) (i : Nat) (hi : i < n) :
    mulVec n C x i = ∑ k ∈ range p, t i k * mulVec n a x k := by
  unfold mulVec
  simp only [mul_sum]
  rw [sum_comm]
  refine sum_congr rfl fun j hj => ?_
  rw [hC i j hi (mem_range.mp hj), sum_mul]
  exact sum_congr rfl fun k _ => by ring

theorem normal_form {p : Nat} {a t C : Nat → Nat → T} (h : IsTransp p n a t)
    (hC : ∀ i j, i < n → j < n → C i j = ∑ k ∈ range p, t i k * a k j) (x : Nat → T) :
    ip n x (mulVec n C x) = ip p (mulVec n a x) (mulVec n a x) := by
  rw [← ip_transp h]
  exact sum_congr rfl fun i hi => by rw [normal_apply hC x i (mem_range.mp hi)]

theorem normal_symm {p : Nat} {a t C : Nat → Nat → T} (h : IsTransp p n a t)
    (hC : ∀ i j, i < n → j < n → C i j = ∑ k ∈ range p, t i k * a k j) : Symm n C := by
  intro i j hi hj
  rw [hC i j hi hj, hC j i hj hi]
  refine sum_congr rfl fun k hk => ?_
  have hk := mem_range.mp hk
  rw [h k i hk hi, h k j hk hj, mul_comm]

/-- The squared residual is the energy of the normal equations, up to a constant. -/
theorem dist2_energy {p : Nat} {a t C : Nat → Nat → T} (h : IsTransp p n a t)
    (hC : ∀ i j, i < n → j < n → C i j = ∑ k ∈ range p, t i k * a k j) (b x : Nat → T) :
    dist2 p (mulVec n a x) b = energy n C (fun j => ∑ i ∈ range p, t j i * b i) x + ip p b b := by
  unfold dist2 energy
  rw [ip_diff_left, ip_diff_right, ip_diff_right, normal_form h hC, ip_flip _ x, ip_transp h, ip_flip b (mulVec n a x)]
  ring

end

section
variable [Field T] [LinearOrder T] [IsStrictOrderedRing T]

omit [IsStrictOrderedRing T] in
theorem PosDef.ip_pos {A : Nat → Nat → T} (h : PosDef n A) {x : Nat → T} (hx : ∃ i, i < n ∧ x i ≠ 0) : 0 < ip n x (mulVec n A x) := by
  rw [ip_form]; exact h x hx

omit [IsStrictOrderedRing T] in
theorem PosDef.ip_nonneg {A : Nat → Nat → T} (h : PosDef n A) (x : Nat → T) : 0 ≤ ip n x (mulVec n A x) := by
  by_cases hx : ∃ i, i < n ∧ x i ≠ 0
  · exact (h.ip_pos hx).le
  · push Not at hx
    refine le_of_eq (Eq.symm (sum_eq_zero fun i hi => ?_))
    rw [hx i (mem_range.mp hi), zero_mul]

/-- A solution minimises the energy. -/
theorem energy_min {A : Nat → Nat → T} (hs : Symm n A) (hp : PosDef n A) {x b : Nat → T} (h : Solves n A x b) (y : Nat → T) :
    energy n A b x ≤ energy n A b y ∧ (energy n A b y = energy n A b x ↔ ∀ i, i < n → y i = x i) := by
  have e := energy_split hs h y
  have h0 := hp.ip_nonneg fun i => y i - x i
  refine ⟨by linarith, fun hy i hi => ?_, fun hy => ?_⟩
  · by_contra hne
    have := hp.ip_pos (x := fun i => y i - x i) ⟨i, hi, sub_ne_zero.mpr hne⟩
    linarith
  · rw [e, add_eq_left]
    exact sum_eq_zero fun i hi => by simp only [hy i (mem_range.mp hi), sub_self, zero_mul]

/-- The inequality of Cauchy and Schwarz for a solution. -/
theorem energy_schwarz {A : Nat → Nat → T} (hs : Symm n A) (hp : PosDef n A) {x b : Nat → T} (h : Solves n A x b) (y : Nat → T) :
    ip n b y ^ 2 ≤ ip n b x * ip n y (mulVec n A y) := by
  set c := ip n y (mulVec n A y) with hc
  by_cases hy : ∃ i, i < n ∧ y i ≠ 0
  · have cp : 0 < c := hp.ip_pos hy
    have m := (energy_min hs hp h fun i => ip n b y / c * y i).1
    have e1 : ip n b (fun i => ip n b y / c * y i) = ip n b y / c * ip n b y := ip_smul_right _ _ _
    have e2 : ip n (fun i => ip n b y / c * y i) (mulVec n A fun i => ip n b y / c * y i) = (ip n b y / c) ^ 2 * c := by
      rw [hc, ip_form, ip_form, mul_sum]
      refine sum_congr rfl fun i _ => ?_
      rw [mul_sum]
      exact sum_congr rfl fun j _ => by ring
    rw [energy_at h] at m
    unfold energy at m
    rw [e1, e2] at m
    have e3 : (ip n b y / c) ^ 2 * c - 2 * (ip n b y / c * ip n b y) = -(ip n b y ^ 2 / c) := by field_simp; ring
    rw [e3, neg_le_neg_iff, div_le_iff₀ cp] at m
    exact m
  · push Not at hy
    have e1 : ip n b y = 0 := sum_eq_zero fun i hi => by rw [hy i (mem_range.mp hi), mul_zero]
    have e2 : c = 0 := sum_eq_zero fun i hi => by rw [hy i (mem_range.mp hi), zero_mul]
    rw [e1, e2]; simp

/-- A larger form gives a smaller value `b·x`. -/
theorem energy_mono {A B : Nat → Nat → T} (hs : Symm n A) (hp : PosDef n A) {x z b : Nat → T} (h : Solves n A x b) (hz : Solves n B z b)
    (hAB : ∀ y : Nat → T, ip n y (mulVec n A y) ≤ ip n y (mulVec n B y)) : ip n b z ≤ ip n b x := by
  have m := (energy_min hs hp h z).1
  have e := energy_at hz
  rw [energy_at h] at m
  unfold energy at m e
  have := hAB z
  linarith

/-- The normal equations of independent columns are positive definite, and conversely. -/
theorem normal_posDef {p : Nat} {a t C : Nat → Nat → T} (h : IsTransp p n a t)
    (hC : ∀ i j, i < n → j < n → C i j = ∑ k ∈ range p, t i k * a k j) : PosDef n C ↔ Indep p n fun k i => a i k := by
  have cv : ∀ c : Nat → T, ∀ i, mulVec n a c i = ∑ k ∈ range n, c k * a i k := fun c i => sum_congr rfl fun k _ => mul_comm _ _
  constructor
  · intro hp c hc k hk
    by_contra hne
    have := hp.ip_pos (x := c) ⟨k, hk, hne⟩
    rw [normal_form h hC] at this
    exact absurd (sum_eq_zero fun i hi => by rw [cv, hc i (mem_range.mp hi), zero_mul]) this.ne'
  · intro hi x ⟨k, hk, hx⟩
    rw [← ip_form, normal_form h hC]
    refine lt_of_le_of_ne (ip_self_nonneg _) fun h0 => hx (hi x (fun i hi => ?_) k hk)
    rw [← cv]
    exact ip_self_eq_zero.mp h0.symm i hi

omit [LinearOrder T] [IsStrictOrderedRing T] in
/-- The residual of the best approximation. -/
theorem dist2_best {m : Nat} {v : Nat → Nat → T} {b w : Nat → T} (hc : Comb n m v fun i => w i - b i)
    (ho : ∀ k, k < m → ip n w (v k) = 0) {y : Nat → T} (hy : Comb n m v y) :
    dist2 n b y = ip n w w + dist2 n (fun i => b i - w i) y := by
  obtain ⟨c, hc⟩ := hc
  obtain ⟨d, hd⟩ := hy
  have e : ip n w (fun i => b i - w i - y i) = 0 := by
    have e1 : ip n w (fun i => b i - w i - y i) = ip n w (fun i => ∑ k ∈ range m, (-c k - d k) * v k i) := by
      refine sum_congr rfl fun i hi => ?_
      have h1 := hc i (mem_range.mp hi)
      have h2 := hd i (mem_range.mp hi)
      congr 1
      simp only [sub_mul, neg_mul, sum_sub_distrib, sum_neg_distrib]
      rw [← h1, ← h2]
      ring
    rw [e1, ip_sum_right]
    exact sum_eq_zero fun k hk => by rw [ho k (mem_range.mp hk), mul_zero]
  have e2 : dist2 n b y = ip n (fun i => w i + (b i - w i - y i)) (fun i => w i + (b i - w i - y i)) := by
    unfold dist2
    exact sum_congr rfl fun i _ => by ring
  have e3 : ip n (fun i => w i + (b i - w i - y i)) (fun i => w i + (b i - w i - y i)) =
      ip n w w + 2 * ip n w (fun i => b i - w i - y i) + dist2 n (fun i => b i - w i) y := by
    unfold dist2 ip
    rw [mul_sum, ← sum_add_distrib, ← sum_add_distrib]
    exact sum_congr rfl fun i _ => by ring
  rw [e2, e3, e, mul_zero, add_zero]

end

end Lalib
