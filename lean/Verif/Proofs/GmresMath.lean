import Mathlib.LinearAlgebra.Matrix.NonsingularInverse
import Mathlib.LinearAlgebra.Dimension.Constructions
import Mathlib.LinearAlgebra.FiniteDimensional.Basic
import Mathlib.Algebra.Order.Field.Basic
import Mathlib.Algebra.BigOperators.Intervals
import Mathlib.Tactic.Module
import Mathlib.Tactic.Linarith
import Mathlib.Tactic.LinearCombination
import Mathlib.Tactic.FieldSimp

/-! # The algebra of GMRES

`F` is the preconditioned operator, `q` the Arnoldi basis, `g` the rotated right-hand side (`beta` in the code),
`R` the triangular factor.  The rotations act on the basis: `p i` and `t (i+1)` are `t i` and `q (i+1)` rotated. -/

namespace Lalib.GM

open Finset Matrix

variable {T : Type} [Field T] {n : Nat}

/-- The linear part of the invariant after `k` iterations. -/
structure LInv (F : (Fin n → T) →ₗ[T] (Fin n → T)) (b : Fin n → T) (k : Nat) (q p t : Nat → Fin n → T)
    (s c g : Nat → T) (R : Nat → Nat → T) : Prop where
  t0 : t 0 = q 0
  tq : ∀ i, i < k → t i = c i • p i - s i • t (i + 1)
  qq : ∀ i, i < k → q (i + 1) = s i • p i + c i • t (i + 1)
  rhs : b = ∑ i ∈ range k, g i • p i + g k • t k
  col : ∀ j, j < k → F (q j) = ∑ i ∈ range (j + 1), R i j • p i
  diag : ∀ j, j < k → R j j ≠ 0

/-- The vectors `q 0, ..., q k` are orthonormal. -/
def ON (k : Nat) (q : Nat → Fin n → T) : Prop :=
  ∀ i j, i ≤ k → j ≤ k → q i ⬝ᵥ q j = if i = j then 1 else 0

variable {F : (Fin n → T) →ₗ[T] (Fin n → T)} {b : Fin n → T} {k : Nat} {q p t : Nat → Fin n → T}
  {s c g : Nat → T} {R : Nat → Nat → T}

theorem LInv.congr {q' : Nat → Fin n → T} {s' c' g' : Nat → T} {R' : Nat → Nat → T}
    (h : LInv F b k q p t s c g R) (hq : ∀ i, i ≤ k → q' i = q i) (hs : ∀ i, i < k → s' i = s i)
    (hc : ∀ i, i < k → c' i = c i) (hg : ∀ i, i ≤ k → g' i = g i)
    (hR : ∀ i j, i ≤ j → j < k → R' i j = R i j) : LInv F b k q' p t s' c' g' R' where
  t0 := by rw [hq 0 (Nat.zero_le _), h.t0]
  tq i hi := by rw [hs i hi, hc i hi, h.tq i hi]
  qq i hi := by rw [hs i hi, hc i hi, hq (i + 1) (by omega), h.qq i hi]
  rhs := by
    rw [hg k (Nat.le_refl _), h.rhs]
    congr 1
    exact sum_congr rfl fun i hi => by rw [hg i (by have := mem_range.mp hi; omega)]
  col j hj := by
    rw [hq j (by omega), h.col j hj]
    exact sum_congr rfl fun i hi => by rw [hR i j (by have := mem_range.mp hi; omega) hj]
  diag j hj := by rw [hR j j (Nat.le_refl _) hj]; exact h.diag j hj

/-- One more iteration.  `rho` is the last component of the new column after the earlier rotations, `h'` the new
sub-diagonal element, `gk` the last component of the right-hand side. -/
theorem LInv.step (h : LInv F b k q p t s c g R) {rho h' delta gk : T} {v qn : Fin n → T} {col : Nat → T}
    (hd : delta ≠ 0) (hdd : delta * delta = rho * rho + h' * h')
    (hcol : F (q k) - v = ∑ i ∈ range k, col i • p i + rho • t k) (hv : v = h' • qn)
    (hq' : q (k + 1) = qn) (hs : s k = h' / delta) (hc : c k = rho / delta) (hgk : gk = g k)
    {g' : Nat → T} (hg' : ∀ i, i < k → g' i = g i) (hg1 : g' k = c k * gk) (hg2 : g' (k + 1) = -s k * gk)
    {R' : Nat → Nat → T} (hR' : ∀ i j, i ≤ j → j < k → R' i j = R i j) (hR1 : ∀ i, i < k → R' i k = col i)
    (hR2 : R' k k = c k * rho + s k * h') :
    let p' : Nat → Fin n → T := fun i => if i = k then c k • t k + s k • qn else p i
    let t' : Nat → Fin n → T := fun i => if i = k + 1 then c k • qn - s k • t k else t i
    LInv F b (k + 1) q p' t' s c g' R' := by
  intro p' t'
  have hcs : c k * c k + s k * s k = 1 := by
    rw [hs, hc]; field_simp; rw [pow_two, pow_two, pow_two, hdd]
  have hpk : p' k = c k • t k + s k • qn := by simp [p']
  have htk : t' k = t k := by simp [t']
  have htk1 : t' (k + 1) = c k • qn - s k • t k := by simp [t']
  have hpi : ∀ i, i < k → p' i = p i := fun i hi => by simp [p', Nat.ne_of_lt hi]
  have hti : ∀ i, i ≤ k → t' i = t i := fun i hi => by
    simp only [t']; rw [if_neg (by omega)]
  have e1 : t k = c k • p' k - s k • t' (k + 1) := by
    rw [hpk, htk1]
    calc t k = (c k * c k + s k * s k) • t k := by rw [hcs, one_smul]
      _ = _ := by module
  have e2 : qn = s k • p' k + c k • t' (k + 1) := by
    rw [hpk, htk1]
    calc qn = (c k * c k + s k * s k) • qn := by rw [hcs, one_smul]
      _ = _ := by module
  have hc' : c k * delta = rho := by rw [hc]; field_simp
  have hs' : s k * delta = h' := by rw [hs]; field_simp
  have hdel : c k * rho + s k * h' = delta := by
    rw [← hc', ← hs']; linear_combination delta * hcs
  refine ⟨?_, ?_, ?_, ?_, ?_, ?_⟩
  · rw [hti 0 (Nat.zero_le _), h.t0]
  · intro i hi
    rcases Nat.lt_or_ge i k with h1 | h1
    · rw [hti i (by omega), hti (i + 1) (by omega), hpi i h1, h.tq i h1]
    · obtain rfl : i = k := by omega
      rw [htk]; exact e1
  · intro i hi
    rcases Nat.lt_or_ge i k with h1 | h1
    · rw [hti (i + 1) (by omega), hpi i h1, h.qq i h1]
    · obtain rfl : i = k := by omega
      rw [hq']; exact e2
  · have e : ∑ i ∈ range k, g' i • p' i = ∑ i ∈ range k, g i • p i :=
      sum_congr rfl fun i hi => by rw [hg' i (mem_range.mp hi), hpi i (mem_range.mp hi)]
    rw [sum_range_succ, e, hg1, hg2, hgk, h.rhs]
    conv_lhs => rw [e1]
    module
  · intro j hj
    rcases Nat.lt_or_ge j k with h1 | h1
    · rw [h.col j h1]
      refine sum_congr rfl fun i hi => ?_
      have hi := mem_range.mp hi
      rw [hpi i (by omega), hR' i j (by omega) h1]
    · obtain rfl : j = k := by omega
      have : F (q j) = ∑ i ∈ range j, col i • p i + (rho • t j + h' • qn) := by
        rw [← hv, ← add_assoc, ← hcol]; module
      have e : ∑ i ∈ range j, R' i j • p' i = ∑ i ∈ range j, col i • p i :=
        sum_congr rfl fun i hi => by rw [hR1 i (mem_range.mp hi), hpi i (mem_range.mp hi)]
      rw [this, sum_range_succ, e, hR2, hpk, hdel, smul_add, smul_smul, smul_smul, mul_comm delta, hc',
        mul_comm delta, hs']
  · intro j hj
    rcases Nat.lt_or_ge j k with h1 | h1
    · rw [hR' j j (Nat.le_refl _) h1]; exact h.diag j h1
    · obtain rfl : j = k := by omega
      rw [hR2, hdel]; exact hd

/-- The earlier rotations, one at a time: `r` is the column with the first `i` rotations applied. -/
theorem LInv.rotate (h : LInv F b k q p t s c g R) {i : Nat} (hi : i < k) {a r r' : Nat → T}
    (hr : ∑ l ∈ range (i + 1), a l • q l = ∑ l ∈ range i, r l • p l + r i • t i)
    (h0 : ∀ l, l < i → r' l = r l) (h1 : r' i = c i * r i + s i * a (i + 1))
    (h2 : r' (i + 1) = -s i * r i + c i * a (i + 1)) :
    ∑ l ∈ range (i + 2), a l • q l = ∑ l ∈ range (i + 1), r' l • p l + r' (i + 1) • t (i + 1) := by
  have e : ∑ l ∈ range i, r' l • p l = ∑ l ∈ range i, r l • p l :=
    sum_congr rfl fun l hl => by rw [h0 l (mem_range.mp hl)]
  rw [sum_range_succ, hr, sum_range_succ, e, h1, h2, h.qq i hi]
  conv_lhs => rw [h.tq i hi]
  module

/-- The residual after the triangular solve. -/
theorem LInv.residual (h : LInv F b k q p t s c g R) {y : Nat → T}
    (hy : ∀ i, i < k → ∑ j ∈ Ico i k, R i j * y j = g i) :
    b - F (∑ j ∈ range k, y j • q j) = g k • t k := by
  have e : F (∑ j ∈ range k, y j • q j) = ∑ i ∈ range k, g i • p i := by
    rw [map_sum]
    have : ∀ j ∈ range k, F (y j • q j) = ∑ i ∈ range (j + 1), (R i j * y j) • p i := fun j hj => by
      rw [map_smul, h.col j (mem_range.mp hj), smul_sum]
      exact sum_congr rfl fun i _ => by rw [smul_smul, mul_comm]
    rw [sum_congr rfl this, sum_comm' (t' := range k) (s' := fun i => Ico i k)]
    · exact sum_congr rfl fun i hi => by rw [← sum_smul, hy i (mem_range.mp hi)]
    · intro j i; simp only [mem_range, mem_Ico]; omega
  rw [e, h.rhs]
  module

/-! ## Orthonormality -/

theorem ON.mono {k' : Nat} (h : ON k q) (hk : k' ≤ k) : ON k' q :=
  fun i j hi hj => h i j (by omega) (by omega)

theorem ON.congr {q' : Nat → Fin n → T} (h : ON k q) (hq : ∀ i, i ≤ k → q' i = q i) : ON k q' :=
  fun i j hi hj => by rw [hq i hi, hq j hj]; exact h i j hi hj

/-- What is left after the projections is orthogonal to the basis. -/
theorem ON.project (h : ON k q) {w v : Fin n → T} (hv : v = w - ∑ j ∈ range (k + 1), (q j ⬝ᵥ w) • q j) :
    ∀ i, i ≤ k → q i ⬝ᵥ v = 0 := by
  intro i hi
  rw [hv, dotProduct_sub, dotProduct_sum, sum_eq_single_of_mem i (mem_range.mpr (by omega))]
  · rw [dotProduct_smul, h i i hi hi, if_pos rfl, smul_eq_mul, mul_one, sub_self]
  · intro j hj hji
    have hj := mem_range.mp hj
    rw [dotProduct_smul, h i j hi (by omega), if_neg (fun e => hji e.symm), smul_zero]

theorem ON.step (h : ON k q) {v : Fin n → T} {h' : T} (hv : ∀ i, i ≤ k → q i ⬝ᵥ v = 0) (hn : h' ≠ 0)
    (hh : h' * h' = v ⬝ᵥ v) (hq : v = h' • q (k + 1)) : ON (k + 1) q := by
  have e0 : ∀ i, i ≤ k → q i ⬝ᵥ q (k + 1) = 0 := fun i hi => by
    have := hv i hi
    rw [hq, dotProduct_smul, smul_eq_mul] at this
    exact (mul_eq_zero.mp this).resolve_left hn
  have e1 : q (k + 1) ⬝ᵥ q (k + 1) = 1 := by
    rw [hq, dotProduct_smul, smul_dotProduct, smul_eq_mul, smul_eq_mul] at hh
    have h2 : h' * h' ≠ 0 := mul_ne_zero hn hn
    have : h' * h' * (q (k + 1) ⬝ᵥ q (k + 1)) = h' * h' * 1 := by linear_combination -hh
    exact mul_left_cancel₀ h2 this
  intro i j hi hj
  rcases Nat.lt_or_ge i (k + 1) with h1 | h1
  · rcases Nat.lt_or_ge j (k + 1) with h2 | h2
    · exact h i j (by omega) (by omega)
    · obtain rfl : j = k + 1 := by omega
      rw [e0 i (by omega), if_neg (by omega)]
  · obtain rfl : i = k + 1 := by omega
    rcases Nat.lt_or_ge j (k + 1) with h2 | h2
    · rw [dotProduct_comm, e0 j (by omega), if_neg (by omega)]
    · obtain rfl : j = k + 1 := by omega
      rw [e1, if_pos rfl]

/-- There are at most `n` orthonormal vectors. -/
theorem ON.lt (h : ON k q) : k < n := by
  have hli : LinearIndependent T (fun i : Fin (k + 1) => q i) := by
    rw [Fintype.linearIndependent_iff]
    intro a ha i
    have : q i ⬝ᵥ (∑ j : Fin (k + 1), a j • q j) = a i := by
      rw [dotProduct_sum, sum_eq_single_of_mem i (mem_univ _)]
      · rw [dotProduct_smul, h i i (by omega) (by omega), if_pos rfl, smul_eq_mul, mul_one]
      · intro j _ hj
        rw [dotProduct_smul, h i j (by omega) (by omega), if_neg (fun e => hj (Fin.ext e.symm)), smul_zero]
    rw [← this, ha, dotProduct_zero]
  have := hli.fintype_card_le_finrank
  simp at this
  omega

/-- With an injective operator the last rotation never has length zero. -/
theorem LInv.delta (h : LInv F b k q p t s c g R) (ho : ON k q) (hF : Function.Injective F) {col : Nat → T}
    (hc : F (q k) = ∑ i ∈ range k, col i • p i) : False := by
  let S : Submodule T (Fin n → T) := Submodule.span T (q '' Set.Iio k)
  have hp : ∀ i, i < k → p i ∈ S.map F := by
    intro i
    induction i using Nat.strong_induction_on with
    | _ i ih =>
      intro hi
      have e := h.col i hi
      rw [sum_range_succ] at e
      have : R i i • p i = F (q i) - ∑ l ∈ range i, R l i • p l := by rw [e]; module
      have hm : R i i • p i ∈ S.map F := by
        rw [this]
        refine Submodule.sub_mem _ (Submodule.mem_map_of_mem (Submodule.subset_span ⟨i, hi, rfl⟩)) ?_
        exact Submodule.sum_mem _ fun l hl => Submodule.smul_mem _ _ (ih l (mem_range.mp hl) (by
          have := mem_range.mp hl; omega))
      exact (Submodule.smul_mem_iff _ (h.diag i hi)).mp hm
  have hk : F (q k) ∈ S.map F := by
    rw [hc]
    exact Submodule.sum_mem _ fun l hl => Submodule.smul_mem _ _ (hp l (mem_range.mp hl))
  obtain ⟨x, hx, hxe⟩ := hk
  rw [hF hxe] at hx
  have hz : ∀ x ∈ S, q k ⬝ᵥ x = 0 := by
    intro x hx
    induction hx using Submodule.span_induction with
    | mem x hx =>
      obtain ⟨i, hi, rfl⟩ := hx
      have hi : i < k := hi
      rw [ho k i (Nat.le_refl _) (by omega), if_neg (by omega)]
    | zero => exact dotProduct_zero _
    | add x y _ _ h1 h2 => rw [dotProduct_add, h1, h2, add_zero]
    | smul a x _ h1 => rw [dotProduct_smul, h1, smul_zero]
  have := hz _ hx
  rw [ho k k (Nat.le_refl _) (Nat.le_refl _), if_pos rfl] at this
  exact one_ne_zero this

/-- `t` is a unit vector, orthogonal to everything orthogonal to the basis. -/
def Unit' (k : Nat) (q : Nat → Fin n → T) (t : Fin n → T) : Prop :=
  t ⬝ᵥ t = 1 ∧ ∀ x : Fin n → T, (∀ i, i ≤ k → q i ⬝ᵥ x = 0) → t ⬝ᵥ x = 0

theorem Unit'.step {t : Fin n → T} (h : Unit' k q t) (ho : ON (k + 1) q) {c s : T}
    (hcs : c * c + s * s = 1) : Unit' (k + 1) q (c • q (k + 1) - s • t) := by
  have h0 : t ⬝ᵥ q (k + 1) = 0 := h.2 _ fun i hi => by
    rw [ho i (k + 1) (by omega) (by omega), if_neg (by omega)]
  have h1 := ho (k + 1) (k + 1) (by omega) (by omega)
  rw [if_pos rfl] at h1
  constructor
  · simp only [sub_dotProduct, dotProduct_sub, smul_dotProduct, dotProduct_smul, smul_eq_mul, h0, h.1, h1,
      dotProduct_comm (q (k + 1)) t]
    linear_combination hcs
  · intro x hx
    rw [sub_dotProduct, smul_dotProduct, smul_dotProduct, hx (k + 1) (by omega),
      h.2 x fun i hi => hx i (by omega)]
    simp

/-! ## Krylov spaces -/

/-- The span of the first `k` basis vectors. -/
def Sp (q : Nat → Fin n → T) (k : Nat) : Submodule T (Fin n → T) := Submodule.span T (q '' Set.Iio k)

/-- The Krylov space of dimension at most `k`. -/
def Kr (F : (Fin n → T) →ₗ[T] (Fin n → T)) (b : Fin n → T) (k : Nat) : Submodule T (Fin n → T) :=
  Submodule.span T ((fun i => (F ^ i) b) '' Set.Iio k)

/-- The part of the invariant which is about the spans. -/
structure KInv (F : (Fin n → T) →ₗ[T] (Fin n → T)) (b : Fin n → T) (k : Nat) (q p : Nat → Fin n → T) : Prop where
  pq : ∀ i, i < k → ∀ x : Fin n → T, (∀ l, l ≤ i + 1 → q l ⬝ᵥ x = 0) → p i ⬝ᵥ x = 0
  kry : ∀ j, j ≤ k → Sp q j = Kr F b j

theorem Sp.congr {q' : Nat → Fin n → T} (h : ∀ i, i < k → q' i = q i) : Sp q' k = Sp q k := by
  unfold Sp
  congr 1
  exact Set.image_congr fun i hi => h i hi

theorem Sp.mem {i : Nat} (hi : i < k) : q i ∈ Sp q k := Submodule.subset_span ⟨i, hi, rfl⟩

theorem Sp.mono {k' : Nat} (h : k ≤ k') : Sp q k ≤ Sp q k' :=
  Submodule.span_mono (Set.image_mono fun _ hi => Nat.lt_of_lt_of_le hi h)

theorem Kr.mono {k' : Nat} (h : k ≤ k') : Kr F b k ≤ Kr F b k' :=
  Submodule.span_mono (Set.image_mono fun _ hi => Nat.lt_of_lt_of_le hi h)

theorem Kr.map {x : Fin n → T} (h : x ∈ Kr F b k) : F x ∈ Kr F b (k + 1) := by
  unfold Kr at h
  induction h using Submodule.span_induction with
  | mem x hx =>
    obtain ⟨i, hi, rfl⟩ := hx
    have hi : i < k := hi
    refine Submodule.subset_span ⟨i + 1, Nat.succ_lt_succ hi, ?_⟩
    show (F ^ (i + 1)) b = F ((F ^ i) b)
    rw [pow_succ']; rfl
  | zero => rw [map_zero]; exact Submodule.zero_mem _
  | add x y _ _ h1 h2 => rw [map_add]; exact Submodule.add_mem _ h1 h2
  | smul a x _ h1 => rw [map_smul]; exact Submodule.smul_mem _ _ h1

/-- Orthonormal vectors in a Krylov space of the same dimension span it. -/
theorem ON.kry (h : ON k q) (hm : ∀ i, i ≤ k → q i ∈ Kr F b (k + 1)) : Sp q (k + 1) = Kr F b (k + 1) := by
  have hli : LinearIndependent T (fun i : Fin (k + 1) => q i) := by
    rw [Fintype.linearIndependent_iff]
    intro a ha i
    have : q i ⬝ᵥ (∑ j : Fin (k + 1), a j • q j) = a i := by
      rw [dotProduct_sum, sum_eq_single_of_mem i (mem_univ _)]
      · rw [dotProduct_smul, h i i (by omega) (by omega), if_pos rfl, smul_eq_mul, mul_one]
      · intro j _ hj
        rw [dotProduct_smul, h i j (by omega) (by omega), if_neg (fun e => hj (Fin.ext e.symm)), smul_zero]
    rw [← this, ha, dotProduct_zero]
  have e1 : Sp q (k + 1) = Submodule.span T (Set.range fun i : Fin (k + 1) => q i) := by
    unfold Sp
    congr 1
    ext x
    constructor
    · rintro ⟨i, hi, rfl⟩; exact ⟨⟨i, hi⟩, rfl⟩
    · rintro ⟨i, rfl⟩; exact ⟨i, i.2, rfl⟩
  have e2 : Kr F b (k + 1) = Submodule.span T (Set.range fun i : Fin (k + 1) => (F ^ (i : Nat)) b) := by
    unfold Kr
    congr 1
    ext x
    constructor
    · rintro ⟨i, hi, rfl⟩; exact ⟨⟨i, hi⟩, rfl⟩
    · rintro ⟨i, rfl⟩; exact ⟨i, i.2, rfl⟩
  apply Submodule.eq_of_le_of_finrank_le
  · refine Submodule.span_le.mpr ?_
    rintro _ ⟨i, hi, rfl⟩
    exact hm i (Nat.lt_succ_iff.mp hi)
  · rw [e1, e2, finrank_span_eq_card hli]
    exact (finrank_range_le_card _)

theorem KInv.congr {q' : Nat → Fin n → T} (h : KInv F b k q p) (hq : ∀ i, i ≤ k → q' i = q i) :
    KInv F b k q' p where
  pq i hi x hx := h.pq i hi x fun l hl => by rw [← hq l (by omega)]; exact hx l hl
  kry j hj := by rw [Sp.congr fun i hi => hq i (by omega)]; exact h.kry j hj

theorem KInv.step (h : KInv F b k q p) (hu : Unit' k q (t k)) (hk : Sp q (k + 1) = Kr F b (k + 1)) (c s : T) :
    KInv F b (k + 1) q (fun i => if i = k then c • t k + s • q (k + 1) else p i) where
  pq i hi x hx := by
    by_cases e : i = k
    · rw [if_pos e, add_dotProduct, smul_dotProduct, smul_dotProduct, hx (k + 1) (by omega),
        hu.2 x fun l hl => hx l (by omega), smul_zero, smul_zero, add_zero]
    · rw [if_neg e]; exact h.pq i (by omega) x hx
  kry j hj := by
    rcases Nat.lt_or_ge j (k + 1) with h1 | h1
    · exact h.kry j (by omega)
    · rw [show j = k + 1 by omega]; exact hk

/-- The new `t` is orthogonal to all of `p`. -/
theorem KInv.orth (h : KInv F b k q p) (hu : Unit' k q (t k)) (ho : ON (k + 1) q)
    (ht : ∀ i, i < k → t k ⬝ᵥ p i = 0) (c s : T) (i : Nat) (hi : i < k + 1) :
    (c • q (k + 1) - s • t k) ⬝ᵥ (if i = k then c • t k + s • q (k + 1) else p i) = 0 := by
  have h0 : t k ⬝ᵥ q (k + 1) = 0 := hu.2 _ fun i hi => by
    rw [ho i (k + 1) (by omega) (by omega), if_neg (by omega)]
  have h1 := ho (k + 1) (k + 1) (by omega) (by omega)
  rw [if_pos rfl] at h1
  by_cases e : i = k
  · rw [if_pos e]
    simp only [sub_dotProduct, dotProduct_add, smul_dotProduct, dotProduct_smul, smul_eq_mul, h0, hu.1, h1,
      dotProduct_comm (q (k + 1)) (t k)]
    ring
  · rw [if_neg e, sub_dotProduct, smul_dotProduct, smul_dotProduct, ht i (by omega), dotProduct_comm,
      h.pq i (by omega) (q (k + 1)) fun l hl => by rw [ho l (k + 1) (by omega) (by omega), if_neg (by omega)]]
    simp

theorem Kr.step (ho : ON (k + 1) q) (hk : Sp q (k + 1) = Kr F b (k + 1)) {v : Fin n → T} {h' : T} {a : Nat → T}
    (hv : v = F (q k) - ∑ i ∈ range (k + 1), a i • q i) (hh : h' ≠ 0) (hq : v = h' • q (k + 1)) :
    Sp q (k + 2) = Kr F b (k + 2) := by
  have hm : ∀ i, i ≤ k → q i ∈ Kr F b (k + 1) := fun i hi => by rw [← hk]; exact Sp.mem (by omega)
  refine ho.kry fun i hi => ?_
  rcases Nat.lt_or_ge i (k + 1) with h1 | h1
  · exact Kr.mono (Nat.le_succ _) (hm i (by omega))
  · obtain rfl : i = k + 1 := by omega
    refine (Submodule.smul_mem_iff _ hh).mp ?_
    rw [← hq, hv]
    refine Submodule.sub_mem _ (Kr.map (hm k (Nat.le_refl _))) (Submodule.sum_mem _ fun i hi => ?_)
    exact Submodule.smul_mem _ _ (Kr.mono (Nat.le_succ _) (hm i (by have := mem_range.mp hi; omega)))

/-- The rotated right-hand side bounds every residual of the Krylov space. -/
theorem LInv.minimal [LinearOrder T] [IsStrictOrderedRing T] (h : LInv F b k q p t s c g R)
    (ht : t k ⬝ᵥ t k = 1) (hp : ∀ i, i < k → t k ⬝ᵥ p i = 0) {y : Fin n → T} (hy : y ∈ Sp q k) :
    g k * g k ≤ (b - F y) ⬝ᵥ (b - F y) := by
  have hw : ∃ w, F y = w ∧ t k ⬝ᵥ w = 0 := by
    refine ⟨_, rfl, ?_⟩
    unfold Sp at hy
    induction hy using Submodule.span_induction with
    | mem x hx =>
      obtain ⟨j, hj, rfl⟩ := hx
      have hj : j < k := hj
      rw [h.col j hj, dotProduct_sum]
      refine sum_eq_zero fun i hi => ?_
      have hi := mem_range.mp hi
      rw [dotProduct_smul, hp i (by omega), smul_zero]
    | zero => rw [map_zero, dotProduct_zero]
    | add x y _ _ h1 h2 => rw [map_add, dotProduct_add, h1, h2, add_zero]
    | smul a x _ h1 => rw [map_smul, dotProduct_smul, h1, smul_zero]
  obtain ⟨w, e, hw⟩ := hw
  rw [e]
  have hs : t k ⬝ᵥ (∑ i ∈ range k, g i • p i) = 0 := by
    rw [dotProduct_sum]
    refine sum_eq_zero fun i hi => ?_
    rw [dotProduct_smul, hp i (mem_range.mp hi), smul_zero]
  obtain ⟨u, hu, hb⟩ : ∃ u, t k ⬝ᵥ u = 0 ∧ b - w = g k • t k + u :=
    ⟨∑ i ∈ range k, g i • p i - w, by rw [dotProduct_sub, hs, hw, sub_zero], by rw [h.rhs]; module⟩
  rw [hb]
  have hnn : 0 ≤ u ⬝ᵥ u := sum_nonneg fun i _ => mul_self_nonneg _
  simp only [add_dotProduct, dotProduct_add, smul_dotProduct, dotProduct_smul, smul_eq_mul, ht, hu,
    dotProduct_comm u (t k)]
  linarith

end Lalib.GM
