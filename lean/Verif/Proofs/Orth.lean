import Verif.Spec.Orth
import Mathlib.Algebra.BigOperators.Ring.Finset
import Mathlib.Algebra.Order.BigOperators.Ring.Finset
import Mathlib.Tactic.Ring
import Mathlib.Tactic.FieldSimp
import Mathlib.Tactic.LinearCombination

/-! # Inner products and the Gram-Schmidt recurrence -/

namespace Lalib

variable {T : Type}

section ring
variable [CommRing T] {n : Nat}

theorem ip_comm (x y : Nat → T) : ip n x y = ip n y x := by
  unfold ip
  exact Finset.sum_congr rfl fun i _ => mul_comm _ _

theorem ip_congr {x x' y y' : Nat → T} (hx : ∀ i, i < n → x i = x' i) (hy : ∀ i, i < n → y i = y' i) :
    ip n x y = ip n x' y' := by
  unfold ip
  refine Finset.sum_congr rfl fun i hi => ?_
  rw [hx i (Finset.mem_range.mp hi), hy i (Finset.mem_range.mp hi)]

theorem ip_sum_right (x : Nat → T) (c : Nat → T) (v : Nat → Nat → T) (m : Nat) :
    ip n x (fun i => ∑ k ∈ Finset.range m, c k * v k i) = ∑ k ∈ Finset.range m, c k * ip n x (v k) := by
  unfold ip
  simp only [Finset.mul_sum]
  rw [Finset.sum_comm]
  exact Finset.sum_congr rfl fun k _ => Finset.sum_congr rfl fun i _ => by ring

theorem ip_sub_right (x y z : Nat → T) : ip n x (fun i => y i - z i) = ip n x y - ip n x z := by
  unfold ip
  rw [← Finset.sum_sub_distrib]
  exact Finset.sum_congr rfl fun i _ => by ring

theorem ip_add_right (x y z : Nat → T) : ip n x (fun i => y i + z i) = ip n x y + ip n x z := by
  unfold ip
  rw [← Finset.sum_add_distrib]
  exact Finset.sum_congr rfl fun i _ => by ring

theorem ip_smul_right (x y : Nat → T) (c : T) : ip n x (fun i => c * y i) = c * ip n x y := by
  unfold ip
  rw [Finset.mul_sum]
  exact Finset.sum_congr rfl fun i _ => by ring

theorem Comb.of_mem {m : Nat} {v : Nat → Nat → T} {k : Nat} (hk : k < m) : Comb n m v (v k) := by
  refine ⟨fun l => if l = k then 1 else 0, fun i _ => ?_⟩
  simp [hk]

theorem Comb.congr {m : Nat} {v : Nat → Nat → T} {x y : Nat → T} (h : Comb n m v x)
    (hxy : ∀ i, i < n → x i = y i) : Comb n m v y := by
  obtain ⟨c, hc⟩ := h
  exact ⟨c, fun i hi => by rw [← hxy i hi, hc i hi]⟩

theorem Comb.add {m : Nat} {v : Nat → Nat → T} {x y : Nat → T} (hx : Comb n m v x) (hy : Comb n m v y) :
    Comb n m v (fun i => x i + y i) := by
  obtain ⟨c, hc⟩ := hx
  obtain ⟨d, hd⟩ := hy
  refine ⟨fun k => c k + d k, fun i hi => ?_⟩
  simp only []
  rw [hc i hi, hd i hi, ← Finset.sum_add_distrib]
  exact Finset.sum_congr rfl fun k _ => by ring

theorem Comb.smul {m : Nat} {v : Nat → Nat → T} {x : Nat → T} (a : T) (hx : Comb n m v x) :
    Comb n m v (fun i => a * x i) := by
  obtain ⟨c, hc⟩ := hx
  refine ⟨fun k => a * c k, fun i hi => ?_⟩
  simp only []
  rw [hc i hi, Finset.mul_sum]
  exact Finset.sum_congr rfl fun k _ => by ring

theorem Comb.zero {m : Nat} {v : Nat → Nat → T} : Comb n m v (fun _ => 0) :=
  ⟨fun _ => 0, fun i _ => by simp⟩

theorem Comb.mono {m m' : Nat} {v : Nat → Nat → T} {x : Nat → T} (h : Comb n m v x) (hm : m ≤ m') :
    Comb n m' v x := by
  obtain ⟨c, hc⟩ := h
  refine ⟨fun k => if k < m then c k else 0, fun i hi => ?_⟩
  rw [hc i hi, ← Finset.sum_subset (Finset.range_mono hm)]
  · exact Finset.sum_congr rfl fun k hk => by simp only [if_pos (Finset.mem_range.mp hk)]
  · intro k _ hk
    simp only []
    rw [if_neg (fun h => hk (Finset.mem_range.mpr h)), zero_mul]

theorem Comb.sum {m : Nat} {v : Nat → Nat → T} (a : Nat → T) (w : Nat → Nat → T) :
    ∀ p, (∀ l, l < p → Comb n m v (w l)) → Comb n m v (fun i => ∑ l ∈ Finset.range p, a l * w l i)
  | 0, _ => Comb.zero.congr fun i _ => by simp
  | p + 1, h => by
    refine ((Comb.sum a w p fun l hl => h l (by omega)).add ((h p (by omega)).smul (a p))).congr
      fun i _ => ?_
    rw [Finset.sum_range_succ]

theorem Comb.trans {m p : Nat} {v w : Nat → Nat → T} {x : Nat → T} (h : Comb n p w x)
    (hw : ∀ l, l < p → Comb n m v (w l)) : Comb n m v x := by
  obtain ⟨c, hc⟩ := h
  exact (Comb.sum c w p hw).congr fun i hi => (hc i hi).symm

/-- A vector of an independent family is no combination of the earlier ones. -/
theorem Indep.not_comb [Nontrivial T] {m : Nat} {v : Nat → Nat → T} (h : Indep n m v) {k : Nat}
    (hk : k < m) : ¬ Comb n k v (v k) := by
  rintro ⟨c, hc⟩
  have := h (fun l => if l < k then c l else if l = k then -1 else 0) (fun i hi => ?_) k hk
  · simp at this
  · rw [← Finset.sum_subset (Finset.range_mono (show k + 1 ≤ m by omega)), Finset.sum_range_succ]
    · simp only [lt_self_iff_false, if_false, if_true]
      rw [Finset.sum_congr rfl (g := fun l => c l * v l i) fun l hl => by
        rw [if_pos (Finset.mem_range.mp hl)], ← hc i hi]
      ring
    · intro l _ hl
      have : ¬ l < k + 1 := fun h => hl (Finset.mem_range.mpr h)
      rw [if_neg (by omega), if_neg (by omega), zero_mul]

end ring

section field
variable [Field T] [LinearOrder T] [IsStrictOrderedRing T] {n : Nat}

theorem ip_self_nonneg (x : Nat → T) : 0 ≤ ip n x x := Finset.sum_nonneg fun _ _ => mul_self_nonneg _

theorem ip_self_eq_zero {x : Nat → T} : ip n x x = 0 ↔ ∀ i, i < n → x i = 0 := by
  unfold ip
  rw [Finset.sum_eq_zero_iff_of_nonneg fun i _ => mul_self_nonneg _]
  simp only [Finset.mem_range, mul_self_eq_zero]

/-- Coefficient of the projection of `v` on `w`. -/
def proj (n : Nat) (w v : Nat → T) : T := ip n w v / ip n w w

/-- Vector `k` of the family `w` is the Gram-Schmidt vector of `v k`. -/
def IsGS (n : Nat) (v w : Nat → Nat → T) (k : Nat) : Prop :=
  ∀ i, i < n → w k i = v k i - ∑ l ∈ Finset.range k, proj n (w l) (v k) * w l i

variable {v w : Nat → Nat → T} {K : Nat}

omit [LinearOrder T] [IsStrictOrderedRing T] in
theorem IsGS.comb_w (k : Nat) (h : IsGS n v w k) : Comb n (k + 1) w (v k) := by
  have h1 : Comb n (k + 1) w (fun i => ∑ l ∈ Finset.range k, proj n (w l) (v k) * w l i) :=
    Comb.sum _ _ _ fun l hl => Comb.of_mem (by omega)
  exact ((Comb.of_mem (v := w) (show k < k + 1 by omega)).add h1).congr fun i hi => by
    rw [h i hi]; ring

omit [LinearOrder T] [IsStrictOrderedRing T] in
/-- The part subtracted from `v k` is a combination of the earlier vectors `v l`. -/
theorem gs_comb (h : ∀ k, k < K → IsGS n v w k) :
    ∀ k, k < K → Comb n k v (fun i => w k i - v k i) := by
  intro k
  induction k using Nat.strong_induction_on with
  | _ k ih =>
    intro hk
    have hw : ∀ l, l < k → Comb n k v (w l) := fun l hl => by
      have := ((ih l hl (by omega)).mono (show l ≤ k by omega)).add (Comb.of_mem (v := v) hl)
      exact this.congr fun i _ => by ring
    refine ((Comb.sum (fun l => proj n (w l) (v k)) w k hw).smul (-1)).congr fun i hi => ?_
    rw [h k hk i hi]; ring

omit [LinearOrder T] [IsStrictOrderedRing T] in
theorem gs_span (h : ∀ k, k < K → IsGS n v w k) {k : Nat} (hk : k < K) : Comb n (k + 1) v (w k) := by
  have := ((gs_comb h k hk).mono (show k ≤ k + 1 by omega)).add (Comb.of_mem (v := v) (show k < k + 1 by omega))
  exact this.congr fun i _ => by ring

theorem gs_ne_zero (h : ∀ k, k < K → IsGS n v w k) {m : Nat} (hi : Indep n m v) {k : Nat} (hk : k < K)
    (hm : k < m) : ip n (w k) (w k) ≠ 0 := by
  intro h0
  have h0 := ip_self_eq_zero.mp h0
  refine hi.not_comb hm (((gs_comb h k hk).smul (-1)).congr fun i hi => ?_)
  rw [h0 i hi]; ring

omit [LinearOrder T] [IsStrictOrderedRing T] in
theorem gs_orth (h : ∀ k, k < K → IsGS n v w k) (h0 : ∀ k, k + 1 < K → ip n (w k) (w k) ≠ 0) :
    ∀ k, k < K → ∀ l, l < k → ip n (w l) (w k) = 0 := by
  intro k
  induction k using Nat.strong_induction_on with
  | _ k ih =>
    intro hk l hl
    rw [ip_congr (fun _ _ => rfl) (h k hk), ip_sub_right, ip_sum_right,
      Finset.sum_eq_single_of_mem l (Finset.mem_range.mpr hl)]
    · rw [proj, div_mul_cancel₀ _ (h0 l (by omega)), sub_self]
    · intro p hp hpl
      have hp := Finset.mem_range.mp hp
      have : ip n (w l) (w p) = 0 := by
        rcases Nat.lt_or_gt_of_ne hpl with h1 | h1
        · rw [ip_comm]; exact ih l hl (by omega) p h1
        · exact ih p hp (by omega) l h1
      rw [this, mul_zero]

omit [LinearOrder T] [IsStrictOrderedRing T] in
theorem gs_orthogonal (h : ∀ k, k < K → IsGS n v w k) (h0 : ∀ k, k + 1 < K → ip n (w k) (w k) ≠ 0) :
    Orthogonal n K w := by
  intro k l hk hl hkl
  rcases Nat.lt_or_gt_of_ne hkl with h1 | h1
  · exact gs_orth h h0 l hl k h1
  · rw [ip_comm]; exact gs_orth h h0 k hk l h1

/-- When no Gram-Schmidt vector vanishes, the given vectors are independent. -/
theorem gs_indep (h : ∀ k, k < K → IsGS n v w k) (h0 : ∀ k, k < K → ip n (w k) (w k) ≠ 0) :
    Indep n K v := by
  intro c hc
  have ho := gs_orth h (fun k hk => h0 k (by omega))
  by_contra hne
  push Not at hne
  obtain ⟨k, hk, hck⟩ := hne
  -- the last non-zero coefficient
  obtain ⟨p, hp, hcp, hmax⟩ : ∃ p, p < K ∧ c p ≠ 0 ∧ ∀ q, p < q → q < K → c q = 0 := by
    clear h h0 hc ho
    induction K with
    | zero => omega
    | succ K ih =>
      by_cases hz : c K = 0
      · have hkK : k ≠ K := fun e => hck (e ▸ hz)
        obtain ⟨p, hp, hcp, hm⟩ := ih (by omega)
        refine ⟨p, by omega, hcp, fun q h1 h2 => ?_⟩
        rcases Nat.lt_or_ge q K with h3 | h3
        · exact hm q h1 h3
        · rw [show q = K by omega]; exact hz
      · exact ⟨K, by omega, hz, fun q h1 h2 => by omega⟩
  have hv : ∀ k, k < K → k < p → ip n (w p) (v k) = 0 := by
    intro k hk hkp
    obtain ⟨d, hd⟩ := (h k hk).comb_w
    rw [ip_congr (fun _ _ => rfl) hd, ip_sum_right]
    refine Finset.sum_eq_zero fun l hl => ?_
    have hl := Finset.mem_range.mp hl
    rw [ip_comm, ho p hp l (by omega), mul_zero]
  have hvp : ip n (w p) (v p) = ip n (w p) (w p) := by
    have : ip n (w p) (w p) = ip n (w p) (v p) - 0 := by
      conv_lhs => rw [ip_congr (fun _ _ => rfl) (h p hp), ip_sub_right, ip_sum_right]
      congr 1
      refine Finset.sum_eq_zero fun l hl => ?_
      rw [ip_comm (n := n) (w p) (w l), ho p hp l (Finset.mem_range.mp hl), mul_zero]
    rw [this, sub_zero]
  have : ip n (w p) (fun i => ∑ k ∈ Finset.range K, c k * v k i) = 0 := by
    rw [ip_congr (fun _ _ => rfl) hc]
    simp [ip]
  rw [ip_sum_right, Finset.sum_eq_single_of_mem p (Finset.mem_range.mpr hp), hvp] at this
  · rcases mul_eq_zero.mp this with h1 | h1
    · exact hcp h1
    · exact h0 p hp h1
  · intro q hq hqp
    have hq := Finset.mem_range.mp hq
    rcases Nat.lt_or_gt_of_ne hqp with h1 | h1
    · rw [hv q hq h1, mul_zero]
    · rw [hmax q h1 hq, zero_mul]

/-- The Gram-Schmidt family is the only orthogonal family whose vector `k` differs from `v k` by a
combination of `v 0, ..., v (k-1)`. -/
theorem gs_unique (h : ∀ k, k < K → IsGS n v w k) (h0 : ∀ k, k + 1 < K → ip n (w k) (w k) ≠ 0)
    {w' : Nat → Nat → T} (ho : Orthogonal n K w') (hc : ∀ k, k < K → Comb n k v (fun i => w' k i - v k i)) :
    ∀ k, k < K → ∀ i, i < n → w' k i = w k i := by
  intro k
  induction k using Nat.strong_induction_on with
  | _ k ih =>
    intro hk
    have h1 : Comb n k v (fun i => w' k i - w k i) :=
      ((hc k hk).add ((gs_comb h k hk).smul (-1))).congr fun i _ => by ring
    have h2 : Comb n k w (fun i => w' k i - w k i) := by
      refine h1.trans fun l hl => ((h l (by omega)).comb_w).mono (by omega)
    have h3 : ∀ l, l < k → ip n (w l) (fun i => w' k i - w k i) = 0 := by
      intro l hl
      rw [ip_sub_right, gs_orth h h0 k hk l hl, sub_zero,
        ip_congr (fun i hi => (ih l hl (by omega) i hi).symm) (fun _ _ => rfl)]
      exact ho l k (by omega) hk (by omega)
    obtain ⟨c, hc⟩ := h2
    have h4 : ip n (fun i => w' k i - w k i) (fun i => w' k i - w k i) = 0 := by
      rw [ip_congr (fun _ _ => rfl) hc, ip_sum_right]
      refine Finset.sum_eq_zero fun l hl => ?_
      rw [ip_comm, h3 l (Finset.mem_range.mp hl), mul_zero]
    intro i hi
    exact sub_eq_zero.mp (ip_self_eq_zero.mp h4 i hi)

end field

end Lalib
