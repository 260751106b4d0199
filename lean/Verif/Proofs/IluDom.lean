import Verif.Spec.IluDom
import Verif.Proofs.Ilu
import Mathlib.LinearAlgebra.Matrix.ToLinearEquiv
import Mathlib.Data.Finset.Max
import Mathlib.Tactic.Linarith

/-! # Incomplete elimination of matrices with a dominating diagonal -/

namespace Lalib

open Finset

section tel
variable {K : Type} [Field K] [LinearOrder K] [IsStrictOrderedRing K]

/-- What is left of a row, in absolute values and weighted, does not grow while the columns before `c` are eliminated.
`p` is the row of `L`, `f` are the rows of `U`, `B` the row of the matrix. -/
theorem dom_tel {m c : ℕ} {B p w e : ℕ → K} {f : ℕ → ℕ → K} {g : K} (hg : 0 ≤ g) (hc : c ≤ m) (hp : ∀ k, 0 ≤ p k)
    (hw : ∀ k, k < m → 0 ≤ w k) (he : ∀ k, 0 ≤ e k)
    (hrow : ∀ k, k < c → (1 + g) * ∑ j ∈ Ico (k + 1) m, f k j * w j ≤ f k k * w k)
    (hlow : ∀ j, j < c → p j * f j j ≤ (1 + g) * (B j + ∑ k ∈ range j, p k * f k j) + e j) :
    ∑ j ∈ Ico c m, (B j + ∑ k ∈ range c, p k * f k j) * w j ≤ ∑ j ∈ range m, B j * w j + ∑ j ∈ range c, e j * w j := by
  induction c with
  | zero => simp
  | succ c ih =>
    have ih := ih (by omega) (fun k hk => hrow k (by omega)) (fun j hj => hlow j (by omega))
    rw [sum_eq_sum_Ico_succ_bot (by omega : c < m)] at ih
    have e1 : ∑ j ∈ Ico (c + 1) m, (B j + ∑ k ∈ range (c + 1), p k * f k j) * w j =
        ∑ j ∈ Ico (c + 1) m, (B j + ∑ k ∈ range c, p k * f k j) * w j + p c * ∑ j ∈ Ico (c + 1) m, f c j * w j := by
      rw [mul_sum, ← sum_add_distrib]
      refine sum_congr rfl fun j _ => ?_
      rw [sum_range_succ]; ring
    rw [e1, sum_range_succ (fun j => e j * w j)]
    have h1 := mul_le_mul_of_nonneg_left (hrow c (by omega)) (hp c)
    have h2 := mul_le_mul_of_nonneg_right (hlow c (by omega)) (hw c (by omega))
    have wc := hw c (by omega)
    have h3 : (1 + g) * (p c * ∑ j ∈ Ico (c + 1) m, f c j * w j) ≤
        (1 + g) * ((B c + ∑ k ∈ range c, p k * f k c) * w c + e c * w c) := by
      have := mul_nonneg hg (mul_nonneg (he c) wc)
      nlinarith
    have h4 := le_of_mul_le_mul_left h3 (by linarith : 0 < 1 + g)
    linarith

end tel

section
variable {T : Type} [Field T] [LinearOrder T] [IsStrictOrderedRing T] {n : ℕ} {A F : ℕ → ℕ → T} {w : ℕ → T}

theorem WeightDom.diag_ne (h : WeightDom n A w) {i : ℕ} (hi : i < n) : A i i ≠ 0 := by
  intro h0
  have := h.gap i hi
  rw [rowGap, h0, abs_zero, zero_mul] at this
  have : 0 ≤ ∑ j ∈ (range n).erase i, |A i j| * w j :=
    sum_nonneg fun j hj => mul_nonneg (abs_nonneg _) (h.pos j (mem_range.mp (mem_erase.mp hj).2)).le
  linarith

/-- One row of the factors: the pivot stays above the rest of the row by at least the gap of the matrix. -/
theorem dom_row (hw : WeightDom n A w) {i : ℕ} (hi : i < n) (hg : ∀ c, c < n → Good A F i c)
    (hrow : ∀ k, k < i → ∑ j ∈ Ico (k + 1) n, |F k j| * w j ≤ |F k k| * w k) :
    rowGap n A w i ≤ |F i i| * w i - ∑ j ∈ Ico (i + 1) n, |F i j| * w j ∧ |A i i - F i i| < |A i i| := by
  set B : ℕ → T := fun j => if j = i then 0 else |A i j| with hB
  have w0 : ∀ j, j < n → 0 ≤ w j := fun j hj => (hw.pos j hj).le
  have tri : ∀ c, |∑ k ∈ range c, F i k * F k c| ≤ ∑ k ∈ range c, |F i k| * |F k c| := fun c =>
    (abs_sum_le_sum_abs _ _).trans_eq (sum_congr rfl fun k _ => abs_mul _ _)
  have tri' : ∀ j, |∑ k ∈ range i, F i k * F k j| ≤ ∑ k ∈ range i, |F i k| * |F k j| := fun c =>
    (abs_sum_le_sum_abs _ _).trans_eq (sum_congr rfl fun k _ => abs_mul _ _)
  have t := dom_tel (m := n) (c := i) (B := B) (p := fun k => |F i k|) (f := fun k j => |F k j|) (w := w) (e := fun _ => 0)
    (g := 0) le_rfl hi.le (fun _ => abs_nonneg _) w0 (fun _ => le_rfl) (fun k hk => by rw [add_zero, one_mul]; exact hrow k hk)
    (fun j hj => by
      have hij : j ≠ i := by omega
      simp only [hB, if_neg hij, add_zero, one_mul]
      rw [← abs_mul]
      by_cases h0 : A i j = 0
      · rw [(hg j (by omega)).1 h0, zero_mul, abs_zero]
        exact add_nonneg (abs_nonneg _) (sum_nonneg fun k _ => mul_nonneg (abs_nonneg _) (abs_nonneg _))
      · obtain ⟨_, e⟩ := (hg j (by omega)).2.1 hj h0
        rw [show F i j * F j j = A i j - ∑ k ∈ range j, F i k * F k j by rw [← e]; ring]
        exact (abs_sub _ _).trans (by linarith [tri j]))
  simp only [zero_mul, sum_const_zero, add_zero] at t
  rw [sum_eq_sum_Ico_succ_bot hi] at t
  have eO : ∑ j ∈ range n, B j * w j = ∑ j ∈ (range n).erase i, |A i j| * w j := by
    rw [← add_sum_erase _ _ (mem_range.mpr hi)]
    simp only [hB, if_true, zero_mul, zero_add]
    exact sum_congr rfl fun j hj => by rw [if_neg (mem_erase.mp hj).1]
  rw [eO] at t
  have hup : ∑ j ∈ Ico (i + 1) n, |F i j| * w j ≤
      ∑ j ∈ Ico (i + 1) n, (B j + ∑ k ∈ range i, |F i k| * |F k j|) * w j := by
    refine sum_le_sum fun j hj => ?_
    rw [mem_Ico] at hj
    refine mul_le_mul_of_nonneg_right ?_ (w0 j hj.2)
    simp only [hB, if_neg (show j ≠ i by omega)]
    by_cases h0 : A i j = 0
    · rw [(hg j (by omega)).1 h0, abs_zero]
      exact add_nonneg (abs_nonneg _) (sum_nonneg fun k _ => mul_nonneg (abs_nonneg _) (abs_nonneg _))
    · have e := (hg j (by omega)).2.2 (by omega) h0
      rw [show F i j = A i j - ∑ k ∈ range i, F i k * F k j by rw [← e]; ring]
      exact (abs_sub _ _).trans (by linarith [tri' j])
  have hBi : B i = 0 := if_pos rfl
  rw [hBi, zero_add] at t
  have e := (hg i hi).2.2 le_rfl (hw.diag_ne hi)
  have hdiff : A i i - F i i = ∑ k ∈ range i, F i k * F k i := by rw [← e]; ring
  have hd : |A i i - F i i| * w i ≤ (∑ k ∈ range i, |F i k| * |F k i|) * w i := by
    rw [hdiff]; exact mul_le_mul_of_nonneg_right (tri' i) (w0 i hi)
  have hF : |A i i| * w i ≤ |F i i| * w i + |A i i - F i i| * w i := by
    rw [← add_mul]
    refine mul_le_mul_of_nonneg_right ?_ (w0 i hi)
    have := abs_add_le (F i i) (A i i - F i i)
    rwa [show F i i + (A i i - F i i) = A i i by ring] at this
  have U0 : 0 ≤ ∑ j ∈ Ico (i + 1) n, |F i j| * w j :=
    sum_nonneg fun j hj => mul_nonneg (abs_nonneg _) (w0 j (mem_Ico.mp hj).2)
  have gp := hw.gap i hi
  unfold rowGap at gp ⊢
  refine ⟨by linarith, ?_⟩
  have : |A i i - F i i| * w i < |A i i| * w i := by linarith
  exact lt_of_mul_lt_mul_right this (w0 i hi)

/-- All rows of the factors before row `i`. -/
theorem dom_rows (hw : WeightDom n A w) {i : ℕ} (hi : i ≤ n) (hg : ∀ r c, r < i → c < n → Good A F r c) :
    ∀ r, r < i → rowGap n A w r ≤ |F r r| * w r - ∑ j ∈ Ico (r + 1) n, |F r j| * w j ∧ |A r r - F r r| < |A r r| := by
  intro r
  induction r using Nat.strong_induction_on with
  | _ r ih =>
    intro hr
    refine dom_row hw (by omega) (fun c hc => hg r c hr hc) fun k hk => ?_
    have := (ih k hk (by omega)).1
    have := hw.gap k (by omega)
    linarith

theorem dom_pivot {a f : T} (h : |a - f| < |a|) : 0 < f * a := by
  rcases lt_trichotomy a 0 with ha | rfl | ha
  · rw [abs_of_neg ha, abs_lt] at h
    exact mul_pos_of_neg_of_neg (by linarith [h.2]) ha
  · simp at h
    exact absurd h (not_lt.mpr (abs_nonneg _))
  · rw [abs_of_pos ha, abs_lt] at h
    exact mul_pos (by linarith [h.1]) ha

namespace Ilu
variable {M : Type} {ops : MatOps M T} {R : M → (Nat → Nat → T) → Prop}

theorem not_stuck (hw : WeightDom n A w) {a : M} (h : Stuck R n n A a) : False := by
  obtain ⟨i, j, V, hj, hi, hI, _, h0⟩ := h
  have := (dom_rows hw (i := j + 1) (by omega) (fun r c hr hc => hI.done r c (by omega) hc (.inl (by omega))) j (by omega)).2
  have := dom_pivot this
  rw [h0, zero_mul] at this
  exact lt_irrefl _ this

end Ilu

/-! ## Solving with the factors -/

omit [LinearOrder T] [IsStrictOrderedRing T] in
theorem lu_fwd {x b : ℕ → T} (hx : Solves n (luProd n F) x b) {i : ℕ} (hi : i < n) :
    ∑ k ∈ range i, F i k * mulVec n (upper F) x k + mulVec n (upper F) x i = b i := by
  rw [← hx i hi]
  have : mulVec n (luProd n F) x i = ∑ k ∈ range n, unitLow F i k * mulVec n (upper F) x k := by
    simp only [mulVec, luProd, sum_mul, mul_sum]
    rw [sum_comm]
    exact sum_congr rfl fun k _ => sum_congr rfl fun j _ => by ring
  rw [this, ← sum_subset (range_subset_range.mpr hi), sum_range_succ]
  · rw [show unitLow F i i = 1 by simp [unitLow], one_mul]
    congr 1
    exact sum_congr rfl fun k hk => by rw [unitLow, if_pos (mem_range.mp hk)]
  · intro k _ hk
    rw [mem_range] at hk
    rw [unitLow, if_neg (by omega), if_neg (by omega), zero_mul]

omit [LinearOrder T] [IsStrictOrderedRing T] in
theorem lu_back {x : ℕ → T} {i : ℕ} (hi : i < n) :
    mulVec n (upper F) x i = F i i * x i + ∑ j ∈ Ico (i + 1) n, F i j * x j := by
  unfold mulVec
  rw [range_eq_Ico, ← sum_Ico_consecutive _ (Nat.zero_le i) hi.le, sum_eq_zero, zero_add, sum_eq_sum_Ico_succ_bot hi]
  · rw [upper, if_pos le_rfl]
    congr 1
    exact sum_congr rfl fun k hk => by rw [upper, if_pos (by have := (mem_Ico.mp hk).1; omega)]
  · intro k hk
    rw [upper, if_neg (by have := (mem_Ico.mp hk).2; omega), zero_mul]

/-- The first half of a solution, with the right-hand side as one more column. -/
theorem dom_fwd (hw : WeightDom n A w) (hg : ∀ r c, r < n → c < n → Good A F r c) {y b : ℕ → T}
    (hy : ∀ i, i < n → ∑ k ∈ range i, F i k * y k + y i = b i) {s : T} (hs : 0 ≤ s)
    (hb : ∀ i, i < n → |b i| ≤ s * rowGap n A w i) :
    ∀ i, i < n → |y i| + s * ∑ j ∈ Ico (i + 1) n, |F i j| * w j ≤ s * (|F i i| * w i) := by
  intro i
  induction i using Nat.strong_induction_on with
  | _ i ih =>
    intro hi
    set B : ℕ → T := fun j => if j = n then |b i| else if j = i then 0 else |A i j| with hB
    set f : ℕ → ℕ → T := fun k j => if j = n then |y k| else |F k j| with hf
    set v : ℕ → T := fun j => if j = n then 1 else s * w j with hv
    have vn : v n = 1 := if_pos rfl
    have fn : ∀ k, f k n = |y k| := fun k => if_pos rfl
    have Bn : B n = |b i| := if_pos rfl
    have fl : ∀ k j, j < n → f k j = |F k j| := fun k j hj => if_neg (by omega)
    have vl : ∀ j, j < n → v j = s * w j := fun j hj => if_neg (by omega)
    have v0 : ∀ j, j < n + 1 → 0 ≤ v j := by
      intro j hj
      simp only [hv]
      split_ifs with h
      · exact zero_le_one
      · exact mul_nonneg hs (hw.pos j (by omega)).le
    have f0 : ∀ k j, 0 ≤ f k j := by
      intro k j
      simp only [hf]
      split_ifs <;> exact abs_nonneg _
    have S : ∀ (c : ℕ) (g : ℕ → T), c ≤ n → ∑ j ∈ Ico c (n + 1), g j * v j = s * ∑ j ∈ Ico c n, g j * w j + g n := by
      intro c g hc
      rw [sum_Ico_succ_top hc, vn, mul_one, mul_sum]
      congr 1
      exact sum_congr rfl fun j hj => by rw [vl j (mem_Ico.mp hj).2]; ring
    have Sf : ∀ k c, c ≤ n → ∑ j ∈ Ico c n, f k j * w j = ∑ j ∈ Ico c n, |F k j| * w j := fun k c hc =>
      sum_congr rfl fun j hj => by rw [fl k j (mem_Ico.mp hj).2]
    have t := dom_tel (m := n + 1) (c := i) (B := B) (p := fun k => |F i k|) (f := f) (w := v) (e := fun _ => 0)
      (g := 0) le_rfl (by omega) (fun _ => abs_nonneg _) v0 (fun _ => le_rfl)
      (fun k hk => by
        rw [add_zero, one_mul, S _ _ (by omega), Sf _ _ (by omega), fl k k (by omega), vl k (by omega), fn]
        have := ih k hk (by omega)
        linarith)
      (fun j hj => by
        have hij : j ≠ i := by omega
        have hjn : j ≠ n := by omega
        simp only [hB, if_neg hij, if_neg hjn, add_zero, one_mul]
        rw [fl j j (by omega), ← abs_mul]
        have tri : |∑ k ∈ range j, F i k * F k j| ≤ ∑ k ∈ range j, |F i k| * f k j :=
          (abs_sum_le_sum_abs _ _).trans_eq (sum_congr rfl fun k _ => by rw [abs_mul, fl k j (by omega)])
        by_cases h0 : A i j = 0
        · rw [(hg i j hi (by omega)).1 h0, zero_mul, abs_zero]
          exact add_nonneg (abs_nonneg _) (sum_nonneg fun k _ => mul_nonneg (abs_nonneg _) (f0 _ _))
        · obtain ⟨_, e⟩ := (hg i j hi (by omega)).2.1 hj h0
          rw [show F i j * F j j = A i j - ∑ k ∈ range j, F i k * F k j by rw [← e]; ring]
          exact (abs_sub _ _).trans (by linarith [tri]))
    simp only [zero_mul, sum_const_zero, add_zero] at t
    rw [S _ _ hi.le, show range (n + 1) = Ico 0 (n + 1) from range_eq_Ico _, S _ _ (Nat.zero_le n),
      sum_eq_sum_Ico_succ_bot hi, Bn] at t
    have eO : ∑ j ∈ range n, B j * w j = ∑ j ∈ (range n).erase i, |A i j| * w j := by
      rw [← add_sum_erase _ _ (mem_range.mpr hi)]
      have : B i = 0 := by simp only [hB, if_neg hi.ne, if_true]
      rw [this, zero_mul, zero_add]
      exact sum_congr rfl fun j hj => by
        have hj := mem_erase.mp hj
        simp only [hB]
        rw [if_neg hj.1, if_neg (mem_range.mp hj.2).ne]
    rw [← range_eq_Ico, eO] at t
    have hup : ∑ j ∈ Ico (i + 1) n, |F i j| * w j ≤
        ∑ j ∈ Ico (i + 1) n, (B j + ∑ k ∈ range i, |F i k| * f k j) * w j := by
      refine sum_le_sum fun j hj => ?_
      rw [mem_Ico] at hj
      refine mul_le_mul_of_nonneg_right ?_ (hw.pos j hj.2).le
      simp only [hB, if_neg (show j ≠ i by omega), if_neg hj.2.ne]
      have tri : |∑ k ∈ range i, F i k * F k j| ≤ ∑ k ∈ range i, |F i k| * f k j :=
        (abs_sum_le_sum_abs _ _).trans_eq (sum_congr rfl fun k _ => by rw [abs_mul, fl k j hj.2])
      by_cases h0 : A i j = 0
      · rw [(hg i j hi hj.2).1 h0, abs_zero]
        exact add_nonneg (abs_nonneg _) (sum_nonneg fun k _ => mul_nonneg (abs_nonneg _) (f0 _ _))
      · have e := (hg i j hi hj.2).2.2 (by omega) h0
        rw [show F i j = A i j - ∑ k ∈ range i, F i k * F k j by rw [← e]; ring]
        exact (abs_sub _ _).trans (by linarith [tri])
    have hyi : |y i| ≤ |b i| + ∑ k ∈ range i, |F i k| * f k n := by
      rw [show y i = b i - ∑ k ∈ range i, F i k * y k by rw [← hy i hi]; ring]
      refine (abs_sub _ _).trans (add_le_add le_rfl ((abs_sum_le_sum_abs _ _).trans_eq (sum_congr rfl fun k _ => ?_)))
      rw [abs_mul, fn]
    have Bi : B i = 0 := by simp only [hB, if_neg hi.ne, if_true]
    have e := (hg i i hi hi).2.2 le_rfl (hw.diag_ne hi)
    have hF : |A i i| * w i ≤ |F i i| * w i + (∑ k ∈ range i, |F i k| * f k i) * w i := by
      rw [← add_mul]
      refine mul_le_mul_of_nonneg_right ?_ (hw.pos i hi).le
      rw [← e, add_comm]
      refine (abs_add_le _ _).trans (add_le_add le_rfl ((abs_sum_le_sum_abs _ _).trans_eq (sum_congr rfl fun k _ => ?_)))
      rw [abs_mul, fl k i hi]
    rw [Bi, zero_add] at t
    have hbi := hb i hi
    unfold rowGap at hbi
    have h1 := mul_le_mul_of_nonneg_left hup hs
    have h2 := mul_le_mul_of_nonneg_left hF hs
    rw [mul_add] at h2 t
    rw [mul_sub] at hbi
    linarith

/-- The second half. -/
theorem dom_back {y x : ℕ → T} (hd : ∀ i, i < n → F i i ≠ 0)
    (hx : ∀ i, i < n → y i = F i i * x i + ∑ j ∈ Ico (i + 1) n, F i j * x j) {s : T}
    (hy : ∀ i, i < n → |y i| + s * ∑ j ∈ Ico (i + 1) n, |F i j| * w j ≤ s * (|F i i| * w i)) :
    ∀ i, i < n → |x i| ≤ s * w i := by
  have main : ∀ d i, i < n → n - i = d → |x i| ≤ s * w i := by
    intro d
    induction d using Nat.strong_induction_on with
    | _ d ih =>
      intro i hi hd'
      have h1 : |∑ j ∈ Ico (i + 1) n, F i j * x j| ≤ s * ∑ j ∈ Ico (i + 1) n, |F i j| * w j := by
        rw [mul_sum]
        refine (abs_sum_le_sum_abs _ _).trans (sum_le_sum fun j hj => ?_)
        rw [mem_Ico] at hj
        rw [abs_mul]
        have := mul_le_mul_of_nonneg_left (ih (n - j) (by omega) j hj.2 rfl) (abs_nonneg (F i j))
        linarith
      have h2 : |F i i| * |x i| ≤ |F i i| * (s * w i) := by
        rw [← abs_mul, show F i i * x i = y i - ∑ j ∈ Ico (i + 1) n, F i j * x j by rw [hx i hi]; ring]
        have := abs_sub (y i) (∑ j ∈ Ico (i + 1) n, F i j * x j)
        have := hy i hi
        linarith
      exact le_of_mul_le_mul_left h2 (abs_pos.mpr (hd i hi))
  exact fun i hi => main (n - i) i hi rfl

/-! ## Signs -/

/-- The factors of an M-matrix have the signs of an M-matrix. -/
theorem m_signs (hd : ∀ i, i < n → 0 < F i i) (hA : ∀ i j, i < n → j < n → i ≠ j → A i j ≤ 0)
    (hg : ∀ r c, r < n → c < n → Good A F r c) : ∀ i j, i < n → j < n → i ≠ j → F i j ≤ 0 := by
  have main : ∀ i, i < n → ∀ j, j < n → i ≠ j → F i j ≤ 0 := by
    intro i
    induction i using Nat.strong_induction_on with
    | _ i ih =>
      intro hi j
      induction j using Nat.strong_induction_on with
      | _ j jh =>
        intro hj hij
        by_cases h0 : A i j = 0
        · rw [(hg i j hi hj).1 h0]
        have P : ∀ c, c ≤ i → c ≤ j → 0 ≤ ∑ k ∈ range c, F i k * F k j := fun c h1 h2 => sum_nonneg fun k hk => by
          have hk := mem_range.mp hk
          exact mul_nonneg_of_nonpos_of_nonpos (jh k (by omega) (by omega) (by omega)) (ih k (by omega) (by omega) j hj (by omega))
        have a := hA i j hi hj hij
        rcases Nat.lt_or_ge j i with h | h
        · obtain ⟨_, e⟩ := (hg i j hi hj).2.1 h h0
          have := P j (by omega) le_rfl
          by_contra hc
          have := mul_pos (not_le.mp hc) (hd j hj)
          linarith
        · have e := (hg i j hi hj).2.2 h h0
          have := P i le_rfl (by omega)
          linarith
  exact fun i j hi => main i hi j

theorem m_solve {y x b : ℕ → T} (hd : ∀ i, i < n → 0 < F i i) (hF : ∀ i j, i < n → j < n → i ≠ j → F i j ≤ 0)
    (hy : ∀ i, i < n → ∑ k ∈ range i, F i k * y k + y i = b i)
    (hx : ∀ i, i < n → y i = F i i * x i + ∑ j ∈ Ico (i + 1) n, F i j * x j) (hb : ∀ i, i < n → 0 ≤ b i) :
    ∀ i, i < n → 0 ≤ x i := by
  have y0 : ∀ i, i < n → 0 ≤ y i := by
    intro i
    induction i using Nat.strong_induction_on with
    | _ i ih =>
      intro hi
      have : ∑ k ∈ range i, F i k * y k ≤ 0 := sum_nonpos fun k hk => by
        have hk := mem_range.mp hk
        exact mul_nonpos_of_nonpos_of_nonneg (hF i k hi (by omega) (by omega)) (ih k hk (by omega))
      have := hy i hi
      have := hb i hi
      linarith
  have main : ∀ d i, i < n → n - i = d → 0 ≤ x i := by
    intro d
    induction d using Nat.strong_induction_on with
    | _ d ih =>
      intro i hi hd'
      have : ∑ j ∈ Ico (i + 1) n, F i j * x j ≤ 0 := sum_nonpos fun j hj => by
        have hj := mem_Ico.mp hj
        exact mul_nonpos_of_nonpos_of_nonneg (hF i j hi hj.2 (by omega)) (ih (n - j) (by omega) j hj.2 rfl)
      have := hx i hi
      have := y0 i hi
      by_contra hc
      have := mul_neg_of_pos_of_neg (hd i hi) (not_le.mp hc)
      linarith
  exact fun i hi => main (n - i) i hi rfl

theorem MMatrix.dom (h : MMatrix n A w) : WeightDom n A w := by
  refine ⟨h.pos, fun i hi => ?_⟩
  have := h.row i hi
  rw [← add_sum_erase _ _ (mem_range.mpr hi)] at this
  unfold rowGap
  rw [abs_of_pos (h.diag i hi)]
  have e : ∑ j ∈ (range n).erase i, |A i j| * w j = - ∑ j ∈ (range n).erase i, A i j * w j := by
    rw [← sum_neg_distrib]
    refine sum_congr rfl fun j hj => ?_
    have hj := mem_erase.mp hj
    rw [abs_of_nonpos (h.off i j hi (mem_range.mp hj.2) hj.1.symm)]; ring
  linarith

/-! ## The matrix is regular -/

theorem WeightDom.lead (h : WeightDom n A w) {k : ℕ} (hk : k ≤ n) : WeightDom k A w := by
  refine ⟨fun j hj => h.pos j (by omega), fun i hi => lt_of_lt_of_le (h.gap i (by omega)) ?_⟩
  unfold rowGap
  have : ∑ j ∈ (range k).erase i, |A i j| * w j ≤ ∑ j ∈ (range n).erase i, |A i j| * w j :=
    sum_le_sum_of_subset_of_nonneg (erase_subset_erase _ (range_subset_range.mpr hk)) fun j hj _ =>
      mul_nonneg (abs_nonneg _) (h.pos j (mem_range.mp (mem_erase.mp hj).2)).le
  linarith

/-- A bound of the solution of the system itself. -/
theorem dom_bound (h : WeightDom n A w) {x b : ℕ → T} (hx : Solves n A x b) {s : T}
    (hb : ∀ i, i < n → |b i| ≤ s * rowGap n A w i) : ∀ i, i < n → |x i| ≤ s * w i := by
  by_contra hc
  push Not at hc
  obtain ⟨i₀, h₀, hc⟩ := hc
  obtain ⟨i, hi, hmax⟩ := exists_max_image (range n) (fun i => |x i| / w i) ⟨i₀, mem_range.mpr h₀⟩
  rw [mem_range] at hi
  have wi := h.pos i hi
  have hsi : s < |x i| / w i := lt_of_lt_of_le (by rw [lt_div_iff₀ (h.pos i₀ h₀)]; exact hc) (hmax i₀ (mem_range.mpr h₀))
  set q := |x i| / w i with hq
  have xi : |x i| = q * w i := by rw [hq]; field_simp
  have e := hx i hi
  unfold mulVec at e
  rw [← add_sum_erase _ _ (mem_range.mpr hi)] at e
  have h1 : |∑ j ∈ (range n).erase i, A i j * x j| ≤ q * ∑ j ∈ (range n).erase i, |A i j| * w j := by
    rw [mul_sum]
    refine (abs_sum_le_sum_abs _ _).trans (sum_le_sum fun j hj => ?_)
    have hj := mem_range.mp (mem_erase.mp hj).2
    have := hmax j (mem_range.mpr hj)
    rw [div_le_iff₀ (h.pos j hj)] at this
    have := mul_le_mul_of_nonneg_left this (abs_nonneg (A i j))
    rw [abs_mul]
    linarith
  have h2 : |A i i| * |x i| ≤ |b i| + |∑ j ∈ (range n).erase i, A i j * x j| := by
    rw [← abs_mul, show A i i * x i = b i - ∑ j ∈ (range n).erase i, A i j * x j by rw [← e]; ring]
    exact abs_sub _ _
  have h3 := mul_lt_mul_of_pos_right hsi (h.gap i hi)
  have h4 := hb i hi
  rw [xi] at h2
  have h5 : q * rowGap n A w i = |A i i| * (q * w i) - q * ∑ j ∈ (range n).erase i, |A i j| * w j := by unfold rowGap; ring
  linarith

theorem WeightDom.minor_ne (h : WeightDom n A w) {k : ℕ} (hk : k ≤ n) : minor A k ≠ 0 := by
  intro h0
  have h := h.lead hk
  obtain ⟨v, hv, hz⟩ := Matrix.exists_mulVec_eq_zero_iff.mpr h0
  refine hv (funext fun i => ?_)
  have hS : Solves k A (fun j => if hj : j < k then v ⟨j, hj⟩ else 0) (fun _ => 0) := by
    intro i hi
    have := congrFun hz ⟨i, hi⟩
    simp only [Matrix.mulVec, dotProduct, Matrix.of_apply, Pi.zero_apply] at this
    unfold mulVec
    rw [Finset.sum_range]
    refine Eq.trans ?_ this
    exact Finset.sum_congr rfl fun j _ => by beta_reduce; rw [dif_pos j.2]
  have := dom_bound h hS (s := 0) (fun i _ => by simp) i i.2
  rw [dif_pos i.2, zero_mul] at this
  exact abs_nonpos_iff.mp this

end

end Lalib
