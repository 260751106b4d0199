import Verif.Spec.Stationary
import Verif.Proofs.IluDom
import Verif.Proofs.GmresRun

/-! # Iteration with incomplete factors -/

namespace Lalib

open Finset

section
variable {T : Type} [Field T] [LinearOrder T] [IsStrictOrderedRing T] {n : ℕ} {A F : ℕ → ℕ → T} {w : ℕ → T}

/-- What is left of row `i` of `U`. -/
def upGap (n : ℕ) (F : ℕ → ℕ → T) (w : ℕ → T) (i : ℕ) : T := |F i i| * w i - ∑ j ∈ Ico (i + 1) n, |F i j| * w j

/-- `L U` equals `A` where nothing is dropped, and where something may be dropped both `A` and the factors have a zero. -/
def LuPat (n : ℕ) (A F : ℕ → ℕ → T) : Prop := ∀ i j, i < n → j < n → luProd n F i j = A i j ∨ A i j = 0 ∧ F i j = 0

omit [IsStrictOrderedRing T] in
theorem _root_.Lalib.IsIlu.pat (h : IsIlu n A F) : LuPat n A F := fun i j hi hj => by
  by_cases h0 : A i j = 0
  · exact .inr ⟨h0, h.zero i j hi hj h0⟩
  · exact .inl (h.prod i j hi hj h0)

/-- The dropped entries count: they are taken off the gap of the row of `U`. -/
theorem dom_dropped (hw : WeightDom n A w) (hI : LuPat n A F) {i : ℕ} (hi : i < n) :
    rowGap n A w i + ∑ j ∈ range n, |luProd n F i j - A i j| * w j + ∑ k ∈ range i, |F i k| * upGap n F w k ≤ upGap n F w i := by
  have w0 : ∀ j, j < n → 0 ≤ w j := fun j hj => (hw.pos j hj).le
  set S : ℕ → T := fun j => ∑ k ∈ range i, |F i k| * (if k < j then |F k j| else 0) with hS
  have S0 : ∀ j, 0 ≤ S j := fun j => sum_nonneg fun k _ => mul_nonneg (abs_nonneg _) (by split_ifs <;> simp)
  have Slow : ∀ j, j < i → |∑ k ∈ range j, F i k * F k j| ≤ S j := by
    intro j hj
    refine (abs_sum_le_sum_abs _ _).trans ?_
    have : ∑ k ∈ range j, |F i k * F k j| = ∑ k ∈ range j, |F i k| * (if k < j then |F k j| else 0) :=
      sum_congr rfl fun k hk => by rw [if_pos (mem_range.mp hk), abs_mul]
    rw [this]
    exact sum_le_sum_of_subset_of_nonneg (range_subset_range.mpr hj.le) fun k _ _ =>
      mul_nonneg (abs_nonneg _) (by split_ifs <;> simp)
  have Sup : ∀ j, i ≤ j → |∑ k ∈ range i, F i k * F k j| ≤ S j := by
    intro j hj
    refine (abs_sum_le_sum_abs _ _).trans_eq (sum_congr rfl fun k hk => ?_)
    rw [if_pos (by have := mem_range.mp hk; omega), abs_mul]
  set c : ℕ → T := fun j => if j < i then |F i j| * |F j j| else if j = i then -|F i i| else |F i j| with hc
  have key : ∀ j, j < n → c j + |luProd n F i j - A i j| ≤ (if j = i then -|A i i| else |A i j|) + S j := by
    intro j hj
    rcases hI i j hi hj with hp | ⟨h0, hF⟩
    rotate_left
    · have hij : j ≠ i := by rintro rfl; exact hw.diag_ne hi h0
      have hcj : c j = 0 := by
        simp only [hc, hF, abs_zero, zero_mul, if_neg hij, ite_self]
      rw [hcj, h0, if_neg hij, abs_zero, sub_zero, zero_add, zero_add]
      rcases Nat.lt_or_ge j i with h | h
      · rw [luProd_low F h hi, hF, zero_mul, add_zero]; exact Slow j h
      · rw [luProd_up F h hi, hF, add_zero]; exact Sup j h
    · rw [hp, sub_self, abs_zero, add_zero]
      rcases Nat.lt_trichotomy j i with h | h | h
      · rw [luProd_low F h hi] at hp
        simp only [hc, if_pos h, if_neg h.ne]
        rw [← abs_mul, show F i j * F j j = A i j - ∑ k ∈ range j, F i k * F k j by rw [← hp]; ring]
        exact (abs_sub _ _).trans (by linarith [Slow j h])
      · subst h
        rw [luProd_up F le_rfl hi] at hp
        simp only [hc, lt_irrefl, if_false, if_true]
        have h1 := abs_add_le (F j j) (∑ k ∈ range j, F j k * F k j)
        rw [show F j j + ∑ k ∈ range j, F j k * F k j = A j j by rw [← hp]; ring] at h1
        linarith [Sup j le_rfl]
      · rw [luProd_up F h.le hi] at hp
        simp only [hc, if_neg (show ¬ j < i by omega), if_neg h.ne']
        rw [show F i j = A i j - ∑ k ∈ range i, F i k * F k j by rw [← hp]; ring]
        exact (abs_sub _ _).trans (by linarith [Sup j h.le])
  have tot := sum_le_sum fun j hj => mul_le_mul_of_nonneg_right (key j (mem_range.mp hj)) (w0 j (mem_range.mp hj))
  simp only [add_mul, sum_add_distrib] at tot
  have e1 : ∑ j ∈ range n, c j * w j = ∑ j ∈ range i, |F i j| * |F j j| * w j - upGap n F w i := by
    rw [range_eq_Ico, ← sum_Ico_consecutive _ (Nat.zero_le i) hi.le, sum_eq_sum_Ico_succ_bot hi, ← range_eq_Ico]
    have a1 : ∑ j ∈ range i, c j * w j = ∑ j ∈ range i, |F i j| * |F j j| * w j :=
      sum_congr rfl fun j hj => by simp only [hc, if_pos (mem_range.mp hj)]
    have a2 : ∑ j ∈ Ico (i + 1) n, c j * w j = ∑ j ∈ Ico (i + 1) n, |F i j| * w j :=
      sum_congr rfl fun j hj => by
        have := (mem_Ico.mp hj).1
        simp only [hc, if_neg (show ¬ j < i by omega), if_neg (show j ≠ i by omega)]
    have a3 : c i = -|F i i| := by simp only [hc, lt_irrefl, if_false, if_true]
    rw [a1, a2, a3, upGap]; ring
  have e2 : ∑ j ∈ range n, (if j = i then -|A i i| else |A i j|) * w j = -rowGap n A w i := by
    rw [← add_sum_erase _ _ (mem_range.mpr hi), rowGap]
    have : ∑ j ∈ (range n).erase i, (if j = i then -|A i i| else |A i j|) * w j = ∑ j ∈ (range n).erase i, |A i j| * w j :=
      sum_congr rfl fun j hj => by rw [if_neg (mem_erase.mp hj).1]
    rw [this, if_pos rfl]; ring
  have e3 : ∑ j ∈ range n, S j * w j = ∑ k ∈ range i, |F i k| * ∑ j ∈ Ico (k + 1) n, |F k j| * w j := by
    simp only [hS, sum_mul]
    rw [sum_comm]
    refine sum_congr rfl fun k hk => ?_
    have hk := mem_range.mp hk
    rw [mul_sum, range_eq_Ico, ← sum_Ico_consecutive _ (Nat.zero_le (k + 1)) (show k + 1 ≤ n by omega)]
    have z : ∑ j ∈ Ico 0 (k + 1), |F i k| * (if k < j then |F k j| else 0) * w j = 0 :=
      sum_eq_zero fun j hj => by rw [if_neg (by have := (mem_Ico.mp hj).2; omega), mul_zero, zero_mul]
    rw [z, zero_add]
    exact sum_congr rfl fun j hj => by rw [if_pos (by have := (mem_Ico.mp hj).1; omega)]; ring
  rw [e1, e2, e3] at tot
  have e4 : ∑ k ∈ range i, |F i k| * upGap n F w k =
      ∑ j ∈ range i, |F i j| * |F j j| * w j - ∑ k ∈ range i, |F i k| * ∑ j ∈ Ico (k + 1) n, |F k j| * w j := by
    rw [← sum_sub_distrib]
    exact sum_congr rfl fun k _ => by rw [upGap]; ring
  rw [e4]
  linarith

/-- The gap of a row of `U` is no less than that of the matrix. -/
theorem upGap_ge (hw : WeightDom n A w) (hI : LuPat n A F) : ∀ {i : ℕ}, i < n → rowGap n A w i ≤ upGap n F w i := by
  intro i
  induction i using Nat.strong_induction_on with
  | _ i ih =>
    intro hi
    have h1 := dom_dropped hw hI hi
    have h2 : 0 ≤ ∑ j ∈ range n, |luProd n F i j - A i j| * w j :=
      sum_nonneg fun j hj => mul_nonneg (abs_nonneg _) (hw.pos j (mem_range.mp hj)).le
    have h3 : 0 ≤ ∑ k ∈ range i, |F i k| * upGap n F w k := sum_nonneg fun k hk => by
      have hk := mem_range.mp hk
      exact mul_nonneg (abs_nonneg _) ((hw.gap k (by omega)).le.trans (ih k hk (by omega)))
    linarith

/-- The error after a step that has an error of its own: `L U e' = (L U - A) e + r`. -/
theorem drop_error_plus (hw : WeightDom n A w) (hI : LuPat n A F) {e e' r : ℕ → T} {s t : T} (hs : 0 ≤ s) (ht : 0 ≤ t)
    (he : ∀ i, i < n → |e i| ≤ s * w i) (hr : ∀ i, i < n → |r i| ≤ t * rowGap n A w i)
    (h : Solves n (luProd n F) e' fun i => mulVec n (fun i j => luProd n F i j - A i j) e i + r i) :
    ∀ i, i < n → |F i i| * |e' i| ≤ s * (|F i i| * w i - rowGap n A w i) + t * (|F i i| * w i) := by
  set y := mulVec n (upper F) e' with hy
  have hf : ∀ i, i < n → |y i| ≤ s * (upGap n F w i - rowGap n A w i) + t * upGap n F w i := by
    intro i
    induction i using Nat.strong_induction_on with
    | _ i ih =>
      intro hi
      have h1 := lu_fwd h hi
      rw [← hy] at h1
      have h2 : |mulVec n (fun i j => luProd n F i j - A i j) e i| ≤ s * ∑ j ∈ range n, |luProd n F i j - A i j| * w j := by
        refine (abs_sum_le_sum_abs _ _).trans ?_
        rw [mul_sum]
        refine sum_le_sum fun j hj => ?_
        rw [abs_mul]
        have := mul_le_mul_of_nonneg_left (he j (mem_range.mp hj)) (abs_nonneg (luProd n F i j - A i j))
        linarith
      have h2' : 0 ≤ ∑ j ∈ range n, |luProd n F i j - A i j| * w j :=
        sum_nonneg fun j hj => mul_nonneg (abs_nonneg _) (hw.pos j (mem_range.mp hj)).le
      have h3 : |∑ k ∈ range i, F i k * y k| ≤ (s + t) * ∑ k ∈ range i, |F i k| * upGap n F w k := by
        refine (abs_sum_le_sum_abs _ _).trans ?_
        rw [mul_sum]
        refine sum_le_sum fun k hk => ?_
        have hk := mem_range.mp hk
        rw [abs_mul]
        have g0 := (hw.gap k (by omega)).le
        have h4 := mul_le_mul_of_nonneg_left (ih k hk (by omega)) (abs_nonneg (F i k))
        have h5 := mul_nonneg (mul_nonneg (abs_nonneg (F i k)) hs) g0
        linarith
      have h6 : |y i| ≤ |mulVec n (fun i j => luProd n F i j - A i j) e i| + |r i| + |∑ k ∈ range i, F i k * y k| := by
        rw [show y i = mulVec n (fun i j => luProd n F i j - A i j) e i + r i - ∑ k ∈ range i, F i k * y k by rw [← h1]; ring]
        exact (abs_sub _ _).trans (add_le_add_left (abs_add_le _ _) _)
      have h7 := mul_le_mul_of_nonneg_left (dom_dropped hw hI hi) hs
      have h8 := mul_le_mul_of_nonneg_left (dom_dropped hw hI hi) ht
      have h9 := mul_nonneg ht h2'
      linarith [hr i hi]
  have hFp : ∀ i, i < n → 0 < |F i i| := fun i hi => by
    have := upGap_ge hw hI hi
    have hg := hw.gap i hi
    by_contra h0
    have h0 : |F i i| = 0 := le_antisymm (_root_.not_lt.mp h0) (abs_nonneg _)
    rw [upGap, h0, zero_mul] at this
    have : 0 ≤ ∑ j ∈ Ico (i + 1) n, |F i j| * w j :=
      sum_nonneg fun j hj => mul_nonneg (abs_nonneg _) (hw.pos j (mem_Ico.mp hj).2).le
    linarith
  suffices H : ∀ d i, i + d + 1 = n → |F i i| * |e' i| ≤ s * (|F i i| * w i - rowGap n A w i) + t * (|F i i| * w i) from
    fun i hi => H (n - 1 - i) i (by omega)
  intro d
  induction d using Nat.strong_induction_on with
  | _ d ih =>
    intro i hd
    have hi : i < n := by omega
    have h1 : F i i * e' i = y i - ∑ j ∈ Ico (i + 1) n, F i j * e' j := by
      rw [hy, lu_back hi]; ring
    have h2 : |∑ j ∈ Ico (i + 1) n, F i j * e' j| ≤ (s + t) * ∑ j ∈ Ico (i + 1) n, |F i j| * w j := by
      refine (abs_sum_le_sum_abs _ _).trans ?_
      rw [mul_sum]
      refine sum_le_sum fun j hj => ?_
      have hj := mem_Ico.mp hj
      have h3 := ih (n - 1 - j) (by omega) j (by omega)
      have h4 : |e' j| ≤ (s + t) * w j := by
        refine le_of_mul_le_mul_left (h3.trans ?_) (hFp j hj.2)
        have := mul_nonneg hs (hw.gap j hj.2).le
        linarith
      rw [abs_mul]
      have := mul_le_mul_of_nonneg_left h4 (abs_nonneg (F i j))
      linarith
    rw [← abs_mul, h1]
    refine (abs_sub _ _).trans ?_
    have := hf i hi
    rw [upGap] at this
    linarith

/-- The error after a step: `L U e' = (L U - A) e`. -/
theorem drop_error (hw : WeightDom n A w) (hI : LuPat n A F) {e e' : ℕ → T} {s : T} (hs : 0 ≤ s) (he : ∀ i, i < n → |e i| ≤ s * w i)
    (h : Solves n (luProd n F) e' (mulVec n (fun i j => luProd n F i j - A i j) e)) :
    ∀ i, i < n → |F i i| * |e' i| ≤ s * (|F i i| * w i - rowGap n A w i) := by
  intro i hi
  have := drop_error_plus hw hI (e' := e') (r := fun _ => 0) hs le_rfl he (fun j _ => by rw [abs_zero, zero_mul])
    (fun j hj => (h j hj).trans (add_zero _).symm) i hi
  rwa [zero_mul, add_zero] at this

omit [LinearOrder T] [IsStrictOrderedRing T] in
/-- The system of the factors has one solution. -/
theorem lu_zero (hd : ∀ i, i < n → F i i ≠ 0) {e : ℕ → T} (h : Solves n (luProd n F) e fun _ => 0) : ∀ i, i < n → e i = 0 := by
  have hy : ∀ i, i < n → mulVec n (upper F) e i = 0 := by
    intro i
    induction i using Nat.strong_induction_on with
    | _ i ih =>
      intro hi
      have h1 := lu_fwd h hi
      rw [sum_eq_zero fun k hk => by rw [ih k (mem_range.mp hk) (by have := mem_range.mp hk; omega), mul_zero], zero_add] at h1
      exact h1
  suffices H : ∀ d i, i + d + 1 = n → e i = 0 from fun i hi => H (n - 1 - i) i (by omega)
  intro d
  induction d using Nat.strong_induction_on with
  | _ d ih =>
    intro i hd'
    have h1 := hy i (by omega)
    rw [lu_back (by omega : i < n), sum_eq_zero fun j hj => by
      have hj := mem_Ico.mp hj
      rw [ih (n - 1 - j) (by omega) j (by omega), mul_zero], add_zero] at h1
    exact (mul_eq_zero.mp h1).resolve_left (hd i (by omega))

/-- `A y ≥ 0` gives `y ≥ 0` for an M-matrix. -/
theorem MMatrix.nonneg (hm : MMatrix n A w) {y : ℕ → T} (hy : ∀ i, i < n → 0 ≤ mulVec n A y i) : ∀ i, i < n → 0 ≤ y i := by
  by_contra hne
  push Not at hne
  obtain ⟨i0, hi0, hneg⟩ := hne
  obtain ⟨i, hi, hmin⟩ := exists_min_image (range n) (fun j => y j / w j) ⟨i0, mem_range.mpr hi0⟩
  have hi := mem_range.mp hi
  set t := y i / w i with ht
  have t0 : t < 0 := (hmin i0 (mem_range.mpr hi0)).trans_lt (div_neg_of_neg_of_pos hneg (hm.pos i0 hi0))
  have hyi : y i = t * w i := by rw [ht, div_mul_cancel₀ _ (hm.pos i hi).ne']
  have hle : ∀ j, j < n → t * w j ≤ y j := fun j hj => by
    have := hmin j (mem_range.mpr hj)
    rwa [le_div_iff₀ (hm.pos j hj)] at this
  have h1 : mulVec n A y i ≤ t * ∑ j ∈ range n, A i j * w j := by
    rw [mul_sum]
    refine sum_le_sum fun j hj => ?_
    have hj := mem_range.mp hj
    by_cases e : i = j
    · subst e; rw [hyi]; linarith
    · have := mul_le_mul_of_nonpos_left (hle j hj) (hm.off i j hi hj e)
      linarith
  have h2 := mul_neg_of_neg_of_pos t0 (hm.row i hi)
  have := hy i hi
  linarith

/-- The dropped entries of an M-matrix are not negative, and the pivots are not above the diagonal entries. -/
theorem m_dropped (hI : IsIlu n A F) (hF : ∀ i j, i < n → j < n → i ≠ j → F i j ≤ 0) {i j : ℕ} (hi : i < n)
    (hj : j < n) : 0 ≤ luProd n F i j - A i j := by
  by_cases h0 : A i j = 0
  · have h1 := hI.zero i j hi hj h0
    rw [h0, sub_zero]
    rcases Nat.lt_or_ge j i with h | h
    · rw [luProd_low F h hi, h1, zero_mul, add_zero]
      exact sum_nonneg fun k hk => by
        have hk := mem_range.mp hk
        exact mul_nonneg_of_nonpos_of_nonpos (hF i k hi (by omega) (by omega)) (hF k j (by omega) hj (by omega))
    · rw [luProd_up F h hi, h1, add_zero]
      exact sum_nonneg fun k hk => by
        have hk := mem_range.mp hk
        exact mul_nonneg_of_nonpos_of_nonpos (hF i k hi (by omega) (by omega)) (hF k j (by omega) hj (by omega))
  · rw [hI.prod i j hi hj h0, sub_self]

theorem m_pivot (hm : MMatrix n A w) (hI : IsIlu n A F) (hF : ∀ i j, i < n → j < n → i ≠ j → F i j ≤ 0) {i : ℕ} (hi : i < n) :
    F i i ≤ A i i := by
  have h := hI.prod i i hi hi (hm.diag i hi).ne'
  rw [luProd_up F le_rfl hi] at h
  have : 0 ≤ ∑ k ∈ range i, F i k * F k i := sum_nonneg fun k hk => by
    have hk := mem_range.mp hk
    exact mul_nonneg_of_nonpos_of_nonpos (hF i k hi (by omega) (by omega)) (hF k i (by omega) hi (by omega))
  linarith

end

end Lalib
