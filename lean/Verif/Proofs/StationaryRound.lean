import Verif.Spec.StationaryRound
import Verif.Proofs.Stationary
import Verif.Proofs.IeeeIluOk
import Verif.Proofs.NoisySolve
import Verif.Proofs.GmresRaw

/-! # Iteration with incomplete factors, with rounding errors -/

namespace Lalib

open Finset

section
variable {u : ℝ} {n : ℕ} {A F : ℕ → ℕ → ℝ} {w : ℕ → ℝ}

/-- A cell of the computed factors: nothing is there, or the product of the factors, with a relative error in every term, is the
entry of the matrix. -/
def NearCell (u : ℝ) (n : ℕ) (A F : ℕ → ℕ → ℝ) (i j : ℕ) : Prop :=
  A i j = 0 ∧ F i j = 0 ∨ ∃ ρ : ℕ → ℝ, (∀ k, Fac u n (ρ k)) ∧ A i j = ∑ k ∈ range n, unitLow F i k * upper F k j * ρ k

theorem fac_low {ρ : ℕ → ℝ} {i j : ℕ} (hj : j < i) (hi : i < n) :
    ∑ k ∈ range n, unitLow F i k * upper F k j * ρ k = ∑ k ∈ range j, F i k * F k j * ρ k + F i j * F j j * ρ j := by
  rw [← sum_subset (range_subset_range.mpr (show j + 1 ≤ n by omega)), sum_range_succ]
  · congr 1
    · refine sum_congr rfl fun k hk => ?_
      have hk := mem_range.mp hk
      rw [unitLow, if_pos (by omega), upper, if_pos (by omega)]
    · rw [unitLow, if_pos hj, upper, if_pos le_rfl]
  · intro k _ hk
    have hk : ¬ k < j + 1 := by simpa using hk
    rw [upper, if_neg (by omega), mul_zero, zero_mul]

theorem fac_up {ρ : ℕ → ℝ} {i j : ℕ} (hj : i ≤ j) (hi : i < n) :
    ∑ k ∈ range n, unitLow F i k * upper F k j * ρ k = ∑ k ∈ range i, F i k * F k j * ρ k + F i j * ρ i := by
  rw [← sum_subset (range_subset_range.mpr (show i + 1 ≤ n by omega)), sum_range_succ]
  · congr 1
    · refine sum_congr rfl fun k hk => ?_
      have hk := mem_range.mp hk
      rw [unitLow, if_pos (by omega), upper, if_pos (by omega)]
    · rw [unitLow, if_neg (by omega), if_pos rfl, upper, if_pos hj, one_mul]
  · intro k _ hk
    have hk : ¬ k < i + 1 := by simpa using hk
    rw [unitLow, if_neg (by omega), if_neg (by omega), zero_mul, zero_mul]

/-- One term of a sum, from the sum and the other terms. -/
theorem term_le (h0 : 0 ≤ u) (h1 : u < 1) {a t : ℝ} {c : ℕ} {f ρ : ℕ → ℝ} {σ : ℝ} (hρ : ∀ k, Fac u n (ρ k)) (hσ : Fac u n σ)
    (e : a = ∑ k ∈ range c, f k * ρ k + t * σ) :
    |t| ≤ (1 + gam u (2 * n)) * (|a| + ∑ k ∈ range c, |f k|) ∧ |a| ≤ (1 + gam u (2 * n)) * (|t| + ∑ k ∈ range c, |f k|) := by
  have g0 := gam_nonneg h0 h1 n
  have q : 1 + gam u (2 * n) = (1 + gam u n) * (1 + gam u n) := by rw [two_mul, gam_add h0 h1]
  have hp := pow_pos1 h0 h1 n
  have qe : 1 + gam u n = 1 / (1 - u) ^ n := by unfold gam; ring
  have up : ∀ {τ : ℝ}, Fac u n τ → τ ≤ 1 + gam u n := fun h => by
    rw [qe, le_div_iff₀ hp]; exact h.2
  have dn : ∀ {τ : ℝ}, Fac u n τ → 1 ≤ τ * (1 + gam u n) := fun h => by
    rw [qe, mul_one_div, le_div_iff₀ hp, one_mul]; exact h.1
  have S : |∑ k ∈ range c, f k * ρ k| ≤ (1 + gam u n) * ∑ k ∈ range c, |f k| := by
    refine (abs_sum_le_sum_abs _ _).trans ?_
    rw [mul_sum]
    refine sum_le_sum fun k _ => ?_
    rw [abs_mul, abs_of_pos ((hρ k).pos h0 h1), mul_comm]
    exact mul_le_mul_of_nonneg_right (up (hρ k)) (abs_nonneg _)
  have B0 : 0 ≤ ∑ k ∈ range c, |f k| := sum_nonneg fun k _ => abs_nonneg _
  have σ0 := hσ.pos h0 h1
  set B := ∑ k ∈ range c, |f k|
  set D := ∑ k ∈ range c, f k * ρ k
  have a0 := abs_nonneg a
  have t0 := abs_nonneg t
  rw [q]
  constructor
  · have h2 : |t| * σ ≤ |a| + |D| := by
      have h6 : |t| * σ = |t * σ| := by rw [abs_mul, abs_of_pos σ0]
      rw [h6, show t * σ = a - D by rw [e]; ring]
      exact abs_sub _ _
    have h3 : |t| ≤ |t| * σ * (1 + gam u n) := by
      have := mul_le_mul_of_nonneg_left (dn hσ) t0
      linarith
    have h4 := mul_le_mul_of_nonneg_right (h2.trans (add_le_add_right S _)) (show 0 ≤ 1 + gam u n by linarith)
    have h5 : 0 ≤ (1 + gam u n) * (gam u n * |a|) := by positivity
    linarith
  · have h2 : |a| ≤ |D| + |t| * σ := by
      rw [e]
      refine (abs_add_le _ _).trans_eq ?_
      rw [abs_mul t, abs_of_pos σ0]
    have h3 := mul_le_mul_of_nonneg_left (up hσ) t0
    have h5 : 0 ≤ gam u n * ((1 + gam u n) * (|t| + B)) := by positivity
    linarith

/-- What rounding leaves of the elimination of a row. -/
structure NearRow (n : ℕ) (A F : ℕ → ℕ → ℝ) (g : ℝ) (i : ℕ) : Prop where
  low : ∀ j, j < i → |F i j| * |F j j| ≤ (1 + g) * (|A i j| + ∑ k ∈ range j, |F i k| * |F k j|)
  up : ∀ j, i ≤ j → j < n → |F i j| ≤ (1 + g) * (|A i j| + ∑ k ∈ range i, |F i k| * |F k j|)
  piv : |A i i| ≤ (1 + g) * (|F i i| + ∑ k ∈ range i, |F i k| * |F k i|)

theorem near_row (h0 : 0 ≤ u) (h1 : u < 1) {i : ℕ} (hi : i < n) (hc : ∀ j, j < n → NearCell u n A F i j) :
    NearRow n A F (gam u (2 * n)) i := by
  have g0 := gam_nonneg h0 h1 (2 * n)
  have nn : ∀ c j, 0 ≤ (1 + gam u (2 * n)) * (|A i j| + ∑ k ∈ range c, |F i k| * |F k j|) := fun c j =>
    mul_nonneg (by linarith) (add_nonneg (abs_nonneg _) (sum_nonneg fun k _ => by positivity))
  refine ⟨fun j hj => ?_, fun j hj hjn => ?_, ?_⟩
  · rcases hc j (by omega) with ⟨_, h⟩ | ⟨ρ, hρ, e⟩
    · rw [h, abs_zero, zero_mul]; exact nn _ _
    · rw [fac_low hj hi] at e
      have := (term_le h0 h1 hρ (hρ j) e).1
      simp only [abs_mul] at this
      exact this
  · rcases hc j hjn with ⟨_, h⟩ | ⟨ρ, hρ, e⟩
    · rw [h, abs_zero]; exact nn _ _
    · rw [fac_up hj hi] at e
      have := (term_le h0 h1 hρ (hρ i) e).1
      simp only [abs_mul] at this
      exact this
  · rcases hc i hi with ⟨h, _⟩ | ⟨ρ, hρ, e⟩
    · rw [h, abs_zero]
      exact mul_nonneg (by linarith) (add_nonneg (abs_nonneg _) (sum_nonneg fun k _ => by positivity))
    · rw [fac_up le_rfl hi] at e
      have := (term_le h0 h1 hρ (hρ i) e).2
      simp only [abs_mul] at this
      exact this

/-- The rows dominate, with room for the roundings. -/
structure RoomDom (n : ℕ) (A : ℕ → ℕ → ℝ) (w : ℕ → ℝ) (g : ℝ) : Prop where
  g0 : 0 ≤ g
  g1 : g ≤ 1 / 8
  pos : ∀ j, j < n → 0 < w j
  gap : ∀ i, i < n → (1 + g) * (1 + g) * (1 + g) * ∑ j ∈ (range n).erase i, |A i j| * w j < |A i i| * w i

/-- Consequences for a row of the factors. -/
structure DomRow (n : ℕ) (A F : ℕ → ℕ → ℝ) (w : ℕ → ℝ) (g : ℝ) (i : ℕ) : Prop where
  dom : (1 + g) * ∑ j ∈ Ico (i + 1) n, |F i j| * w j ≤ |F i i| * w i
  pos : 0 < |F i i|
  size : |F i i| ≤ 3 * |A i i|

/-- The row of the matrix without its diagonal. -/
noncomputable def offDiag (A : ℕ → ℕ → ℝ) (i j : ℕ) : ℝ := if j = i then 0 else |A i j|

theorem offDiag_sum {i : ℕ} (hi : i < n) : ∑ j ∈ range n, offDiag A i j * w j = ∑ j ∈ (range n).erase i, |A i j| * w j := by
  rw [← add_sum_erase _ _ (mem_range.mpr hi), offDiag, if_pos rfl, zero_mul, zero_add]
  exact sum_congr rfl fun j hj => by rw [offDiag, if_neg (mem_erase.mp hj).1]

theorem offDiag_nonneg (i j : ℕ) : 0 ≤ offDiag A i j := by unfold offDiag; split_ifs; exacts [le_rfl, abs_nonneg _]

variable {g : ℝ}

theorem near_tel (hR : RoomDom n A w g) {i c : ℕ} (hi : i < n) (hc : c ≤ i) (hN : NearRow n A F g i)
    (ih : ∀ k, k < c → DomRow n A F w g k) :
    ∑ j ∈ Ico c n, (offDiag A i j + ∑ k ∈ range c, |F i k| * |F k j|) * w j ≤ ∑ j ∈ (range n).erase i, |A i j| * w j := by
  have t := dom_tel (m := n) (c := c) (B := offDiag A i) (p := fun k => |F i k|) (f := fun k j => |F k j|) (w := w)
    (e := fun _ => 0) hR.g0 (by omega) (fun _ => abs_nonneg _) (fun k hk => (hR.pos k hk).le) (fun _ => le_rfl)
    (fun k hk => (ih k hk).dom) (fun j hj => by rw [add_zero, offDiag, if_neg (by omega)]; exact hN.low j (by omega))
  rw [offDiag_sum hi] at t
  simpa using t

theorem dom_near (hR : RoomDom n A w g) {i : ℕ} (hi : i < n) (hN : NearRow n A F g i) (ih : ∀ k, k < i → DomRow n A F w g k) :
    DomRow n A F w g i := by
  have t := near_tel hR hi le_rfl hN ih
  rw [sum_eq_sum_Ico_succ_bot hi, offDiag, if_pos rfl, zero_add] at t
  have wi := hR.pos i hi
  have Y0 : 0 ≤ ∑ k ∈ range i, |F i k| * |F k i| := sum_nonneg fun k _ => by positivity
  have X0 : 0 ≤ |F i i| * w i := mul_nonneg (abs_nonneg _) wi.le
  have Q0 : 0 ≤ ∑ j ∈ Ico (i + 1) n, (offDiag A i j + ∑ k ∈ range i, |F i k| * |F k j|) * w j := sum_nonneg fun j hj =>
    mul_nonneg (add_nonneg (offDiag_nonneg i j) (sum_nonneg fun k _ => by positivity)) (hR.pos j (mem_Ico.mp hj).2).le
  have e1 := mul_le_mul_of_nonneg_right (hN.up i le_rfl hi) wi.le
  have e2 := mul_le_mul_of_nonneg_right hN.piv wi.le
  have hU : ∑ j ∈ Ico (i + 1) n, |F i j| * w j ≤
      (1 + g) * ∑ j ∈ Ico (i + 1) n, (offDiag A i j + ∑ k ∈ range i, |F i k| * |F k j|) * w j := by
    rw [mul_sum]
    refine sum_le_sum fun j hj => ?_
    have hj := mem_Ico.mp hj
    have := mul_le_mul_of_nonneg_right (hN.up j (by omega) hj.2) (hR.pos j hj.2).le
    rw [offDiag, if_neg (by omega)]
    linarith
  obtain ⟨r1, r2, r3⟩ := Fp.row_arith (X := |F i i| * w i) (Y := (∑ k ∈ range i, |F i k| * |F k i|) * w i)
    (a := |A i i| * w i) hR.g0 hR.g1 X0 (mul_nonneg Y0 wi.le) Q0 t (hR.gap i hi) (by linarith) (by linarith) hU
  have := hR.gap i hi
  refine ⟨r1, (pos_iff_pos_of_mul_pos (show 0 < |F i i| * w i by linarith)).mpr wi, le_of_mul_le_mul_right (by linarith) wi⟩

theorem dom_near_rows (hR : RoomDom n A w g) {c : ℕ} (hc : c ≤ n) (hN : ∀ i, i < c → NearRow n A F g i) :
    ∀ i, i < c → DomRow n A F w g i := by
  intro i
  induction i using Nat.strong_induction_on with
  | _ i ih => exact fun hi => dom_near hR (by omega) (hN i hi) fun k hk => ih k hk (by omega)

/-- Every product of the elimination of a row is below the diagonal entry of the matrix. -/
theorem near_prod_le (hR : RoomDom n A w g) {i k : ℕ} (hk : k < i) (hi : i < n) (hN : NearRow n A F g i)
    (ih : ∀ k, k < i → DomRow n A F w g k) : |F i k| * |F k k| * w k ≤ |A i i| * w i := by
  have t := near_tel hR hi hk.le hN fun m hm => ih m (by omega)
  have wk := hR.pos k (by omega)
  have one : (offDiag A i k + ∑ m ∈ range k, |F i m| * |F m k|) * w k ≤
      ∑ j ∈ Ico k n, (offDiag A i j + ∑ m ∈ range k, |F i m| * |F m j|) * w j :=
    single_le_sum (f := fun j => (offDiag A i j + ∑ m ∈ range k, |F i m| * |F m j|) * w j)
      (fun j hj => mul_nonneg (add_nonneg (offDiag_nonneg i j) (sum_nonneg fun k _ => by positivity))
        (hR.pos j (mem_Ico.mp hj).2).le) (mem_Ico.mpr ⟨le_rfl, by omega⟩)
  rw [offDiag, if_neg (by omega)] at one
  have l := mul_le_mul_of_nonneg_right (hN.low k hk) wk.le
  have g0 := hR.g0
  have S0 : 0 ≤ ∑ j ∈ (range n).erase i, |A i j| * w j :=
    sum_nonneg fun j hj => mul_nonneg (abs_nonneg _) (hR.pos j (mem_range.mp (mem_erase.mp hj).2)).le
  set S := ∑ j ∈ (range n).erase i, |A i j| * w j
  have h1 := mul_le_mul_of_nonneg_left (one.trans t) (show 0 ≤ 1 + g by linarith)
  have h2 : 0 ≤ ((1 + g) * (1 + g) - 1) * ((1 + g) * S) := mul_nonneg (by nlinarith) (by positivity)
  have := hR.gap i hi
  linarith

/-- The product of the absolute values of the factors. -/
theorem near_weight (hR : RoomDom n A w g) (hN : ∀ i, i < n → NearRow n A F g i) {i : ℕ} (hi : i < n) :
    ∑ j ∈ range n, (∑ k ∈ range n, |unitLow F i k * upper F k j|) * w j ≤ (2 * n + 6) * (|A i i| * w i) := by
  have hG := dom_near_rows hR le_rfl hN
  have hw := hR.pos
  have a0 : 0 ≤ |A i i| * w i := mul_nonneg (abs_nonneg _) (hw i hi).le
  have row : ∀ k, k < n → ∑ j ∈ range n, |upper F k j| * w j ≤ 2 * (|F k k| * w k) := by
    intro k hk
    have d := (hG k hk).dom
    have U0 : 0 ≤ ∑ j ∈ Ico (k + 1) n, |F k j| * w j := sum_nonneg fun j hj => mul_nonneg (abs_nonneg _) (hw j (mem_Ico.mp hj).2).le
    have : ∑ j ∈ range n, |upper F k j| * w j = |F k k| * w k + ∑ j ∈ Ico (k + 1) n, |F k j| * w j := by
      rw [range_eq_Ico, ← sum_Ico_consecutive _ (Nat.zero_le k) hk.le, sum_eq_zero, zero_add, sum_eq_sum_Ico_succ_bot hk]
      · rw [upper, if_pos le_rfl]
        refine congrArg₂ _ rfl (sum_congr rfl fun j hj => ?_)
        rw [upper, if_pos (by have := (mem_Ico.mp hj).1; omega)]
      · intro j hj
        rw [upper, if_neg (by have := (mem_Ico.mp hj).2; omega), abs_zero, zero_mul]
    rw [this]
    have := mul_nonneg hR.g0 U0
    linarith
  have sw : ∑ j ∈ range n, (∑ k ∈ range n, |unitLow F i k * upper F k j|) * w j =
      ∑ k ∈ range n, |unitLow F i k| * ∑ j ∈ range n, |upper F k j| * w j := by
    simp only [sum_mul, mul_sum]
    rw [sum_comm]
    exact sum_congr rfl fun k _ => sum_congr rfl fun j _ => by rw [abs_mul]; ring
  rw [sw]
  have term : ∀ k, k < n → |unitLow F i k| * ∑ j ∈ range n, |upper F k j| * w j ≤
      2 * (|A i i| * w i) + if k = i then 6 * (|A i i| * w i) else 0 := by
    intro k hk
    rcases lt_trichotomy k i with h | rfl | h
    · rw [unitLow, if_pos h, if_neg h.ne, add_zero]
      have := mul_le_mul_of_nonneg_left (row k hk) (abs_nonneg (F i k))
      have p := near_prod_le hR h hi (hN i hi) fun k hk => hG k (by omega)
      linarith
    · rw [unitLow, if_neg (lt_irrefl _), if_pos rfl, if_pos rfl, abs_one, one_mul]
      have := row k hk
      have := mul_le_mul_of_nonneg_right (hG k hk).size (hw k hk).le
      linarith
    · rw [unitLow, if_neg (by omega), if_neg (by omega), abs_zero, zero_mul, if_neg (by omega)]
      linarith
  calc _ ≤ ∑ k ∈ range n, (2 * (|A i i| * w i) + if k = i then 6 * (|A i i| * w i) else 0) :=
        sum_le_sum fun k hk => term k (mem_range.mp hk)
    _ = (2 * n + 6) * (|A i i| * w i) := by
        rw [sum_add_distrib, sum_const, card_range, nsmul_eq_mul, sum_ite_eq', if_pos (mem_range.mpr hi)]; ring

/-- The matrix that the computed factors belong to. -/
noncomputable def shifted (n : ℕ) (A F : ℕ → ℕ → ℝ) (i j : ℕ) : ℝ := by
  classical exact if A i j = 0 ∧ F i j = 0 then 0 else luProd n F i j

theorem shifted_pat : LuPat n (shifted n A F) F := by
  intro i j _ _
  unfold shifted
  split_ifs with h
  · exact .inr ⟨rfl, h.2⟩
  · exact .inl rfl

theorem shifted_near (h0 : 0 ≤ u) (h1 : u < 1) {i j : ℕ} (hc : NearCell u n A F i j) :
    |shifted n A F i j - A i j| ≤ gam u n * ∑ k ∈ range n, |unitLow F i k * upper F k j| := by
  have g0 := gam_nonneg h0 h1 n
  unfold shifted
  split_ifs with h
  · rw [h.1, sub_self, abs_zero]
    exact mul_nonneg g0 (sum_nonneg fun k _ => abs_nonneg _)
  · rcases hc with hc | ⟨ρ, hρ, e⟩
    · exact absurd hc h
    · rw [e, abs_sub_comm, luProd]
      exact sum_fac_le h0 h1 fun k _ => hρ k

theorem gap_shift {A B : ℕ → ℕ → ℝ} {i : ℕ} (hi : i < n) (hw : ∀ j, j < n → 0 < w j) :
    rowGap n A w i ≤ rowGap n B w i + ∑ j ∈ range n, |B i j - A i j| * w j := by
  rw [rowGap, rowGap, ← add_sum_erase _ (fun j => |B i j - A i j| * w j) (mem_range.mpr hi)]
  have h1 : |A i i| * w i ≤ |B i i| * w i + |B i i - A i i| * w i := by
    rw [← add_mul]
    refine mul_le_mul_of_nonneg_right ?_ (hw i hi).le
    have := abs_sub (B i i) (B i i - A i i)
    rwa [sub_sub_cancel] at this
  have h2 : ∑ j ∈ (range n).erase i, |B i j| * w j ≤
      ∑ j ∈ (range n).erase i, |A i j| * w j + ∑ j ∈ (range n).erase i, |B i j - A i j| * w j := by
    rw [← sum_add_distrib]
    refine sum_le_sum fun j hj => ?_
    rw [← add_mul]
    refine mul_le_mul_of_nonneg_right ?_ (hw j (mem_range.mp (mem_erase.mp hj).2)).le
    have := abs_add_le (A i j) (B i j - A i j)
    rwa [add_sub_cancel] at this
  linarith

namespace GapDom
variable {d : ℝ}

theorem gam_le (h0 : 0 ≤ u) (h1 : u < 1) (h : GapDom u n A w d) : gam u (6 * n + 3) ≤ d / 192 := by
  have g0 := gam_nonneg h0 h1 (6 * n + 3)
  have := mul_nonneg (Nat.cast_nonneg (α := ℝ) n) g0
  have := h.room
  have := h.d0
  nlinarith [h.d1]

theorem room_dom (h0 : 0 ≤ u) (h1 : u < 1) (h : GapDom u n A w d) : RoomDom n A w (gam u (2 * n)) := by
  have g0 := gam_nonneg h0 h1 (2 * n)
  have hg := h.gam_le h0 h1
  have d0 := h.d0
  have d1 := h.d1
  have e : (1 + gam u (2 * n)) * (1 + gam u (2 * n)) * (1 + gam u (2 * n)) = 1 + gam u (6 * n) := by
    rw [← gam_add h0 h1, ← gam_add h0 h1]
    congr 2; ring
  refine ⟨g0, ?_, h.pos, fun i hi => ?_⟩
  · have := gam_mono h0 h1 (show 2 * n ≤ 6 * n + 3 by omega)
    linarith
  · have a0 : 0 < |A i i| * w i := mul_pos (abs_pos.mpr (h.diag i hi)) (h.pos i hi)
    have gp := h.gap i hi
    rw [rowGap] at gp
    have S0 : 0 ≤ ∑ j ∈ (range n).erase i, |A i j| * w j :=
      sum_nonneg fun j hj => mul_nonneg (abs_nonneg _) (h.pos j (mem_range.mp (mem_erase.mp hj).2)).le
    set S := ∑ j ∈ (range n).erase i, |A i j| * w j
    set a := |A i i| * w i
    rw [e]
    have h2 := gam_mono h0 h1 (show 6 * n ≤ 6 * n + 3 by omega)
    have da : 0 < d * a := mul_pos d0 a0
    have h3 : gam u (6 * n) * S ≤ d / 192 * a := mul_le_mul (by linarith) (by linarith) S0 (by positivity)
    linarith

theorem dom (h : GapDom u n A w d) : WeightDom n A w := ⟨h.pos, fun i hi =>
  lt_of_lt_of_le (mul_pos h.d0 (mul_pos (abs_pos.mpr (h.diag i hi)) (h.pos i hi))) (h.gap i hi)⟩

/-- Row sums of the matrix. -/
theorem row_le (h : GapDom u n A w d) {i : ℕ} (hi : i < n) : ∑ j ∈ range n, |A i j| * w j ≤ 2 * (|A i i| * w i) := by
  rw [← add_sum_erase _ _ (mem_range.mpr hi)]
  have := (h.dom.gap i hi).le
  rw [rowGap] at this
  linarith

end GapDom

theorem step_arith {d th t s Z q : ℝ} (d0 : 0 < d) (d1 : d ≤ 1) (th0 : 0 ≤ th) (hth : th ≤ d / 32) (s0 : 0 ≤ s)
    (Z0 : 0 ≤ Z) (q0 : 0 ≤ q) (hq : q ≤ d / 192) (hqt : q ≤ th / 6)
    (h : (1 - th) * t ≤ (1 - th) * (s * (1 - (1 - th) * (d / 3))) + th * (3 * s + t + Z)) :
    (1 + q) * t + q * Z ≤ (1 - d / 8) * s + 3 * th * Z := by
  have h1 : (1 - 2 * th) * t ≤ (1 - th) * (s * (1 - (1 - th) * (d / 3))) + th * (3 * s + Z) := by linarith
  have h2 : (1 - 2 * th) * ((1 - d / 6) * s + 2 * th * Z) ≥ (1 - th) * (s * (1 - (1 - th) * (d / 3))) + th * (3 * s + Z) := by
    have e1 : 0 ≤ (1 - 2 * th) * (1 - d / 6) - (1 - th) * (1 - (1 - th) * (d / 3)) - 3 * th := by
      nlinarith [mul_nonneg th0 d0.le, mul_nonneg th0 (sub_nonneg.mpr hth), mul_nonneg d0.le (mul_nonneg th0 th0)]
    have e2 : 0 ≤ (1 - 2 * th) * (2 * th) - th := by nlinarith
    have := mul_nonneg e1 s0
    have := mul_nonneg e2 Z0
    linarith
  have h3 : t ≤ (1 - d / 6) * s + 2 * th * Z := le_of_mul_le_mul_left (h1.trans h2) (by linarith)
  have h4 := mul_le_mul_of_nonneg_left h3 (show 0 ≤ 1 + q by linarith)
  have h5 : 0 ≤ (d / 24 - q * (1 - d / 6)) * s := mul_nonneg (by nlinarith) s0
  have h6 : 0 ≤ (th - q * (2 * th) - q) * Z := mul_nonneg (by nlinarith) Z0
  linarith

/-- One step with rounding errors. -/
theorem round_step (h0 : 0 ≤ u) (h1 : u < 1) {d : ℝ} (hD : GapDom u n A w d) (hc : ∀ i j, i < n → j < n → NearCell u n A F i j)
    {b z x r v y : ℕ → ℝ} (hz : Solves n A z b) {Z s : ℝ} (Z0 : 0 ≤ Z) (s0 : 0 ≤ s) (hZ : ∀ i, i < n → |z i| ≤ Z * w i)
    (hs : ∀ i, i < n → |x i - z i| ≤ s * w i)
    (hr : ∀ i, i < n → |r i - (b i - mulVec n A x i)| ≤ gam u (n + 3) * (|b i| + ∑ j ∈ range n, |A i j * x j|))
    (hv : NearSolves n (luProd n F) (fun i j => gam u (2 * n) * ∑ k ∈ range n, |unitLow F i k * upper F k j|) v r)
    (hy : ∀ i, i < n → |y i - (x i + v i)| ≤ u * |x i + v i|) :
    ∀ i, i < n → |y i - z i| ≤ ((1 - d / 8) * s + 3 * ((2 * n + 6) * gam u (6 * n + 3) / d) * Z) * w i := by
  have hR := hD.room_dom h0 h1
  have hN : ∀ i, i < n → NearRow n A F (gam u (2 * n)) i := fun i hi => near_row h0 h1 hi fun j hj => hc i j hi hj
  have hG := dom_near_rows hR le_rfl hN
  have hw := hD.pos
  have d0 := hD.d0
  have d1 := hD.d1
  have n0 : (0 : ℝ) ≤ n := Nat.cast_nonneg n
  set γ := gam u (6 * n + 3) with hγ
  have γ0 : 0 ≤ γ := gam_nonneg h0 h1 _
  have γ1 : γ ≤ d / 192 := hD.gam_le h0 h1
  set G := (2 * n + 6) * γ with hGd
  have G0 : 0 ≤ G := by positivity
  have G6 : 6 * γ ≤ G := by nlinarith
  have hroom : 32 * G ≤ d ^ 2 := hD.room
  set th := G / d with hth
  have thd : th * d = G := div_mul_cancel₀ _ d0.ne'
  have th0 : 0 ≤ th := div_nonneg G0 d0.le
  have th1 : th ≤ d / 32 := by rw [hth, div_le_iff₀ d0]; nlinarith
  have uγ : u ≤ γ := by
    have h2 := gam_mono h0 h1 (show 1 ≤ 6 * n + 3 by omega)
    have h3 : u ≤ gam u 1 := by
      have hp : 0 < 1 - u := by linarith
      unfold gam
      rw [pow_one, le_sub_iff_add_le, le_div_iff₀ hp]
      nlinarith
    linarith
  set B := shifted n A F with hB
  have a0 : ∀ i, i < n → 0 < |A i i| * w i := fun i hi => mul_pos (abs_pos.mpr (hD.diag i hi)) (hw i hi)
  -- what a multiple of the product of the absolute values is
  have wt : ∀ (i : ℕ) (e : ℕ → ℝ) (D : ℕ → ℝ) (c m : ℝ), i < n → 0 ≤ c → c ≤ γ → 0 ≤ m → (∀ j, j < n → |e j| ≤ m * w j) →
      (∀ j, j < n → |D j| ≤ c * ∑ k ∈ range n, |unitLow F i k * upper F k j|) →
      |∑ j ∈ range n, D j * e j| ≤ G * (|A i i| * w i) * m := by
    intro i e D c m hi c0 c1 m0 he hDj
    refine (abs_sum_le_sum_abs _ _).trans ?_
    calc _ ≤ ∑ j ∈ range n, γ * m * ((∑ k ∈ range n, |unitLow F i k * upper F k j|) * w j) := by
          refine sum_le_sum fun j hj => ?_
          have hj := mem_range.mp hj
          rw [abs_mul]
          have W0 : 0 ≤ ∑ k ∈ range n, |unitLow F i k * upper F k j| := sum_nonneg fun k _ => abs_nonneg _
          have := mul_le_mul ((hDj j hj).trans (mul_le_mul_of_nonneg_right c1 W0)) (he j hj) (abs_nonneg _) (mul_nonneg γ0 W0)
          linarith
      _ = γ * m * ∑ j ∈ range n, (∑ k ∈ range n, |unitLow F i k * upper F k j|) * w j := by rw [mul_sum]
      _ ≤ γ * m * ((2 * n + 6) * (|A i i| * w i)) := mul_le_mul_of_nonneg_left (near_weight hR hN hi) (mul_nonneg γ0 m0)
      _ = _ := by rw [hGd]; ring
  -- the shifted matrix
  have gB : ∀ i, i < n → (1 - th) * rowGap n A w i ≤ rowGap n B w i := by
    intro i hi
    have h2 := gap_shift (A := A) (B := B) hi hw
    have h3 := wt i w (fun j => |B i j - A i j|) (gam u n) 1 hi (gam_nonneg h0 h1 n) (gam_mono h0 h1 (by omega)) zero_le_one
      (fun j hj => by rw [one_mul, abs_of_pos (hw j hj)]) (fun j hj => by rw [abs_abs]; exact shifted_near h0 h1 (hc i j hi hj))
    have h4 := (le_abs_self _).trans h3
    have h5 := mul_le_mul_of_nonneg_left (hD.gap i hi) th0
    rw [← thd] at h4
    linarith
  have hdB : WeightDom n B w := ⟨hw, fun i hi => lt_of_lt_of_le (mul_pos (by linarith) (hD.dom.gap i hi)) (gB i hi)⟩
  rcases Nat.eq_zero_or_pos n with hn | hn
  · intro i hi; omega
  obtain ⟨dA, hdA, hsol⟩ := hv
  -- the largest error after the correction
  obtain ⟨i0, hi0, hmax⟩ := exists_max_image (range n) (fun i => |v i + (x i - z i)| / w i) ⟨0, mem_range.mpr hn⟩
  have hi0 := mem_range.mp hi0
  set t := |v i0 + (x i0 - z i0)| / w i0 with ht
  have t0 : 0 ≤ t := div_nonneg (abs_nonneg _) (hw i0 hi0).le
  have tle : ∀ i, i < n → |v i + (x i - z i)| ≤ t * w i := fun i hi => by
    rw [← div_le_iff₀ (hw i hi)]; exact hmax i (mem_range.mpr hi)
  have teq : |v i0 + (x i0 - z i0)| = t * w i0 := by rw [ht, div_mul_cancel₀ _ (hw i0 hi0).ne']
  have vle : ∀ i, i < n → |v i| ≤ (t + s) * w i := fun i hi => by
    have h2 := abs_sub (v i + (x i - z i)) (x i - z i)
    rw [add_sub_cancel_right] at h2
    linarith [tle i hi, hs i hi]
  have xle : ∀ i, i < n → |x i| ≤ (Z + s) * w i := fun i hi => by
    have h2 := abs_add_le (z i) (x i - z i)
    rw [add_sub_cancel] at h2
    linarith [hZ i hi, hs i hi]
  set ex : ℕ → ℝ := fun i => mulVec n (fun i j => B i j - A i j) (fun j => x j - z j) i + (r i - (b i - mulVec n A x i)) -
    mulVec n dA v i with hex
  have hP : Solves n (luProd n F) (fun i => v i + (x i - z i))
      fun i => mulVec n (fun i j => luProd n F i j - B i j) (fun j => x j - z j) i + ex i := by
    intro i hi
    have h2 := hsol i hi
    have h3 := hz i hi
    simp only [hex, mulVec, add_mul, mul_add, sub_mul, mul_sub, sum_add_distrib, sum_sub_distrib] at h2 h3 ⊢
    linarith
  have hexle : ∀ i, i < n → |ex i| ≤ th * (3 * s + t + Z) * rowGap n A w i := by
    intro i hi
    have p1 := wt i (fun j => x j - z j) (fun j => B i j - A i j) (gam u n) s hi (gam_nonneg h0 h1 n) (gam_mono h0 h1 (by omega)) s0
      hs fun j hj => shifted_near h0 h1 (hc i j hi hj)
    have p2 := wt i v (fun j => dA i j) (gam u (2 * n)) (t + s) hi (gam_nonneg h0 h1 _) (gam_mono h0 h1 (by omega)) (by linarith)
      vle fun j hj => hdA i j hi hj
    have rowb : ∀ (f : ℕ → ℝ) (m : ℝ), 0 ≤ m → (∀ j, j < n → |f j| ≤ m * w j) → ∑ j ∈ range n, |A i j * f j| ≤ m * (2 * (|A i i| * w i)) := by
      intro f m m0 hf
      calc _ ≤ ∑ j ∈ range n, m * (|A i j| * w j) := by
            refine sum_le_sum fun j hj => ?_
            rw [abs_mul]
            have := mul_le_mul_of_nonneg_left (hf j (mem_range.mp hj)) (abs_nonneg (A i j))
            linarith
        _ = m * ∑ j ∈ range n, |A i j| * w j := by rw [mul_sum]
        _ ≤ _ := mul_le_mul_of_nonneg_left (hD.row_le hi) m0
    have ble : |b i| ≤ Z * (2 * (|A i i| * w i)) := by
      rw [← hz i hi]
      exact (abs_sum_le_sum_abs _ _).trans (rowb z Z Z0 hZ)
    have p3 : |r i - (b i - mulVec n A x i)| ≤ γ * ((4 * Z + 2 * s) * (|A i i| * w i)) := by
      refine (hr i hi).trans (mul_le_mul (gam_mono h0 h1 (by omega)) ?_ (by positivity) γ0)
      have := rowb x (Z + s) (by linarith) xle
      linarith
    have p4 : |ex i| ≤ G * (|A i i| * w i) * s + γ * ((4 * Z + 2 * s) * (|A i i| * w i)) + G * (|A i i| * w i) * (t + s) :=
      (abs_sub _ _).trans (add_le_add ((abs_add_le _ _).trans (add_le_add p1 p3)) p2)
    refine p4.trans ?_
    have q0 := a0 i hi
    have p5 : γ * ((4 * Z + 2 * s) * (|A i i| * w i)) ≤ G * (|A i i| * w i) * (Z + s) := by
      have : 0 ≤ (G - 4 * γ) * (Z * (|A i i| * w i)) := mul_nonneg (by linarith) (by positivity)
      have : 0 ≤ (G - 2 * γ) * (s * (|A i i| * w i)) := mul_nonneg (by linarith) (by positivity)
      linarith
    have p6 := mul_le_mul_of_nonneg_left (hD.gap i hi) (show 0 ≤ th * (3 * s + t + Z) by positivity)
    calc _ ≤ G * (|A i i| * w i) * (3 * s + t + Z) := by linarith
      _ = th * (3 * s + t + Z) * (d * (|A i i| * w i)) := by rw [← thd]; ring
      _ ≤ _ := p6
  -- one step
  have main := drop_error_plus hdB shifted_pat (t := th / (1 - th) * (3 * s + t + Z)) s0
    (mul_nonneg (div_nonneg th0 (by linarith)) (by positivity)) hs (fun i hi => (hexle i hi).trans (by
      have h2 : 0 < 1 - th := by linarith
      have h3 := mul_le_mul_of_nonneg_left (gB i hi) (show 0 ≤ th / (1 - th) * (3 * s + t + Z) by positivity)
      refine le_trans (le_of_eq ?_) h3
      field_simp)) hP i0 hi0
  have hF0 := (hG i0 hi0).pos
  have h3 : (1 - th) * t ≤ (1 - th) * (s * (1 - (1 - th) * (d / 3))) + th * (3 * s + t + Z) := by
    have w0 := hw i0 hi0
    have k0 : 0 < 1 - th := by linarith
    beta_reduce at main
    rw [teq] at main
    have k1 : (1 - th) * (d * (|F i0 i0| / 3 * w i0)) ≤ rowGap n B w i0 := by
      refine le_trans ?_ (gB i0 hi0)
      refine mul_le_mul_of_nonneg_left (le_trans (mul_le_mul_of_nonneg_left ?_ d0.le) (hD.gap i0 hi0)) k0.le
      exact mul_le_mul_of_nonneg_right (by linarith [(hG i0 hi0).size]) w0.le
    have k2 := mul_le_mul_of_nonneg_left k1 s0
    have k3 : |F i0 i0| * w i0 * t ≤ |F i0 i0| * w i0 * (s * (1 - (1 - th) * (d / 3)) + th / (1 - th) * (3 * s + t + Z)) := by linarith
    have k4 := le_of_mul_le_mul_left k3 (mul_pos hF0 w0)
    have k5 := mul_le_mul_of_nonneg_left k4 k0.le
    have k6 : (1 - th) * (th / (1 - th) * (3 * s + t + Z)) = th * (3 * s + t + Z) := by field_simp
    linarith
  have fin := step_arith d0 d1 th0 th1 s0 Z0 h0 (by linarith) (by
    have : G ≤ th := by rw [← thd]; nlinarith
    linarith) h3
  intro i hi
  have w0 := hw i hi
  have q1 : |x i + v i| ≤ (t + Z) * w i := by
    have h2 := abs_add_le (v i + (x i - z i)) (z i)
    rw [show v i + (x i - z i) + z i = x i + v i by ring] at h2
    linarith [tle i hi, hZ i hi]
  have q2 := mul_le_mul_of_nonneg_left q1 h0
  have q3 : |y i - z i| ≤ |y i - (x i + v i)| + |v i + (x i - z i)| := by
    rw [show y i - z i = (y i - (x i + v i)) + (v i + (x i - z i)) by ring]
    exact abs_add_le _ _
  have q4 := mul_le_mul_of_nonneg_right fin w0.le
  linarith [hy i hi, tle i hi]

/-- The errors of the steps add up to a geometric series. -/
theorem times_arith {d e s : ℝ} {k : ℕ} (d0 : 0 < d) :
    (1 - d / 8) * ((1 - d / 8) ^ k * s + 8 * (e / d)) + e = (1 - d / 8) ^ (k + 1) * s + 8 * (e / d) := by
  field_simp
  ring

end

/-! ## The arithmetic -/

namespace Nz
variable {N : Noisy} {n : ℕ} {A F : ℕ → ℕ → Nz N} {w : ℕ → ℝ} {d : ℝ}

theorem near_cell {i j : ℕ} (hi : i < n) (hj : j < n) (h : IluCell A F i j) : NearCell N.u n (mat A) (mat F) i j := by
  by_cases ha : (A i j).val = 0
  · exact .inl ⟨ha, by show (F i j).val = 0; rw [h.1 ha]; exact ha⟩
  · exact .inr (ilu_fac hi hj h ha)

theorem ilu_near_rows (hD : GapDom N.u n (mat A) w d) {i : ℕ} (hi : i ≤ n) (hc : ∀ r c, r < i → c < n → IluCell A F r c) :
    ∀ r, r < i → DomRow n (mat A) (mat F) w (gam N.u (2 * n)) r :=
  dom_near_rows (hD.room_dom N.u_nonneg N.u_lt_one) hi fun r hr =>
    near_row N.u_nonneg N.u_lt_one (by omega) fun c hc' => near_cell (by omega) hc' (hc r c hr hc')

theorem ilu_not_stuck {M : Type} {R : M → (Nat → Nat → Nz N) → Prop} (hD : GapDom N.u n (mat A) w d) {a : M}
    (h : Ilu.RStuck R n A a) : False := by
  obtain ⟨i, j, V, hj, hi, hI, _, h0⟩ := h
  have := ilu_near_rows hD (i := j + 1) (by omega) (fun r c hr hc => hI.done r c (by omega) hc (.inl (by omega))) j (by omega)
  exact absurd this.pos (by rw [show mat V j j = 0 from h0, abs_zero]; exact lt_irrefl 0)

theorem dense_mul_err (nd : Bool) {a : DMat (Nz N)} (hok : a.elems.length = a.n * a.m)
    (hA : Shows (dGOps nd).toMatOps n a A) {l : List (Nz N)} (hl : l.length = n) :
    ∃ p, (dGOps nd).mul a l = .ok p ∧ p.length = n ∧ ∀ i, i < n →
      |(val0 p i).val - mulVec n (mat A) (fun j => (val0 l j).val) i| ≤
        gam N.u (n + 2) * ∑ j ∈ range n, |mat A i j * (val0 l j).val| := by
  obtain ⟨p, e, hp, h⟩ := GKind.dense.prod nd hok hA hl
  have h1 := hA.1
  injection h1 with h1
  injection h1 with h1 h2
  refine ⟨p, e, hp, fun i hi => ?_⟩
  have hv : ∀ j, j < n → val0 a.elems (i * n + j) = A i j := by
    intro j hj
    have hg : lrd a.elems (i * a.m + j) = .ok (A i j) := hA.2 i j hi hj
    rw [lrd_val (by rw [hok, h1, h2]; exact cell_lt hi hj), h2] at hg
    injection hg
  have h3 := addUp_err (N := N) (g := fun j => 1 * val0 a.elems (i * n + j) * val0 l j) (t := 0 * 0) (lo := 0) (n := n) (K := 2)
    (e := fun j => mat A i j * (val0 l j).val) (e' := 0) (fun j hj => by
      obtain ⟨ρ, hρ, e⟩ := mul3_fac (1 : Nz N) (val0 a.elems (i * n + j)) (val0 l j)
      refine ⟨ρ, hρ, ?_⟩
      rw [Nat.zero_add, e, hv j hj, show (1 : Nz N).val = 1 from N.val_one, one_mul]
      rfl) ⟨1, Fac.one N.u_nonneg N.u_lt_one 2, by
        obtain ⟨ρ, _, e⟩ := mul_fac (0 : Nz N) 0
        rw [e, show (0 : Nz N).val = 0 from N.val_zero]; ring⟩
  rw [Nat.zero_add, abs_zero, zero_add, zero_add] at h3
  rw [h i hi]
  exact h3

end Nz

namespace Csr
variable {T : Type} {a : Csr T}

theorem row_count (hw : a.Wf) (hd : a.Distinct) {n m i : ℕ} (hs : a.shape = .ok (n, m)) (hi : i < a.nrows) :
    a.rowPtr.getD (i + 1) 0 - a.rowPtr.getD i 0 ≤ m := by
  have h1 := hw.ptr_le hi
  have h2 := card_le_card_of_injOn (s := Ico (a.rowPtr.getD i 0) (a.rowPtr.getD (i + 1) 0)) (t := range m)
    (fun k => a.col.getD k 0) (fun k hk => by
      have hk := Finset.mem_Ico.mp (Finset.mem_coe.mp hk)
      have hk' : k < a.col.length := by rw [hw.len]; omega
      refine Finset.mem_coe.mpr (mem_range.mpr (col_lt hw hs _ ?_))
      show a.col.getD k 0 ∈ a.col
      rw [List.getD_eq_getElem?_getD, List.getElem?_eq_getElem hk']
      exact List.getElem_mem hk') (fun k hk k' hk' e => by
      have hk := Finset.mem_Ico.mp (Finset.mem_coe.mp hk)
      have hk' := Finset.mem_Ico.mp (Finset.mem_coe.mp hk')
      exact hd i k k' hk.1 hk.2 hk'.1 hk'.2 e)
  rwa [Nat.card_Ico, card_range] at h2

theorem nrows_of_shape (hw : a.Wf) {n m : ℕ} (hs : a.shape = .ok (n, m)) : a.nrows = n := by
  unfold Csr.shape at hs
  have hne : a.rowPtr.length ≠ 0 := by
    have := hw.length_pos
    omega
  cases hm : maxElem a.col with
  | error e => rw [hm] at hs; cases hs
  | ok c =>
    rw [hm, ok_bind, if_neg hne] at hs
    injection hs with hs
    injection hs with hs _

end Csr

end Lalib
