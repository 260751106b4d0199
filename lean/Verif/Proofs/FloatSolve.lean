import Verif.Proofs.Float
import Verif.Spec.LinAlg
import Verif.Spec.Ilu

/-! # Backward errors of the triangular sweeps and factorisations

Each recurrence of `Verif/Spec/Eval.lean`, with rounded operations, is an exact identity in which every term carries a
factor close to one. -/

namespace Lalib.Fl

open Finset

variable {R : Rounding} {n : Nat}

/-- Reassembling a row: the terms of the loop and the one divided by. -/
private theorem tail_sum (f : ℕ → ℝ) (i : ℕ) (hi : i < n) :
    ∑ j ∈ Ico i n, f j = f i + ∑ k ∈ range (n - (i + 1)), f (i + 1 + k) := by
  rw [sum_eq_sum_Ico_succ_bot hi, sum_Ico_eq_sum_range]

theorem back_fac {U : Nat → Nat → Fl R} {y x : Nat → Fl R} (h : BackSubRec n U y x) (hd : ∀ i, i < n → U i i ≠ 0) :
    ∃ τ : ℕ → ℕ → ℝ, (∀ i j, Fac R.u n (τ i j)) ∧
      ∀ i, i < n → (y i).val = ∑ j ∈ Ico i n, (U i j).val * τ i j * (x j).val := by
  have h0 := R.u_nonneg
  have h1 := R.u_lt_one
  have key : ∀ i, ∃ τ : ℕ → ℝ, (∀ j, Fac R.u n (τ j)) ∧
      (i < n → (y i).val = ∑ j ∈ Ico i n, (U i j).val * τ j * (x j).val) := by
    intro i
    by_cases hi : i < n
    · obtain ⟨σ, ρ, hσ, hρ, e⟩ := subUp_fac (fun j => U i j * x j) (y i) (i + 1) (n - (i + 1))
      rw [Nat.add_sub_cancel' (show i + 1 ≤ n by omega)] at e
      choose φ hφ eφ using fun j => mul_fac (U i j) (x j)
      set S := subUp (fun j => U i j * x j) (i + 1) n (y i) with hS
      obtain ⟨δ, hδ, ed⟩ := div_fac S (U i i)
      rw [← h i hi] at ed
      have hd' := (ne_zero_iff _).mp (hd i hi)
      have hδ0 := hδ.pos h0 h1
      refine ⟨fun j => if j ≤ i then σ / δ else if j < n then φ j * ρ (j - (i + 1)) else 1, fun j => ?_, fun _ => ?_⟩
      · beta_reduce
        split_ifs with q q'
        · exact (hσ.div h0 h1 hδ).mono h0 h1 (by omega)
        · exact ((hφ j).mul h0 h1 (hρ _)).mono h0 h1 (by omega)
        · exact Fac.one h0 h1 n
      · beta_reduce
        rw [tail_sum _ i hi, if_pos (le_refl _), e, ed]
        refine congrArg₂ _ (by field_simp) (sum_congr rfl fun k hk => ?_)
        have hk := mem_range.mp hk
        rw [if_neg (by omega), if_pos (by omega), Nat.add_sub_cancel_left, eφ]
        ring
    · exact ⟨fun _ => 1, fun _ => Fac.one h0 h1 n, fun h => absurd h hi⟩
  choose τ hτ e using key
  exact ⟨τ, hτ, e⟩

theorem fwd_fac {L : Nat → Nat → Fl R} {b y : Nat → Fl R} (h : FwdSubRec n L b y) (hd : ∀ i, i < n → L i i ≠ 0) :
    ∃ τ : ℕ → ℕ → ℝ, (∀ i j, Fac R.u n (τ i j)) ∧
      ∀ i, i < n → (b i).val = ∑ j ∈ range (i + 1), (L i j).val * τ i j * (y j).val := by
  have h0 := R.u_nonneg
  have h1 := R.u_lt_one
  have key : ∀ i, ∃ τ : ℕ → ℝ, (∀ j, Fac R.u n (τ j)) ∧
      (i < n → (b i).val = ∑ j ∈ range (i + 1), (L i j).val * τ j * (y j).val) := by
    intro i
    by_cases hi : i < n
    · obtain ⟨σ, ρ, hσ, hρ, e⟩ := subUp_fac (fun j => L i j * y j) (b i) 0 i
      simp only [Nat.zero_add] at e
      choose φ hφ eφ using fun j => mul_fac (L i j) (y j)
      set S := subUp (fun j => L i j * y j) 0 i (b i) with hS
      obtain ⟨δ, hδ, ed⟩ := div_fac S (L i i)
      rw [← h i hi] at ed
      have hd' := (ne_zero_iff _).mp (hd i hi)
      have hδ0 := hδ.pos h0 h1
      refine ⟨fun j => if j < i then φ j * ρ j else σ / δ, fun j => ?_, fun _ => ?_⟩
      · beta_reduce
        split_ifs with q
        · exact ((hφ j).mul h0 h1 (hρ _)).mono h0 h1 (by omega)
        · exact (hσ.div h0 h1 hδ).mono h0 h1 (by omega)
      · beta_reduce
        rw [sum_range_succ, if_neg (lt_irrefl i), e, ed, add_comm]
        refine congrArg₂ _ (sum_congr rfl fun k hk => ?_) (by field_simp)
        rw [if_pos (mem_range.mp hk), eφ]
        ring
    · exact ⟨fun _ => 1, fun _ => Fac.one h0 h1 n, fun h => absurd h hi⟩
  choose τ hτ e using key
  exact ⟨τ, hτ, e⟩

/-- Forward substitution with a unit triangle; `c i j` is the exact entry, of which `L i j` may be a rounded one. -/
theorem unit_fac {L : Nat → Nat → Fl R} {c : ℕ → ℕ → ℝ} {K : ℕ} {b y : Nat → Fl R} (h : FwdUnitRec n L b y)
    (hc : ∀ i j, ∃ ρ, Fac R.u K ρ ∧ (L i j).val = c i j * ρ) :
    ∃ τ : ℕ → ℕ → ℝ, (∀ i j, Fac R.u (n + K) (τ i j)) ∧
      ∀ i, i < n → (b i).val = ∑ j ∈ range i, c i j * τ i j * (y j).val + τ i i * (y i).val := by
  have h0 := R.u_nonneg
  have h1 := R.u_lt_one
  have key : ∀ i, ∃ τ : ℕ → ℝ, (∀ j, Fac R.u (n + K) (τ j)) ∧
      (i < n → (b i).val = ∑ j ∈ range i, c i j * τ j * (y j).val + τ i * (y i).val) := by
    intro i
    by_cases hi : i < n
    · obtain ⟨σ, ρ, hσ, hρ, e⟩ := subUp_fac (fun j => L i j * y j) (b i) 0 i
      simp only [Nat.zero_add] at e
      choose φ hφ eφ using fun j => mul_fac (L i j) (y j)
      choose ψ hψ eψ using hc i
      rw [← h i hi] at e
      refine ⟨fun j => if j < i then ψ j * (φ j * ρ j) else σ, fun j => ?_, fun _ => ?_⟩
      · beta_reduce
        split_ifs with q
        · exact ((hψ j).mul h0 h1 ((hφ j).mul h0 h1 (hρ _))).mono h0 h1 (by omega)
        · exact hσ.mono h0 h1 (by omega)
      · beta_reduce
        rw [if_neg (lt_irrefl i), e, add_comm]
        refine congrArg₂ _ (sum_congr rfl fun k hk => ?_) (by ring)
        rw [if_pos (mem_range.mp hk), eφ, eψ]
        ring
    · exact ⟨fun _ => 1, fun _ => Fac.one h0 h1 _, fun h => absurd h hi⟩
  choose τ hτ e using key
  exact ⟨τ, hτ, e⟩

/-- One entry below the diagonal of the Cholesky factor. -/
theorem chol_cell {a : Fl R} {f g : Nat → Fl R} {d x : Fl R} {j : Nat} (hd : d ≠ 0)
    (h : x = subUp (fun k => f k * g k) 0 j a / d) :
    ∃ ρ : ℕ → ℝ, (∀ k, k ≤ j → Fac R.u (j + 1) (ρ k)) ∧
      a.val = ∑ k ∈ range j, (f k).val * (g k).val * ρ k + x.val * d.val * ρ j := by
  have h0 := R.u_nonneg
  have h1 := R.u_lt_one
  obtain ⟨σ, ρ, hσ, hρ, e⟩ := subUp_fac (fun k => f k * g k) a 0 j
  simp only [Nat.zero_add] at e
  choose φ hφ eφ using fun k => mul_fac (f k) (g k)
  obtain ⟨δ, hδ, ed⟩ := div_fac (subUp (fun k => f k * g k) 0 j a) d
  rw [← h] at ed
  have hd' := (ne_zero_iff _).mp hd
  have hδ0 := hδ.pos h0 h1
  refine ⟨fun k => if k < j then φ k * ρ k else σ / δ, fun k hk => ?_, ?_⟩
  · beta_reduce
    split_ifs with q
    · exact ((hφ k).mul h0 h1 (hρ _)).mono h0 h1 (by omega)
    · exact hσ.div h0 h1 hδ
  · beta_reduce
    rw [if_neg (lt_irrefl j), e, ed, add_comm]
    refine congrArg₂ _ (sum_congr rfl fun k hk => ?_) (by field_simp)
    rw [if_pos (mem_range.mp hk), eφ]
    ring

/-- The pivot, before the root is taken. -/
theorem pivot_fac (a : Fl R) (f : Nat → Fl R) (i : Nat) :
    ∃ (σ : ℝ) (ρ : ℕ → ℝ), Fac R.u i σ ∧ (∀ k, Fac R.u (k + 1) (ρ k)) ∧
      a.val = ∑ k ∈ range i, (f k).val * (f k).val * ρ k + (subUp (fun k => f k * f k) 0 i a).val * σ := by
  have h0 := R.u_nonneg
  have h1 := R.u_lt_one
  obtain ⟨σ, ρ, hσ, hρ, e⟩ := subUp_fac (fun k => f k * f k) a 0 i
  simp only [Nat.zero_add] at e
  choose φ hφ eφ using fun k => mul_fac (f k) (f k)
  refine ⟨σ, fun k => φ k * ρ k, hσ, fun k => ?_, ?_⟩
  · rw [Nat.add_comm]; exact (hφ k).mul h0 h1 (hρ k)
  · rw [e, add_comm]
    exact congrArg₂ _ (sum_congr rfl fun k _ => by rw [eφ]; ring) rfl

theorem chol_diag {a : Fl R} {f : Nat → Fl R} {x : Fl R} {i : Nat} (hx : x ≠ 0)
    (h : x = Sqrt.sqrt (subUp (fun k => f k * f k) 0 i a)) :
    ∃ ρ : ℕ → ℝ, (∀ k, k ≤ i → Fac R.u (i + 2) (ρ k)) ∧ 0 < x.val ∧
      a.val = ∑ k ∈ range i, (f k).val * (f k).val * ρ k + x.val * x.val * ρ i := by
  have h0 := R.u_nonneg
  have h1 := R.u_lt_one
  obtain ⟨σ, ρ, hσ, hρ, e⟩ := pivot_fac a f i
  set S := subUp (fun k => f k * f k) 0 i a
  obtain ⟨δ, hδ, es⟩ := sqrt_fac S
  rw [← h] at es
  have hδ0 := hδ.pos h0 h1
  have hS : 0 < S.val := by
    by_contra hn
    rw [Real.sqrt_eq_zero_of_nonpos (not_lt.mp hn), zero_mul] at es
    exact (ne_zero_iff _).mp hx es
  have hs := Real.mul_self_sqrt hS.le
  refine ⟨fun k => if k < i then ρ k else σ / (δ * δ), fun k hk => ?_,
    by rw [es]; exact mul_pos (Real.sqrt_pos.mpr hS) hδ0, ?_⟩
  · beta_reduce
    split_ifs with q
    · exact (hρ k).mono h0 h1 (by omega)
    · exact hσ.div h0 h1 (hδ.mul h0 h1 hδ)
  · beta_reduce
    rw [if_neg (lt_irrefl i), e, es]
    refine congrArg₂ _ (sum_congr rfl fun k hk => by rw [if_pos (mem_range.mp hk)]) ?_
    rw [show Real.sqrt S.val * δ * (Real.sqrt S.val * δ) * (σ / (δ * δ)) =
      (Real.sqrt S.val * Real.sqrt S.val) * (σ * ((δ * δ) / (δ * δ))) by ring, hs, div_self (by positivity)]
    ring

private theorem low_sum (f : ℕ → ℝ) {j n : ℕ} (hj : j < n) (hf : ∀ k, j < k → f k = 0) :
    ∑ k ∈ range n, f k = ∑ k ∈ range j, f k + f j := by
  rw [← sum_range_succ]
  refine (sum_subset (range_subset_range.mpr hj) fun k _ hk => hf k ?_).symm
  simpa using hk

/-- The factorisation: every entry of `A` is a sum of the products of the factors, each term slightly changed. -/
theorem chol_fac {A L : Nat → Nat → Fl R} (h : CholRec n A L) (hd : ∀ i, i < n → L i i ≠ 0) :
    (∀ i, i < n → 0 < (L i i).val) ∧ ∃ ρ : ℕ → ℕ → ℕ → ℝ, (∀ i j k, Fac R.u (n + 1) (ρ i j k)) ∧
      ∀ i j, j ≤ i → i < n → (A i j).val =
        ∑ k ∈ range n, low (fun p q => (L p q).val) i k * low (fun p q => (L p q).val) j k * ρ i j k := by
  have h0 := R.u_nonneg
  have h1 := R.u_lt_one
  have key : ∀ i j, ∃ ρ : ℕ → ℝ, (∀ k, Fac R.u (n + 1) (ρ k)) ∧ (j ≤ i → i < n → (A i j).val =
      ∑ k ∈ range n, low (fun p q => (L p q).val) i k * low (fun p q => (L p q).val) j k * ρ k) := by
    intro i j
    by_cases hij : j ≤ i ∧ i < n
    · obtain ⟨hj, hi⟩ := hij
      have fin : ∀ ρ : ℕ → ℝ, (∀ k, k ≤ j → Fac R.u (n + 1) (ρ k)) →
          (A i j).val = ∑ k ∈ range j, (L i k).val * (L j k).val * ρ k + (L i j).val * (L j j).val * ρ j →
          ∃ ρ : ℕ → ℝ, (∀ k, Fac R.u (n + 1) (ρ k)) ∧ (j ≤ i → i < n → (A i j).val =
            ∑ k ∈ range n, low (fun p q => (L p q).val) i k * low (fun p q => (L p q).val) j k * ρ k) := by
        intro ρ hρ e
        refine ⟨fun k => if k ≤ j then ρ k else 1, fun k => ?_, fun _ _ => ?_⟩
        · beta_reduce
          split_ifs with q
          · exact hρ k q
          · exact Fac.one h0 h1 _
        · beta_reduce
          rw [low_sum _ (show j < n by omega), e]
          · refine congrArg₂ _ (sum_congr rfl fun k hk => ?_) ?_
            · have hk := mem_range.mp hk
              rw [if_pos (by omega)]
              unfold low
              rw [if_pos (by omega), if_pos (by omega)]
            · rw [if_pos (le_refl _)]
              unfold low
              rw [if_pos hj, if_pos (le_refl _)]
          · intro k hk
            rw [show low (fun p q => (L p q).val) j k = 0 from if_neg (by omega)]
            ring
      rcases Nat.lt_or_eq_of_le hj with hlt | rfl
      · obtain ⟨ρ, hρ, e⟩ := chol_cell (hd j (by omega)) ((h i hi).1 j hlt)
        exact fin ρ (fun k hk => (hρ k hk).mono h0 h1 (by omega)) e
      · obtain ⟨ρ, hρ, _, e⟩ := chol_diag (hd j hi) (h j hi).2
        exact fin ρ (fun k hk => (hρ k hk).mono h0 h1 (by omega)) e
    · exact ⟨fun _ => 1, fun _ => Fac.one h0 h1 _, fun p q => absurd ⟨p, q⟩ hij⟩
  refine ⟨fun i hi => ?_, ?_⟩
  · obtain ⟨_, _, p, _⟩ := chol_diag (hd i hi) (h i hi).2
    exact p
  · choose ρ hρ e using key
    exact ⟨ρ, hρ, e⟩

/-- The modified factorisation. -/
theorem mod_fac {A L : Nat → Nat → Fl R} (h : ModRec n A L) (hd : ∀ i, i < n → L i i ≠ 0) :
    ∃ ρ : ℕ → ℕ → ℕ → ℝ, (∀ i j k, Fac R.u (n + 1) (ρ i j k)) ∧
      ∀ i j, j ≤ i → i < n → (A i j).val = ∑ k ∈ range n, low (fun p q => (L p q).val) i k *
        low (fun p q => (L p q).val) j k / (L k k).val * ρ i j k := by
  have h0 := R.u_nonneg
  have h1 := R.u_lt_one
  have key : ∀ i j, ∃ ρ : ℕ → ℝ, (∀ k, Fac R.u (n + 1) (ρ k)) ∧ (j ≤ i → i < n → (A i j).val =
      ∑ k ∈ range n, low (fun p q => (L p q).val) i k * low (fun p q => (L p q).val) j k / (L k k).val * ρ k) := by
    intro i j
    by_cases hij : j ≤ i ∧ i < n
    · obtain ⟨hj, hi⟩ := hij
      obtain ⟨σ, ρ, hσ, hρ, e⟩ := subUp_fac (fun k => L i k * L j k / L k k) (A i j) 0 j
      simp only [Nat.zero_add] at e
      rw [← h i j hj hi] at e
      choose φ hφ eφ using fun k => mul_fac (L i k) (L j k)
      choose ψ hψ eψ using fun k => div_fac (L i k * L j k) (L k k)
      refine ⟨fun k => if k < j then φ k * ψ k * ρ k else if k = j then σ else 1, fun k => ?_, fun _ _ => ?_⟩
      · beta_reduce
        split_ifs with q q'
        · exact (((hφ k).mul h0 h1 (hψ k)).mul h0 h1 (hρ k)).mono h0 h1 (by omega)
        · exact hσ.mono h0 h1 (by omega)
        · exact Fac.one h0 h1 _
      · have hdj := (ne_zero_iff _).mp (hd j (by omega))
        beta_reduce
        rw [low_sum _ (show j < n by omega), e, add_comm]
        · refine congrArg₂ _ (sum_congr rfl fun k hk => ?_) ?_
          · have hk := mem_range.mp hk
            rw [if_pos hk, eψ, eφ]
            unfold low
            rw [if_pos (by omega), if_pos (by omega)]
            ring
          · rw [if_neg (lt_irrefl j), if_pos rfl]
            unfold low
            rw [if_pos hj, if_pos (le_refl _)]
            field_simp
        · intro k hk
          rw [show low (fun p q => (L p q).val) j k = 0 from if_neg (by omega)]
          ring
    · exact ⟨fun _ => 1, fun _ => Fac.one h0 h1 _, fun p q => absurd ⟨p, q⟩ hij⟩
  choose ρ hρ e using key
  exact ⟨ρ, hρ, e⟩

/-- ILU(0): on the pattern of `A`. -/
theorem ilu_fac {A F : Nat → Nat → Fl R} {i j : Nat} (hi : i < n) (hj : j < n) (h : IluCell A F i j) (ha : A i j ≠ 0) :
    ∃ ρ : ℕ → ℝ, (∀ k, Fac R.u n (ρ k)) ∧
      (A i j).val = ∑ k ∈ range n, unitLow (mat F) i k * upper (mat F) k j * ρ k := by
  have h0 := R.u_nonneg
  have h1 := R.u_lt_one
  rcases Nat.lt_or_ge j i with hji | hij
  · obtain ⟨hd, e⟩ := h.2.1 hji ha
    obtain ⟨ρ, hρ, e⟩ := chol_cell hd e
    refine ⟨fun k => if k ≤ j then ρ k else 1, fun k => ?_, ?_⟩
    · beta_reduce
      split_ifs with q
      · exact (hρ k q).mono h0 h1 (by omega)
      · exact Fac.one h0 h1 _
    · beta_reduce
      rw [low_sum _ hj, e]
      · refine congrArg₂ _ (sum_congr rfl fun k hk => ?_) ?_
        · have hk := mem_range.mp hk
          unfold unitLow upper mat
          rw [if_pos (show k < i by omega), if_pos (show k ≤ j by omega), if_pos (show k ≤ j by omega)]
        · unfold unitLow upper mat
          rw [if_pos hji, if_pos (le_refl j), if_pos (le_refl j)]
      · intro k hk
        rw [show upper (mat F) k j = 0 from if_neg (by omega)]
        ring
  · have e := h.2.2 hij ha
    obtain ⟨σ, ρ, hσ, hρ, e'⟩ := subUp_fac (fun k => F i k * F k j) (A i j) 0 i
    simp only [Nat.zero_add] at e'
    rw [← e] at e'
    choose φ hφ eφ using fun k => mul_fac (F i k) (F k j)
    refine ⟨fun k => if k < i then φ k * ρ k else if k = i then σ else 1, fun k => ?_, ?_⟩
    · beta_reduce
      split_ifs with q q'
      · exact ((hφ k).mul h0 h1 (hρ k)).mono h0 h1 (by omega)
      · exact hσ.mono h0 h1 (by omega)
      · exact Fac.one h0 h1 _
    · beta_reduce
      rw [low_sum _ hi, e', add_comm]
      · refine congrArg₂ _ (sum_congr rfl fun k hk => ?_) ?_
        · have hk := mem_range.mp hk
          unfold unitLow upper mat
          rw [if_pos hk, if_pos hk, if_pos (show k ≤ j by omega), eφ]
          ring
        · unfold unitLow upper mat
          rw [if_neg (lt_irrefl i), if_neg (lt_irrefl i), if_pos rfl, if_pos rfl, if_pos hij]
          ring
      · intro k hk
        rw [show unitLow (mat F) i k = 0 by unfold unitLow; rw [if_neg (by omega), if_neg (by omega)]]
        ring

end Lalib.Fl

namespace Lalib

open Finset

/-- A product with a factor on each term, against another one. -/
theorem prod_fac_le {u : ℝ} (h0 : 0 ≤ u) (h1 : u < 1) {K K' n : ℕ} {a ρ σ : ℕ → ℝ} (hρ : ∀ k, Fac u K (ρ k))
    (hσ : ∀ k, Fac u K' (σ k)) :
    |∑ k ∈ range n, a k * ρ k - ∑ k ∈ range n, a k * σ k| ≤ gam u (K + K') * ∑ k ∈ range n, |a k| := by
  rw [← sum_sub_distrib, mul_sum]
  refine (abs_sum_le_sum_abs _ _).trans (sum_le_sum fun k _ => ?_)
  rw [show a k * ρ k - a k * σ k = (ρ k - σ k) * a k by ring, abs_mul]
  exact mul_le_mul_of_nonneg_right ((hρ k).sub_le h0 h1 (hσ k)) (abs_nonneg _)

/-- Two sweeps with the factors `P` and `Q` of `A`. -/
theorem two_sweeps {u : ℝ} (h0 : 0 ≤ u) (h1 : u < 1) {n K1 K2 K3 : ℕ} {A P Q : ℕ → ℕ → ℝ} {b y x : ℕ → ℝ}
    {ρ : ℕ → ℕ → ℕ → ℝ} {σ τ : ℕ → ℕ → ℝ} (hρ : ∀ i j k, Fac u K3 (ρ i j k)) (hσ : ∀ i k, Fac u K1 (σ i k))
    (hτ : ∀ k j, Fac u K2 (τ k j))
    (hA : ∀ i j, i < n → j < n → A i j = ∑ k ∈ range n, P i k * Q k j * ρ i j k)
    (hb : ∀ i, i < n → b i = ∑ k ∈ range n, P i k * σ i k * y k)
    (hy : ∀ k, k < n → y k = ∑ j ∈ range n, Q k j * τ k j * x j) :
    NearSolves n A (fun i j => gam u (K1 + K2 + K3) * ∑ k ∈ range n, |P i k * Q k j|) x b := by
  refine ⟨fun i j => ∑ k ∈ range n, P i k * Q k j * (σ i k * τ k j) - A i j, fun i j hi hj => ?_, fun i hi => ?_⟩
  · beta_reduce
    rw [hA i j hi hj]
    exact prod_fac_le h0 h1 (fun k => (hσ i k).mul h0 h1 (hτ k j)) (hρ i j)
  · unfold mulVec
    rw [hb i hi]
    have : ∀ k ∈ range n, P i k * σ i k * y k = ∑ j ∈ range n, P i k * Q k j * (σ i k * τ k j) * x j := by
      intro k hk
      rw [hy k (mem_range.mp hk), mul_sum]
      exact sum_congr rfl fun j _ => by ring
    rw [sum_congr rfl this, sum_comm]
    refine sum_congr rfl fun j _ => ?_
    beta_reduce
    rw [add_sub_cancel, sum_mul]

namespace Fl
variable {R : Rounding} {n : Nat}

private theorem conv_low (L : ℕ → ℕ → ℝ) (f : ℕ → ℝ) {i : ℕ} (hi : i < n) :
    ∑ j ∈ range (i + 1), L i j * f j = ∑ j ∈ range n, low L i j * f j := by
  refine sum_subset_zero_on_sdiff (range_subset_range.mpr hi) (fun j hj => ?_) fun j hj => ?_
  · rw [mem_sdiff, mem_range, mem_range] at hj
    rw [show low L i j = 0 from if_neg (by omega), zero_mul]
  · rw [show low L i j = L i j from if_pos (by have := mem_range.mp hj; omega)]

private theorem conv_up (L : ℕ → ℕ → ℝ) (f : ℕ → ℝ) (i : ℕ) :
    ∑ j ∈ Ico i n, L i j * f j = ∑ j ∈ range n, upper L i j * f j := by
  refine sum_subset_zero_on_sdiff (fun j hj => mem_range.mpr (mem_Ico.mp hj).2) (fun j hj => ?_) fun j hj => ?_
  · rw [mem_sdiff, mem_range, mem_Ico] at hj
    rw [show upper L i j = 0 from if_neg (by omega), zero_mul]
  · rw [show upper L i j = L i j from if_pos (mem_Ico.mp hj).1]

theorem back_near {U : Nat → Nat → Fl R} {y x : Nat → Fl R} (h : BackSubRec n U y x) (hd : ∀ i, i < n → U i i ≠ 0) :
    ∃ τ : ℕ → ℕ → ℝ, (∀ i j, Fac R.u n (τ i j)) ∧
      ∀ i, i < n → (y i).val = ∑ j ∈ range n, upper (mat U) i j * τ i j * (x j).val := by
  obtain ⟨τ, hτ, e⟩ := back_fac h hd
  refine ⟨τ, hτ, fun i hi => ?_⟩
  rw [e i hi]
  have := conv_up (n := n) (mat U) (fun j => τ i j * (x j).val) i
  simpa only [mul_assoc, mat] using this

theorem fwd_near {L : Nat → Nat → Fl R} {b y : Nat → Fl R} (h : FwdSubRec n L b y) (hd : ∀ i, i < n → L i i ≠ 0) :
    ∃ τ : ℕ → ℕ → ℝ, (∀ i j, Fac R.u n (τ i j)) ∧
      ∀ i, i < n → (b i).val = ∑ j ∈ range n, low (mat L) i j * τ i j * (y j).val := by
  obtain ⟨τ, hτ, e⟩ := fwd_fac h hd
  refine ⟨τ, hτ, fun i hi => ?_⟩
  rw [e i hi]
  have := conv_low (n := n) (mat L) (fun j => τ i j * (y j).val) hi
  simpa only [mul_assoc, mat] using this

theorem unit_near {L : Nat → Nat → Fl R} {c : ℕ → ℕ → ℝ} {K : ℕ} {b y : Nat → Fl R} (h : FwdUnitRec n L b y)
    (hc : ∀ i j, ∃ ρ, Fac R.u K ρ ∧ (L i j).val = c i j * ρ) :
    ∃ τ : ℕ → ℕ → ℝ, (∀ i j, Fac R.u (n + K) (τ i j)) ∧
      ∀ i, i < n → (b i).val = ∑ j ∈ range n, unitLow c i j * τ i j * (y j).val := by
  obtain ⟨τ, hτ, e⟩ := unit_fac h hc
  refine ⟨τ, hτ, fun i hi => ?_⟩
  have e1 := conv_low (n := n) (unitLow c) (fun j => τ i j * (y j).val) hi
  have e2 : ∀ j, low (unitLow c) i j = unitLow c i j := by
    intro j
    unfold low unitLow
    split_ifs <;> first | rfl | omega
  simp only [e2] at e1
  rw [e i hi, sum_congr rfl fun j _ => mul_assoc _ _ _, ← sum_congr rfl fun j _ => (mul_assoc (unitLow c i j) _ _).symm,
    ← e1, sum_range_succ]
  refine congrArg₂ _ (sum_congr rfl fun j hj => ?_) ?_
  · rw [show unitLow c i j = c i j from if_pos (mem_range.mp hj)]
  · rw [show unitLow c i i = 1 by unfold unitLow; rw [if_neg (lt_irrefl i), if_pos rfl], one_mul]

/-- Cholesky: factor and solve. -/
theorem chol_near {A L : Nat → Nat → Fl R} {b x : Nat → Fl R} (hs : Symm n A) (hr : CholRec n A L)
    (hd : ∀ i, i < n → L i i ≠ 0) (h : CholSolveRec false n L b x) :
    NearSolves n (mat A) (fun i j => gam R.u (3 * n + 1) * ∑ k ∈ range n, |low (mat L) i k * low (mat L) j k|)
      (fun i => (x i).val) (fun i => (b i).val) := by
  obtain ⟨y, hf, hb⟩ := h
  obtain ⟨_, ρ, hρ, eA⟩ := chol_fac hr hd
  obtain ⟨σ, hσ, ef⟩ := fwd_near hf hd
  obtain ⟨τ, hτ, eb⟩ := back_near hb hd
  have := two_sweeps R.u_nonneg R.u_lt_one (n := n) (A := mat A) (P := low (mat L)) (Q := fun k j => low (mat L) j k)
    (b := fun i => (b i).val) (y := fun i => (y i).val) (x := fun i => (x i).val)
    (ρ := fun i j k => if j ≤ i then ρ i j k else ρ j i k) (σ := σ) (τ := τ)
    (K1 := n) (K2 := n) (K3 := n + 1)
    (fun i j k => by split_ifs <;> exact hρ _ _ _) hσ hτ
    (fun i j hi hj => by
      by_cases hij : j ≤ i
      · simp only [if_pos hij]; exact eA i j hij hi
      · simp only [if_neg hij]
        rw [show mat A i j = mat A j i by unfold mat; rw [hs i j hi hj]]
        refine (eA j i (by omega) hj).trans (sum_congr rfl fun k _ => ?_)
        unfold mat
        ring)
    ef eb
  rwa [show n + n + (n + 1) = 3 * n + 1 by omega] at this

/-- Modified Cholesky: factor and solve. -/
theorem mod_near {A L : Nat → Nat → Fl R} {b x : Nat → Fl R} (hs : Symm n A) (hr : ModRec n A L)
    (hd : ∀ i, i < n → L i i ≠ 0) (h : CholSolveRec true n L b x) :
    NearSolves n (mat A)
      (fun i j => gam R.u (3 * n + 2) * ∑ k ∈ range n, |low (mat L) i k * low (mat L) j k / (L k k).val|)
      (fun i => (x i).val) (fun i => (b i).val) := by
  obtain ⟨y, hf, hb⟩ := h
  obtain ⟨ρ, hρ, eA⟩ := mod_fac hr hd
  obtain ⟨σ, hσ, ef⟩ := unit_near (c := fun i j => (L i j).val / (L j j).val) hf fun i j => div_fac _ _
  obtain ⟨τ, hτ, eb⟩ := back_near hb hd
  have hP : ∀ i k, k < n → unitLow (fun i j => (L i j).val / (L j j).val) i k = low (mat L) i k / (L k k).val := by
    intro i k hk
    have := (ne_zero_iff _).mp (hd k hk)
    unfold unitLow low mat
    split_ifs with q1 q2 q3 q4
    · rfl
    · omega
    · subst q3; field_simp
    · omega
    · omega
    · simp
  have := two_sweeps R.u_nonneg R.u_lt_one (n := n) (A := mat A)
    (P := fun i k => low (mat L) i k / (L k k).val) (Q := fun k j => low (mat L) j k)
    (b := fun i => (b i).val) (y := fun i => (y i).val) (x := fun i => (x i).val)
    (ρ := fun i j k => if j ≤ i then ρ i j k else ρ j i k) (σ := σ) (τ := τ)
    (K1 := n + 1) (K2 := n) (K3 := n + 1)
    (fun i j k => by split_ifs <;> exact hρ _ _ _) hσ hτ
    (fun i j hi hj => by
      by_cases hij : j ≤ i
      · simp only [if_pos hij]
        refine (eA i j hij hi).trans (sum_congr rfl fun k _ => ?_)
        unfold mat
        ring
      · simp only [if_neg hij]
        rw [show mat A i j = mat A j i by unfold mat; rw [hs i j hi hj]]
        refine (eA j i (by omega) hj).trans (sum_congr rfl fun k _ => ?_)
        unfold mat
        ring)
    (fun i hi => by
      refine (ef i hi).trans (sum_congr rfl fun k hk => ?_)
      rw [hP i k (mem_range.mp hk)])
    eb
  rw [show n + 1 + n + (n + 1) = 3 * n + 2 by omega] at this
  have e : ∀ i j, ∑ k ∈ range n, |low (mat L) i k / (L k k).val * low (mat L) j k| =
      ∑ k ∈ range n, |low (mat L) i k * low (mat L) j k / (L k k).val| := fun i j =>
    sum_congr rfl fun k _ => by rw [div_mul_eq_mul_div]
  simpa only [e] using this

/-- Solving with the ILU factors, against their product. -/
theorem ilu_near {F : Nat → Nat → Fl R} {b x : Nat → Fl R} (hd : ∀ i, i < n → F i i ≠ 0) (h : IluSolveRec n F b x) :
    NearSolves n (luProd n (mat F))
      (fun i j => gam R.u (2 * n) * ∑ k ∈ range n, |unitLow (mat F) i k * upper (mat F) k j|)
      (fun i => (x i).val) (fun i => (b i).val) := by
  obtain ⟨y, hf, hb⟩ := h
  obtain ⟨σ, hσ, ef⟩ := unit_near (c := mat F) (K := 0) hf fun i j =>
    ⟨1, Fac.one R.u_nonneg R.u_lt_one 0, (mul_one _).symm⟩
  obtain ⟨τ, hτ, eb⟩ := back_near hb hd
  have := two_sweeps R.u_nonneg R.u_lt_one (n := n) (A := luProd n (mat F)) (P := unitLow (mat F)) (Q := upper (mat F))
    (b := fun i => (b i).val) (y := fun i => (y i).val) (x := fun i => (x i).val)
    (ρ := fun _ _ _ => 1) (σ := σ) (τ := τ) (K1 := n) (K2 := n) (K3 := 0)
    (fun i j k => Fac.one R.u_nonneg R.u_lt_one 0) hσ hτ
    (fun i j _ _ => by simp only [mul_one]; rfl) ef eb
  rwa [show n + n + 0 = 2 * n by omega] at this

end Fl

end Lalib
