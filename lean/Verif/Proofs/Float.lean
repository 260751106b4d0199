import Verif.Spec.Float
import Verif.Spec.Eval
import Mathlib.Algebra.BigOperators.Intervals
import Mathlib.Algebra.Order.BigOperators.Group.Finset
import Mathlib.Algebra.Order.Ring.Pow
import Mathlib.Tactic.Linarith
import Mathlib.Tactic.FieldSimp
import Mathlib.Tactic.Ring
import Mathlib.Tactic.NormNum
import Mathlib.Tactic.Positivity

/-! # Rounding errors: products of factors `1 + δ` -/

namespace Lalib

open Finset

/-- `ρ` lies between `(1-u)^k` and `1/(1-u)^k`: a product of `k` factors `1 + δ`, `|δ| ≤ u`, and inverses of such. -/
def Fac (u : ℝ) (k : ℕ) (ρ : ℝ) : Prop := (1 - u) ^ k ≤ ρ ∧ ρ * (1 - u) ^ k ≤ 1

section fac
set_option linter.unusedSectionVars false
variable {u : ℝ} (h0 : 0 ≤ u) (h1 : u < 1)
include h0 h1

theorem pow_pos1 (k : ℕ) : 0 < (1 - u) ^ k := pow_pos (by linarith) k
theorem pow_le1 (k : ℕ) : (1 - u) ^ k ≤ 1 := pow_le_one₀ (by linarith) (by linarith)

theorem Fac.pos {k : ℕ} {ρ : ℝ} (h : Fac u k ρ) : 0 < ρ := lt_of_lt_of_le (pow_pos1 h0 h1 k) h.1

theorem Fac.one (k : ℕ) : Fac u k 1 := ⟨pow_le1 h0 h1 k, by rw [one_mul]; exact pow_le1 h0 h1 k⟩

theorem Fac.mul {k l : ℕ} {ρ σ : ℝ} (h : Fac u k ρ) (h' : Fac u l σ) : Fac u (k + l) (ρ * σ) := by
  have p := h.pos h0 h1
  have q := h'.pos h0 h1
  have pk := pow_pos1 h0 h1 k
  have pl := pow_pos1 h0 h1 l
  constructor
  · rw [pow_add]; exact mul_le_mul h.1 h'.1 pl.le p.le
  · have : ρ * σ * (1 - u) ^ (k + l) = (ρ * (1 - u) ^ k) * (σ * (1 - u) ^ l) := by rw [pow_add]; ring
    rw [this]
    exact mul_le_one₀ h.2 (by positivity) h'.2

theorem Fac.inv {k : ℕ} {ρ : ℝ} (h : Fac u k ρ) : Fac u k (1 / ρ) := by
  have p := h.pos h0 h1
  constructor
  · rw [le_div_iff₀ p, mul_comm]; exact h.2
  · rw [div_mul_eq_mul_div, one_mul, div_le_one p]; exact h.1

theorem Fac.mono {k l : ℕ} (hkl : k ≤ l) {ρ : ℝ} (h : Fac u k ρ) : Fac u l ρ := by
  have p := h.pos h0 h1
  have hp : (1 - u) ^ l ≤ (1 - u) ^ k := pow_le_pow_of_le_one (by linarith) (by linarith) hkl
  exact ⟨hp.trans h.1, (mul_le_mul_of_nonneg_left hp p.le).trans h.2⟩

theorem Fac.div {k l : ℕ} {ρ σ : ℝ} (h : Fac u k ρ) (h' : Fac u l σ) : Fac u (k + l) (ρ / σ) := by
  rw [div_eq_mul_one_div]; exact h.mul h0 h1 (h'.inv h0 h1)

/-- Difference of two such factors. -/
theorem Fac.sub_le {k l : ℕ} {ρ σ : ℝ} (h : Fac u k ρ) (h' : Fac u l σ) : |ρ - σ| ≤ gam u (k + l) := by
  have key : ∀ {k l : ℕ} {ρ σ : ℝ}, Fac u k ρ → Fac u l σ → ρ - σ ≤ gam u (k + l) := by
    intro k l ρ σ h h'
    have pk := pow_pos1 h0 h1 k
    have pl := pow_pos1 h0 h1 l
    have hρ : ρ ≤ 1 / (1 - u) ^ k := by rw [le_div_iff₀ pk]; exact h.2
    have e : gam u (k + l) * (1 - u) ^ l = 1 / (1 - u) ^ k - (1 - u) ^ l := by
      unfold gam; rw [pow_add]; field_simp
    have hg : 0 ≤ gam u (k + l) := by
      unfold gam
      rw [sub_nonneg, le_div_iff₀ (pow_pos1 h0 h1 _), one_mul]
      exact pow_le1 h0 h1 _
    have : gam u (k + l) * (1 - u) ^ l ≤ gam u (k + l) * 1 := mul_le_mul_of_nonneg_left (pow_le1 h0 h1 l) hg
    linarith [h'.1]
  rw [abs_le]
  refine ⟨?_, key h h'⟩
  have := key h' h
  rw [add_comm l k] at this
  linarith

theorem Fac.sub_one {k : ℕ} {ρ : ℝ} (h : Fac u k ρ) : |ρ - 1| ≤ gam u k := by
  have := h.sub_le h0 h1 (Fac.one h0 h1 0)
  simpa using this

theorem gam_nonneg (k : ℕ) : 0 ≤ gam u k := by
  have := (Fac.one h0 h1 k).sub_one h0 h1
  simpa using this

theorem gam_mono {k l : ℕ} (h : k ≤ l) : gam u k ≤ gam u l := by
  unfold gam
  have := pow_pos1 h0 h1 l
  have hp : (1 - u) ^ l ≤ (1 - u) ^ k := pow_le_pow_of_le_one (by linarith) (by linarith) h
  have := one_div_le_one_div_of_le this hp
  linarith

/-- The usual bound. -/
theorem gam_le {k : ℕ} (hk : k * u < 1) : gam u k ≤ k * u / (1 - k * u) := by
  have hb : 1 - k * u ≤ (1 - u) ^ k := by
    have := one_add_mul_le_pow (a := -u) (by linarith) k
    rw [← sub_eq_add_neg] at this
    linarith
  have hp : 0 < 1 - k * u := by linarith
  have : 1 / (1 - u) ^ k ≤ 1 / (1 - k * u) := one_div_le_one_div_of_le hp hb
  unfold gam
  have e : k * u / (1 - k * u) = 1 / (1 - k * u) - 1 := by field_simp; ring
  rw [e]; linarith

theorem Fac.of_delta {ρ : ℝ} (h : |ρ - 1| ≤ u) : Fac u 1 ρ := by
  rw [abs_le] at h
  refine ⟨by rw [pow_one]; linarith [h.1], ?_⟩
  rw [pow_one]
  nlinarith [h.2]

theorem Fac.sqrt {k : ℕ} {ρ : ℝ} (h : Fac u k ρ) : Fac u k (Real.sqrt ρ) := by
  have p := h.pos h0 h1
  have hk := pow_pos1 h0 h1 k
  have hk1 := pow_le1 h0 h1 k
  have hs := Real.sqrt_nonneg ρ
  have hss := Real.mul_self_sqrt p.le
  constructor
  · refine Real.le_sqrt_of_sq_le ?_
    have : ((1 - u) ^ k) ^ 2 ≤ (1 - u) ^ k := by nlinarith
    exact this.trans h.1
  · have h2 := h.2
    -- (s t)^2 = ρ t^2 ≤ t ≤ 1
    have h3 : (Real.sqrt ρ * (1 - u) ^ k) ^ 2 ≤ 1 := by
      have : (Real.sqrt ρ * (1 - u) ^ k) ^ 2 = ρ * (1 - u) ^ k * (1 - u) ^ k := by
        rw [mul_pow, sq (Real.sqrt ρ), hss]; ring
      rw [this]
      nlinarith
    have h4 : 0 ≤ Real.sqrt ρ * (1 - u) ^ k := by positivity
    nlinarith

end fac

namespace Fl
variable {R : Rounding}

theorem rnd_fac (x : ℝ) : ∃ ρ, Fac R.u 1 ρ ∧ R.rnd x = x * ρ := by
  by_cases hx : x = 0
  · subst hx
    exact ⟨1, Fac.one R.u_nonneg R.u_lt_one 1, by rw [R.rnd_zero]; ring⟩
  · refine ⟨R.rnd x / x, Fac.of_delta R.u_nonneg R.u_lt_one ?_, by field_simp⟩
    have e : R.rnd x / x - 1 = (R.rnd x - x) / x := by field_simp
    rw [e, abs_div, div_le_iff₀ (abs_pos.mpr hx)]
    exact R.err x

@[simp] theorem val_zero : (0 : Fl R).val = 0 := rfl
@[simp] theorem val_one : (1 : Fl R).val = 1 := rfl
@[simp] theorem val_neg (a : Fl R) : (-a).val = -a.val := rfl
theorem val_add (a b : Fl R) : (a + b).val = R.rnd (a.val + b.val) := rfl
theorem val_sub (a b : Fl R) : (a - b).val = R.rnd (a.val - b.val) := rfl
theorem val_mul (a b : Fl R) : (a * b).val = R.rnd (a.val * b.val) := rfl
theorem val_div (a b : Fl R) : (a / b).val = R.rnd (a.val / b.val) := rfl
theorem val_sqrt (a : Fl R) : (Sqrt.sqrt a).val = R.rnd (Real.sqrt a.val) := rfl

theorem add_fac (a b : Fl R) : ∃ ρ, Fac R.u 1 ρ ∧ (a + b).val = (a.val + b.val) * ρ := rnd_fac _
theorem sub_fac (a b : Fl R) : ∃ ρ, Fac R.u 1 ρ ∧ (a - b).val = (a.val - b.val) * ρ := rnd_fac _
theorem mul_fac (a b : Fl R) : ∃ ρ, Fac R.u 1 ρ ∧ (a * b).val = a.val * b.val * ρ := rnd_fac _
theorem div_fac (a b : Fl R) : ∃ ρ, Fac R.u 1 ρ ∧ (a / b).val = a.val / b.val * ρ := rnd_fac _
theorem sqrt_fac (a : Fl R) : ∃ ρ, Fac R.u 1 ρ ∧ (Sqrt.sqrt a).val = Real.sqrt a.val * ρ := rnd_fac _

protected theorem zero_add (a : Fl R) : 0 + a = a := by ext; rw [val_add, val_zero, _root_.zero_add, a.rep]
protected theorem zero_mul (a : Fl R) : 0 * a = 0 := by ext; rw [val_mul, val_zero, MulZeroClass.zero_mul, R.rnd_zero]
protected theorem one_mul (a : Fl R) : 1 * a = a := by ext; rw [val_mul, val_one, _root_.one_mul, a.rep]
protected theorem mul_comm (a b : Fl R) : a * b = b * a := by ext; rw [val_mul, val_mul, _root_.mul_comm]
protected theorem add_comm (a b : Fl R) : a + b = b + a := by ext; rw [val_add, val_add, _root_.add_comm]

theorem ne_zero_iff (a : Fl R) : a ≠ 0 ↔ a.val ≠ 0 := by
  refine not_congr ⟨fun h => by rw [h, val_zero], fun h => by ext; rw [h, val_zero]⟩

protected theorem sqrt_ne_zero (v : Fl R) (h : ¬ v < 0) (h0 : v ≠ 0) : (Sqrt.sqrt v) ≠ 0 := by
  have hv : 0 < v.val := lt_of_le_of_ne (not_lt.mp h) (Ne.symm ((ne_zero_iff v).mp h0))
  obtain ⟨ρ, hρ, e⟩ := sqrt_fac v
  rw [ne_zero_iff, e]
  exact mul_ne_zero (Real.sqrt_pos.mpr hv).ne' (hρ.pos R.u_nonneg R.u_lt_one).ne'

/-! ## Sums -/

/-- The rounded sum `((t + g lo) + ..) + g (hi-1)`: every term is multiplied by one factor. -/
theorem addUp_fac (g : Nat → Fl R) (t : Fl R) (lo n : Nat) :
    ∃ (σ : ℝ) (ρ : ℕ → ℝ), Fac R.u n σ ∧ (∀ k, Fac R.u n (ρ k)) ∧
      (addUp g lo (lo + n) t).val = t.val * σ + ∑ k ∈ range n, (g (lo + k)).val * ρ k := by
  have h0 := R.u_nonneg
  have h1 := R.u_lt_one
  induction n with
  | zero => exact ⟨1, fun _ => 1, Fac.one h0 h1 0, fun _ => Fac.one h0 h1 0, by simp [addUp]⟩
  | succ n ih =>
    obtain ⟨σ, ρ, hσ, hρ, e⟩ := ih
    have es : addUp g lo (lo + (n + 1)) t = addUp g lo (lo + n) t + g (lo + n) := by
      unfold addUp
      rw [Nat.add_sub_cancel_left, Nat.add_sub_cancel_left, List.range'_concat, List.foldl_append]
      simp
    obtain ⟨δ, hδ, e'⟩ := add_fac (addUp g lo (lo + n) t) (g (lo + n))
    refine ⟨σ * δ, fun k => if k < n then ρ k * δ else δ, hσ.mul h0 h1 hδ, fun k => ?_, ?_⟩
    · dsimp only
      split_ifs
      · exact (hρ k).mul h0 h1 hδ
      · exact hδ.mono h0 h1 (by omega)
    · rw [es, e', e, sum_range_succ]
      simp only [lt_irrefl, if_false]
      rw [add_mul, add_mul, sum_mul]
      have : ∑ k ∈ range n, (g (lo + k)).val * (if k < n then ρ k * δ else δ) =
          ∑ k ∈ range n, (g (lo + k)).val * ρ k * δ :=
        sum_congr rfl fun k hk => by rw [if_pos (mem_range.mp hk)]; ring
      rw [this]; ring

/-- The rounded difference, solved for the number started with. -/
theorem subUp_fac (g : Nat → Fl R) (t : Fl R) (lo n : Nat) :
    ∃ (σ : ℝ) (ρ : ℕ → ℝ), Fac R.u n σ ∧ (∀ k, Fac R.u k (ρ k)) ∧
      t.val = (subUp g lo (lo + n) t).val * σ + ∑ k ∈ range n, (g (lo + k)).val * ρ k := by
  have h0 := R.u_nonneg
  have h1 := R.u_lt_one
  induction n with
  | zero => exact ⟨1, fun _ => 1, Fac.one h0 h1 0, fun k => Fac.one h0 h1 k, by simp [subUp]⟩
  | succ n ih =>
    obtain ⟨σ, ρ, hσ, hρ, e⟩ := ih
    have es : subUp g lo (lo + (n + 1)) t = subUp g lo (lo + n) t - g (lo + n) := by
      unfold subUp
      rw [Nat.add_sub_cancel_left, Nat.add_sub_cancel_left, List.range'_concat, List.foldl_append]
      simp
    obtain ⟨δ, hδ, e'⟩ := sub_fac (subUp g lo (lo + n) t) (g (lo + n))
    have hδ0 := hδ.pos h0 h1
    refine ⟨σ / δ, fun k => if k < n then ρ k else σ, hσ.div h0 h1 hδ, fun k => ?_, ?_⟩
    · dsimp only
      split_ifs
      · exact hρ k
      · exact hσ.mono h0 h1 (by omega)
    · rw [es, e', e, sum_range_succ]
      simp only [lt_irrefl, if_false]
      have : ∑ k ∈ range n, (g (lo + k)).val * (if k < n then ρ k else σ) =
          ∑ k ∈ range n, (g (lo + k)).val * ρ k :=
        sum_congr rfl fun k hk => by rw [if_pos (mem_range.mp hk)]
      rw [this]
      field_simp
      ring

/-! ## Forward errors -/

end Fl

section bound
variable {u : ℝ} (h0 : 0 ≤ u) (h1 : u < 1)
include h0 h1

theorem sum_fac_le {K : ℕ} {s : Finset ℕ} {a ρ : ℕ → ℝ} (h : ∀ k ∈ s, Fac u K (ρ k)) :
    |∑ k ∈ s, a k * ρ k - ∑ k ∈ s, a k| ≤ gam u K * ∑ k ∈ s, |a k| := by
  rw [← sum_sub_distrib, mul_sum]
  refine (abs_sum_le_sum_abs _ _).trans (sum_le_sum fun k hk => ?_)
  rw [show a k * ρ k - a k = (ρ k - 1) * a k by ring, abs_mul]
  exact mul_le_mul_of_nonneg_right ((h k hk).sub_one h0 h1) (abs_nonneg _)

theorem term_fac_le {K : ℕ} {a σ : ℝ} (h : Fac u K σ) : |a * σ - a| ≤ gam u K * |a| := by
  rw [show a * σ - a = (σ - 1) * a by ring, abs_mul]
  exact mul_le_mul_of_nonneg_right (h.sub_one h0 h1) (abs_nonneg _)

/-- `1 + gam (k + l) = (1 + gam k) (1 + gam l)`. -/
theorem gam_add (k l : ℕ) : 1 + gam u (k + l) = (1 + gam u k) * (1 + gam u l) := by
  have := pow_pos1 h0 h1 k
  have := pow_pos1 h0 h1 l
  unfold gam
  rw [pow_add]
  field_simp
  ring

theorem gam_add_le (k l : ℕ) : gam u k + gam u l ≤ gam u (k + l) := by
  have := gam_add h0 h1 k l
  have := mul_nonneg (gam_nonneg h0 h1 k) (gam_nonneg h0 h1 l)
  nlinarith

theorem u_le_gam {k : ℕ} (hk : 1 ≤ k) : u ≤ gam u k := by
  refine le_trans ?_ (gam_mono h0 h1 hk)
  unfold gam
  rw [pow_one, le_sub_iff_add_le, le_div_iff₀ (by linarith)]
  nlinarith

/-- A weighted mean of factors is a factor. -/
theorem Fac.mean {K : ℕ} {s : Finset ℕ} {a ρ : ℕ → ℝ} (ha : ∀ k ∈ s, 0 ≤ a k) (h : ∀ k ∈ s, Fac u K (ρ k)) :
    ∃ τ, Fac u K τ ∧ ∑ k ∈ s, a k * ρ k = (∑ k ∈ s, a k) * τ := by
  by_cases hz : ∑ k ∈ s, a k = 0
  · refine ⟨1, Fac.one h0 h1 K, ?_⟩
    rw [hz, zero_mul]
    refine sum_eq_zero fun k hk => ?_
    rw [(sum_eq_zero_iff_of_nonneg ha).mp hz k hk, zero_mul]
  · have hp : 0 < ∑ k ∈ s, a k := lt_of_le_of_ne (sum_nonneg ha) (Ne.symm hz)
    have hK := pow_pos1 h0 h1 K
    refine ⟨(∑ k ∈ s, a k * ρ k) / ∑ k ∈ s, a k, ⟨?_, ?_⟩, by field_simp⟩
    · rw [le_div_iff₀ hp, mul_sum]
      exact sum_le_sum fun k hk => by rw [mul_comm]; exact mul_le_mul_of_nonneg_left (h k hk).1 (ha k hk)
    · rw [div_mul_eq_mul_div, div_le_one hp, sum_mul]
      refine sum_le_sum fun k hk => ?_
      rw [mul_assoc]
      exact mul_le_of_le_one_right (ha k hk) (h k hk).2

end bound

namespace Fl
variable {R : Rounding}

/-- `((t + g lo) + ..)` against the exact sum of other terms: `g k = e k * (factor K)`, `t = e' * (factor K)`. -/
theorem addUp_err {g : Nat → Fl R} {t : Fl R} {lo n K : Nat} {e : ℕ → ℝ} {e' : ℝ}
    (hg : ∀ k, k < n → ∃ ρ, Fac R.u K ρ ∧ (g (lo + k)).val = e k * ρ)
    (ht : ∃ ρ, Fac R.u K ρ ∧ t.val = e' * ρ) :
    |(addUp g lo (lo + n) t).val - (e' + ∑ k ∈ range n, e k)| ≤
      gam R.u (n + K) * (|e'| + ∑ k ∈ range n, |e k|) := by
  have h0 := R.u_nonneg
  have h1 := R.u_lt_one
  obtain ⟨σ, ρ, hσ, hρ, he⟩ := addUp_fac g t lo n
  obtain ⟨τ, hτ, et⟩ := ht
  choose! φ hφ eφ using hg
  have : ∑ k ∈ range n, (g (lo + k)).val * ρ k = ∑ k ∈ range n, e k * (φ k * ρ k) :=
    sum_congr rfl fun k hk => by rw [eφ k (mem_range.mp hk)]; ring
  rw [he, this, et, mul_assoc, add_sub_add_comm, mul_add]
  refine (abs_add_le _ _).trans (add_le_add (term_fac_le h0 h1 ?_) (sum_fac_le h0 h1 fun k hk => ?_))
  · rw [add_comm]; exact hτ.mul h0 h1 hσ
  · rw [add_comm]; exact (hφ k (mem_range.mp hk)).mul h0 h1 (hρ k)

/-- A sum started with zero: the first addition is exact. -/
theorem addUp_zero_err {g : Nat → Fl R} {lo n K : Nat} {e : ℕ → ℝ}
    (hg : ∀ k, k < n → ∃ ρ, Fac R.u K ρ ∧ (g (lo + k)).val = e k * ρ) :
    |(addUp g lo (lo + n) 0).val - ∑ k ∈ range n, e k| ≤ gam R.u (n - 1 + K) * ∑ k ∈ range n, |e k| := by
  cases n with
  | zero => simp [addUp]
  | succ n =>
    have es : addUp g lo (lo + (n + 1)) 0 = addUp g (lo + 1) (lo + 1 + n) (g lo) := by
      unfold addUp
      rw [show lo + (n + 1) - lo = n + 1 by omega, show lo + 1 + n - (lo + 1) = n by omega, List.range'_succ,
        List.foldl_cons, Fl.zero_add]
    have := addUp_err (g := g) (t := g lo) (lo := lo + 1) (n := n) (K := K) (e := fun k => e (k + 1)) (e' := e 0)
      (fun k hk => by have := hg (k + 1) (by omega); rwa [show lo + (k + 1) = lo + 1 + k by omega] at this)
      (hg 0 (by omega))
    rw [es, sum_range_succ', sum_range_succ', add_comm _ (e 0), add_comm _ |e 0|]
    exact this

theorem mul3_fac (a b c : Fl R) : ∃ ρ, Fac R.u 2 ρ ∧ (a * b * c).val = a.val * b.val * c.val * ρ := by
  obtain ⟨ρ, hρ, e⟩ := mul_fac a b
  obtain ⟨σ, hσ, e'⟩ := mul_fac (a * b) c
  exact ⟨ρ * σ, hρ.mul R.u_nonneg R.u_lt_one hσ, by rw [e', e]; ring⟩

/-- A sum of `n` products started with zero. -/
theorem addUp_prod_err (f g : Nat → Fl R) (n : Nat) :
    |(addUp (fun k => f k * g k) 0 n 0).val - ∑ k ∈ range n, (f k).val * (g k).val| ≤
      gam R.u n * ∑ k ∈ range n, |(f k).val * (g k).val| := by
  cases n with
  | zero => simp [addUp]
  | succ n =>
    have := addUp_zero_err (R := R) (g := fun k => f k * g k) (lo := 0) (n := n + 1) (K := 1)
      (e := fun k => (f k).val * (g k).val) (fun k _ => by rw [Nat.zero_add]; exact mul_fac _ _)
    rwa [Nat.zero_add] at this

/-- A sum of squares, relative error. -/
theorem addUp_sq (f : Nat → Fl R) (n : Nat) :
    ∃ τ, Fac R.u n τ ∧ (addUp (fun i => f i * f i) 0 n 0).val = (∑ k ∈ range n, (f k).val * (f k).val) * τ := by
  have h0 := R.u_nonneg
  have h1 := R.u_lt_one
  cases n with
  | zero => exact ⟨1, Fac.one h0 h1 0, by simp [addUp]⟩
  | succ n =>
    have es : addUp (fun i => f i * f i) 0 (n + 1) 0 = addUp (fun i => f i * f i) 1 (1 + n) (f 0 * f 0) := by
      unfold addUp
      rw [Nat.sub_zero, Nat.add_sub_cancel_left, List.range'_succ, List.foldl_cons, Fl.zero_add]
    obtain ⟨σ, ρ, hσ, hρ, e⟩ := addUp_fac (fun i => f i * f i) (f 0 * f 0) 1 n
    choose φ hφ eφ using fun k => mul_fac (f k) (f k)
    obtain ⟨τ, hτ, e'⟩ := Fac.mean h0 h1 (K := n + 1) (s := range (n + 1)) (a := fun k => (f k).val * (f k).val)
      (ρ := fun k => if k = 0 then φ 0 * σ else φ k * ρ (k - 1)) (fun k _ => mul_self_nonneg _)
      (fun k _ => by
        rw [Nat.add_comm]
        split_ifs
        · exact (hφ 0).mul h0 h1 hσ
        · exact (hφ k).mul h0 h1 (hρ _))
    refine ⟨τ, hτ, ?_⟩
    rw [es, e, ← e', sum_range_succ', add_comm, if_pos rfl, eφ 0]
    refine congrArg₂ _ (sum_congr rfl fun k _ => ?_) (by ring)
    rw [if_neg (by omega), Nat.add_comm 1 k, eφ, Nat.add_sub_cancel]
    ring

/-- The checked root of a non-negative number with a known relative error. -/
theorem sqrt_err {v : Fl R} {S τ : ℝ} {n : ℕ} (hS : 0 ≤ S) (hτ : Fac R.u n τ) (hv : v.val = S * τ) :
    sqrtC v = .ok (Sqrt.sqrt v) ∧ |(Sqrt.sqrt v).val - Real.sqrt S| ≤ gam R.u (n + 1) * Real.sqrt S := by
  have h0 := R.u_nonneg
  have h1 := R.u_lt_one
  have hv0 : 0 ≤ v.val := by rw [hv]; exact mul_nonneg hS (hτ.pos h0 h1).le
  refine ⟨?_, ?_⟩
  · rw [sqrtC_eq]
    have : ¬ v < 0 := not_lt.mpr (show (0 : ℝ) ≤ v.val from hv0)
    rw [if_neg this]
  · obtain ⟨δ, hδ, e⟩ := sqrt_fac v
    rw [e, hv, Real.sqrt_mul hS, mul_assoc]
    have := term_fac_le h0 h1 (a := Real.sqrt S) ((hτ.sqrt h0 h1).mul h0 h1 hδ)
    rwa [abs_of_nonneg (Real.sqrt_nonneg _)] at this

/-! ## Reductions of any shape -/

section tree
variable {m : Mem (Fl R)} {x y : Nat}

theorem tree_empty : ∀ t : RedTree, t.leaves = [] → t.eval m x y = .ok 0
  | .zero, _ => rfl
  | .leaf i, h => by simp [RedTree.leaves] at h
  | .node l r, h => by
    simp only [RedTree.leaves, List.append_eq_nil_iff] at h
    simp only [RedTree.eval]
    rw [tree_empty l h.1, ok_bind, tree_empty r h.2, ok_bind, Fl.zero_add]

theorem tree_ok : ∀ t : RedTree, (∀ i ∈ t.leaves, i < m.len x ∧ i < m.len y) → ∃ v, t.eval m x y = .ok v
  | .zero, _ => ⟨_, rfl⟩
  | .leaf i, h => by
    have := h i (by simp [RedTree.leaves])
    exact ⟨_, by simp only [RedTree.eval]; rw [Mem.rd_ok this.1, ok_bind, Mem.rd_ok this.2, ok_bind]⟩
  | .node l r, h => by
    obtain ⟨v, hv⟩ := tree_ok l fun i hi => h i (by simp [RedTree.leaves, hi])
    obtain ⟨w, hw⟩ := tree_ok r fun i hi => h i (by simp [RedTree.leaves, hi])
    exact ⟨_, by simp only [RedTree.eval]; rw [hv, ok_bind, hw, ok_bind]⟩

/-- The value of a reduction lies in every set `S k` of numbers which is reached with `k` leaves: closed under rounded
addition, where adding zero costs nothing. -/
theorem tree_ind (P : List Nat → ℝ → Prop)
    (hleaf : ∀ i, P [i] ((m.val x i * m.val y i : Fl R)).val)
    (hnode : ∀ l l' v w, l ≠ [] → l' ≠ [] → P l v → P l' w → P (l ++ l') (R.rnd (v + w))) :
    ∀ t : RedTree, t.leaves ≠ [] → (∀ i ∈ t.leaves, i < m.len x ∧ i < m.len y) → ∀ v, t.eval m x y = .ok v →
      P t.leaves v.val
  | .zero, h, _, _, _ => by simp [RedTree.leaves] at h
  | .leaf i, _, h, v, hv => by
    have hi := h i (by simp [RedTree.leaves])
    simp only [RedTree.eval] at hv
    rw [Mem.rd_ok hi.1, ok_bind, Mem.rd_ok hi.2, ok_bind] at hv
    injection hv with hv
    subst hv
    exact hleaf i
  | .node l r, hne, h, v, hv => by
    have hl : ∀ i ∈ l.leaves, i < m.len x ∧ i < m.len y := fun i hi => h i (by simp [RedTree.leaves, hi])
    have hr : ∀ i ∈ r.leaves, i < m.len x ∧ i < m.len y := fun i hi => h i (by simp [RedTree.leaves, hi])
    simp only [RedTree.eval] at hv
    obtain ⟨a, ha⟩ := tree_ok l hl
    obtain ⟨b, hb⟩ := tree_ok r hr
    rw [ha, ok_bind, hb, ok_bind] at hv
    injection hv with hv
    subst hv
    simp only [RedTree.leaves] at hne ⊢
    by_cases hl0 : l.leaves = []
    · have : a = 0 := by rw [tree_empty l hl0] at ha; injection ha with ha; exact ha.symm
      subst this
      rw [Fl.zero_add, hl0, List.nil_append]
      exact tree_ind P hleaf hnode r (by simpa [hl0] using hne) hr b hb
    · by_cases hr0 : r.leaves = []
      · have : b = 0 := by rw [tree_empty r hr0] at hb; injection hb with hb; exact hb.symm
        subst this
        rw [Fl.add_comm, Fl.zero_add, hr0, List.append_nil]
        exact tree_ind P hleaf hnode l hl0 hl a ha
      · exact hnode _ _ _ _ hl0 hr0 (tree_ind P hleaf hnode l hl0 hl a ha) (tree_ind P hleaf hnode r hr0 hr b hb)

/-- One rounded addition of two approximations. -/
theorem add_err {k l K : ℕ} {v w S S' B B' : ℝ} (hk : k + 1 ≤ K) (hl : l + 1 ≤ K) (hS : |S| ≤ B) (hS' : |S'| ≤ B')
    (hv : |v - S| ≤ gam R.u k * B) (hw : |w - S'| ≤ gam R.u l * B') :
    |R.rnd (v + w) - (S + S')| ≤ gam R.u K * (B + B') := by
  have h0 := R.u_nonneg
  have h1 := R.u_lt_one
  have hB : 0 ≤ B := (abs_nonneg _).trans hS
  have hB' : 0 ≤ B' := (abs_nonneg _).trans hS'
  have hv' := hv.trans (mul_le_mul_of_nonneg_right (gam_mono h0 h1 (show k ≤ K - 1 by omega)) hB)
  have hw' := hw.trans (mul_le_mul_of_nonneg_right (gam_mono h0 h1 (show l ≤ K - 1 by omega)) hB')
  have e := R.err (v + w)
  have hg := gam_add h0 h1 (K - 1) 1
  rw [show K - 1 + 1 = K by omega] at hg
  have hu := u_le_gam h0 h1 (le_refl 1)
  have g0 := gam_nonneg h0 h1 (K - 1)
  have hvw : |v + w - (S + S')| ≤ gam R.u (K - 1) * (B + B') := by
    rw [add_sub_add_comm, mul_add]
    exact (abs_add_le _ _).trans (add_le_add hv' hw')
  have habs : |v + w| ≤ (1 + gam R.u (K - 1)) * (B + B') := by
    have a1 := abs_add_le (v + w - (S + S')) (S + S')
    rw [sub_add_cancel] at a1
    have a2 := abs_add_le S S'
    linarith
  have t := abs_add_le (R.rnd (v + w) - (v + w)) (v + w - (S + S'))
  rw [sub_add_sub_cancel] at t
  have m1 : R.u * |v + w| ≤ gam R.u 1 * ((1 + gam R.u (K - 1)) * (B + B')) :=
    mul_le_mul hu habs (abs_nonneg _) (gam_nonneg h0 h1 1)
  have : gam R.u K * (B + B') = gam R.u 1 * ((1 + gam R.u (K - 1)) * (B + B')) + gam R.u (K - 1) * (B + B') := by
    have : gam R.u K = (1 + gam R.u (K - 1)) * (1 + gam R.u 1) - 1 := by linarith
    rw [this]; ring
  linarith

/-- The error of a reduction of any shape over `k` products. -/
theorem tree_err (t : RedTree) (h : ∀ i ∈ t.leaves, i < m.len x ∧ i < m.len y) :
    ∃ v, t.eval m x y = .ok v ∧
      |v.val - (t.leaves.map fun i => (m.val x i).val * (m.val y i).val).sum| ≤
        gam R.u t.leaves.length * (t.leaves.map fun i => |(m.val x i).val * (m.val y i).val|).sum := by
  have h0 := R.u_nonneg
  have h1 := R.u_lt_one
  by_cases he : t.leaves = []
  · exact ⟨0, tree_empty t he, by simp [he]⟩
  obtain ⟨v, hv⟩ := tree_ok t h
  refine ⟨v, hv, ?_⟩
  have := tree_ind (m := m) (x := x) (y := y) (R := R) (fun l v =>
    |(l.map fun i => (m.val x i).val * (m.val y i).val).sum| ≤
      (l.map fun i => |(m.val x i).val * (m.val y i).val|).sum ∧
    |v - (l.map fun i => (m.val x i).val * (m.val y i).val).sum| ≤
      gam R.u l.length * (l.map fun i => |(m.val x i).val * (m.val y i).val|).sum) ?_ ?_ t he h v hv
  · exact this.2
  · intro i
    obtain ⟨ρ, hρ, e⟩ := mul_fac (m.val x i) (m.val y i)
    refine ⟨by simp, ?_⟩
    simp only [List.map_cons, List.map_nil, List.sum_cons, List.sum_nil, add_zero, List.length_singleton]
    rw [e]
    exact term_fac_le h0 h1 hρ
  · intro l l' v w hl hl' ⟨h3, h4⟩ ⟨h5, h6⟩
    have p1 := List.length_pos_iff.mpr hl
    have p2 := List.length_pos_iff.mpr hl'
    simp only [List.map_append, List.sum_append, List.length_append]
    exact ⟨(abs_add_le _ _).trans (add_le_add h3 h5),
      add_err (k := l.length) (l := l'.length) (by omega) (by omega) h3 h5 h4 h6⟩

/-- Sums of squares: the relative error. -/
theorem tree_sq (t : RedTree) (h : ∀ i ∈ t.leaves, i < m.len x) :
    ∃ v, t.eval m x x = .ok v ∧ ∃ τ, Fac R.u t.leaves.length τ ∧
      v.val = (t.leaves.map fun i => (m.val x i).val * (m.val x i).val).sum * τ := by
  have h0 := R.u_nonneg
  have h1 := R.u_lt_one
  by_cases he : t.leaves = []
  · exact ⟨0, tree_empty t he, 1, Fac.one h0 h1 _, by simp [he]⟩
  have h' : ∀ i ∈ t.leaves, i < m.len x ∧ i < m.len x := fun i hi => ⟨h i hi, h i hi⟩
  obtain ⟨v, hv⟩ := tree_ok t h'
  refine ⟨v, hv, ?_⟩
  have := tree_ind (m := m) (x := x) (y := x) (R := R) (fun l v =>
    0 ≤ (l.map fun i => (m.val x i).val * (m.val x i).val).sum ∧ ∃ τ, Fac R.u l.length τ ∧
      v = (l.map fun i => (m.val x i).val * (m.val x i).val).sum * τ) ?_ ?_ t he h' v hv
  · exact this.2
  · intro i
    obtain ⟨ρ, hρ, e⟩ := mul_fac (m.val x i) (m.val x i)
    exact ⟨by simpa using mul_self_nonneg _, ρ, hρ, by simpa using e⟩
  · rintro l l' v w hl hl' ⟨h3, τ, hτ, rfl⟩ ⟨h5, σ, hσ, rfl⟩
    have p1 := List.length_pos_iff.mpr hl
    have p2 := List.length_pos_iff.mpr hl'
    simp only [List.map_append, List.sum_append, List.length_append]
    refine ⟨add_nonneg h3 h5, ?_⟩
    set S := (l.map fun i => (m.val x i).val * (m.val x i).val).sum
    set S' := (l'.map fun i => (m.val x i).val * (m.val x i).val).sum
    obtain ⟨δ, hδ, e⟩ := rnd_fac (R := R) (S * τ + S' * σ)
    obtain ⟨μ, hμ, e'⟩ := Fac.mean h0 h1 (K := l.length + l'.length - 1) (s := range 2)
      (a := fun k => if k = 0 then S else S') (ρ := fun k => if k = 0 then τ else σ)
      (fun k _ => by split_ifs <;> assumption)
      (fun k _ => by
        split_ifs
        · exact hτ.mono h0 h1 (by omega)
        · exact hσ.mono h0 h1 (by omega))
    simp [sum_range_succ] at e'
    refine ⟨μ * δ, ?_, by rw [e, e']; ring⟩
    have := hμ.mul h0 h1 hδ
    rwa [show l.length + l'.length - 1 + 1 = l.length + l'.length by omega] at this

end tree

end Fl

end Lalib
