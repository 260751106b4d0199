import Verif.Proofs.Float
import Verif.Proofs.Binary

/-! # Integers in binary floating point: sums and products that stay within `2^p` are exact -/

namespace Lalib

open Finset

namespace Fl

variable {p : ℕ} {hp : 1 ≤ p}

theorem rnd_int {x : ℝ} (hx : ∃ z : ℤ, x = z) (hb : |x| ≤ 2 ^ p) : (binary p hp).rnd x = x := by
  obtain ⟨z, rfl⟩ := hx
  exact rndBin_int p hp z (by exact_mod_cast hb)

theorem mul_int {a b : Fl (binary p hp)} (ha : a.IsInt) (hb : b.IsInt) (h : |a.val * b.val| ≤ 2 ^ p) :
    (a * b).val = a.val * b.val := by
  obtain ⟨z, hz⟩ := ha
  obtain ⟨w, hw⟩ := hb
  exact rnd_int (hp := hp) ⟨z * w, by rw [hz, hw]; push_cast; ring⟩ h

/-- `a * b * c`: if the product is within the bound so are the intermediate results, or they are multiplied by zero. -/
theorem mul3_int {a b c : Fl (binary p hp)} (ha : a.IsInt) (hb : b.IsInt) (hc : c.IsInt)
    (h : |a.val * b.val * c.val| ≤ 2 ^ p) : (a * b * c).val = a.val * b.val * c.val := by
  by_cases h0 : c.val = 0
  · rw [val_mul, h0, mul_zero, mul_zero]; exact Rounding.rnd_zero _
  · obtain ⟨w, hw⟩ := hc
    have hw0 : w ≠ 0 := by rintro rfl; exact h0 (by simpa using hw)
    have w1 : (1 : ℝ) ≤ |c.val| := by
      rw [hw]; exact_mod_cast Int.one_le_abs hw0
    have hab : |a.val * b.val| ≤ 2 ^ p := by
      rw [abs_mul] at h
      have := abs_nonneg (a.val * b.val)
      nlinarith
    have e := mul_int ha hb hab
    have hi : (a * b).IsInt := by
      obtain ⟨z, hz⟩ := ha
      obtain ⟨v, hv⟩ := hb
      exact ⟨z * v, by rw [e, hz, hv]; push_cast; ring⟩
    rw [mul_int hi ⟨w, hw⟩ (by rw [e]; exact h), e]

theorem addUp_int {g : Nat → Fl (binary p hp)} {t : Fl (binary p hp)} {lo : ℕ} {e : ℕ → ℝ} (ht : t.IsInt) :
    ∀ n : ℕ, (∀ k, k < n → (g (lo + k)).val = e k) → (∀ k, k < n → ∃ z : ℤ, e k = z) →
      |t.val| + ∑ k ∈ range n, |e k| ≤ 2 ^ p →
      (addUp g lo (lo + n) t).val = t.val + ∑ k ∈ range n, e k ∧ (addUp g lo (lo + n) t).IsInt
  | 0, _, _, _ => by simpa [addUp] using ht
  | n + 1, hg, he, hb => by
    have es : addUp g lo (lo + (n + 1)) t = addUp g lo (lo + n) t + g (lo + n) := by
      unfold addUp
      rw [Nat.add_sub_cancel_left, Nat.add_sub_cancel_left, List.range'_concat, List.foldl_append]
      simp
    rw [sum_range_succ] at hb
    have nn := abs_nonneg (e n)
    obtain ⟨ih, z, hz⟩ := addUp_int ht n (fun k hk => hg k (by omega)) (fun k hk => he k (by omega)) (by linarith)
    obtain ⟨w, hw⟩ := he n (by omega)
    have hsum : (addUp g lo (lo + n) t).val + (g (lo + n)).val = t.val + ∑ k ∈ range (n + 1), e k := by
      rw [ih, hg n (by omega), sum_range_succ]; ring
    have hint : ∃ q : ℤ, (addUp g lo (lo + n) t).val + (g (lo + n)).val = q :=
      ⟨z + w, by rw [hz, hg n (by omega), hw]; push_cast; ring⟩
    have hbd : |(addUp g lo (lo + n) t).val + (g (lo + n)).val| ≤ 2 ^ p := by
      rw [hsum, sum_range_succ]
      refine (abs_add_le _ _).trans (le_trans ?_ hb)
      have := abs_sum_le_sum_abs e (range n)
      have := abs_add_le (∑ k ∈ range n, e k) (e n)
      linarith
    have ex : (addUp g lo (lo + (n + 1)) t).val = (addUp g lo (lo + n) t).val + (g (lo + n)).val := by
      rw [es, val_add]; exact rnd_int (hp := hp) hint hbd
    exact ⟨by rw [ex, hsum], by obtain ⟨q, hq⟩ := hint; exact ⟨q, by rw [ex, hq]⟩⟩

theorem tree_int {m : Mem (Fl (binary p hp))} {x y : Nat} (t : RedTree)
    (h : ∀ i ∈ t.leaves, i < m.len x ∧ i < m.len y) (hx : ∀ i, (m.val x i).IsInt) (hy : ∀ i, (m.val y i).IsInt)
    (hb : (t.leaves.map fun i => |(m.val x i).val * (m.val y i).val|).sum ≤ 2 ^ p) :
    ∃ v, t.eval m x y = .ok v ∧ v.IsInt ∧
      v.val = (t.leaves.map fun i => (m.val x i).val * (m.val y i).val).sum := by
  by_cases he : t.leaves = []
  · exact ⟨0, tree_empty t he, ⟨0, by simp⟩, by simp [he]⟩
  obtain ⟨v, hv⟩ := tree_ok t h
  have labs : ∀ l : List ℕ, |(l.map fun i => (m.val x i).val * (m.val y i).val).sum| ≤
      (l.map fun i => |(m.val x i).val * (m.val y i).val|).sum := by
    intro l
    induction l with
    | nil => simp
    | cons a l ih =>
      simp only [List.map_cons, List.sum_cons]
      exact (abs_add_le _ _).trans (by linarith)
  have lnn : ∀ l : List ℕ, 0 ≤ (l.map fun i => |(m.val x i).val * (m.val y i).val|).sum := fun l =>
    le_trans (abs_nonneg _) (labs l)
  have := tree_ind (m := m) (x := x) (y := y) (fun l v =>
    (l.map fun i => |(m.val x i).val * (m.val y i).val|).sum ≤ 2 ^ p →
      (∃ z : ℤ, v = z) ∧ v = (l.map fun i => (m.val x i).val * (m.val y i).val).sum) ?_ ?_ t he h v hv hb
  · exact ⟨v, hv, this.1, this.2⟩
  · intro i hb
    simp only [List.map_cons, List.map_nil, List.sum_cons, List.sum_nil, add_zero] at hb ⊢
    have e := mul_int (hx i) (hy i) hb
    obtain ⟨z, hz⟩ := hx i
    obtain ⟨w, hw⟩ := hy i
    exact ⟨⟨z * w, by rw [e, hz, hw]; push_cast; ring⟩, e⟩
  · intro l l' v w _ _ h1 h2 hb
    simp only [List.map_append, List.sum_append] at hb ⊢
    obtain ⟨⟨z, rfl⟩, e1⟩ := h1 (by have := lnn l'; linarith)
    obtain ⟨⟨w, rfl⟩, e2⟩ := h2 (by have := lnn l; linarith)
    have : (binary p hp).rnd ((z : ℝ) + w) = z + w := by
      refine rnd_int ⟨z + w, by push_cast; ring⟩ ?_
      rw [e1, e2]
      refine (abs_add_le _ _).trans ?_
      have := labs l
      have := labs l'
      linarith
    rw [this]
    exact ⟨⟨z + w, by push_cast; ring⟩, by rw [← e1, ← e2]⟩

end Fl

end Lalib
