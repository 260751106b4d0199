import Verif.Spec.Noisy
import Verif.Proofs.Float

/-! # Errors of sums, with any accurate arithmetic -/

namespace Lalib.Nz

open Finset

variable {N : Noisy}

theorem err_fac {u x y : ℝ} (h0 : 0 ≤ u) (h1 : u < 1) (h : |y - x| ≤ u * |x|) : ∃ ρ, Fac u 1 ρ ∧ y = x * ρ := by
  by_cases hx : x = 0
  · subst hx
    refine ⟨1, Fac.one h0 h1 1, ?_⟩
    rw [sub_zero, abs_zero, mul_zero] at h
    rw [abs_eq_zero.mp (le_antisymm h (abs_nonneg _)), zero_mul]
  · refine ⟨y / x, Fac.of_delta h0 h1 ?_, by field_simp⟩
    have e : y / x - 1 = (y - x) / x := by field_simp
    rw [e, abs_div, div_le_iff₀ (abs_pos.mpr hx)]
    exact h

@[simp] theorem val_zero : (0 : Nz N).val = 0 := N.val_zero
@[simp] theorem val_one : (1 : Nz N).val = 1 := N.val_one
@[simp] theorem val_neg (a : Nz N) : (-a).val = -a.val := N.val_neg a

theorem add_fac (a b : Nz N) : ∃ ρ, Fac N.u 1 ρ ∧ (a + b).val = (a.val + b.val) * ρ :=
  err_fac N.u_nonneg N.u_lt_one (N.add_err a b)
theorem sub_fac (a b : Nz N) : ∃ ρ, Fac N.u 1 ρ ∧ (a - b).val = (a.val - b.val) * ρ :=
  err_fac N.u_nonneg N.u_lt_one (N.sub_err a b)
theorem mul_fac (a b : Nz N) : ∃ ρ, Fac N.u 1 ρ ∧ (a * b).val = a.val * b.val * ρ :=
  err_fac N.u_nonneg N.u_lt_one (N.mul_err a b)

theorem div_fac (a b : Nz N) : ∃ ρ, Fac N.u 1 ρ ∧ (a / b).val = a.val / b.val * ρ := by
  have e : a / b = if N.val b = 0 then N.zero else N.div a b := rfl
  rw [e]
  split_ifs with h
  · refine ⟨1, Fac.one N.u_nonneg N.u_lt_one 1, ?_⟩
    rw [show b.val = 0 from h, div_zero, zero_mul]
    exact N.val_zero
  · exact err_fac N.u_nonneg N.u_lt_one (N.div_err a b h)

theorem sqrt_fac (a : Nz N) : ∃ ρ, Fac N.u 1 ρ ∧ (Sqrt.sqrt a).val = Real.sqrt a.val * ρ := by
  have e : Sqrt.sqrt a = if N.val a < 0 then N.zero else N.sqrt a := rfl
  rw [e]
  split_ifs with h
  · refine ⟨1, Fac.one N.u_nonneg N.u_lt_one 1, ?_⟩
    rw [Real.sqrt_eq_zero_of_nonpos (show a.val ≤ 0 from le_of_lt h), zero_mul]
    exact N.val_zero
  · refine err_fac N.u_nonneg N.u_lt_one ?_
    rw [abs_of_nonneg (Real.sqrt_nonneg _)]
    exact N.sqrt_err a (not_lt.mp h)

theorem isZ_zero : IsZ (0 : Nz N) := N.val_zero

theorem divAt {b : Nz N} (h : b.val ≠ 0) : DivAt b := fun _ => if_neg h

theorem divAt_iff {b : Nz N} : DivAt b ↔ b.val ≠ 0 := by
  refine ⟨fun h h0 => ?_, divAt⟩
  have e : divC (0 : Nz N) b = .error .nonFinite := if_pos h0
  rw [h 0] at e
  cases e

instance : DivCases (Nz N) := ⟨fun b => by
  by_cases h : b.val = 0
  · exact .inr fun _ => if_pos h
  · exact .inl (divAt h)⟩

theorem sqrt_pos {v : Nz N} (h : 0 < v.val) : 0 < (Sqrt.sqrt v).val := by
  obtain ⟨ρ, hρ, e⟩ := sqrt_fac v
  rw [e]
  exact mul_pos (Real.sqrt_pos.mpr h) (hρ.pos N.u_nonneg N.u_lt_one)

theorem sq_ok (v : Nz N) (h : ¬ v < 0) (h0 : ¬ IsZ v) : sqrtC v = .ok (Sqrt.sqrt v) ∧ DivAt (Sqrt.sqrt v) := by
  have h' : 0 ≤ v.val := by
    have : ¬ v.val < (0 : Nz N).val := h
    rwa [val_zero, not_lt] at this
  exact ⟨if_neg h, divAt (sqrt_pos (lt_of_le_of_ne h' (Ne.symm h0))).ne'⟩

/-! ## Sums -/

/-- The rounded sum `((t + g lo) + ..) + g (hi-1)`: every term is multiplied by one factor. -/
theorem addUp_fac (g : Nat → Nz N) (t : Nz N) (lo n : Nat) :
    ∃ (σ : ℝ) (ρ : ℕ → ℝ), Fac N.u n σ ∧ (∀ k, Fac N.u n (ρ k)) ∧
      (addUp g lo (lo + n) t).val = t.val * σ + ∑ k ∈ range n, (g (lo + k)).val * ρ k := by
  have h0 := N.u_nonneg
  have h1 := N.u_lt_one
  induction n with
  | zero => exact ⟨1, fun _ => 1, Fac.one h0 h1 0, fun _ => Fac.one h0 h1 0, by simp [addUp]⟩
  | succ n ih =>
    obtain ⟨σ, ρ, hσ, hρ, e⟩ := ih
    have es : addUp g lo (lo + (n + 1)) t = addUp g lo (lo + n) t + g (lo + n) := by
      unfold addUp
      rw [Nat.add_sub_cancel_left, Nat.add_sub_cancel_left, List.range'_concat, List.foldl_append]
      simp
    obtain ⟨δ, hδ, e'⟩ := add_fac (addUp g lo (lo + n) t) (g (lo + n))
    refine ⟨σ * δ, fun k => if k < n then ρ k * δ else δ, hσ.mul h0 h1 hδ, fun k => ?_, ?_⟩
    · dsimp only
      split_ifs
      · exact (hρ k).mul h0 h1 hδ
      · exact hδ.mono h0 h1 (by omega)
    · rw [es, e', e, sum_range_succ]
      simp only [lt_irrefl, if_false]
      rw [add_mul, add_mul, sum_mul]
      have : ∑ k ∈ range n, (g (lo + k)).val * (if k < n then ρ k * δ else δ) =
          ∑ k ∈ range n, (g (lo + k)).val * ρ k * δ :=
        sum_congr rfl fun k hk => by rw [if_pos (mem_range.mp hk)]; ring
      rw [this]; ring

/-- The rounded difference, solved for the number started with. -/
theorem subUp_fac (g : Nat → Nz N) (t : Nz N) (lo n : Nat) :
    ∃ (σ : ℝ) (ρ : ℕ → ℝ), Fac N.u n σ ∧ (∀ k, Fac N.u k (ρ k)) ∧
      t.val = (subUp g lo (lo + n) t).val * σ + ∑ k ∈ range n, (g (lo + k)).val * ρ k := by
  have h0 := N.u_nonneg
  have h1 := N.u_lt_one
  induction n with
  | zero => exact ⟨1, fun _ => 1, Fac.one h0 h1 0, fun k => Fac.one h0 h1 k, by simp [subUp]⟩
  | succ n ih =>
    obtain ⟨σ, ρ, hσ, hρ, e⟩ := ih
    have es : subUp g lo (lo + (n + 1)) t = subUp g lo (lo + n) t - g (lo + n) := by
      unfold subUp
      rw [Nat.add_sub_cancel_left, Nat.add_sub_cancel_left, List.range'_concat, List.foldl_append]
      simp
    obtain ⟨δ, hδ, e'⟩ := sub_fac (subUp g lo (lo + n) t) (g (lo + n))
    have hδ0 := hδ.pos h0 h1
    refine ⟨σ / δ, fun k => if k < n then ρ k else σ, hσ.div h0 h1 hδ, fun k => ?_, ?_⟩
    · dsimp only
      split_ifs
      · exact hρ k
      · exact hσ.mono h0 h1 (by omega)
    · rw [es, e', e, sum_range_succ]
      simp only [lt_irrefl, if_false]
      have : ∑ k ∈ range n, (g (lo + k)).val * (if k < n then ρ k else σ) =
          ∑ k ∈ range n, (g (lo + k)).val * ρ k :=
        sum_congr rfl fun k hk => by rw [if_pos (mem_range.mp hk)]
      rw [this]
      field_simp
      ring

/-- `((t + g lo) + ..)` against the exact sum of other terms: `g k = e k * (factor K)`, `t = e' * (factor K)`. -/
theorem addUp_err {g : Nat → Nz N} {t : Nz N} {lo n K : Nat} {e : ℕ → ℝ} {e' : ℝ}
    (hg : ∀ k, k < n → ∃ ρ, Fac N.u K ρ ∧ (g (lo + k)).val = e k * ρ)
    (ht : ∃ ρ, Fac N.u K ρ ∧ t.val = e' * ρ) :
    |(addUp g lo (lo + n) t).val - (e' + ∑ k ∈ range n, e k)| ≤
      gam N.u (n + K) * (|e'| + ∑ k ∈ range n, |e k|) := by
  have h0 := N.u_nonneg
  have h1 := N.u_lt_one
  obtain ⟨σ, ρ, hσ, hρ, he⟩ := addUp_fac g t lo n
  obtain ⟨τ, hτ, et⟩ := ht
  choose! φ hφ eφ using hg
  have : ∑ k ∈ range n, (g (lo + k)).val * ρ k = ∑ k ∈ range n, e k * (φ k * ρ k) :=
    sum_congr rfl fun k hk => by rw [eφ k (mem_range.mp hk)]; ring
  rw [he, this, et, mul_assoc, add_sub_add_comm, mul_add]
  refine (abs_add_le _ _).trans (add_le_add (term_fac_le h0 h1 ?_) (sum_fac_le h0 h1 fun k hk => ?_))
  · rw [add_comm]; exact hτ.mul h0 h1 hσ
  · rw [add_comm]; exact (hφ k (mem_range.mp hk)).mul h0 h1 (hρ k)

theorem mul3_fac (a b c : Nz N) : ∃ ρ, Fac N.u 2 ρ ∧ (a * b * c).val = a.val * b.val * c.val * ρ := by
  obtain ⟨ρ, hρ, e⟩ := mul_fac a b
  obtain ⟨σ, hσ, e'⟩ := mul_fac (a * b) c
  exact ⟨ρ * σ, hρ.mul N.u_nonneg N.u_lt_one hσ, by rw [e', e]; ring⟩

/-- A sum of squares, relative error. -/
theorem addUp_sq (f : Nat → Nz N) (n : Nat) :
    ∃ τ, Fac N.u (n + 1) τ ∧ (addUp (fun i => f i * f i) 0 n 0).val = (∑ k ∈ range n, (f k).val * (f k).val) * τ := by
  have h0 := N.u_nonneg
  have h1 := N.u_lt_one
  obtain ⟨σ, ρ, hσ, hρ, e⟩ := addUp_fac (fun i => f i * f i) 0 0 n
  choose φ hφ eφ using fun k => mul_fac (f k) (f k)
  obtain ⟨τ, hτ, e'⟩ := Fac.mean h0 h1 (K := n + 1) (s := range n) (a := fun k => (f k).val * (f k).val)
    (ρ := fun k => φ k * ρ k) (fun k _ => mul_self_nonneg _)
    (fun k _ => by rw [Nat.add_comm]; exact (hφ k).mul h0 h1 (hρ _))
  refine ⟨τ, hτ, ?_⟩
  rw [Nat.zero_add] at e
  rw [e, val_zero, zero_mul, zero_add, ← e']
  refine sum_congr rfl fun k _ => ?_
  rw [Nat.zero_add, eφ]
  ring

/-- The checked root of a non-negative number with a known relative error. -/
theorem sqrt_err {v : Nz N} {S τ : ℝ} {n : ℕ} (hS : 0 ≤ S) (hτ : Fac N.u n τ) (hv : v.val = S * τ) :
    sqrtC v = .ok (Sqrt.sqrt v) ∧ |(Sqrt.sqrt v).val - Real.sqrt S| ≤ gam N.u (n + 1) * Real.sqrt S := by
  have h0 := N.u_nonneg
  have h1 := N.u_lt_one
  have hv0 : 0 ≤ v.val := by rw [hv]; exact mul_nonneg hS (hτ.pos h0 h1).le
  refine ⟨?_, ?_⟩
  · have : ¬ v < 0 := by
      show ¬ v.val < (0 : Nz N).val
      rw [val_zero, not_lt]; exact hv0
    exact if_neg this
  · obtain ⟨δ, hδ, e⟩ := sqrt_fac v
    rw [e, hv, Real.sqrt_mul hS, mul_assoc]
    have := term_fac_le h0 h1 (a := Real.sqrt S) ((hτ.sqrt h0 h1).mul h0 h1 hδ)
    rwa [abs_of_nonneg (Real.sqrt_nonneg _)] at this

/-! ## Reductions of any shape -/

section tree
variable {m : Mem (Nz N)} {x y : Nat}

/-- Every product of the reduction is multiplied by one factor. -/
theorem tree_fac : ∀ t : RedTree, (∀ i ∈ t.leaves, i < m.len x ∧ i < m.len y) → ∃ v, t.eval m x y = .ok v ∧
    ∃ f : List ℝ, f.length = t.leaves.length ∧ (∀ ρ ∈ f, Fac N.u (t.depth + 1) ρ) ∧
      v.val = ((t.leaves.zip f).map fun p => (m.val x p.1).val * (m.val y p.1).val * p.2).sum
  | .zero, _ => ⟨0, rfl, [], rfl, by simp, by simp [RedTree.leaves]⟩
  | .leaf i, h => by
    have hi := h i (by simp [RedTree.leaves])
    obtain ⟨ρ, hρ, e⟩ := mul_fac (m.val x i) (m.val y i)
    refine ⟨m.val x i * m.val y i, ?_, [ρ], rfl, by simpa [RedTree.depth] using hρ, by simp [RedTree.leaves, e]⟩
    simp only [RedTree.eval]
    rw [Mem.rd_ok hi.1, ok_bind, Mem.rd_ok hi.2, ok_bind]
  | .node l r, h => by
    have h0 := N.u_nonneg
    have h1 := N.u_lt_one
    obtain ⟨v, hv, f, lf, hf, ev⟩ := tree_fac l fun i hi => h i (by simp [RedTree.leaves, hi])
    obtain ⟨w, hw, g, lg, hg, ew⟩ := tree_fac r fun i hi => h i (by simp [RedTree.leaves, hi])
    obtain ⟨δ, hδ, e⟩ := add_fac v w
    refine ⟨v + w, by simp only [RedTree.eval]; rw [hv, ok_bind, hw, ok_bind], (f ++ g).map (· * δ), by
      simp [RedTree.leaves, lf, lg], fun ρ hρ => ?_, ?_⟩
    · obtain ⟨τ, hτ, rfl⟩ := List.mem_map.mp hρ
      have d : (RedTree.node l r).depth = max l.depth r.depth + 1 := rfl
      rw [d]
      refine Fac.mul h0 h1 ?_ hδ
      rcases List.mem_append.mp hτ with q | q
      · exact (hf τ q).mono h0 h1 (by omega)
      · exact (hg τ q).mono h0 h1 (by omega)
    · have sc : ∀ L : List (ℕ × ℝ), (L.map fun p => (m.val x p.1).val * (m.val y p.1).val * (p.2 * δ)).sum =
          (L.map fun p => (m.val x p.1).val * (m.val y p.1).val * p.2).sum * δ := by
        intro L
        induction L with
        | nil => simp
        | cons p L ih => simp only [List.map_cons, List.sum_cons, ih]; ring
      have ze : ∀ (a : List ℕ) (b : List ℝ), a.zip (b.map (· * δ)) = (a.zip b).map fun p => (p.1, p.2 * δ) := by
        intro a b
        rw [List.zip_map_right]; rfl
      rw [e, ev, ew]
      simp only [RedTree.leaves]
      rw [ze, List.map_map, List.zip_append lf.symm, List.map_append, List.sum_append]
      show _ = ((l.leaves.zip f).map fun p => (m.val x p.1).val * (m.val y p.1).val * (p.2 * δ)).sum +
        ((r.leaves.zip g).map fun p => (m.val x p.1).val * (m.val y p.1).val * (p.2 * δ)).sum
      rw [sc, sc]; ring

/-- Sums of squares: the relative error. -/
theorem tree_sq (t : RedTree) (h : ∀ i ∈ t.leaves, i < m.len x) :
    ∃ v, t.eval m x x = .ok v ∧ ∃ τ, Fac N.u (t.depth + 1) τ ∧
      v.val = (t.leaves.map fun i => (m.val x i).val * (m.val x i).val).sum * τ := by
  have h0 := N.u_nonneg
  have h1 := N.u_lt_one
  obtain ⟨v, hv, f, lf, hf, e⟩ := tree_fac (m := m) (x := x) (y := x) t fun i hi => ⟨h i hi, h i hi⟩
  refine ⟨v, hv, ?_⟩
  set w := (1 - N.u) ^ (t.depth + 1) with hw
  have w0 : 0 < w := pow_pos1 h0 h1 _
  have key : ∀ (a : List ℕ) (f : List ℝ), f.length = a.length → (∀ ρ ∈ f, Fac N.u (t.depth + 1) ρ) →
      0 ≤ (a.map fun i => (m.val x i).val * (m.val x i).val).sum ∧
      (a.map fun i => (m.val x i).val * (m.val x i).val).sum * w ≤
        ((a.zip f).map fun p => (m.val x p.1).val * (m.val x p.1).val * p.2).sum ∧
      ((a.zip f).map fun p => (m.val x p.1).val * (m.val x p.1).val * p.2).sum * w ≤
        (a.map fun i => (m.val x i).val * (m.val x i).val).sum := by
    intro a
    induction a with
    | nil => intro f _ _; simp
    | cons i a ih =>
      intro f hl hf
      cases f with
      | nil => simp at hl
      | cons ρ f =>
        obtain ⟨i1, i2, i3⟩ := ih f (by simpa using hl) fun σ hσ => hf σ (by simp [hσ])
        obtain ⟨r1, r2⟩ := hf ρ (by simp)
        have sq := mul_self_nonneg (m.val x i).val
        simp only [List.map_cons, List.sum_cons, List.zip_cons_cons]
        have a1 := mul_le_mul_of_nonneg_left r1 sq
        have a2 := mul_le_mul_of_nonneg_left r2 sq
        refine ⟨by linarith, ?_, ?_⟩
        · rw [add_mul]; linarith
        · rw [add_mul, mul_assoc _ ρ]; linarith
  obtain ⟨k1, k2, k3⟩ := key t.leaves f lf hf
  rw [← e] at k2 k3
  set S := (t.leaves.map fun i => (m.val x i).val * (m.val x i).val).sum
  rcases k1.eq_or_lt with z | p
  · refine ⟨1, Fac.one h0 h1 _, ?_⟩
    rw [← z] at k2 k3 ⊢
    nlinarith
  · refine ⟨v.val / S, ⟨?_, ?_⟩, by field_simp⟩
    · rw [le_div_iff₀ p, mul_comm]; exact k2
    · rw [div_mul_eq_mul_div, div_le_one p]; exact k3

end tree

end Lalib.Nz
