import Verif.Proofs.IeeeErr

/-! # IEEE 754 numbers: sums in any order -/

namespace Lalib

open Finset

theorem list_abs_sum (l : List ℕ) (e : ℕ → ℝ) : |(l.map e).sum| ≤ (l.map fun i => |e i|).sum := by
  induction l with
  | nil => simp
  | cons a l ih =>
    simp only [List.map_cons, List.sum_cons]
    exact (abs_add_le _ _).trans (add_le_add le_rfl ih)

/-- `v` is a sum of the terms `f i`, `i` in the list, formed in some order, every addition rounded. -/
inductive RSum (F : Fmt) (f : ℕ → ℝ) : ℝ → List ℕ → Prop
  | leaf (i : ℕ) : RSum F f (f i) [i]
  | node {a b : ℝ} {l l' : List ℕ} : RSum F f a l → RSum F f b l' → RSum F f (F.rnd (a + b)) (l ++ l')

namespace RSum
variable {F : Fmt} {f : ℕ → ℝ}

theorem ne_nil {v : ℝ} {l : List ℕ} (h : RSum F f v l) : 1 ≤ l.length := by
  induction h with
  | leaf i => simp
  | node _ _ ih _ => rw [List.length_append]; omega

theorem grid {v : ℝ} {l : List ℕ} (h : RSum F f v l) (hg : ∀ i ∈ l, F.IsGrid (f i)) : F.IsGrid v := by
  induction h with
  | leaf i => exact hg i (by simp)
  | node _ _ _ _ => exact F.isGrid_rnd _

theorem err {v : ℝ} {l : List ℕ} (h : RSum F f v l) {e E : ℕ → ℝ} {K : ℕ} (hg : ∀ i ∈ l, F.IsGrid (f i))
    (hf : ∀ i ∈ l, |f i - e i| ≤ gam F.u K * |e i| + E i) (hE : ∀ i ∈ l, 0 ≤ E i) :
    |v - (l.map e).sum| ≤ gam F.u (K + (l.length - 1)) * (l.map fun i => |e i|).sum +
      (1 + gam F.u (l.length - 1)) * (l.map E).sum := by
  have h0 := F.u_nonneg
  have h1 := F.u_lt_one
  induction h with
  | leaf i =>
    have := hf i (by simp)
    have g0 : gam F.u 0 = 0 := by unfold gam; simp
    simpa [g0] using this
  | @node a b l l' ha hb iha ihb =>
    have hga := ha.grid fun i hi => hg i (by simp [hi])
    have hgb := hb.grid fun i hi => hg i (by simp [hi])
    have ia := iha (fun i hi => hg i (by simp [hi])) (fun i hi => hf i (by simp [hi])) (fun i hi => hE i (by simp [hi]))
    have ib := ihb (fun i hi => hg i (by simp [hi])) (fun i hi => hf i (by simp [hi])) (fun i hi => hE i (by simp [hi]))
    have la := ha.ne_nil
    have lb := hb.ne_nil
    simp only [List.map_append, List.sum_append, List.length_append]
    set S := (l.map e).sum
    set S' := (l'.map e).sum
    have hB : |S| ≤ (l.map fun i => |e i|).sum := list_abs_sum l e
    have hB' : |S'| ≤ (l'.map fun i => |e i|).sum := list_abs_sum l' e
    set B := (l.map fun i => |e i|).sum
    set B' := (l'.map fun i => |e i|).sum
    have hU : 0 ≤ (l.map E).sum := List.sum_nonneg fun x hx => by
      obtain ⟨i, hi, rfl⟩ := List.mem_map.mp hx
      exact hE i (by simp [hi])
    have hU' : 0 ≤ (l'.map E).sum := List.sum_nonneg fun x hx => by
      obtain ⟨i, hi, rfl⟩ := List.mem_map.mp hx
      exact hE i (by simp [hi])
    set U := (l.map E).sum
    set U' := (l'.map E).sum
    have B0 : 0 ≤ B := (abs_nonneg _).trans hB
    have B0' : 0 ≤ B' := (abs_nonneg _).trans hB'
    set N := l.length + l'.length - 2 with hN
    have eN : l.length + l'.length - 1 = N + 1 := by omega
    have g1 := gam_mono h0 h1 (show K + (l.length - 1) ≤ K + N by omega)
    have g2 := gam_mono h0 h1 (show K + (l'.length - 1) ≤ K + N by omega)
    have g3 := gam_mono h0 h1 (show l.length - 1 ≤ N by omega)
    have g4 := gam_mono h0 h1 (show l'.length - 1 ≤ N by omega)
    have q1 := gam_add h0 h1 (K + N) 1
    have q2 := gam_add h0 h1 N 1
    have p1 := gam_nonneg h0 h1 1
    have p2 := gam_nonneg h0 h1 (K + N)
    have p3 := gam_nonneg h0 h1 N
    rw [eN, show K + (N + 1) = K + N + 1 by omega]
    obtain ⟨ρ, hρ, er⟩ := F.rnd_fac_grid (hga.add hgb)
    have hr := hρ.sub_one h0 h1
    have e1 : F.rnd (a + b) - (S + S') = ((a - S) + (b - S')) + (ρ - 1) * ((a - S) + (b - S') + (S + S')) := by
      rw [er]; ring
    have t1 : |(a - S) + (b - S')| ≤ gam F.u (K + N) * (B + B') + (1 + gam F.u N) * (U + U') := by
      refine (abs_add_le _ _).trans ?_
      have m1 := mul_le_mul_of_nonneg_right g1 B0
      have m2 := mul_le_mul_of_nonneg_right g2 B0'
      have m3 := mul_le_mul_of_nonneg_right g3 hU
      have m4 := mul_le_mul_of_nonneg_right g4 hU'
      linarith
    set X := gam F.u (K + N) * (B + B') + (1 + gam F.u N) * (U + U') with hX
    have t2 : |(a - S) + (b - S') + (S + S')| ≤ X + (B + B') := by
      refine (abs_add_le _ _).trans ?_
      have := abs_add_le S S'
      linarith
    rw [e1]
    refine (abs_add_le _ _).trans ?_
    rw [abs_mul]
    have t3 : |ρ - 1| * |(a - S) + (b - S') + (S + S')| ≤ gam F.u 1 * (X + (B + B')) :=
      mul_le_mul hr t2 (abs_nonneg _) p1
    have fin : gam F.u (K + N + 1) * (B + B') + (1 + gam F.u (N + 1)) * (U + U') = X + gam F.u 1 * (X + (B + B')) := by
      have q1' : gam F.u (K + N + 1) = (1 + gam F.u (K + N)) * (1 + gam F.u 1) - 1 := by linarith
      rw [q1', q2, hX]; ring
    rw [fin]
    linarith

end RSum

namespace Fp
variable {F : Fmt}

/-! ## Sums and differences in order -/

theorem addUp_succ {T : Type} [Add T] (g : Nat → T) (lo n : Nat) (t : T) :
    addUp g lo (lo + (n + 1)) t = addUp g lo (lo + n) t + g (lo + n) := by
  unfold addUp
  rw [Nat.add_sub_cancel_left, Nat.add_sub_cancel_left, List.range'_concat, List.foldl_append]
  simp

theorem subUp_succ {T : Type} [Sub T] (g : Nat → T) (lo n : Nat) (t : T) :
    subUp g lo (lo + (n + 1)) t = subUp g lo (lo + n) t - g (lo + n) := by
  unfold subUp
  rw [Nat.add_sub_cancel_left, Nat.add_sub_cancel_left, List.range'_concat, List.foldl_append]
  simp

theorem addUp_ge {T : Type} [Add T] (g : Nat → T) {lo hi : Nat} (h : hi ≤ lo) (t : T) : addUp g lo hi t = t := by
  unfold addUp; rw [show hi - lo = 0 by omega]; rfl

theorem subUp_ge {T : Type} [Sub T] (g : Nat → T) {lo hi : Nat} (h : hi ≤ lo) (t : T) : subUp g lo hi t = t := by
  unfold subUp; rw [show hi - lo = 0 by omega]; rfl

/-- A property that passes from a sum to both terms passes from `addUp` to all terms. -/
theorem addUp_all {T : Type} [Add T] {P : T → Prop} (hP : ∀ a b : T, P (a + b) → P a ∧ P b) {g : Nat → T} {lo hi : Nat}
    {t : T} (h : P (addUp g lo hi t)) : P t ∧ ∀ k, lo ≤ k → k < hi → P (g k) := by
  rcases Nat.le_total hi lo with hl | hl
  · rw [addUp_ge g hl] at h
    exact ⟨h, fun k h1 h2 => by omega⟩
  obtain ⟨n, rfl⟩ : ∃ n, hi = lo + n := ⟨hi - lo, by omega⟩
  clear hl
  induction n with
  | zero => rw [addUp_ge g (by omega)] at h; exact ⟨h, fun k h1 h2 => by omega⟩
  | succ n ih =>
    rw [addUp_succ] at h
    obtain ⟨h1, h2⟩ := hP _ _ h
    obtain ⟨h3, h4⟩ := ih h1
    refine ⟨h3, fun k hk1 hk2 => ?_⟩
    by_cases hk : k = lo + n
    · rw [hk]; exact h2
    · exact h4 k hk1 (by omega)

theorem subUp_all {T : Type} [Sub T] {P : T → Prop} (hP : ∀ a b : T, P (a - b) → P a ∧ P b) {g : Nat → T} {lo hi : Nat}
    {t : T} (h : P (subUp g lo hi t)) : P t ∧ ∀ k, lo ≤ k → k < hi → P (g k) := by
  rcases Nat.le_total hi lo with hl | hl
  · rw [subUp_ge g hl] at h
    exact ⟨h, fun k h1 h2 => by omega⟩
  obtain ⟨n, rfl⟩ : ∃ n, hi = lo + n := ⟨hi - lo, by omega⟩
  clear hl
  induction n with
  | zero => rw [subUp_ge g (by omega)] at h; exact ⟨h, fun k h1 h2 => by omega⟩
  | succ n ih =>
    rw [subUp_succ] at h
    obtain ⟨h1, h2⟩ := hP _ _ h
    obtain ⟨h3, h4⟩ := ih h1
    refine ⟨h3, fun k hk1 hk2 => ?_⟩
    by_cases hk : k = lo + n
    · rw [hk]; exact h2
    · exact h4 k hk1 (by omega)

theorem fin_of_add (a b : Fp F) (h : (a + b).IsFin) : a.IsFin ∧ b.IsFin := ⟨((isFin_add a b).mp h).1, ((isFin_add a b).mp h).2.1⟩
theorem fin_of_sub (a b : Fp F) (h : (a - b).IsFin) : a.IsFin ∧ b.IsFin := ⟨((isFin_sub a b).mp h).1, ((isFin_sub a b).mp h).2.1⟩
theorem fin_of_mul (a b : Fp F) (h : (a * b).IsFin) : a.IsFin ∧ b.IsFin := ⟨((isFin_mul a b).mp h).1, ((isFin_mul a b).mp h).2.1⟩

theorem nn_of_add (a b : Fp F) (h : a + b ≠ nan) : a ≠ nan ∧ b ≠ nan := add_ne_nan h
theorem nn_of_sub (a b : Fp F) (h : a - b ≠ nan) : a ≠ nan ∧ b ≠ nan :=
  ⟨fun e => h (by rw [e, nan_sub]), fun e => h (by rw [e, sub_nan])⟩
theorem nn_of_mul (a b : Fp F) (h : a * b ≠ nan) : a ≠ nan ∧ b ≠ nan :=
  ⟨fun e => h (by rw [e, nan_mul]), fun e => h (by rw [e, mul_nan])⟩
theorem nn_of_div (a b : Fp F) (h : a / b ≠ nan) : a ≠ nan ∧ b ≠ nan :=
  ⟨fun e => h (by rw [e, nan_div]), fun e => h (by rw [e, div_nan])⟩

theorem isFin_addUp {g : Nat → Fp F} {lo hi : Nat} {t : Fp F} (h : (addUp g lo hi t).IsFin) :
    t.IsFin ∧ ∀ k, lo ≤ k → k < hi → (g k).IsFin := addUp_all fin_of_add h
theorem isFin_subUp {g : Nat → Fp F} {lo hi : Nat} {t : Fp F} (h : (subUp g lo hi t).IsFin) :
    t.IsFin ∧ ∀ k, lo ≤ k → k < hi → (g k).IsFin := subUp_all fin_of_sub h
theorem nn_addUp {g : Nat → Fp F} {lo hi : Nat} {t : Fp F} (h : addUp g lo hi t ≠ nan) :
    t ≠ nan ∧ ∀ k, lo ≤ k → k < hi → g k ≠ nan := addUp_all (P := (· ≠ nan)) nn_of_add h
theorem nn_subUp {g : Nat → Fp F} {lo hi : Nat} {t : Fp F} (h : subUp g lo hi t ≠ nan) :
    t ≠ nan ∧ ∀ k, lo ≤ k → k < hi → g k ≠ nan := subUp_all (P := (· ≠ nan)) nn_of_sub h

/-- Term number 0 is the start, number `k+1` the `k`-th term. -/
noncomputable def terms (g : Nat → Fp F) (t : Fp F) (lo : Nat) (i : ℕ) : ℝ :=
  if i = 0 then t.val else (g (lo + (i - 1))).val

theorem rsum_addUp (g : Nat → Fp F) (t : Fp F) (lo n : Nat) (h : (addUp g lo (lo + n) t).IsFin) :
    RSum F (terms g t lo) (addUp g lo (lo + n) t).val (List.range (n + 1)) := by
  induction n with
  | zero =>
    rw [addUp_ge g (by omega)]
    have := RSum.leaf (F := F) (f := terms g t lo) 0
    simpa [terms] using this
  | succ n ih =>
    rw [addUp_succ] at h ⊢
    rw [val_add h, List.range_succ]
    have := RSum.leaf (F := F) (f := terms g t lo) (n + 1)
    exact (ih (fin_of_add _ _ h).1).node (by simpa [terms] using this)

theorem rsum_subUp (g : Nat → Fp F) (t : Fp F) (lo n : Nat) (h : (subUp g lo (lo + n) t).IsFin) :
    RSum F (terms (fun k => -g k) t lo) (subUp g lo (lo + n) t).val (List.range (n + 1)) := by
  induction n with
  | zero =>
    rw [subUp_ge g (by omega)]
    have := RSum.leaf (F := F) (f := terms (fun k => -g k) t lo) 0
    simpa [terms] using this
  | succ n ih =>
    rw [subUp_succ] at h ⊢
    rw [val_sub h, List.range_succ, sub_eq_add_neg]
    have := RSum.leaf (F := F) (f := terms (fun k => -g k) t lo) (n + 1)
    exact (ih (fin_of_sub _ _ h).1).node (by simpa [terms] using this)

theorem grid_terms (g : Nat → Fp F) (t : Fp F) (lo i : Nat) : F.IsGrid (terms g t lo i) := by
  unfold terms; split
  · exact isGrid_val _
  · exact isGrid_val _

theorem sum_terms (e' : ℝ) (e : ℕ → ℝ) (n : ℕ) :
    ((List.range (n + 1)).map fun i => if i = 0 then e' else e (i - 1)).sum = e' + ∑ k ∈ range n, e k := by
  induction n with
  | zero => simp
  | succ n ih =>
    rw [List.range_succ, List.map_append, List.sum_append, ih, sum_range_succ]
    simp [add_assoc]

/-- A finite sum against the exact sum of other terms. -/
theorem addUp_err {g : Nat → Fp F} {t : Fp F} {lo n K : Nat} (h : (addUp g lo (lo + n) t).IsFin) {e E : ℕ → ℝ} {e' E' : ℝ}
    (hg : ∀ k, k < n → |(g (lo + k)).val - e k| ≤ gam F.u K * |e k| + E k) (hE : ∀ k, k < n → 0 ≤ E k)
    (ht : |t.val - e'| ≤ gam F.u K * |e'| + E') (hE' : 0 ≤ E') :
    |(addUp g lo (lo + n) t).val - (e' + ∑ k ∈ range n, e k)| ≤
      gam F.u (n + K) * (|e'| + ∑ k ∈ range n, |e k|) + (1 + gam F.u n) * (E' + ∑ k ∈ range n, E k) := by
  have h1 := rsum_addUp g t lo n h
  have h2 := h1.err (e := fun i => if i = 0 then e' else e (i - 1)) (E := fun i => if i = 0 then E' else E (i - 1))
    (K := K) (fun i _ => grid_terms g t lo i) ?_ ?_
  · rw [sum_terms, sum_terms] at h2
    have e3 : (fun i => |(if i = 0 then e' else e (i - 1) : ℝ)|) = fun i => if i = 0 then |e'| else |e (i - 1)| := by
      funext i; split <;> rfl
    rw [e3, sum_terms (|e'|) (fun k => |e k|)] at h2
    simpa [Nat.add_comm] using h2
  · intro i hi
    have := List.mem_range.mp hi
    by_cases h0 : i = 0
    · simpa [h0, terms] using ht
    · simpa [h0, terms] using hg (i - 1) (by omega)
  · intro i hi
    have := List.mem_range.mp hi
    by_cases h0 : i = 0
    · simpa [h0] using hE'
    · simpa [h0] using hE (i - 1) (by omega)

/-! ## Reduction trees -/

section tree
variable {m : Mem (Fp F)} {x y : Nat}

theorem tree_eval : ∀ t : RedTree, (∀ i ∈ t.leaves, i < m.len x ∧ i < m.len y) → ∃ v, t.eval m x y = .ok v
  | .zero, _ => ⟨_, rfl⟩
  | .leaf i, h => by
    have := h i (by simp [RedTree.leaves])
    exact ⟨_, by simp only [RedTree.eval]; rw [Mem.rd_ok this.1, ok_bind, Mem.rd_ok this.2, ok_bind]⟩
  | .node l r, h => by
    obtain ⟨v, hv⟩ := tree_eval l fun i hi => h i (by simp [RedTree.leaves, hi])
    obtain ⟨w, hw⟩ := tree_eval r fun i hi => h i (by simp [RedTree.leaves, hi])
    exact ⟨_, by simp only [RedTree.eval]; rw [hv, ok_bind, hw, ok_bind]⟩

/-- A property that passes from a sum to both terms passes from a tree to all products. -/
theorem tree_all {P : Fp F → Prop} (hP : ∀ a b : Fp F, P (a + b) → P a ∧ P b) :
    ∀ t : RedTree, (∀ i ∈ t.leaves, i < m.len x ∧ i < m.len y) → ∀ v, t.eval m x y = .ok v → P v →
      ∀ i ∈ t.leaves, P (m.val x i * m.val y i)
  | .zero, _, _, _, _, i, hi => by simp [RedTree.leaves] at hi
  | .leaf j, h, v, hv, hp, i, hi => by
    have hj := h j (by simp [RedTree.leaves])
    simp only [RedTree.eval] at hv
    rw [Mem.rd_ok hj.1, ok_bind, Mem.rd_ok hj.2, ok_bind] at hv
    injection hv with hv
    subst hv
    simp only [RedTree.leaves, List.mem_singleton] at hi
    subst hi
    exact hp
  | .node l r, h, v, hv, hp, i, hi => by
    have hl : ∀ i ∈ l.leaves, i < m.len x ∧ i < m.len y := fun i hi => h i (by simp [RedTree.leaves, hi])
    have hr : ∀ i ∈ r.leaves, i < m.len x ∧ i < m.len y := fun i hi => h i (by simp [RedTree.leaves, hi])
    obtain ⟨a, ha⟩ := tree_eval l hl
    obtain ⟨b, hb⟩ := tree_eval r hr
    simp only [RedTree.eval] at hv
    rw [ha, ok_bind, hb, ok_bind] at hv
    injection hv with hv
    subst hv
    obtain ⟨pa, pb⟩ := hP _ _ hp
    simp only [RedTree.leaves, List.mem_append] at hi
    rcases hi with hi | hi
    · exact tree_all hP l hl a ha pa i hi
    · exact tree_all hP r hr b hb pb i hi

theorem tree_rsum : ∀ t : RedTree, (∀ i ∈ t.leaves, i < m.len x ∧ i < m.len y) → ∀ v, t.eval m x y = .ok v → v.IsFin →
    (t.leaves = [] ∧ v.val = 0) ∨ RSum F (fun i => (m.val x i * m.val y i).val) v.val t.leaves
  | .zero, _, v, hv, _ => by
    simp only [RedTree.eval] at hv
    injection hv with hv
    subst hv
    exact .inl ⟨rfl, val_zero⟩
  | .leaf j, h, v, hv, hp => by
    have hj := h j (by simp [RedTree.leaves])
    simp only [RedTree.eval] at hv
    rw [Mem.rd_ok hj.1, ok_bind, Mem.rd_ok hj.2, ok_bind] at hv
    injection hv with hv
    subst hv
    exact .inr (RSum.leaf (f := fun i => (m.val x i * m.val y i).val) j)
  | .node l r, h, v, hv, hp => by
    have hl : ∀ i ∈ l.leaves, i < m.len x ∧ i < m.len y := fun i hi => h i (by simp [RedTree.leaves, hi])
    have hr : ∀ i ∈ r.leaves, i < m.len x ∧ i < m.len y := fun i hi => h i (by simp [RedTree.leaves, hi])
    obtain ⟨a, ha⟩ := tree_eval l hl
    obtain ⟨b, hb⟩ := tree_eval r hr
    simp only [RedTree.eval] at hv
    rw [ha, ok_bind, hb, ok_bind] at hv
    injection hv with hv
    subst hv
    obtain ⟨pa, pb⟩ := fin_of_add _ _ hp
    rw [val_add hp]
    simp only [RedTree.leaves]
    rcases tree_rsum l hl a ha pa with ⟨e1, e2⟩ | h1 <;> rcases tree_rsum r hr b hb pb with ⟨e3, e4⟩ | h2
    · left; rw [e1, e2, e3, e4, add_zero, F.rnd_zero]; exact ⟨rfl, rfl⟩
    · right; rw [e1, e2, zero_add, rnd_val]; exact h2
    · right; rw [e3, e4, add_zero, rnd_val, List.append_nil]; exact h1
    · right; exact h1.node h2

end tree

theorem mul_err {a b : Fp F} (h : (a * b).IsFin) :
    |(a * b).val - a.val * b.val| ≤ gam F.u 1 * |a.val * b.val| + F.eta := by
  have h0 := F.u_nonneg
  have h1 := F.u_lt_one
  rw [val_mul h]
  have hu := u_le_gam h0 h1 (le_refl 1)
  have := mul_le_mul_of_nonneg_right hu (abs_nonneg (a.val * b.val))
  rcases F.rnd_err (a.val * b.val) with e | e
  · have := F.eta_pos; linarith
  · have := mul_nonneg (gam_nonneg h0 h1 1) (abs_nonneg (a.val * b.val)); linarith

/-- `alpha * a * x`. -/
theorem mul3_err {a b c : Fp F} (h : (a * b * c).IsFin) :
    |(a * b * c).val - a.val * b.val * c.val| ≤ gam F.u 2 * |a.val * b.val * c.val| +
      F.eta * (1 + (1 + gam F.u 1) * |c.val|) := by
  have h0 := F.u_nonneg
  have h1 := F.u_lt_one
  have e1 := mul_err h
  have e2 := mul_err (fin_of_mul _ _ h).1
  have g1 := gam_nonneg h0 h1 1
  have g2 := gam_add h0 h1 1 1
  set v := (a * b).val
  have t1 : |v * c.val - a.val * b.val * c.val| ≤ gam F.u 1 * |a.val * b.val * c.val| + F.eta * |c.val| := by
    rw [← sub_mul, abs_mul, abs_mul (a.val * b.val)]
    have := mul_le_mul_of_nonneg_right e2 (abs_nonneg c.val)
    linarith
  have t2 : |v * c.val| ≤ |a.val * b.val * c.val| + (gam F.u 1 * |a.val * b.val * c.val| + F.eta * |c.val|) := by
    have := abs_add_le (v * c.val - a.val * b.val * c.val) (a.val * b.val * c.val)
    rw [sub_add_cancel] at this
    linarith
  have t3 := mul_le_mul_of_nonneg_left t2 g1
  have t4 := abs_add_le ((a * b * c).val - v * c.val) (v * c.val - a.val * b.val * c.val)
  rw [sub_add_sub_cancel] at t4
  have g2' : gam F.u 2 = (1 + gam F.u 1) * (1 + gam F.u 1) - 1 := by
    have : gam F.u (1 + 1) = gam F.u 2 := rfl
    linarith
  rw [g2']
  nlinarith

/-! ## No overflow -/

/-- The sum does not overflow when the sum of the absolute values, with the rounding errors, is in range. -/
theorem addUp_isFin {g : Nat → Fp F} {t : Fp F} {lo n : Nat} (ht : t.IsFin) (hg : ∀ k, k < n → (g (lo + k)).IsFin)
    (hb : (1 + gam F.u n) * (|t.val| + ∑ k ∈ range n, |(g (lo + k)).val|) < F.top) :
    (addUp g lo (lo + n) t).IsFin := by
  have h0 := F.u_nonneg
  have h1 := F.u_lt_one
  induction n with
  | zero => rw [addUp_ge g (by omega)]; exact ht
  | succ n ih =>
    have gn := gam_mono h0 h1 (Nat.le_succ n)
    have gp := gam_nonneg h0 h1 n
    set S := |t.val| + ∑ k ∈ range n, |(g (lo + k)).val| with hS
    have hS0 : 0 ≤ S := add_nonneg (abs_nonneg _) (sum_nonneg fun _ _ => abs_nonneg _)
    have hx := abs_nonneg (g (lo + n)).val
    rw [sum_range_succ, ← add_assoc, ← hS] at hb
    have ih' : (addUp g lo (lo + n) t).IsFin := by
      refine ih (fun k hk => hg k (by omega)) (lt_of_le_of_lt ?_ hb)
      refine mul_le_mul (by linarith) (by linarith) hS0 (by linarith)
    rw [addUp_succ, isFin_add]
    refine ⟨ih', hg n (by omega), lt_of_le_of_lt ?_ hb⟩
    set v := (addUp g lo (lo + n) t).val
    have hv : |v| ≤ (1 + gam F.u n) * S := by
      have := addUp_err ih' (K := 0) (e := fun k => (g (lo + k)).val) (E := fun _ => 0) (e' := t.val) (E' := 0)
        (fun k _ => by simpa using mul_nonneg (gam_nonneg h0 h1 0) (abs_nonneg _)) (fun _ _ => le_rfl)
        (by simpa using mul_nonneg (gam_nonneg h0 h1 0) (abs_nonneg _)) le_rfl
      simp only [sum_const_zero, add_zero, mul_zero] at this
      have h2 := abs_add_le (v - (t.val + ∑ k ∈ range n, (g (lo + k)).val)) (t.val + ∑ k ∈ range n, (g (lo + k)).val)
      rw [sub_add_cancel] at h2
      have h3 := (abs_add_le t.val (∑ k ∈ range n, (g (lo + k)).val)).trans
        (add_le_add le_rfl (abs_sum_le_sum_abs _ _))
      rw [← hS] at this
      linarith
    obtain ⟨ρ, hρ, e⟩ := F.rnd_fac_grid ((isGrid_val (addUp g lo (lo + n) t)).add (isGrid_val (g (lo + n))))
    have er : F.rnd |v + (g (lo + n)).val| = |v + (g (lo + n)).val| * ρ := by
      rcases abs_cases (v + (g (lo + n)).val) with ⟨h, _⟩ | ⟨h, _⟩
      · rw [h]; exact e
      · rw [h, F.rnd_neg, e]; ring
    rw [er]
    have hρ1 : ρ ≤ 1 + gam F.u 1 := by
      have := (abs_le.mp (hρ.sub_one h0 h1)).2
      linarith
    have q := gam_add h0 h1 n 1
    have hs : |v + (g (lo + n)).val| ≤ (1 + gam F.u n) * (S + |(g (lo + n)).val|) := by
      refine (abs_add_le _ _).trans ?_
      nlinarith
    refine (mul_le_mul hs hρ1 (hρ.pos h0 h1).le (by positivity)).trans ?_
    rw [q]
    linarith [mul_comm ((1 + gam F.u n) * (S + |(g (lo + n)).val|)) (1 + gam F.u 1)]

/-- A sum of two bounded numbers. -/
theorem add_isFin_of {a b : Fp F} {A B : ℝ} {k : ℕ} (ha : a.IsFin) (hb : b.IsFin) (hA : |a.val| ≤ (1 + gam F.u k) * A)
    (hB : |b.val| ≤ (1 + gam F.u k) * B) (hT : (1 + gam F.u (k + 1)) * (A + B) < F.top) :
    (a + b).IsFin ∧ |(a + b).val| ≤ (1 + gam F.u (k + 1)) * (A + B) := by
  have h0 := F.u_nonneg
  have h1 := F.u_lt_one
  have gk := gam_nonneg h0 h1 k
  have q := gam_add h0 h1 k 1
  obtain ⟨ρ, hρ, e⟩ := F.rnd_fac_grid ((isGrid_val a).add (isGrid_val b))
  have ρ0 := (hρ.pos h0 h1).le
  have hρ1 : ρ ≤ 1 + gam F.u 1 := by
    have := (abs_le.mp (hρ.sub_one h0 h1)).2
    linarith
  have hs : |a.val + b.val| ≤ (1 + gam F.u k) * (A + B) := by
    refine (abs_add_le _ _).trans ?_
    linarith
  have er : F.rnd |a.val + b.val| = |a.val + b.val| * ρ := by
    rcases abs_cases (a.val + b.val) with ⟨h, _⟩ | ⟨h, _⟩
    · rw [h]; exact e
    · rw [h, F.rnd_neg, e]; ring
  have hle : |a.val + b.val| * ρ ≤ (1 + gam F.u (k + 1)) * (A + B) := by
    refine (mul_le_mul hs hρ1 ρ0 ((abs_nonneg _).trans hs)).trans ?_
    rw [q]
    linarith [mul_comm ((1 + gam F.u k) * (A + B)) (1 + gam F.u 1)]
  have hf : (a + b).IsFin := by
    rw [isFin_add]
    exact ⟨ha, hb, by rw [er]; exact lt_of_le_of_lt hle hT⟩
  refine ⟨hf, ?_⟩
  rw [val_add hf, e, abs_mul, abs_of_nonneg ρ0]
  exact hle

/-- A product of two numbers. -/
theorem mul_isFin_of {a b : Fp F} {k : ℕ} (ha : a.IsFin) (hb : b.IsFin) (hk : 1 ≤ k)
    (hT : (1 + gam F.u k) * (|a.val * b.val| + F.eta) < F.top) :
    (a * b).IsFin ∧ |(a * b).val| ≤ (1 + gam F.u 1) * (|a.val * b.val| + F.eta) := by
  have h0 := F.u_nonneg
  have h1 := F.u_lt_one
  have g1 := gam_nonneg h0 h1 1
  have gk := gam_mono h0 h1 hk
  have he := F.eta_pos
  have key : ∀ r t : ℝ, |r - t| ≤ gam F.u 1 * t + F.eta → r ≤ (1 + gam F.u 1) * (t + F.eta) := by
    intro r t hr
    have := (abs_le.mp hr).2
    nlinarith [mul_nonneg g1 he.le]
  have hfin : (a * b).IsFin := by
    rw [isFin_mul]
    refine ⟨ha, hb, lt_of_le_of_lt (key _ |a.val * b.val| ?_) (lt_of_le_of_lt ?_ hT)⟩
    · have hu := u_le_gam h0 h1 (le_refl 1)
      set t := |a.val * b.val| with ht
      have t0 : 0 ≤ t := abs_nonneg _
      have := mul_le_mul_of_nonneg_right hu t0
      rcases F.rnd_err t with e | e
      · rw [abs_of_nonneg t0] at e; linarith
      · have := mul_nonneg g1 t0; linarith
    · exact mul_le_mul_of_nonneg_right (by linarith) (by positivity)
  exact ⟨hfin, key _ |a.val * b.val| ((abs_abs_sub_abs_le_abs_sub _ _).trans (mul_err hfin))⟩

/-- A reduction tree does not overflow. -/
theorem tree_isFin {m : Mem (Fp F)} {x y : Nat} : ∀ t : RedTree, (∀ i ∈ t.leaves, i < m.len x ∧ i < m.len y) →
    (∀ i ∈ t.leaves, (m.val x i * m.val y i).IsFin) →
    (1 + gam F.u (t.leaves.length - 1)) * (t.leaves.map fun i => |(m.val x i * m.val y i).val|).sum < F.top →
    ∀ v, t.eval m x y = .ok v → v.IsFin ∧
      |v.val| ≤ (1 + gam F.u (t.leaves.length - 1)) * (t.leaves.map fun i => |(m.val x i * m.val y i).val|).sum
  | .zero, _, _, _, v, hv => by
    simp only [RedTree.eval] at hv
    injection hv with hv
    subst hv
    simp [RedTree.leaves]
  | .leaf j, h, hf, _, v, hv => by
    have hj := h j (by simp [RedTree.leaves])
    simp only [RedTree.eval] at hv
    rw [Mem.rd_ok hj.1, ok_bind, Mem.rd_ok hj.2, ok_bind] at hv
    injection hv with hv
    subst hv
    refine ⟨hf j (by simp [RedTree.leaves]), ?_⟩
    simp [RedTree.leaves, gam]
  | .node l r, h, hf, hT, v, hv => by
    have h0 := F.u_nonneg
    have h1 := F.u_lt_one
    have hl : ∀ i ∈ l.leaves, i < m.len x ∧ i < m.len y := fun i hi => h i (by simp [RedTree.leaves, hi])
    have hr : ∀ i ∈ r.leaves, i < m.len x ∧ i < m.len y := fun i hi => h i (by simp [RedTree.leaves, hi])
    have hfl : ∀ i ∈ l.leaves, (m.val x i * m.val y i).IsFin := fun i hi => hf i (by simp [RedTree.leaves, hi])
    have hfr : ∀ i ∈ r.leaves, (m.val x i * m.val y i).IsFin := fun i hi => hf i (by simp [RedTree.leaves, hi])
    obtain ⟨a, ha⟩ := tree_eval l hl
    obtain ⟨b, hb⟩ := tree_eval r hr
    simp only [RedTree.eval] at hv
    rw [ha, ok_bind, hb, ok_bind] at hv
    injection hv with hv
    subst hv
    simp only [RedTree.leaves, List.length_append, List.map_append, List.sum_append] at hT ⊢
    set A := (l.leaves.map fun i => |(m.val x i * m.val y i).val|).sum with hA
    set B := (r.leaves.map fun i => |(m.val x i * m.val y i).val|).sum with hB
    have A0 : 0 ≤ A := List.sum_nonneg (by simp only [List.mem_map]; rintro _ ⟨i, _, rfl⟩; exact abs_nonneg _)
    have B0 : 0 ≤ B := List.sum_nonneg (by simp only [List.mem_map]; rintro _ ⟨i, _, rfl⟩; exact abs_nonneg _)
    have gk := fun k => gam_nonneg h0 h1 k
    have gm1 := gam_mono h0 h1 (show l.leaves.length - 1 ≤ l.leaves.length + r.leaves.length - 1 by omega)
    have gm2 := gam_mono h0 h1 (show r.leaves.length - 1 ≤ l.leaves.length + r.leaves.length - 1 by omega)
    have il := tree_isFin l hl hfl
      (lt_of_le_of_lt (mul_le_mul (by linarith) (by linarith) A0 (by linarith [gk (l.leaves.length + r.leaves.length - 1)])) hT) a ha
    have ir := tree_isFin r hr hfr
      (lt_of_le_of_lt (mul_le_mul (by linarith) (by linarith) B0 (by linarith [gk (l.leaves.length + r.leaves.length - 1)])) hT) b hb
    rcases Nat.eq_zero_or_pos l.leaves.length with el | el
    · have hA0 : A = 0 := by rw [hA, List.length_eq_zero_iff.mp el]; rfl
      have a0 : a.val = 0 := by
        have := il.2; rw [← hA, hA0, mul_zero] at this
        exact abs_nonpos_iff.mp this
      have hfin : (a + b).IsFin := by
        rw [isFin_add, a0, zero_add]
        refine ⟨il.1, ir.1, ?_⟩
        rw [rnd_abs_val]
        exact abs_val_lt b
      refine ⟨hfin, ?_⟩
      rw [val_add hfin, a0, zero_add, rnd_val, el, hA0, Nat.zero_add, zero_add B]
      exact ir.2
    rcases Nat.eq_zero_or_pos r.leaves.length with er | er
    · have hB0 : B = 0 := by rw [hB, List.length_eq_zero_iff.mp er]; rfl
      have b0 : b.val = 0 := by
        have := ir.2; rw [← hB, hB0, mul_zero] at this
        exact abs_nonpos_iff.mp this
      have hfin : (a + b).IsFin := by
        rw [isFin_add, b0, add_zero]
        refine ⟨il.1, ir.1, ?_⟩
        rw [rnd_abs_val]
        exact abs_val_lt a
      refine ⟨hfin, ?_⟩
      rw [val_add hfin, b0, add_zero, rnd_val, er, hB0, Nat.add_zero, add_zero A]
      exact il.2
    obtain ⟨k, hk⟩ : ∃ k, l.leaves.length + r.leaves.length - 1 = k + 1 :=
      ⟨l.leaves.length + r.leaves.length - 2, by omega⟩
    rw [hk] at hT ⊢
    have gl := gam_mono h0 h1 (show l.leaves.length - 1 ≤ k by omega)
    have gr := gam_mono h0 h1 (show r.leaves.length - 1 ≤ k by omega)
    exact add_isFin_of il.1 ir.1 (il.2.trans (mul_le_mul_of_nonneg_right (by linarith) A0))
      (ir.2.trans (mul_le_mul_of_nonneg_right (by linarith) B0)) hT

end Fp

end Lalib
