import Verif.Spec.Cx
import Verif.Proofs.Float

/-! # Error bounds of complex arithmetic -/

namespace Lalib

open Finset

variable {R : Rounding}

theorem cxu_eq (u : ℝ) : cxu u = √2 * gam u 2 := rfl

theorem cxu_nonneg (R : Rounding) : 0 ≤ cxu R.u :=
  mul_nonneg (Real.sqrt_nonneg _) (gam_nonneg R.u_nonneg R.u_lt_one 2)

theorem u_le_cxu (R : Rounding) : R.u ≤ cxu R.u := by
  have h1 := u_le_gam R.u_nonneg R.u_lt_one (k := 2) (by omega)
  have h2 := gam_nonneg R.u_nonneg R.u_lt_one 2
  have h3 : (1 : ℝ) ≤ √2 := Real.one_le_sqrt.mpr (by norm_num)
  rw [cxu_eq]
  nlinarith

theorem cgam_nonneg (R : Rounding) (k : ℕ) : 0 ≤ cgam R.u k := by
  have := one_le_pow₀ (n := k) (show 1 ≤ 1 + cxu R.u by linarith [cxu_nonneg R])
  unfold cgam; linarith

theorem cgam_mono (R : Rounding) {k l : ℕ} (h : k ≤ l) : cgam R.u k ≤ cgam R.u l := by
  have := pow_le_pow_right₀ (show 1 ≤ 1 + cxu R.u by linarith [cxu_nonneg R]) h
  unfold cgam; linarith

theorem cgam_one (R : Rounding) : cgam R.u 1 = cxu R.u := by unfold cgam; ring

namespace Cx

@[simp] theorem toC_zero : (0 : Cx (Fl R)).toC = 0 := rfl
@[simp] theorem toC_one : (1 : Cx (Fl R)).toC = 1 := rfl
@[simp] theorem toC_neg (z : Cx (Fl R)) : (-z).toC = -z.toC := rfl

protected theorem mul_comm (z w : Cx (Fl R)) : z * w = w * z := by
  show (⟨_, _⟩ : Cx (Fl R)) = ⟨_, _⟩
  congr 1
  · rw [Fl.mul_comm z.re, Fl.mul_comm z.im]
  · rw [Fl.add_comm, Fl.mul_comm z.re, Fl.mul_comm z.im]

theorem norm_le_of_parts {z : ℂ} {a b c : ℝ} (hc : 0 ≤ c) (hr : |z.re| ≤ c * a) (hi : |z.im| ≤ c * b) :
    ‖z‖ ≤ c * √(a ^ 2 + b ^ 2) := by
  rw [Complex.norm_eq_sqrt_sq_add_sq]
  rw [show c * √(a ^ 2 + b ^ 2) = √(c ^ 2 * (a ^ 2 + b ^ 2)) by
    rw [Real.sqrt_mul (sq_nonneg c), Real.sqrt_sq hc]]
  refine Real.sqrt_le_sqrt ?_
  have h1 := sq_le_sq' (by linarith [abs_nonneg z.re]) hr
  have h2 := sq_le_sq' (by linarith [abs_nonneg z.im]) hi
  rw [sq_abs] at h1 h2
  nlinarith

/-- The sum of two complex numbers has the relative error of one real operation. -/
theorem add_norm (z w : Cx (Fl R)) : ‖(z + w).toC - (z.toC + w.toC)‖ ≤ R.u * ‖z.toC + w.toC‖ := by
  have h := norm_le_of_parts (z := (z + w).toC - (z.toC + w.toC)) (a := |(z.toC + w.toC).re|)
    (b := |(z.toC + w.toC).im|) R.u_nonneg (R.err (z.re.val + w.re.val)) (R.err (z.im.val + w.im.val))
  rwa [sq_abs, sq_abs, ← Complex.norm_eq_sqrt_sq_add_sq] at h

theorem sub_norm (z w : Cx (Fl R)) : ‖(z - w).toC - (z.toC - w.toC)‖ ≤ R.u * ‖z.toC - w.toC‖ := by
  have h := norm_le_of_parts (z := (z - w).toC - (z.toC - w.toC)) (a := |(z.toC - w.toC).re|)
    (b := |(z.toC - w.toC).im|) R.u_nonneg (R.err (z.re.val - w.re.val)) (R.err (z.im.val - w.im.val))
  rwa [sq_abs, sq_abs, ← Complex.norm_eq_sqrt_sq_add_sq] at h

/-- The product. -/
theorem mul_norm (z w : Cx (Fl R)) : ‖(z * w).toC - z.toC * w.toC‖ ≤ cxu R.u * ‖z.toC * w.toC‖ := by
  have h0 := R.u_nonneg
  have h1 := R.u_lt_one
  have hr : |((z * w).toC - z.toC * w.toC).re| ≤
      gam R.u 2 * (|z.re.val * w.re.val| + |z.im.val * w.im.val|) := by
    have := Fl.add_err (R := R) (k := 1) (l := 1) (K := 2) (v := (z.re * w.re).val) (w := -(z.im * w.im).val)
      (S := z.re.val * w.re.val) (S' := -(z.im.val * w.im.val)) (by omega) (by omega) (le_refl _) (le_refl _)
      (by obtain ⟨ρ, hρ, e⟩ := Fl.mul_fac z.re w.re; rw [e]; exact term_fac_le h0 h1 hρ)
      (by
        obtain ⟨ρ, hρ, e⟩ := Fl.mul_fac z.im w.im
        rw [e, neg_sub_neg, abs_sub_comm, abs_neg]; exact term_fac_le h0 h1 hρ)
    rw [abs_neg, ← sub_eq_add_neg, ← sub_eq_add_neg] at this
    exact this
  have hi : |((z * w).toC - z.toC * w.toC).im| ≤
      gam R.u 2 * (|z.re.val * w.im.val| + |z.im.val * w.re.val|) :=
    Fl.add_err (R := R) (k := 1) (l := 1) (K := 2) (v := (z.re * w.im).val) (w := (z.im * w.re).val)
      (S := z.re.val * w.im.val) (S' := z.im.val * w.re.val) (by omega) (by omega) (le_refl _) (le_refl _)
      (by obtain ⟨ρ, hρ, e⟩ := Fl.mul_fac z.re w.im; rw [e]; exact term_fac_le h0 h1 hρ)
      (by obtain ⟨ρ, hρ, e⟩ := Fl.mul_fac z.im w.re; rw [e]; exact term_fac_le h0 h1 hρ)
  refine (norm_le_of_parts (gam_nonneg h0 h1 2) hr hi).trans ?_
  rw [cxu_eq, mul_comm √2, mul_assoc]
  refine mul_le_mul_of_nonneg_left ?_ (gam_nonneg h0 h1 2)
  rw [norm_mul, Complex.norm_eq_sqrt_sq_add_sq z.toC, Complex.norm_eq_sqrt_sq_add_sq w.toC,
    ← Real.sqrt_mul (by positivity), ← Real.sqrt_mul (by norm_num)]
  refine Real.sqrt_le_sqrt ?_
  simp only [abs_mul, toC]
  rw [← sq_abs z.re.val, ← sq_abs z.im.val, ← sq_abs w.re.val, ← sq_abs w.im.val]
  generalize |z.re.val| = a
  generalize |z.im.val| = b
  generalize |w.re.val| = c
  generalize |w.im.val| = d
  nlinarith [sq_nonneg (a * c - b * d), sq_nonneg (a * d - b * c)]

/-- `z` is `e` up to `k` operations, on the scale `B`. -/
def Near (k : ℕ) (z : Cx (Fl R)) (e : ℂ) (B : ℝ) : Prop :=
  ‖z.toC - e‖ ≤ cgam R.u k * B ∧ ‖e‖ ≤ B

theorem Near.self (z : Cx (Fl R)) : Near 0 z z.toC ‖z.toC‖ := by
  refine ⟨?_, le_refl _⟩
  simp [cgam]

theorem Near.nonneg {k : ℕ} {z : Cx (Fl R)} {e : ℂ} {B : ℝ} (h : Near k z e B) : 0 ≤ B :=
  (norm_nonneg _).trans h.2

theorem Near.mono {k l : ℕ} (hkl : k ≤ l) {z : Cx (Fl R)} {e : ℂ} {B : ℝ} (h : Near k z e B) : Near l z e B :=
  ⟨h.1.trans (mul_le_mul_of_nonneg_right (cgam_mono R hkl) h.nonneg), h.2⟩

theorem Near.norm_le {k : ℕ} {z : Cx (Fl R)} {e : ℂ} {B : ℝ} (h : Near k z e B) :
    ‖z.toC‖ ≤ (1 + cxu R.u) ^ k * B := by
  have : ‖z.toC‖ ≤ ‖z.toC - e‖ + ‖e‖ := by
    simpa using norm_add_le (z.toC - e) e
  have := h.1
  have := h.2
  unfold cgam at *
  linarith

theorem Near.mul {k l : ℕ} {z w : Cx (Fl R)} {e f : ℂ} {B C : ℝ} (h : Near k z e B) (h' : Near l w f C) :
    Near (k + l + 1) (z * w) (e * f) (B * C) := by
  have hB := h.nonneg
  have hC := h'.nonneg
  have hu := cxu_nonneg R
  refine ⟨?_, by rw [norm_mul]; exact mul_le_mul h.2 h'.2 (norm_nonneg _) hB⟩
  have h1 := mul_norm z w
  have e1 : (z * w).toC - e * f = ((z * w).toC - z.toC * w.toC) + (z.toC * (w.toC - f) + (z.toC - e) * f) := by ring
  have h2 : ‖z.toC * (w.toC - f)‖ ≤ (1 + cxu R.u) ^ k * B * (cgam R.u l * C) := by
    rw [norm_mul]
    exact mul_le_mul h.norm_le h'.1 (norm_nonneg _) (by positivity)
  have h3 : ‖(z.toC - e) * f‖ ≤ cgam R.u k * B * C := by
    rw [norm_mul]
    exact mul_le_mul h.1 h'.2 (norm_nonneg _) (mul_nonneg (cgam_nonneg R k) hB)
  have h4 : ‖z.toC * w.toC‖ ≤ (1 + cxu R.u) ^ k * B * ((1 + cxu R.u) ^ l * C) := by
    rw [norm_mul]
    exact mul_le_mul h.norm_le h'.norm_le (norm_nonneg _) (by positivity)
  have h5 := mul_le_mul_of_nonneg_left h4 hu
  rw [e1]
  refine (norm_add_le _ _).trans ((add_le_add (h1.trans h5) ((norm_add_le _ _).trans (add_le_add h2 h3))).trans
    (le_of_eq ?_))
  unfold cgam
  rw [pow_succ, pow_add]
  ring

theorem Near.add {k : ℕ} {z w : Cx (Fl R)} {e f : ℂ} {B C : ℝ} (h : Near k z e B) (h' : Near k w f C) :
    Near (k + 1) (z + w) (e + f) (B + C) := by
  have hB := h.nonneg
  have hC := h'.nonneg
  refine ⟨?_, (norm_add_le _ _).trans (add_le_add h.2 h'.2)⟩
  have h1 := (add_norm z w).trans (mul_le_mul_of_nonneg_right (u_le_cxu R) (norm_nonneg _))
  have e1 : (z + w).toC - (e + f) = ((z + w).toC - (z.toC + w.toC)) + ((z.toC - e) + (w.toC - f)) := by ring
  have h4 : ‖z.toC + w.toC‖ ≤ (1 + cxu R.u) ^ k * B + (1 + cxu R.u) ^ k * C :=
    (norm_add_le _ _).trans (add_le_add h.norm_le h'.norm_le)
  have h5 := mul_le_mul_of_nonneg_left h4 (cxu_nonneg R)
  rw [e1]
  refine (norm_add_le _ _).trans ((add_le_add (h1.trans h5) ((norm_add_le _ _).trans (add_le_add h.1 h'.1))).trans
    (le_of_eq ?_))
  unfold cgam
  rw [pow_succ]
  ring

/-- A sum of `n` terms which are known up to `K` operations. -/
theorem Near.addUp {g : Nat → Cx (Fl R)} {t : Cx (Fl R)} {lo n K : Nat} {e : ℕ → ℂ} {e' : ℂ} {B : ℕ → ℝ} {B' : ℝ}
    (ht : Near K t e' B') (hg : ∀ k, k < n → Near K (g (lo + k)) (e k) (B k)) :
    Near (K + n) (Lalib.addUp g lo (lo + n) t) (e' + ∑ k ∈ range n, e k) (B' + ∑ k ∈ range n, B k) := by
  induction n with
  | zero => simpa [Lalib.addUp] using ht
  | succ n ih =>
    have hs : Lalib.addUp g lo (lo + (n + 1)) t = Lalib.addUp g lo (lo + n) t + g (lo + n) := by
      simp [Lalib.addUp, List.range'_concat]
    rw [hs, sum_range_succ, sum_range_succ, ← add_assoc e', ← add_assoc B', ← Nat.add_assoc K]
    exact (ih fun k hk => hg k (by omega)).add ((hg n (by omega)).mono (by omega))

theorem Near.mul3 (a b c : Cx (Fl R)) :
    Near 2 (a * b * c) (a.toC * b.toC * c.toC) ‖a.toC * b.toC * c.toC‖ := by
  have := (((Near.self a).mul (Near.self b)).mul (Near.self c))
  rwa [← norm_mul, ← norm_mul] at this

theorem Near.mul2 (a b : Cx (Fl R)) : Near 1 (a * b) (a.toC * b.toC) ‖a.toC * b.toC‖ := by
  have := (Near.self a).mul (Near.self b)
  rwa [← norm_mul] at this

protected theorem zero_add (z : Cx (Fl R)) : 0 + z = z := by
  show (⟨0 + z.re, 0 + z.im⟩ : Cx (Fl R)) = z
  rw [Fl.zero_add, Fl.zero_add]

protected theorem add_zero (z : Cx (Fl R)) : z + 0 = z := by
  show (⟨z.re + 0, z.im + 0⟩ : Cx (Fl R)) = z
  rw [Fl.add_comm, Fl.zero_add, Fl.add_comm, Fl.zero_add]

/-- Any shape of a reduction of squares. -/
theorem Near.tree {m : Mem (Cx (Fl R))} {x : Nat} : ∀ t : RedTree, (∀ i ∈ t.leaves, i < m.len x) →
    ∃ v, t.eval m x x = .ok v ∧ (t.leaves = [] → v = 0) ∧
      Near t.leaves.length v (t.leaves.map fun i => (m.val x i).toC * (m.val x i).toC).sum
        (t.leaves.map fun i => ‖(m.val x i).toC * (m.val x i).toC‖).sum
  | .zero, _ => ⟨0, rfl, fun _ => rfl, by simp [RedTree.leaves, Near]⟩
  | .leaf i, h => by
    have hi := h i (by simp [RedTree.leaves])
    refine ⟨m.val x i * m.val x i, ?_, fun h => by simp [RedTree.leaves] at h, ?_⟩
    · simp only [RedTree.eval]; rw [Mem.rd_ok hi, ok_bind, ok_bind]
    · simpa [RedTree.leaves] using Near.mul2 (m.val x i) (m.val x i)
  | .node l r, h => by
    obtain ⟨v, hv, v0, nv⟩ := Near.tree l fun i hi => h i (by simp [RedTree.leaves, hi])
    obtain ⟨w, hw, w0, nw⟩ := Near.tree r fun i hi => h i (by simp [RedTree.leaves, hi])
    refine ⟨v + w, ?_, ?_, ?_⟩
    · simp only [RedTree.eval]; rw [hv, ok_bind, hw, ok_bind]
    · intro h
      simp only [RedTree.leaves, List.append_eq_nil_iff] at h
      rw [v0 h.1, w0 h.2, Cx.zero_add]
    · simp only [RedTree.leaves, List.map_append, List.sum_append, List.length_append]
      by_cases h1 : l.leaves = []
      · rw [v0 h1, Cx.zero_add]; simpa [h1] using nw
      by_cases h2 : r.leaves = []
      · rw [w0 h2, Cx.add_zero]; simpa [h2] using nv
      have h1 := List.length_pos_of_ne_nil h1
      have h2 := List.length_pos_of_ne_nil h2
      exact ((nv.mono (show _ ≤ max l.leaves.length r.leaves.length by omega)).add
        (nw.mono (show _ ≤ max l.leaves.length r.leaves.length by omega))).mono (by omega)

end Cx

end Lalib
