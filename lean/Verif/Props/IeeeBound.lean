import Verif.Props.Ieee

/-! # Property C66: error bounds over IEEE 754 numbers

`u` is the unit roundoff, `eta` half the smallest positive number, `top` the first power of two out of range
(`Verif/Spec/Ieee.lean`); `gam u k = 1/(1-u)^k - 1`.  In contrast to C56, C57 the exponent range is bounded: results may
overflow (then they are not finite, and C65 says it shows) and products may underflow (the terms with `eta`). -/

namespace Lalib.Props

open Lalib Finset

variable {F : Fmt}

theorem range'_sum (f : ℕ → ℝ) (n : ℕ) : ((List.range' 1 n).map f).sum = ∑ k ∈ range n, f (k + 1) := by
  rw [list_sum_eq_range]
  simp only [List.length_map, List.length_range']
  refine sum_congr rfl fun i hi => ?_
  have := mem_range.mp hi
  simp [val0, this, Nat.add_comm 1 i]

/-- Products of finite numbers under a bound for their sum. -/
theorem prods_isFin {a b : Nat → Fp F} {n k : Nat} (hin : ∀ i, i < n → (a i).IsFin ∧ (b i).IsFin) (hk : 1 ≤ k)
    (hb : (1 + gam F.u k) * ∑ i ∈ range n, (|(a i).val * (b i).val| + F.eta) < F.top) (i : Nat) (hi : i < n) :
    (a i * b i).IsFin ∧ |(a i * b i).val| ≤ (1 + gam F.u 1) * (|(a i).val * (b i).val| + F.eta) := by
  have g := gam_nonneg F.u_nonneg F.u_lt_one k
  have he := F.eta_pos
  refine Fp.mul_isFin_of (hin i hi).1 (hin i hi).2 hk (lt_of_le_of_lt ?_ hb)
  refine mul_le_mul_of_nonneg_left ?_ (by linarith)
  exact single_le_sum (f := fun i => |(a i).val * (b i).val| + F.eta) (fun i _ => by positivity) (mem_range.mpr hi)

/-- Inner product of `n` terms. -/
theorem C66_dot (m : Mem (Fp F)) (x y : Nat) (h : m.len y = m.len x) (h0 : 0 < m.len x) :
    ∃ r, dynDot m x y = .ok r ∧ dotDD m x y = .ok r ∧ dotSS (m.len x) m x y = .ok r ∧
      sizedDotDyn (m.len x) m x y = .ok r ∧
      (r.IsFin → |r.val - ∑ i ∈ range (m.len x), (m.val x i).val * (m.val y i).val| ≤
        gam F.u (m.len x) * ∑ i ∈ range (m.len x), |(m.val x i).val * (m.val y i).val| +
          (1 + gam F.u (m.len x)) * (m.len x * F.eta)) ∧
      ((∀ i, i < m.len x → (m.val x i).IsFin ∧ (m.val y i).IsFin) →
        (1 + gam F.u (m.len x)) * ∑ i ∈ range (m.len x), (|(m.val x i).val * (m.val y i).val| + F.eta) < F.top →
        r.IsFin) := by
  have u0 := F.u_nonneg
  have u1 := F.u_lt_one
  obtain ⟨e1, e2, e3, e4⟩ := dot_fp m x y h h0
  refine ⟨_, e1, e2, e3, e4, fun hf => ?_, fun hin hb => ?_⟩
  all_goals obtain ⟨n, hn⟩ : ∃ n, m.len x = n + 1 := ⟨m.len x - 1, by omega⟩
  · obtain ⟨p1, p2⟩ := Fp.isFin_addUp hf
    rw [hn, Nat.add_comm n 1] at hf
    have := Fp.addUp_err hf (K := 1) (e := fun k => (m.val x (k + 1)).val * (m.val y (k + 1)).val)
      (e' := (m.val x 0).val * (m.val y 0).val) (E := fun _ => F.eta) (E' := F.eta)
      (fun k hk => by
        rw [Nat.add_comm 1 k]
        exact Fp.mul_err (p2 (k + 1) (by omega) (by omega)))
      (fun _ _ => F.eta_pos.le) (Fp.mul_err p1) F.eta_pos.le
    rw [sum_const, card_range, nsmul_eq_mul] at this
    rw [hn, sum_range_succ', sum_range_succ', add_comm _ ((m.val x 0).val * (m.val y 0).val),
      add_comm _ |(m.val x 0).val * (m.val y 0).val|]
    rw [Nat.add_comm 1 n] at this
    refine this.trans (add_le_add le_rfl ?_)
    have g := gam_mono u0 u1 (Nat.le_succ n)
    have e0 := F.eta_pos
    push_cast
    rw [show F.eta + n * F.eta = (n + 1) * F.eta by ring]
    refine mul_le_mul_of_nonneg_right (by simp only [Nat.succ_eq_add_one] at g; linarith) (by positivity)
  · have hprod := prods_isFin hin (by omega) hb
    have := Fp.addUp_isFin (g := fun i => m.val x i * m.val y i) (t := m.val x 0 * m.val y 0) (lo := 1) (n := n)
      (hprod 0 (by omega)).1 (fun k hk => (hprod (1 + k) (by omega)).1) (lt_of_le_of_lt ?_ hb)
    · rwa [Nat.add_comm 1 n, ← hn] at this
    · have hs : |(m.val x 0 * m.val y 0).val| + ∑ k ∈ range n, |(m.val x (1 + k) * m.val y (1 + k)).val| ≤
          (1 + gam F.u 1) * ∑ i ∈ range (m.len x), (|(m.val x i).val * (m.val y i).val| + F.eta) := by
        rw [hn, sum_range_succ', mul_add, add_comm, mul_sum]
        refine add_le_add (sum_le_sum fun k hk => ?_) (hprod 0 (by omega)).2
        rw [Nat.add_comm 1 k]
        exact (hprod (k + 1) (by have := mem_range.mp hk; omega)).2
      have gn := gam_nonneg u0 u1 n
      refine (mul_le_mul_of_nonneg_left hs (by linarith)).trans ?_
      rw [← mul_assoc, ← gam_add u0 u1 n 1, hn]

/-- The same bound whatever the shape of the SIMD reduction. -/
theorem C66_dot_any_order (m : Mem (Fp F)) (x y : Nat) (h : m.len y = m.len x) (h0 : 0 < m.len x) (t : RedTree)
    (ht : t.leaves.Perm (List.range' 1 (m.len x - 1))) :
    ∃ r, dotCoreTree t m x y = .ok r ∧
      (r.IsFin → |r.val - ∑ i ∈ range (m.len x), (m.val x i).val * (m.val y i).val| ≤
        gam F.u (m.len x) * ∑ i ∈ range (m.len x), |(m.val x i).val * (m.val y i).val| +
          (1 + gam F.u (m.len x)) * (m.len x * F.eta)) ∧
      ((∀ i, i < m.len x → (m.val x i).IsFin ∧ (m.val y i).IsFin) →
        (1 + gam F.u (m.len x)) * ∑ i ∈ range (m.len x), (|(m.val x i).val * (m.val y i).val| + F.eta) < F.top →
        r.IsFin) := by
  have u0 := F.u_nonneg
  have u1 := F.u_lt_one
  have hl : ∀ i ∈ t.leaves, i < m.len x ∧ i < m.len y := by
    intro i hi
    have := List.mem_range'_1.mp (ht.mem_iff.mp hi)
    omega
  obtain ⟨v, hv⟩ := Fp.tree_eval t hl
  refine ⟨_, by unfold dotCoreTree; rw [Mem.rd_ok (by omega), ok_bind, Mem.rd_ok (by omega), ok_bind, hv, ok_bind],
    fun hf => ?_, fun hin hb => ?_⟩
  rotate_left
  · have hprod := prods_isFin hin (by omega) hb
    obtain ⟨n, hn⟩ : ∃ n, m.len x = n + 1 := ⟨m.len x - 1, by omega⟩
    have g1 := gam_nonneg u0 u1 1
    have gn := gam_nonneg u0 u1 n
    have he := F.eta_pos
    set B := ∑ k ∈ range n, (|(m.val x (k + 1)).val * (m.val y (k + 1)).val| + F.eta) with hB
    have B0 : 0 ≤ B := sum_nonneg fun _ _ => by positivity
    rw [hn, sum_range_succ', ← hB, gam_add u0 u1 n 1] at hb
    have hs : (t.leaves.map fun i => |(m.val x i * m.val y i).val|).sum ≤ (1 + gam F.u 1) * B := by
      rw [(ht.map _).sum_eq, hn, Nat.add_sub_cancel, range'_sum, hB, mul_sum]
      exact sum_le_sum fun k hk => (hprod (k + 1) (by have := mem_range.mp hk; omega)).2
    have hlen : t.leaves.length = n := by rw [ht.length_eq, List.length_range']; omega
    have ga := gam_mono u0 u1 (show t.leaves.length - 1 ≤ n - 1 by omega)
    have gb := gam_mono u0 u1 (show n - 1 ≤ n by omega)
    have hT : (1 + gam F.u (t.leaves.length - 1)) * (t.leaves.map fun i => |(m.val x i * m.val y i).val|).sum ≤
        (1 + gam F.u (n - 1)) * ((1 + gam F.u 1) * B) := by
      refine mul_le_mul (by linarith) hs (List.sum_nonneg ?_) (by linarith [gam_nonneg u0 u1 (n - 1)])
      simp only [List.mem_map]; rintro _ ⟨i, _, rfl⟩; exact abs_nonneg _
    have h0' := (hprod 0 (by omega)).2
    set A := |(m.val x 0).val * (m.val y 0).val| + F.eta with hA
    have A0 : 0 ≤ A := by positivity
    have e3 : (1 + gam F.u n) * (1 + gam F.u 1) * (B + A) < F.top := hb
    have hT2 : (1 + gam F.u (n - 1)) * ((1 + gam F.u 1) * B) < F.top := by
      refine lt_of_le_of_lt ?_ e3
      rw [← mul_assoc]
      refine mul_le_mul (mul_le_mul_of_nonneg_right (by linarith) (by linarith)) (by linarith) B0 (by positivity)
    obtain ⟨f1, f2⟩ := Fp.tree_isFin t hl (fun i hi => (hprod i (hl i hi).1).1) (lt_of_le_of_lt hT hT2) v hv
    rcases Nat.eq_zero_or_pos n with rfl | hpos
    · have hB0 : B = 0 := by rw [hB]; simp
      have v0 : v.val = 0 := by
        have := f2.trans hT
        rw [hB0, mul_zero, mul_zero] at this
        exact abs_nonpos_iff.mp this
      rw [Fp.isFin_add, v0, add_zero, Fp.rnd_abs_val]
      exact ⟨(hprod 0 (by omega)).1, f1, Fp.abs_val_lt _⟩
    · refine (Fp.add_isFin_of (k := n - 1) (A := (1 + gam F.u 1) * A) (B := (1 + gam F.u 1) * B) (hprod 0 (by omega)).1 f1
        (h0'.trans ?_) (f2.trans hT) ?_).1
      · have := mul_nonneg (gam_nonneg u0 u1 (n - 1)) (mul_nonneg (show 0 ≤ 1 + gam F.u 1 by linarith) A0)
        linarith
      · rw [Nat.sub_add_cancel hpos]
        refine lt_of_le_of_lt (le_of_eq ?_) e3
        ring
  obtain ⟨q1, q2⟩ := Fp.fin_of_add _ _ hf
  have hprod := Fp.tree_all Fp.fin_of_add t hl v hv q2
  obtain ⟨n, hn⟩ : ∃ n, m.len x = n + 1 := ⟨m.len x - 1, by omega⟩
  have hsum : RSum F (fun i => (m.val x i * m.val y i).val) ((m.val x 0 * m.val y 0 + v).val) (0 :: t.leaves) := by
    rw [Fp.val_add hf]
    rcases Fp.tree_rsum t hl v hv q2 with ⟨e1, e2⟩ | hr
    · rw [e1, e2, add_zero, Fp.rnd_val]
      exact RSum.leaf (f := fun i => (m.val x i * m.val y i).val) 0
    · exact (RSum.leaf (f := fun i => (m.val x i * m.val y i).val) 0).node hr
  have he := hsum.err (e := fun i => (m.val x i).val * (m.val y i).val) (E := fun _ => F.eta) (K := 1)
    (fun i _ => Fp.isGrid_val _) (fun i hi => ?_) (fun _ _ => F.eta_pos.le)
  · simp only [List.map_cons, List.sum_cons] at he
    rw [(ht.map _).sum_eq, (ht.map fun i => |(m.val x i).val * (m.val y i).val|).sum_eq,
      (ht.map fun _ => F.eta).sum_eq, List.length_cons, ht.length_eq, List.length_range', Nat.add_sub_cancel, hn,
      Nat.add_sub_cancel, range'_sum, range'_sum, range'_sum, sum_const, card_range, nsmul_eq_mul] at he
    rw [hn, sum_range_succ', sum_range_succ', add_comm _ ((m.val x 0).val * (m.val y 0).val),
      add_comm _ |(m.val x 0).val * (m.val y 0).val|]
    rw [Nat.add_comm 1 n] at he
    refine he.trans (add_le_add le_rfl ?_)
    have g := gam_mono u0 u1 (Nat.le_succ n)
    have e0 := F.eta_pos
    push_cast
    rw [show F.eta + n * F.eta = (n + 1) * F.eta by ring]
    refine mul_le_mul_of_nonneg_right (by simp only [Nat.succ_eq_add_one] at g; linarith) (by positivity)
  · rcases List.mem_cons.mp hi with rfl | hi
    · exact Fp.mul_err q1
    · exact Fp.mul_err (hprod i hi)

/-- The root of an approximate sum. -/
theorem sqrt_bound {u g S v U r ρ : ℝ} (h0 : 0 ≤ u) (h1 : u < 1) (hg : 0 ≤ g) (hS : 0 ≤ S) (hU : 0 ≤ U)
    (hv0 : 0 ≤ v) (hv : |v - S| ≤ g * S + U) (hρ : Fac u 1 ρ) (hr : r = Real.sqrt v * ρ) :
    |r - Real.sqrt S| ≤ ((1 + g) * (1 + gam u 1) - 1) * Real.sqrt S + (1 + gam u 1) * Real.sqrt U := by
  have hs := Real.sqrt_nonneg S
  have hu := Real.sqrt_nonneg U
  have hvv := Real.sqrt_nonneg v
  obtain ⟨hl, hh⟩ := abs_le.mp hv
  have sS := Real.sq_sqrt hS
  have sU := Real.sq_sqrt hU
  have sV := Real.sq_sqrt hv0
  have up : Real.sqrt v ≤ (1 + g) * Real.sqrt S + Real.sqrt U := by
    rw [Real.sqrt_le_left (by positivity)]
    have e : ((1 + g) * Real.sqrt S + Real.sqrt U) ^ 2 =
        (1 + g) ^ 2 * S + U + 2 * ((1 + g) * (Real.sqrt S * Real.sqrt U)) := by
      rw [← sS, ← sU, Real.sqrt_sq hs, Real.sqrt_sq hu]; ring
    have h3 : 0 ≤ 2 * ((1 + g) * (Real.sqrt S * Real.sqrt U)) := by positivity
    have h4 := mul_nonneg hg hS
    have h5 := mul_nonneg hg h4
    rw [e]
    nlinarith
  have lo : (1 - g) * Real.sqrt S ≤ Real.sqrt v + Real.sqrt U := by
    by_cases h : g ≤ 1
    · have h2 : ((1 - g) * Real.sqrt S) ^ 2 ≤ (Real.sqrt v + Real.sqrt U) ^ 2 := by
        have : (1 - g) ^ 2 * S ≤ (1 - g) * S := by
          refine mul_le_mul_of_nonneg_right ?_ hS
          nlinarith
        nlinarith [mul_nonneg hvv hu]
      exact abs_le_of_sq_le_sq' h2 (by positivity) |>.2
    · have : (1 - g) * Real.sqrt S ≤ 0 := mul_nonpos_of_nonpos_of_nonneg (by linarith) hs
      linarith
  have d : |Real.sqrt v - Real.sqrt S| ≤ g * Real.sqrt S + Real.sqrt U := by
    rw [abs_le]; constructor <;> linarith
  have g1 := gam_nonneg h0 h1 1
  have hρ1 := hρ.sub_one h0 h1
  have e : r - Real.sqrt S = (Real.sqrt v - Real.sqrt S) + (ρ - 1) * Real.sqrt v := by rw [hr]; ring
  rw [e]
  refine (abs_add_le _ _).trans ?_
  rw [abs_mul, abs_of_nonneg hvv]
  have := mul_le_mul hρ1 up hvv g1
  linarith

/-- The norm of a vector of `n` numbers. -/
theorem C66_norm2 (m : Mem (Fp F)) (x : Nat) :
    ∃ r, vecNorm2 m x = .ok r ∧ (r.IsFin → |r.val - Real.sqrt (∑ i ∈ range (m.len x), (m.val x i).val ^ 2)| ≤
      gam F.u (m.len x + 2) * Real.sqrt (∑ i ∈ range (m.len x), (m.val x i).val ^ 2) +
        (1 + gam F.u 1) * Real.sqrt ((1 + gam F.u (m.len x)) * (m.len x * F.eta))) ∧
      ((∀ i, i < m.len x → (m.val x i).IsFin) →
        (1 + gam F.u (m.len x + 1)) * ∑ i ∈ range (m.len x), ((m.val x i).val ^ 2 + F.eta) < F.top → r.IsFin) := by
  have u0 := F.u_nonneg
  have u1 := F.u_lt_one
  have e : vecNorm2 m x = .ok (Sqrt.sqrt (addUp (fun i => m.val x i * m.val x i) 0 (m.len x) 0)) := by
    unfold vecNorm2
    rw [norm2Core_raw (le_refl _), Fp.sqrtC_eq]
    rfl
  refine ⟨_, e, fun hf => ?_, fun hin hb => ?_⟩
  rotate_left
  · have e2 : ∀ i, (m.val x i).val ^ 2 = |(m.val x i).val * (m.val x i).val| := fun i => by
      rw [abs_mul_self, pow_two]
    simp only [e2] at hb
    have hprod := prods_isFin (fun i hi => ⟨hin i hi, hin i hi⟩) (show 1 ≤ m.len x + 1 by omega) hb
    have hf := Fp.addUp_isFin (g := fun i => m.val x i * m.val x i) (t := 0) (lo := 0) (n := m.len x) Fp.isFin_zero
      (fun k hk => by rw [Nat.zero_add]; exact (hprod k hk).1) (lt_of_le_of_lt ?_ hb)
    · rw [Nat.zero_add] at hf
      have hpos : (addUp (fun i => m.val x i * m.val x i) 0 (m.len x) 0).Pos :=
        pos_addUp Fp.pos_zero fun k _ hk => Fp.pos_mul_self fun h => by
          have := hin k hk
          rw [h] at this
          exact this
      refine (Fp.isFin_sqrt _).mpr ⟨hf, ?_⟩
      rcases hpos with h | h
      · rw [h] at hf; exact absurd hf id
      · exact h.2
    · rw [gam_add u0 u1 (m.len x) 1, Fp.val_zero, abs_zero, zero_add, mul_assoc, mul_sum _ _ (1 + gam F.u 1)]
      have g := gam_nonneg u0 u1 (m.len x)
      refine mul_le_mul_of_nonneg_left (sum_le_sum fun k hk => ?_) (by linarith)
      rw [Nat.zero_add]
      exact (hprod k (mem_range.mp hk)).2
  obtain ⟨hv, hv0⟩ := (Fp.isFin_sqrt _).mp hf
  obtain ⟨ρ, hρ, er⟩ := Fp.sqrt_fac hf
  obtain ⟨_, hp⟩ := Fp.isFin_addUp hv
  have hv' : (addUp (fun i => m.val x i * m.val x i) 0 (0 + m.len x) 0).IsFin := by rwa [Nat.zero_add]
  have hb := Fp.addUp_err hv' (K := 1) (e := fun k => (m.val x k).val ^ 2) (e' := 0) (E := fun _ => F.eta) (E' := 0)
    (fun k hk => by
      rw [Nat.zero_add, pow_two]
      exact Fp.mul_err (hp k (Nat.zero_le _) hk)) (fun _ _ => F.eta_pos.le) (by simp) le_rfl
  rw [Nat.zero_add, zero_add, abs_zero, zero_add, zero_add, sum_const, card_range, nsmul_eq_mul] at hb
  have hS : 0 ≤ ∑ i ∈ range (m.len x), (m.val x i).val ^ 2 := sum_nonneg fun _ _ => sq_nonneg _
  simp only [abs_pow, sq_abs] at hb
  have gn := gam_nonneg u0 u1 (m.len x)
  have he := F.eta_pos
  have := sqrt_bound u0 u1 (gam_nonneg u0 u1 (m.len x + 1)) hS (U := (1 + gam F.u (m.len x)) * (m.len x * F.eta))
    (by positivity) hv0 hb hρ er
  rw [← gam_add u0 u1 (m.len x + 1) 1] at this
  simpa using this

/-- `beta y + alpha a_1 x_1 + ... + alpha a_n x_n` does not overflow. -/
theorem lin_isFin {al be Y : Fp F} {A X : Nat → Fp F} {lo n : Nat} (hal : al.IsFin) (hbe : be.IsFin) (hY : Y.IsFin)
    (hA : ∀ k, k < n → (A (lo + k)).IsFin ∧ (X (lo + k)).IsFin)
    (hT1 : ∀ k, k < n → (1 + gam F.u 1) * (|al.val * (A (lo + k)).val| + F.eta) < F.top)
    (hT : (1 + gam F.u (n + 1)) * (|be.val * Y.val| + F.eta + ∑ k ∈ range n,
      ((1 + gam F.u 1) * ((|al.val * (A (lo + k)).val| + F.eta) * |(X (lo + k)).val|) + F.eta)) < F.top) :
    (addUp (fun k => al * A k * X k) lo (lo + n) (be * Y)).IsFin := by
  have u0 := F.u_nonneg
  have u1 := F.u_lt_one
  have g1 := gam_nonneg u0 u1 1
  have gn := gam_nonneg u0 u1 n
  have gn1 := gam_nonneg u0 u1 (n + 1)
  have he := F.eta_pos
  set t : Nat → ℝ := fun k => (1 + gam F.u 1) * ((|al.val * (A (lo + k)).val| + F.eta) * |(X (lo + k)).val|) + F.eta with ht
  have t0 : ∀ k, 0 ≤ t k := fun k => by simp only [ht]; positivity
  have ts : ∀ k, k < n → t k ≤ ∑ k ∈ range n, t k := fun k hk =>
    single_le_sum (f := t) (fun i _ => t0 i) (mem_range.mpr hk)
  have ts0 : 0 ≤ ∑ k ∈ range n, t k := sum_nonneg fun _ _ => t0 _
  have b0 := abs_nonneg (be.val * Y.val)
  obtain ⟨f1, v1⟩ := Fp.mul_isFin_of hbe hY (show 1 ≤ n + 1 by omega)
    (lt_of_le_of_lt (mul_le_mul_of_nonneg_left (by linarith) (by linarith)) hT)
  have key : ∀ k, k < n → (al * A (lo + k) * X (lo + k)).IsFin ∧
      |(al * A (lo + k) * X (lo + k)).val| ≤ (1 + gam F.u 1) * t k := by
    intro k hk
    obtain ⟨f2, v2⟩ := Fp.mul_isFin_of hal (hA k hk).1 (le_refl 1) (hT1 k hk)
    have hx : |(al * A (lo + k)).val * (X (lo + k)).val| + F.eta ≤ t k := by
      rw [abs_mul]
      have := mul_le_mul_of_nonneg_right v2 (abs_nonneg (X (lo + k)).val)
      simp only [ht]
      linarith
    obtain ⟨f3, v3⟩ := Fp.mul_isFin_of f2 (hA k hk).2 (show 1 ≤ n + 1 by omega)
      (lt_of_le_of_lt (mul_le_mul_of_nonneg_left (by linarith [ts k hk]) (by linarith)) hT)
    exact ⟨f3, v3.trans (mul_le_mul_of_nonneg_left hx (by linarith))⟩
  refine Fp.addUp_isFin f1 (fun k hk => (key k hk).1) (lt_of_le_of_lt ?_ hT)
  rw [gam_add u0 u1 n 1, mul_assoc, mul_add (1 + gam F.u 1), mul_sum]
  refine mul_le_mul_of_nonneg_left (add_le_add v1 (sum_le_sum fun k hk => ?_)) (by linarith)
  exact (key k (mem_range.mp hk)).2

/-- `y := alpha A x + beta y`. -/
theorem C66_gemv (nd : Bool) (alpha beta : Fp F) (a : MatRef) (x y : Nat) (s : Mem (Fp F))
    (ha : a.Wf s) (hx : s.len x = a.m) (hy : s.len y = a.n) (hay : a.buf ≠ y) :
    ∃ s', gemvDD nd alpha a x beta y s = .ok s' ∧ gemvSD nd alpha a x beta y s = .ok s' ∧
      gemvSS alpha a x beta y s = .ok s' ∧ s'.len y = a.n ∧ (∀ q, q ≠ y → s' q = s q) ∧ ∀ i, i < a.n →
      ((s'.val y i).IsFin →
      |(s'.val y i).val - (beta.val * (s.val y i).val +
          ∑ k ∈ range a.m, alpha.val * (entry a.m (s a.buf) i k).val * (s.val x k).val)| ≤
        gam F.u (a.m + 2) * (|beta.val * (s.val y i).val| +
          ∑ k ∈ range a.m, |alpha.val * (entry a.m (s a.buf) i k).val * (s.val x k).val|) +
        (1 + gam F.u a.m) * (F.eta + ∑ k ∈ range a.m, F.eta * (1 + (1 + gam F.u 1) * |(s.val x k).val|))) ∧
      (alpha.IsFin → beta.IsFin → (s.val y i).IsFin →
        (∀ k, k < a.m → (entry a.m (s a.buf) i k).IsFin ∧ (s.val x k).IsFin) →
        (∀ k, k < a.m → (1 + gam F.u 1) * (|alpha.val * (entry a.m (s a.buf) i k).val| + F.eta) < F.top) →
        (1 + gam F.u (a.m + 1)) * (|beta.val * (s.val y i).val| + F.eta + ∑ k ∈ range a.m, ((1 + gam F.u 1) *
          ((|alpha.val * (entry a.m (s a.buf) i k).val| + F.eta) * |(s.val x k).val|) + F.eta)) < F.top →
        (s'.val y i).IsFin) := by
  obtain ⟨s', h1, h2, h3, h4, h5⟩ := C55_gemv nd alpha beta a x y s ha hx hy hay
  refine ⟨s', h1, h2, h3, by show (s' y).length = _; rw [h4]; simp, h5, fun i hi => ?_⟩
  have u0 := F.u_nonneg
  have u1 := F.u_lt_one
  have e : s'.val y i = addUp (fun k => alpha * entry a.m (s a.buf) i k * val0 (s x) k) 0 (0 + a.m)
      (beta * val0 (s y) i) := by
    show val0 (s' y) i = _
    rw [h4, val0_map_range, if_pos hi, Nat.zero_add]
  rw [e]
  refine ⟨fun hf => ?_, fun q1 q2 q3 q4 q5 q6 => lin_isFin (A := fun k => entry a.m (s a.buf) i k)
    (X := fun k => val0 (s x) k) q1 q2 q3 (fun k hk => by rw [Nat.zero_add]; exact q4 k hk)
    (fun k hk => by rw [Nat.zero_add]; exact q5 k hk) (by simp only [Nat.zero_add]; exact q6)⟩
  obtain ⟨p1, p2⟩ := Fp.isFin_addUp hf
  have he := F.eta_pos
  have g1 := gam_nonneg u0 u1 1
  refine Fp.addUp_err hf (K := 2) (fun k hk => ?_) (fun k _ => ?_) ?_ he.le
  · rw [Nat.zero_add]; exact Fp.mul3_err (p2 k (Nat.zero_le _) (by omega))
  · positivity
  · refine (Fp.mul_err p1).trans (add_le_add ?_ le_rfl)
    exact mul_le_mul_of_nonneg_right (gam_mono u0 u1 (by omega)) (abs_nonneg _)

/-- `C := alpha A B + beta C`; any sharing of storage. -/
theorem C66_gemm (nd : Bool) (alpha beta : Fp F) (a b c : MatRef) (s : Mem (Fp F)) (ha : a.Wf s) (hb : b.Wf s)
    (hc : c.Wf s) (h1 : a.n = c.n) (h2 : b.m = c.m) (h3 : a.m = b.n) :
    ∃ s', gemmDDD nd alpha a b beta c s = .ok s' ∧ gemmSSS alpha a b beta c s = .ok s' ∧
      gemmDSS nd alpha a b beta c s = .ok s' ∧ gemmSDS nd alpha a b beta c s = .ok s' ∧
      gemmDDS nd alpha a b beta c s = .ok s' ∧ gemmDSD nd alpha a b beta c s = .ok s' ∧
      gemmSDD nd alpha a b beta c s = .ok s' ∧ s'.len c.buf = c.n * c.m ∧ (∀ q, q ≠ c.buf → s' q = s q) ∧
      ∀ i j, i < c.n → j < c.m → ((entry c.m (s' c.buf) i j).IsFin →
      |(entry c.m (s' c.buf) i j).val - (beta.val * (entry c.m (s c.buf) i j).val +
          ∑ k ∈ range a.m, alpha.val * (entry a.m (s a.buf) i k).val * (entry c.m (s b.buf) k j).val)| ≤
        gam F.u (a.m + 2) * (|beta.val * (entry c.m (s c.buf) i j).val| +
          ∑ k ∈ range a.m, |alpha.val * (entry a.m (s a.buf) i k).val * (entry c.m (s b.buf) k j).val|) +
        (1 + gam F.u a.m) * (F.eta +
          ∑ k ∈ range a.m, F.eta * (1 + (1 + gam F.u 1) * |(entry c.m (s b.buf) k j).val|))) ∧
      (alpha.IsFin → beta.IsFin → (entry c.m (s c.buf) i j).IsFin →
        (∀ k, k < a.m → (entry a.m (s a.buf) i k).IsFin ∧ (entry c.m (s b.buf) k j).IsFin) →
        (∀ k, k < a.m → (1 + gam F.u 1) * (|alpha.val * (entry a.m (s a.buf) i k).val| + F.eta) < F.top) →
        (1 + gam F.u (a.m + 1)) * (|beta.val * (entry c.m (s c.buf) i j).val| + F.eta + ∑ k ∈ range a.m,
          ((1 + gam F.u 1) * ((|alpha.val * (entry a.m (s a.buf) i k).val| + F.eta) *
            |(entry c.m (s b.buf) k j).val|) + F.eta)) < F.top →
        (entry c.m (s' c.buf) i j).IsFin) := by
  obtain ⟨s', g1, g2, g3, g4, g5, g6, g7, g8, g9⟩ := C55_gemm nd alpha beta a b c s ha hb hc h1 h2 h3
  refine ⟨s', g1, g2, g3, g4, g5, g6, g7, by show (s' c.buf).length = _; rw [g8]; simp [matOf], g9,
    fun i j hi hj => ?_⟩
  have u0 := F.u_nonneg
  have u1 := F.u_lt_one
  rw [g8, entry_matOf _ hi hj, C55_gemm_start Fp.mul_comm _ true]
  simp only [gemmStart, if_true]
  refine ⟨fun hf => ?_, fun q1 q2 q3 q4 q5 q6 => ?_⟩
  rotate_left
  · have := lin_isFin (A := fun k => entry a.m (s a.buf) i k) (X := fun k => entry c.m (s b.buf) k j) (lo := 0) (n := a.m)
      q1 q2 q3 (fun k hk => by rw [Nat.zero_add]; exact q4 k hk)
      (fun k hk => by rw [Nat.zero_add]; exact q5 k hk) (by simp only [Nat.zero_add]; exact q6)
    rwa [Nat.zero_add] at this
  obtain ⟨p1, p2⟩ := Fp.isFin_addUp hf
  have he := F.eta_pos
  have g1 := gam_nonneg u0 u1 1
  rw [← Nat.zero_add a.m] at hf
  have := Fp.addUp_err hf (K := 2) (e := fun k => alpha.val * (entry a.m (s a.buf) i k).val * (entry c.m (s b.buf) k j).val)
    (e' := beta.val * (entry c.m (s c.buf) i j).val)
    (E := fun k => F.eta * (1 + (1 + gam F.u 1) * |(entry c.m (s b.buf) k j).val|)) (E' := F.eta)
    (fun k hk => by
      have := Fp.mul3_err (p2 k (Nat.zero_le _) hk)
      simpa only [Nat.zero_add] using this) (fun k _ => by positivity) ?_ he.le
  · simpa only [Nat.zero_add] using this
  · refine (Fp.mul_err p1).trans (add_le_add ?_ le_rfl)
    exact mul_le_mul_of_nonneg_right (gam_mono u0 u1 (by omega)) (abs_nonneg _)

/-- The sparse product, over the stored elements of the row. -/
theorem C66_spmv (nd : Bool) (alpha beta : Fp F) (a : Csr (Fp F)) (hw : a.Wf) (m x y : Nat) (s : Mem (Fp F))
    (hsh : a.shape = .ok (a.nrows, m)) (hx : s.len x = m) (hy : s.len y = a.nrows) (hxy : x ≠ y) :
    ∃ s', Csr.mul nd alpha a x beta y s = .ok s' ∧ s'.len y = a.nrows ∧ (∀ q, q ≠ y → s' q = s q) ∧
      ∀ i lo l, i < a.nrows → lo = a.rowPtr.getD i 0 → a.rowPtr.getD (i + 1) 0 = lo + l → ((s'.val y i).IsFin →
      |(s'.val y i).val - (beta.val * (s.val y i).val +
          ∑ k ∈ range l, alpha.val * (val0 a.val (lo + k)).val * (s.val x (a.col.getD (lo + k) 0)).val)| ≤
        gam F.u (l + 2) * (|beta.val * (s.val y i).val| +
          ∑ k ∈ range l, |alpha.val * (val0 a.val (lo + k)).val * (s.val x (a.col.getD (lo + k) 0)).val|) +
        (1 + gam F.u l) * (F.eta +
          ∑ k ∈ range l, F.eta * (1 + (1 + gam F.u 1) * |(s.val x (a.col.getD (lo + k) 0)).val|))) ∧
      (alpha.IsFin → beta.IsFin → (s.val y i).IsFin →
        (∀ k, k < l → (val0 a.val (lo + k)).IsFin ∧ (s.val x (a.col.getD (lo + k) 0)).IsFin) →
        (∀ k, k < l → (1 + gam F.u 1) * (|alpha.val * (val0 a.val (lo + k)).val| + F.eta) < F.top) →
        (1 + gam F.u (l + 1)) * (|beta.val * (s.val y i).val| + F.eta + ∑ k ∈ range l, ((1 + gam F.u 1) *
          ((|alpha.val * (val0 a.val (lo + k)).val| + F.eta) * |(s.val x (a.col.getD (lo + k) 0)).val|) + F.eta)) < F.top →
        (s'.val y i).IsFin) := by
  have hc := Csr.col_lt hw hsh
  obtain ⟨s', h1, h4, h5⟩ := C55_spmv nd alpha beta a hw m x y s hsh hc hx hy hxy
  refine ⟨s', h1, by show (s' y).length = _; rw [h4]; simp, h5, fun i lo l hi hlo hl => ?_⟩
  have u0 := F.u_nonneg
  have u1 := F.u_lt_one
  have e : s'.val y i = addUp (fun k => alpha * val0 a.val k * val0 (s x) (a.col.getD k 0)) lo (lo + l)
      (beta * val0 (s y) i) := by
    show val0 (s' y) i = _
    rw [h4, val0_map_range, if_pos hi, hl, hlo]
  rw [e]
  refine ⟨fun hf => ?_, fun q1 q2 q3 q4 q5 q6 => lin_isFin (A := fun k => val0 a.val k)
    (X := fun k => val0 (s x) (a.col.getD k 0)) q1 q2 q3 q4 q5 q6⟩
  obtain ⟨p1, p2⟩ := Fp.isFin_addUp hf
  have he := F.eta_pos
  have g1 := gam_nonneg u0 u1 1
  refine Fp.addUp_err hf (K := 2) (fun k hk => ?_) (fun k _ => ?_) ?_ he.le
  · exact Fp.mul3_err (p2 _ (by omega) (by omega))
  · positivity
  · refine (Fp.mul_err p1).trans (add_le_add ?_ le_rfl)
    exact mul_le_mul_of_nonneg_right (gam_mono u0 u1 (by omega)) (abs_nonneg _)

/-! ## Not vacuous -/

theorem gam_le_pow {u : ℝ} (h : u ≤ 1 / 2) (k : ℕ) : 1 + gam u k ≤ 2 ^ k := by
  have h1 : (1 / 2 : ℝ) ^ k ≤ (1 - u) ^ k := pow_le_pow_left₀ (by norm_num) (by linarith) k
  have h2 : (0 : ℝ) < (1 / 2) ^ k := by positivity
  have h3 := one_div_le_one_div_of_le h2 h1
  simp only [gam]
  have e : 1 / (1 / 2 : ℝ) ^ k = 2 ^ k := by simp
  linarith

theorem u_le_half (F : Fmt) : F.u ≤ 1 / 2 := by
  have := pow_le_pow_of_le_one (by norm_num : (0 : ℝ) ≤ 1 / 2) (by norm_num) F.one_le_p
  rw [pow_one] at this
  exact this

/-- Ones: the sufficient condition holds and the inner product is finite. -/
example : ∃ r, dynDot (Mem.ofList [[1, 1, 1], [1, 1, 1]] : Mem (Fp binary64)) 0 1 = .ok r ∧ r.IsFin := by
  obtain ⟨r, h1, _, _, _, _, h⟩ := C66_dot (Mem.ofList [[1, 1, 1], [1, 1, 1]] : Mem (Fp binary64)) 0 1 rfl (by decide)
  refine ⟨r, h1, h ?_ ?_⟩
  · intro i hi
    have : i < 3 := hi
    obtain rfl | rfl | rfl : i = 0 ∨ i = 1 ∨ i = 2 := by omega
    all_goals exact ⟨Fp.isFin_one, Fp.isFin_one⟩
  · have g := gam_le_pow (u_le_half binary64) 3
    have e : ∑ i ∈ range 3, (|((Mem.ofList [[1, 1, 1], [1, 1, 1]] : Mem (Fp binary64)).val 0 i).val *
        ((Mem.ofList [[1, 1, 1], [1, 1, 1]] : Mem (Fp binary64)).val 1 i).val| + binary64.eta) =
        3 * (1 + binary64.eta) := by
      simp [sum_range_succ, Mem.ofList, Mem.val, val0]
      ring
    show (1 + gam binary64.u 3) * ∑ i ∈ range 3, _ < _
    rw [e]
    have he : binary64.eta ≤ 1 := by
      have : (2 : ℝ) ^ (-1074 : ℤ) ≤ 2 ^ (0 : ℤ) := zpow_le_zpow_right₀ (by norm_num) (by norm_num)
      show (2 : ℝ) ^ (-1074 : ℤ) / 2 ≤ 1
      rw [zpow_zero] at this
      linarith
    have hp := binary64.eta_pos
    have ht : (64 : ℝ) < binary64.top := by
      have : (2 : ℝ) ^ (7 : ℤ) ≤ 2 ^ (1024 : ℤ) := zpow_le_zpow_right₀ (by norm_num) (by norm_num)
      show (64 : ℝ) < 2 ^ (1024 : ℤ)
      have e : (64 : ℝ) < 2 ^ (7 : ℤ) := by norm_num
      exact lt_of_lt_of_le e this
    nlinarith

end Lalib.Props
