import Verif.Proofs.FloatCgs
import Verif.Props.Cgs
import Verif.Props.IeeeBack

/-! # Property C81: Gram-Schmidt orthogonalisation in floating point

The setting of C44 (`Verif/Props/Cgs.lean`): the range holds `M` vectors of dimension `n`, stored in the objects
`0, ..., M-1` of the memory, `DynVec`s (`sz = none`) or `SizedVec<T, n>`s (`sz = some n`). -/

namespace Lalib.Props

open Lalib Lalib.Cgs Finset

/-- Any element type: the vectors come from the recurrence `CgsRec` with the operations in this order, the first vector
and every object outside the range are unchanged; a run that does not return met a division that failed, with vectors
of this recurrence. -/
theorem C81_cgs {T : Type} [Zero T] [Add T] [Mul T] [Neg T] [CDiv T] (nd : Bool) (sz : Option Nat) (n M : Nat) (m : Mem T)
    (hs : sz = none ∨ sz = some n) (hn : 0 < n) (hM : 0 < M) (hm : ∀ k, k < M → m.len k = n) :
    (∀ m', cgs nd sz M m = .ok m' → (∀ k, k < M → m'.len k = n) ∧ (∀ q, M < q → m' q = m q) ∧ m' 0 = m 0 ∧
        ∃ c, CgsRec n M m.val m'.val c) ∧
      (∀ e, cgs nd sz M m = .error e → ∃ (w c : Nat → Nat → T) (j k : Nat), k < j ∧ j < M ∧ CgsRec n j m.val w c ∧
        divC (-dotUp n (w k) (m.val j)) (dotUp n (w k) (w k)) = .error e) :=
  ⟨fun _ h => (cgs_raw nd hs hn hM hm).of_ok h, fun _ h => (cgs_raw nd hs hn hM hm).of_error h⟩

section rounded
variable {R : Rounding}

/-- Rounded arithmetic without underflow: `cgs` fails only with a division by zero, after one of the computed vectors
that is not the last one came out as the zero vector. -/
theorem C81_returns (nd : Bool) (sz : Option Nat) (n M : Nat) (m : Mem (Fl R)) (hs : sz = none ∨ sz = some n)
    (hn : 0 < n) (hM : 0 < M) (hm : ∀ k, k < M → m.len k = n) :
    (∃ m' c, cgs nd sz M m = .ok m' ∧ CgsRec n M m.val m'.val c ∧
        ∀ k, k + 1 < M → ∃ i, i < n ∧ m'.val k i ≠ 0) ∨
      cgs nd sz M m = .error .nonFinite ∧ ∃ (w c : Nat → Nat → Fl R) (k : Nat), k + 1 < M ∧
        CgsRec n (k + 1) m.val w c ∧ ∀ i, i < n → w k i = 0 := by
  cases e : cgs nd sz M m with
  | ok m' =>
    obtain ⟨-, -, -, c, hr⟩ := (cgs_raw nd hs hn hM hm).of_ok e
    refine .inl ⟨m', c, rfl, hr, fun k hk => ?_⟩
    by_contra hc
    push Not at hc
    exact (divC_of_ok (hr.coef (k + 1) hk k (by omega))).1 ((Fl.dotUp_eq_zero hn _).mpr hc)
  | error f =>
    obtain ⟨w, c, j, k, hk, hj, hr, hd⟩ := (cgs_raw nd hs hn hM hm).of_error e
    rw [Lalib.divC_eq] at hd
    split at hd
    · rename_i h0
      cases hd
      exact .inr ⟨rfl, w, c, k, by omega, ⟨fun p hp => hr.coef p (by omega), fun p hp => hr.vec p (by omega)⟩,
        (Fl.dotUp_eq_zero hn _).mp h0⟩
    · cases hd

/-- What the computed vectors `w j` have to do with the given ones `a j`, with the computed coefficients `r k j` of the
projections: the combination `w j + ∑ r k j * w k` is `a j` up to `j` roundings of its terms; every coefficient is the one
of the projection up to `2n + 1` roundings; and the scalar product of two computed vectors is at most that of the pairs
before, weighted with the coefficients, and the rounding errors. -/
theorem C81_rounded (nd : Bool) (sz : Option Nat) (n M : Nat) (m m' : Mem (Fl R)) (hs : sz = none ∨ sz = some n)
    (hn : 0 < n) (hM : 0 < M) (hm : ∀ k, k < M → m.len k = n) (h : cgs nd sz M m = .ok m') :
    ∃ r : ℕ → ℕ → ℝ,
      (∀ j, j < M → ∀ i, i < n →
        |(m.val j i).val - ((m'.val j i).val + ∑ k ∈ range j, r k j * (m'.val k i).val)| ≤
          gam R.u j * (|(m'.val j i).val| + ∑ k ∈ range j, |r k j * (m'.val k i).val|)) ∧
      (∀ j, j < M → ∀ k, k < j →
        |∑ i ∈ range n, (m'.val k i).val * (m.val j i).val - r k j * ∑ i ∈ range n, (m'.val k i).val * (m'.val k i).val| ≤
          gam R.u (2 * n + 1) * ∑ i ∈ range n, |(m'.val k i).val * (m.val j i).val|) ∧
      ∀ j, j < M → ∀ k, k < j →
        |∑ i ∈ range n, (m'.val k i).val * (m'.val j i).val| ≤
          ∑ p ∈ (range j).erase k, |r p j| * |∑ i ∈ range n, (m'.val k i).val * (m'.val p i).val| +
          gam R.u (2 * n + 1) * ∑ i ∈ range n, |(m'.val k i).val * (m.val j i).val| +
          gam R.u j * ∑ i ∈ range n, |(m'.val k i).val| *
            (|(m'.val j i).val| + ∑ p ∈ range j, |r p j * (m'.val p i).val|) := by
  obtain ⟨-, -, -, c, hr⟩ := (cgs_raw nd hs hn hM hm).of_ok h
  refine ⟨fun k j => -(c k j).val, fun j hj i hi => ?_, fun j hj k hk => ?_, fun j hj k hk => ?_⟩
  · have := cgs_residual hr hj hi
    simpa only [neg_mul, sum_neg_distrib, abs_neg, ← sub_eq_add_neg] using this
  · have := cgs_coef hn hr hj hk
    rwa [neg_mul, sub_neg_eq_add]
  · have := cgs_orth hn hr hj hk
    simpa only [neg_mul, abs_neg] using this

/-- Two vectors: orthogonal to working precision, whatever they are. -/
theorem C81_two (nd : Bool) (sz : Option Nat) (n : Nat) (m m' : Mem (Fl R)) (hs : sz = none ∨ sz = some n)
    (hn : 0 < n) (hm : ∀ k, k < 2 → m.len k = n) (h : cgs nd sz 2 m = .ok m') :
    m' 0 = m 0 ∧ |∑ i ∈ range n, (m.val 0 i).val * (m'.val 1 i).val| ≤
      gam R.u (2 * n + 3) * ∑ i ∈ range n, |(m.val 0 i).val| * (|(m.val 1 i).val| + 2 * |(m'.val 1 i).val|) := by
  have h0 := R.u_nonneg
  have h1 := R.u_lt_one
  obtain ⟨-, -, e0, c, hr⟩ := (cgs_raw nd hs hn (by omega) hm).of_ok h
  refine ⟨e0, ?_⟩
  have ev : m'.val 0 = m.val 0 := by unfold Mem.val; rw [e0]
  have b := cgs_orth hn hr (j := 1) (k := 0) (by omega) (by omega)
  simp only [range_one, erase_singleton, sum_empty, zero_add, sum_singleton, ev] at b
  have gn := gam_nonneg h0 h1 (2 * n + 1)
  have g1 := gam_nonneg h0 h1 1
  have g2 := gam_nonneg h0 h1 2
  have e2 := gam_add h0 h1 1 1
  have e3 := gam_add h0 h1 1 2
  have e4 := gam_add h0 h1 (2 * n + 1) 2
  have e5 := gam_mono h0 h1 (show 1 + 2 ≤ 2 * n + 3 by omega)
  rw [show 2 * n + 1 + 2 = 2 * n + 3 by ring] at e4
  refine b.trans ?_
  rw [mul_sum, mul_sum, mul_sum, ← sum_add_distrib]
  refine sum_le_sum fun i hi => ?_
  -- the term that was added
  have hv : m'.val 1 i = c 0 1 * m.val 0 i + m.val 1 i := by
    rw [hr.vec 1 (by omega) i (mem_range.mp hi)]; simp only [addUpL, ev]
  obtain ⟨φ, hφ, e6⟩ := Fl.mul_fac (c 0 1) (m.val 0 i)
  obtain ⟨δ, hδ, e7⟩ := Fl.add_fac (c 0 1 * m.val 0 i) (m.val 1 i)
  rw [← hv, e6] at e7
  have hφ0 := hφ.pos h0 h1
  have hδ0 := hδ.pos h0 h1
  have e8 : (c 0 1).val * (m.val 0 i).val = (m'.val 1 i).val * (1 / (δ * φ)) - (m.val 1 i).val * (1 / φ) := by
    rw [e7]; field_simp; ring
  have b1 : |(c 0 1).val * (m.val 0 i).val| ≤ (1 + gam R.u 2) * |(m'.val 1 i).val| + (1 + gam R.u 1) * |(m.val 1 i).val| := by
    rw [e8]
    refine (abs_sub _ _).trans (add_le_add ?_ ?_)
    · rw [abs_mul, mul_comm]
      exact mul_le_mul_of_nonneg_right (((hδ.mul h0 h1 hφ).inv h0 h1).abs_le h0 h1) (abs_nonneg _)
    · rw [abs_mul, mul_comm]
      exact mul_le_mul_of_nonneg_right ((hφ.inv h0 h1).abs_le h0 h1) (abs_nonneg _)
  have a0 := abs_nonneg (m.val 0 i).val
  have a1 := abs_nonneg (m.val 1 i).val
  have w1 := abs_nonneg (m'.val 1 i).val
  rw [abs_mul (m.val 0 i).val (m.val 1 i).val]
  generalize |(c 0 1).val * (m.val 0 i).val| = t at *
  generalize |(m.val 0 i).val| = A at *
  generalize |(m.val 1 i).val| = B at *
  generalize |(m'.val 1 i).val| = W at *
  have c1 : gam R.u 1 * (W + t) ≤ gam R.u 1 * (W + ((1 + gam R.u 2) * W + (1 + gam R.u 1) * B)) :=
    mul_le_mul_of_nonneg_left (by linarith) g1
  have c2 : gam R.u (2 * n + 1) * B + gam R.u 1 * (W + ((1 + gam R.u 2) * W + (1 + gam R.u 1) * B)) ≤
      gam R.u (2 * n + 3) * (B + 2 * W) := by
    have d1 : (gam R.u (2 * n + 1) + gam R.u 1 * (1 + gam R.u 1)) * B ≤ gam R.u (2 * n + 3) * B :=
      mul_le_mul_of_nonneg_right (by nlinarith [mul_nonneg gn g2, mul_nonneg g1 g1]) a1
    have d2 : gam R.u 1 * (2 + gam R.u 2) * W ≤ gam R.u (2 * n + 3) * 2 * W :=
      mul_le_mul_of_nonneg_right (by nlinarith [mul_nonneg g1 g2]) w1
    linarith
  calc gam R.u (2 * n + 1) * (A * B) + gam R.u 1 * (A * (W + t))
      = A * (gam R.u (2 * n + 1) * B + gam R.u 1 * (W + t)) := by ring
    _ ≤ A * (gam R.u (2 * n + 3) * (B + 2 * W)) := mul_le_mul_of_nonneg_left (by linarith) a0
    _ = gam R.u (2 * n + 3) * (A * (B + 2 * W)) := by ring

/-- Two vectors, the first one not zero: `cgs` returns. -/
theorem C81_two_returns (nd : Bool) (sz : Option Nat) (n : Nat) (m : Mem (Fl R)) (hs : sz = none ∨ sz = some n)
    (hm : ∀ k, k < 2 → m.len k = n) (hz : ∃ i, i < n ∧ m.val 0 i ≠ 0) : ∃ m', cgs nd sz 2 m = .ok m' := by
  obtain ⟨i, hi, hz⟩ := hz
  rcases C81_returns nd sz n 2 m hs (by omega) (by omega) hm with ⟨m', c, h, _⟩ | ⟨_, w, c, k, hk, hr, h0⟩
  · exact ⟨m', h⟩
  · obtain rfl : k = 0 := by omega
    have := hr.vec 0 (by omega) i hi
    exact absurd (this.symm.trans (h0 i hi)) hz

example (nd : Bool) : ∃ m', cgs nd none 2 (Mem.ofList [[1, 0], [1, 1]] : Mem (Fl R)) = .ok m' :=
  C81_two_returns nd none 2 _ (.inl rfl) (fun k hk => by interval_cases k <;> rfl)
    ⟨0, by omega, (Fl.ne_zero_iff _).mpr one_ne_zero⟩

example (nd : Bool) : cgs nd none 2 (Mem.ofList [[0, 0], [1, 1]] : Mem (Fl R)) = .error .nonFinite := by
  rcases C81_returns (R := R) nd none 2 2 (Mem.ofList [[0, 0], [1, 1]]) (.inl rfl) (by omega) (by omega)
    (fun k hk => by interval_cases k <;> rfl) with ⟨m', c, h, hr, hz⟩ | h
  · obtain ⟨i, hi, hne⟩ := hz 0 (by omega)
    have := hr.vec 0 (by omega) i hi
    refine absurd (this.trans ?_) hne
    interval_cases i <;> rfl
  · exact h.1

end rounded

/-! ## IEEE 754 numbers -/

section ieee
variable {F : Fmt}

/-- `cgs` always returns. -/
theorem C81_ieee (nd : Bool) (sz : Option Nat) (n M : Nat) (m : Mem (Fp F)) (hs : sz = none ∨ sz = some n) (hn : 0 < n)
    (hM : 0 < M) (hm : ∀ k, k < M → m.len k = n) :
    ∃ m' c, cgs nd sz M m = .ok m' ∧ CgsRec n M m.val m'.val c ∧ (∀ k, k < M → m'.len k = n) ∧
      (∀ q, M < q → m' q = m q) ∧ m' 0 = m 0 := by
  cases e : cgs nd sz M m with
  | ok m' =>
    obtain ⟨h1, h2, h3, c, hr⟩ := (cgs_raw nd hs hn hM hm).of_ok e
    exact ⟨m', c, rfl, hr, h1, h2, h3⟩
  | error f =>
    obtain ⟨w, c, j, k, -, -, -, hd⟩ := (cgs_raw nd hs hn hM hm).of_error e
    cases hd

/-- One finite component of vector `j` shows that vector `j` of the argument and all earlier vectors of the result are
finite, and that none of these earlier vectors is zero; and that component obeys the residual bound, with `j` products
that can underflow. -/
theorem C81_ieee_finite (nd : Bool) (sz : Option Nat) (n M : Nat) (m m' : Mem (Fp F)) (hs : sz = none ∨ sz = some n)
    (hn : 0 < n) (hM : 0 < M) (hm : ∀ k, k < M → m.len k = n) (h : cgs nd sz M m = .ok m') :
    ∃ r : ℕ → ℕ → ℝ, ∀ j, j < M → ∀ i, i < n → (m'.val j i).IsFin →
      (m.val j i).IsFin ∧
      (∀ k, k < j → (∃ l, l < n ∧ (m'.val k l).val ≠ 0) ∧ ∀ l, l < n → (m'.val k l).IsFin ∧ (m.val j l).IsFin) ∧
      |(m.val j i).val - ((m'.val j i).val + ∑ k ∈ range j, r k j * (m'.val k i).val)| ≤
        gam F.u j * (|(m'.val j i).val| + ∑ k ∈ range j, |r k j * (m'.val k i).val|) +
          (1 + gam F.u j) * (j * F.eta) := by
  obtain ⟨-, -, -, c, hr⟩ := (cgs_raw nd hs hn hM hm).of_ok h
  refine ⟨fun k j => -(c k j).val, fun j hj i hi hf => ?_⟩
  obtain ⟨h1, h2⟩ := cgs_cert hr hj hi hf
  refine ⟨h1, fun k hk => ⟨?_, (h2 k hk).2.2.2⟩, ?_⟩
  · by_contra hc
    push Not at hc
    refine (h2 k hk).2.1 (dotUp_isZ hn fun l hl => ?_)
    exact (Fp.isZ_iff _).mpr ⟨((h2 k hk).2.2.2 l hl).1, hc l hl⟩
  · have := cgs_residual_ieee hr hj hi hf
    simpa only [neg_mul, sum_neg_distrib, abs_neg, ← sub_eq_add_neg] using this

/-- A vector that comes out as zero makes every component of all later vectors NaN; a vector of which the computed
square vanishes leaves no finite component in them. -/
theorem C81_ieee_zero (nd : Bool) (sz : Option Nat) (n M : Nat) (m m' : Mem (Fp F)) (hs : sz = none ∨ sz = some n)
    (hn : 0 < n) (hM : 0 < M) (hm : ∀ k, k < M → m.len k = n) (h : cgs nd sz M m = .ok m') (k : Nat) :
    ((∀ i, i < n → IsZ (m'.val k i)) → ∀ j, k < j → j < M → ∀ i, i < n → m'.val j i = .nan) ∧
      (IsZ (dotUp n (m'.val k) (m'.val k)) → ∀ j, k < j → j < M → ∀ i, i < n → ¬ (m'.val j i).IsFin) := by
  obtain ⟨-, -, -, c, hr⟩ := (cgs_raw nd hs hn hM hm).of_ok h
  refine ⟨fun hz j hk hj i hi => ?_, fun hz j hk hj i hi hf => ((cgs_cert hr hj hi hf).2 k hk).2.1 hz⟩
  by_contra hne
  rw [hr.vec j hj i hi] at hne
  have hc := (Fp.nn_of_mul _ _ ((Fp.nn_addUpL hne).2 k hk)).1
  rw [hr.div hj hk] at hc
  have hN : IsZ (dotUp n (m'.val k) (m'.val k)) := dotUp_isZ hn hz
  have hD := dotUp_zero_left hn hz (m.val j)
  rcases hD with hD | hD
  · exact hc (Fp.zero_div_zero (Fp.isZ_neg hD) hN)
  · exact hc (by rw [hD]; rfl)

/-- The square of a vector can overflow: the vectors `(w, 0)` and `(1, 1)`, with `w` the largest power of two, are finite and
come back unchanged, although their scalar product is `w`. -/
theorem C81_ieee_false (h1 : 2 ≤ F.emax) :
    ∃ m : Mem (Fp F), (∀ k, k < 2 → m.len k = 2) ∧ (∀ k i, k < 2 → i < 2 → (m.val k i).IsFin) ∧
      ∀ nd sz, sz = none ∨ sz = some 2 → ∃ m', cgs nd sz 2 m = .ok m' ∧
        (∀ k i, k < 2 → i < 2 → (m'.val k i).IsFin ∧ (m'.val k i).val = (m.val k i).val) ∧
        ∑ i ∈ range 2, (m'.val 0 i).val * (m'.val 1 i).val = F.top / 2 := by
  have hp := F.p_le
  have hp1 := F.one_le_p
  have q1 : F.emin ≤ F.emax - 1 ∧ F.emax - 1 < F.emax := by omega
  set w := pw F (F.emax - 1) q1 with hw
  have wv : w.val = 2 ^ (F.emax - 1) := pw_val _ _
  have wf : w.IsFin := Fp.isFin_fin _ _ _
  have etop : F.top = 2 * 2 ^ (F.emax - 1) := by
    unfold Fmt.top
    rw [show F.emax = 1 + (F.emax - 1) by ring, zpow_add₀ (by norm_num), zpow_one]
    congr 2; ring
  set m : Mem (Fp F) := Mem.ofList [[w, 0], [1, 1]] with hm
  have hlen : ∀ k, k < 2 → m.len k = 2 := fun k hk => by interval_cases k <;> rfl
  have hfin : ∀ k i, k < 2 → i < 2 → (m.val k i).IsFin := fun k i hk hi => by
    interval_cases k <;> interval_cases i
    · exact wf
    · exact Fp.isFin_zero
    · exact Fp.isFin_one
    · exact Fp.isFin_one
  refine ⟨m, hlen, hfin, fun nd sz hs => ?_⟩
  obtain ⟨m', c, e, hr, -, -, e0⟩ := C81_ieee nd sz 2 2 m hs (by omega) (by omega) hlen
  have ev : m'.val 0 = m.val 0 := by unfold Mem.val; rw [e0]
  have hc := hr.div (j := 1) (k := 0) (by omega) (by omega)
  rw [ev] at hc
  have hN : ∃ s, dotUp 2 (m.val 0) (m.val 0) = .inf s := by
    have : F.top ≤ |w.val * w.val| := by
      rw [wv, etop, abs_of_pos (by positivity)]
      have : (2 : ℝ) ≤ 2 ^ (F.emax - 1) := by
        calc (2 : ℝ) = 2 ^ (1 : ℤ) := (zpow_one _).symm
          _ ≤ 2 ^ (F.emax - 1) := zpow_le_zpow_right₀ (by norm_num) (by omega)
      nlinarith
    obtain ⟨s, hs⟩ := mul_over wf wf this
    refine ⟨s, ?_⟩
    show w * w + (0 : Fp F) * 0 = _
    rw [hs]
    obtain ⟨t, y, hy, e⟩ := ((Fp.isZ_iff _).mp (mul_zero_fin (F := F) Fp.isFin_zero Fp.isZ_zero)).1.cases
    rw [e]; rfl
  have hD : (dotUp 2 (m.val 0) (m.val 1)).IsFin := by
    show (w * 1 + (0 : Fp F) * 1).IsFin
    have hw1 : (w * 1).IsFin := by
      refine (Fp.isFin_mul _ _).mpr ⟨wf, Fp.isFin_one, ?_⟩
      rw [Fp.val_one, mul_one, wv, abs_of_pos (by positivity), (F.isMag_pow q1.1 q1.2).2.1]
      exact (F.isMag_pow q1.1 q1.2).2.2
    have h01 : IsZ ((0 : Fp F) * 1) := Fp.isZ_mul Fp.isZ_zero Fp.isFin_one
    exact (Fp.add_zero_val hw1 h01).1
  obtain ⟨s, hN⟩ := hN
  have hcz : IsZ (c 0 1) := by
    rw [hc, hN]
    exact Fp.div_inf ((Fp.isFin_neg _).mpr hD) s
  have hv : ∀ i, i < 2 → (m'.val 1 i).IsFin ∧ (m'.val 1 i).val = (m.val 1 i).val := fun i hi => by
    have e1 : m'.val 1 i = c 0 1 * m.val 0 i + m.val 1 i := by
      rw [hr.vec 1 (by omega) i hi]; simp only [addUpL, ev]
    have hz : IsZ (c 0 1 * m.val 0 i) := Fp.isZ_mul hcz (hfin 0 i (by omega) hi)
    rw [e1, Fp.add_comm]
    exact Fp.add_zero_val (hfin 1 i (by omega) hi) hz
  refine ⟨m', e, fun k i hk hi => ?_, ?_⟩
  · interval_cases k
    · rw [ev]; exact ⟨hfin 0 i (by omega) hi, rfl⟩
    · exact hv i hi
  · rw [sum_range_succ, sum_range_one, ev, (hv 0 (by omega)).2, (hv 1 (by omega)).2]
    show w.val * (1 : Fp F).val + (0 : Fp F).val * (1 : Fp F).val = _
    rw [Fp.val_one, Fp.val_zero, wv, etop]
    ring

example (nd : Bool) : ∃ m', cgs nd none 2 (Mem.ofList [[0, 0], [1, 1]] : Mem (Fp F)) = .ok m' ∧
    ∀ i, i < 2 → m'.val 1 i = .nan := by
  have hl : ∀ k, k < 2 → (Mem.ofList [[0, 0], [1, 1]] : Mem (Fp F)).len k = 2 := fun k hk => by interval_cases k <;> rfl
  obtain ⟨m', c, h, -, -, -, e0⟩ := C81_ieee (F := F) nd none 2 2 _ (.inl rfl) (by omega) (by omega) hl
  refine ⟨m', h, fun i hi => (C81_ieee_zero nd none 2 2 _ m' (.inl rfl) (by omega) (by omega) hl h 0).1 (fun i hi => ?_) 1
    (by omega) (by omega) i hi⟩
  unfold Mem.val
  rw [e0]
  interval_cases i <;> exact Fp.isZ_zero

example := C81_ieee_false (F := binary64) (by decide)
example := C81_ieee_false (F := binary32) (by decide)

end ieee

end Lalib.Props
