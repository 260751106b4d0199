import Verif.Spec.Constrained
import Verif.Proofs.Minimise
import Verif.Props.Cholesky

/-! # Property C121: minimisation under linear conditions

In exact arithmetic. -/

namespace Lalib.Props

open Lalib Finset

variable {T : Type}

section
variable [Field T] {n q : Nat} {A C Y : Nat → Nat → T}

/-- Products with the transposed conditions. -/
private theorem flip (v t : Nat → T) : ∑ a ∈ range q, t a * mulVec n C v a = ip n v fun i => ∑ a ∈ range q, t a * C a i := by
  unfold ip mulVec
  simp only [mul_sum]
  rw [sum_comm]
  exact sum_congr rfl fun i _ => sum_congr rfl fun a _ => by ring

private theorem mul_comb (hY : ∀ a, a < q → Solves n A (fun i => Y i a) fun i => C a i) (t : Nat → T) (i : Nat) (hi : i < n) :
    mulVec n A (fun i => ∑ a ∈ range q, Y i a * t a) i = ∑ a ∈ range q, t a * C a i := by
  unfold mulVec
  simp only [mul_sum]
  rw [sum_comm]
  refine sum_congr rfl fun a ha => ?_
  have h : C a i = mulVec n A (fun i => Y i a) i := (hY a (mem_range.mp ha) i hi).symm
  rw [h, mulVec, mul_sum]
  exact sum_congr rfl fun j _ => by ring

private theorem cond_mul (t : Nat → T) (a : Nat) : mulVec q (condMat n C Y) t a = mulVec n C (fun i => ∑ c ∈ range q, Y i c * t c) a := by
  unfold mulVec condMat
  simp only [mul_sum, sum_mul]
  rw [sum_comm]
  exact sum_congr rfl fun i _ => sum_congr rfl fun c _ => by ring

private theorem cond_form (hY : ∀ a, a < q → Solves n A (fun i => Y i a) fun i => C a i) (t : Nat → T) :
    ip q t (mulVec q (condMat n C Y) t) =
      ip n (fun i => ∑ a ∈ range q, Y i a * t a) (mulVec n A fun i => ∑ a ∈ range q, Y i a * t a) := by
  have e : ip q t (mulVec q (condMat n C Y) t) = ∑ a ∈ range q, t a * mulVec n C (fun i => ∑ c ∈ range q, Y i c * t c) a :=
    sum_congr rfl fun a _ => by rw [cond_mul]
  rw [e, flip]
  exact sum_congr rfl fun i hi => by rw [mul_comb hY t i (mem_range.mp hi)]

private theorem cond_symm (hs : Symm n A) (hY : ∀ a, a < q → Solves n A (fun i => Y i a) fun i => C a i) : Symm q (condMat n C Y) := by
  intro a c ha hc
  have e : ∀ a c, a < q → condMat n C Y a c = ip n (fun i => Y i c) (mulVec n A fun i => Y i a) := fun a c ha =>
    sum_congr rfl fun i hi => by rw [hY a ha i (mem_range.mp hi), mul_comm]
  rw [e a c ha, e c a hc, ip_symm hs]

private theorem cond_posDef [LinearOrder T] [IsStrictOrderedRing T] (hp : PosDef n A) (hC : RowsIndep n q C)
    (hY : ∀ a, a < q → Solves n A (fun i => Y i a) fun i => C a i) : PosDef q (condMat n C Y) := by
  intro t ht
  rw [← ip_form, cond_form hY]
  refine hp.ip_pos ?_
  by_contra hc
  push Not at hc
  obtain ⟨a, ha, h0⟩ := ht
  refine h0 (hC t (fun j hj => ?_) a ha)
  rw [← mul_comb hY t j hj]
  exact sum_eq_zero fun k hk => by
    show A j k * (∑ a ∈ range q, Y k a * t a) = 0
    rw [hc k (mem_range.mp hk), mul_zero]

/-- The correction `x = z - Y t` satisfies the conditions, and what remains of the equations is a combination of the conditions. -/
private theorem correct {b d z t : Nat → T} (hY : ∀ a, a < q → Solves n A (fun i => Y i a) fun i => C a i) (hz : Solves n A z b)
    (ht : Solves q (condMat n C Y) t fun a => mulVec n C z a - d a) :
    Feasible n q C d (fun i => z i - ∑ a ∈ range q, Y i a * t a) ∧
      ∀ i, i < n → mulVec n A (fun i => z i - ∑ a ∈ range q, Y i a * t a) i = b i - ∑ a ∈ range q, t a * C a i := by
  refine ⟨fun a ha => ?_, fun i hi => ?_⟩
  · have := ht a ha
    rw [cond_mul] at this
    rw [mulVec_diff, this]
    ring
  · rw [mulVec_diff, hz i hi, mul_comb hY t i hi]

/-- Such a vector is the only minimum. -/
theorem C121_minimum [LinearOrder T] [IsStrictOrderedRing T] (hs : Symm n A) (hp : PosDef n A) {b d x t : Nat → T} (hf : Feasible n q C d x)
    (hk : ∀ i, i < n → mulVec n A x i = b i - ∑ a ∈ range q, t a * C a i) (y : Nat → T) (hy : Feasible n q C d y) :
    energy n A b y = energy n A b x + ip n (fun i => y i - x i) (mulVec n A fun i => y i - x i) ∧ energy n A b x ≤ energy n A b y ∧
      (energy n A b y = energy n A b x → ∀ i, i < n → y i = x i) := by
  have e0 : energy n A b y = energy n A b x + ip n (fun i => y i - x i) (mulVec n A fun i => y i - x i) := by
    have h1 : ip n (fun i => y i - x i) (fun i => ∑ a ∈ range q, t a * C a i) = 0 := by
      rw [← flip]
      refine sum_eq_zero fun a ha => ?_
      rw [mulVec_diff, hy a (mem_range.mp ha), hf a (mem_range.mp ha), sub_self, mul_zero]
    have h2 : ∀ w : Nat → T, ip n w (mulVec n A x) = ip n w b - ip n w fun i => ∑ a ∈ range q, t a * C a i := fun w => by
      rw [← ip_diff_right]
      exact sum_congr rfl fun i hi => by rw [hk i (mem_range.mp hi)]
    have h3 : ip n (fun i => y i - x i) (mulVec n A fun i => y i - x i) =
        ip n (fun i => y i - x i) (fun i => mulVec n A y i - mulVec n A x i) := sum_congr rfl fun i _ => by rw [mulVec_diff]
    rw [ip_diff_left] at h1
    rw [h3, ip_diff_left, ip_diff_right, ip_diff_right, ip_symm hs x y]
    unfold energy
    rw [h2 y, h2 x, ip_flip b y, ip_flip b x]
    linear_combination -2 * h1
  refine ⟨e0, ?_, fun h => ?_⟩
  · by_cases hc : ∃ i, i < n ∧ y i - x i ≠ 0
    · have := hp.ip_pos hc
      linarith
    · push Not at hc
      have : ip n (fun i => y i - x i) (mulVec n A fun i => y i - x i) = 0 :=
        sum_eq_zero fun i hi => by
          show (y i - x i) * _ = 0
          rw [hc i (mem_range.mp hi), zero_mul]
      linarith
  · by_contra hc
    push Not at hc
    obtain ⟨i, hi, h1⟩ := hc
    have := hp.ip_pos (x := fun i => y i - x i) ⟨i, hi, sub_ne_zero.mpr h1⟩
    linarith

end

section
variable [Field T] [LinearOrder T] [IsStrictOrderedRing T] [Sqrt T] [LawfulSqrt T]

/-- The program: factorise `A`, solve for the transposed conditions and for `b`, factorise `C Y`, solve for `C z - d`, and correct. -/
theorem C121_constrained (nd : Bool) (mt mt' : MemType) (n q : Nat) (l : List T) (A C : Nat → Nat → T) (hl : Lower mt n l A) (hs : Symm n A)
    (hp : PosDef n A) (hC : RowsIndep n q C) (d : Nat → T) (m : Mem T) (b r : Nat) (B : MatRef) (hb : m.len b = n) (hr : r ≠ b) (hB : B.Wf m)
    (hBn : B.n = n) (hBm : B.m = q) (hrB : r ≠ B.buf) (hBC : ∀ i a, i < n → a < q → entry q (m B.buf) i a = C a i) :
    ∃ L Y z, Chol.new mt n l = .ok L ∧ Chol.solveMatAt nd false mt n L B r m = .ok (m.setBuf r Y) ∧
      Chol.solveVecAt nd false mt n L b r m = .ok (m.setBuf r z) ∧ Y.length = n * q ∧ z.length = n ∧
      ∀ (l' : List T) (m' : Mem T) (g r' : Nat), Lower mt' q l' (condMat n C (entry q Y)) → m'.len g = q → r' ≠ g →
        (∀ a, a < q → val0 (m' g) a = mulVec n C (val0 z) a - d a) →
        ∃ L' t, Chol.new mt' q l' = .ok L' ∧ Chol.solveVecAt nd false mt' q L' g r' m' = .ok (m'.setBuf r' t) ∧ t.length = q ∧
          Feasible n q C d (fun i => val0 z i - ∑ a ∈ range q, entry q Y i a * val0 t a) ∧
          ∀ y, Feasible n q C d y →
            energy n A (m.val b) (fun i => val0 z i - ∑ a ∈ range q, entry q Y i a * val0 t a) ≤ energy n A (m.val b) y ∧
            (energy n A (m.val b) y = energy n A (m.val b) (fun i => val0 z i - ∑ a ∈ range q, entry q Y i a * val0 t a) →
              ∀ i, i < n → y i = val0 z i - ∑ a ∈ range q, entry q Y i a * val0 t a) := by
  obtain ⟨L, eL⟩ := C36_accepts mt n l A hl hs hp
  obtain ⟨Y, hYl, sY, -, eY⟩ := C37_mat nd mt n l L A hl hs hp eL m B r hB hBn hrB
  obtain ⟨z, hzl, sz, -, ez⟩ := C37_vec nd mt n l L A hl hs hp eL m b r hb hr
  rw [hBm] at hYl sY
  have hY : ∀ a, a < q → Solves n A (fun i => entry q Y i a) fun i => C a i := fun a ha i hi =>
    (sY a ha i hi).trans (hBC i a hi ha)
  have hsS := cond_symm hs hY
  have hpS := cond_posDef hp hC hY
  refine ⟨L, Y, z, eL, eY, ez, hYl, hzl, fun l' m' g r' hl' hg hr' vg => ?_⟩
  obtain ⟨L', eL'⟩ := C36_accepts mt' q l' _ hl' hsS hpS
  obtain ⟨t, htl, st, -, et⟩ := C37_vec nd mt' q l' L' _ hl' hsS hpS eL' m' g r' hg hr'
  obtain ⟨h1, h2⟩ := correct hY sz fun a ha => (st a ha).trans (vg a ha)
  exact ⟨L', t, eL', et, htl, h1, fun y hy => (C121_minimum hs hp h1 h2 y hy).2⟩

end

/-! ## Cases -/

-- one condition: the sum of two numbers
example : RowsIndep 2 1 (fun _ _ => (1 : ℚ)) := fun t h a ha => by
  obtain rfl : a = 0 := by omega
  simpa using h 0 (by omega)

-- the nearest vector to zero whose components add up to 2
example : Feasible 2 1 (fun _ _ => (1 : ℚ)) (fun _ => 2) (fun _ => 1) ∧ ¬ Feasible 2 1 (fun _ _ => (1 : ℚ)) (fun _ => 2) (fun _ => 0) := by
  refine ⟨fun a _ => by norm_num [mulVec], fun h => ?_⟩
  have := h 0 (by omega)
  simp [mulVec] at this

-- the same condition twice is refused: the second matrix would be singular
example : ¬ RowsIndep 2 2 (fun _ _ => (1 : ℚ)) := fun h => by
  have := h (fun a => if a = 0 then 1 else -1) (fun j _ => by norm_num [sum_range_succ]) 0 (by omega)
  simp at this

end Lalib.Props
