import Verif.Spec.Cg
import Verif.Proofs.Minimise
import Verif.Props.Eigen
import Verif.Props.Sparse
import Mathlib.LinearAlgebra.Dimension.Finite
import Mathlib.LinearAlgebra.Dimension.Constructions
import Mathlib.LinearAlgebra.FiniteDimensional.Basic

/-! # Property C120: conjugate gradients

In exact arithmetic. -/

namespace Lalib.Props

open Lalib Finset

variable {T : Type} [Field T] [LinearOrder T] [IsStrictOrderedRing T]

section
variable {n : Nat} {A : Nat → Nat → T} {b : Nat → T} {x r p : Nat → Nat → T}

omit [LinearOrder T] [IsStrictOrderedRing T] in
private theorem ip_at {u v w y : Nat → T} {t : T} (h : ∀ i, i < n → u i = v i + t * w i) : ip n y u = ip n y v + t * ip n y w := by
  rw [ip_congr (fun _ _ => rfl) h, ip_add_right, ip_smul_right]

omit [LinearOrder T] [IsStrictOrderedRing T] in
private theorem mul_at {u v w : Nat → T} {t : T} (h : ∀ i, i < n → u i = v i + t * w i) (i : Nat) :
    mulVec n A u i = mulVec n A v i + t * mulVec n A w i := by
  unfold mulVec
  rw [mul_sum, ← sum_add_distrib]
  refine sum_congr rfl fun j hj => ?_
  rw [h j (mem_range.mp hj)]
  ring

omit [IsStrictOrderedRing T] in
private theorem pos_of (hp : PosDef n A) {y z : Nat → T} (h : ip n z y ≠ 0) : 0 < ip n y (mulVec n A y) := by
  rw [ip_form]
  refine hp y ?_
  by_contra hc
  push Not at hc
  exact h (sum_eq_zero fun i hi => by rw [hc i (mem_range.mp hi), mul_zero])

/-- What holds after `k` passes, none of which found a zero residual. -/
private structure Inv (n : Nat) (A : Nat → Nat → T) (r p : Nat → Nat → T) (k : Nat) : Prop where
  rr : ∀ i, i < k → ip n (r k) (r i) = 0
  pp : ∀ i, i < k → ip n (p k) (mulVec n A (p i)) = 0
  rp : ∀ i, i < k → ip n (r k) (p i) = 0
  same : ip n (r k) (p k) = ip n (r k) (r k)

private theorem inv (hs : Symm n A) (hp : PosDef n A) (h : CgSeq n A b x r p) (k : Nat) (hne : ∀ j, j < k → ip n (r j) (r j) ≠ 0) :
    ∀ j, j ≤ k → Inv n A r p j := by
  intro j
  induction j using Nat.strong_induction_on with
  | _ j ih =>
    intro hj
    rcases j with _ | j
    · exact ⟨by omega, by omega, by omega, ip_congr (fun _ _ => rfl) (h.p0)⟩
    have I := ih j (by omega) (by omega)
    have c0 := hne j (by omega)
    set c := ip n (r j) (r j) with hc
    have d0 : 0 < ip n (p j) (mulVec n A (p j)) := pos_of hp (z := r j) (by rw [I.same]; exact c0)
    set d := ip n (p j) (mulVec n A (p j)) with hd
    have hr : ∀ i, i < n → r (j + 1) i = r j i + -(c / d) * mulVec n A (p j) i := fun i hi => by
      rw [h.rs j c0 i hi]
      ring
    have hpn := h.ps j c0
    set e := ip n (r (j + 1)) (r (j + 1)) with he
    -- the residuals are combinations of the directions
    have q1 : ∀ i, i < j → ip n (r i) (mulVec n A (p j)) = 0 := by
      intro i hi
      have a1 : ip n (p i) (mulVec n A (p j)) = 0 := by rw [ip_symm hs]; exact I.pp i hi
      rcases i with _ | i
      · rw [ip_congr (fun i hi => (h.p0 i hi).symm) fun _ _ => rfl]
        exact a1
      · have a2 : ip n (p i) (mulVec n A (p j)) = 0 := by rw [ip_symm hs]; exact I.pp i (by omega)
        have := ip_at (y := mulVec n A (p j)) (h.ps i (hne i (by omega)))
        rw [ip_comm _ (p (i + 1)), a1, ip_comm _ (p i), a2, mul_zero, add_zero] at this
        rw [ip_comm]
        exact this.symm
    have q2 : ip n (r j) (mulVec n A (p j)) = d := by
      rcases j with _ | i
      · exact ip_congr (fun i hi => (h.p0 i hi).symm) fun _ _ => rfl
      · have a2 : ip n (p i) (mulVec n A (p (i + 1))) = 0 := by rw [ip_symm hs]; exact I.pp i (by omega)
        have := ip_at (y := mulVec n A (p (i + 1))) (h.ps i (hne i (by omega)))
        rw [ip_comm _ (p (i + 1)), ip_comm _ (p i), a2, mul_zero, add_zero] at this
        rw [ip_comm]
        exact this.symm
    have rrN : ∀ i, i < j + 1 → ip n (r (j + 1)) (r i) = 0 := by
      intro i hi
      rw [ip_comm, ip_at hr]
      rcases Nat.lt_or_ge i j with h1 | h1
      · rw [ip_comm, I.rr i h1, q1 i h1]
        ring
      · obtain rfl : i = j := by omega
        rw [q2, ← hc]
        field_simp
        ring
    have rpN : ∀ i, i < j + 1 → ip n (r (j + 1)) (p i) = 0 := by
      intro i hi
      rw [ip_comm, ip_at hr]
      rcases Nat.lt_or_ge i j with h1 | h1
      · rw [ip_comm, I.rp i h1, ip_symm hs, I.pp i h1]
        ring
      · obtain rfl : i = j := by omega
        rw [ip_comm, I.same, ← hc, ← hd]
        field_simp
        ring
    refine ⟨rrN, fun i hi => ?_, rpN, ?_⟩
    · have a1 : ip n (p (j + 1)) (mulVec n A (p i)) = ip n (r (j + 1)) (mulVec n A (p i)) + e / c * ip n (p j) (mulVec n A (p i)) := by
        rw [ip_comm, ip_at hpn, ip_comm, ip_comm (mulVec n A (p i)) (p j)]
      -- `A p i` from two residuals
      have ci := hne i (by omega)
      have Ii := ih i (by omega) (by omega)
      have di : 0 < ip n (p i) (mulVec n A (p i)) := pos_of hp (z := r i) (by rw [Ii.same]; exact ci)
      have a2 := ip_at (y := r (j + 1)) (u := r (i + 1)) (v := r i) (w := mulVec n A (p i))
        (t := -(ip n (r i) (r i) / ip n (p i) (mulVec n A (p i)))) fun l hl => by
          rw [h.rs i ci l hl]
          ring
      rw [rrN i hi, zero_add] at a2
      rw [a1]
      rcases Nat.lt_or_ge i j with h1 | h1
      · rw [rrN (i + 1) (by omega)] at a2
        have t0 : -(ip n (r i) (r i) / ip n (p i) (mulVec n A (p i))) ≠ 0 := neg_ne_zero.mpr (div_ne_zero ci di.ne')
        have a3 := (mul_eq_zero.mp a2.symm).resolve_left t0
        rw [a3, I.pp i h1]
        ring
      · obtain rfl : i = j := by omega
        rw [← he, ← hc, ← hd] at a2
        rw [← hd]
        have d1 := d0.ne'
        have a3 : ip n (r (i + 1)) (mulVec n A (p i)) = -(e * d / c) := by
          field_simp at a2 ⊢
          linear_combination a2
        rw [a3]
        field_simp
        ring
    · rw [ip_at hpn, rpN j (by omega)]
      ring

/-- The residuals are orthogonal to each other and to the earlier directions, and the directions are conjugate. -/
theorem C120_orthogonal (hs : Symm n A) (hp : PosDef n A) (h : CgSeq n A b x r p) (k : Nat) (hne : ∀ j, j < k → ip n (r j) (r j) ≠ 0)
    (i : Nat) (hi : i < k) : ip n (r k) (r i) = 0 ∧ ip n (r k) (p i) = 0 ∧ ip n (p k) (mulVec n A (p i)) = 0 :=
  have I := inv hs hp h k hne k le_rfl
  ⟨I.rr i hi, I.rp i hi, I.pp i hi⟩

/-- No division by zero. -/
theorem C120_divisor (hs : Symm n A) (hp : PosDef n A) (h : CgSeq n A b x r p) (k : Nat) (hne : ∀ j, j ≤ k → ip n (r j) (r j) ≠ 0) :
    0 < ip n (p k) (mulVec n A (p k)) :=
  pos_of hp (z := r k) (by rw [(inv hs hp h k (fun j hj => hne j hj.le) k le_rfl).same]; exact hne k le_rfl)

omit [IsStrictOrderedRing T] in
/-- `r` is always the residual of `x`. -/
theorem C120_residual (h : CgSeq n A b x r p) (k : Nat) : ∀ i, i < n → r k i = b i - mulVec n A (x k) i := by
  induction k with
  | zero => exact h.r0
  | succ k ih =>
    intro i hi
    by_cases c0 : ip n (r k) (r k) = 0
    · have e : mulVec n A (x (k + 1)) i = mulVec n A (x k) i := sum_congr rfl fun j hj => by rw [(h.stop k c0).1 j (mem_range.mp hj)]
      rw [(h.stop k c0).2 i hi, ih i hi, e]
    · rw [h.rs k c0 i hi, ih i hi, mul_at (h.xs k c0)]
      ring

omit [LinearOrder T] [IsStrictOrderedRing T] in
/-- A zero residual stays. -/
private theorem stays (h : CgSeq n A b x r p) (k : Nat) (h0 : ip n (r k) (r k) = 0) (j : Nat) : ip n (r (k + j)) (r (k + j)) = 0 := by
  induction j with
  | zero => exact h0
  | succ j ih => exact (ip_congr (h.stop _ ih).2 (h.stop _ ih).2).trans ih

/-- At most `n` passes: after them the residual is zero, and `x` solves the system. -/
theorem C120_finite (hs : Symm n A) (hp : PosDef n A) (h : CgSeq n A b x r p) (k : Nat) (hk : n ≤ k) : Solves n A (x k) b := by
  have z : ip n (r n) (r n) = 0 := by
    by_contra hz
    have hne : ∀ j, j ≤ n → ip n (r j) (r j) ≠ 0 := fun j hj hc => by
      obtain ⟨l, rfl⟩ := Nat.exists_eq_add_of_le hj
      have := stays h j hc l
      exact hz (by convert this using 2)
    have o : ∀ i j, i ≤ n → j ≤ n → i ≠ j → ip n (r i) (r j) = 0 := by
      intro i j hi hj hij
      rcases Nat.lt_or_gt_of_ne hij with h1 | h1
      · rw [ip_comm]
        exact (C120_orthogonal hs hp h j (fun l hl => hne l (by omega)) i h1).1
      · exact (C120_orthogonal hs hp h i (fun l hl => hne l (by omega)) j h1).1
    have hli : LinearIndependent T (fun (i : Fin (n + 1)) (l : Fin n) => r i l) := by
      rw [Fintype.linearIndependent_iff]
      intro a ha i
      have e1 : ∀ l : Fin n, ∑ j : Fin (n + 1), a j * r j l = 0 := fun l => by
        have := congrFun ha l
        simpa using this
      have e2 : ∑ l : Fin n, r i l * ∑ j : Fin (n + 1), a j * r j l = a i * ip n (r i) (r i) := by
        simp only [mul_sum]
        rw [sum_comm, sum_eq_single_of_mem i (mem_univ _)]
        · rw [ip, ← Fin.sum_univ_eq_sum_range (fun l => r i l * r i l) n, mul_sum]
          exact sum_congr rfl fun l _ => by ring
        · intro j _ hj
          have := o i j (by omega) (by omega) fun e => hj (Fin.ext e.symm)
          rw [ip, ← Fin.sum_univ_eq_sum_range (fun l => r i l * r j l) n] at this
          rw [show ∑ l : Fin n, r i l * (a j * r j l) = a j * ∑ l : Fin n, r i l * r j l by
            rw [mul_sum]
            exact sum_congr rfl fun l _ => by ring, this, mul_zero]
      simp only [e1, mul_zero, sum_const_zero] at e2
      exact (mul_eq_zero.mp e2.symm).resolve_right (hne i (by omega))
    have := hli.fintype_card_le_finrank
    simp at this
  obtain ⟨l, rfl⟩ := Nat.exists_eq_add_of_le hk
  have z' := stays h n z l
  intro i hi
  have := C120_residual h (n + l) i hi
  rw [ip_self_eq_zero.mp z' i hi] at this
  exact (sub_eq_zero.mp this.symm).symm

omit [LinearOrder T] [IsStrictOrderedRing T] in
private theorem energy_add (hs : Symm n A) {y v w : Nat → T} (hw : ∀ i, i < n → w i = b i - mulVec n A y i) :
    energy n A b (fun i => y i + v i) = energy n A b y + ip n v (mulVec n A v) - 2 * ip n v w := by
  have e1 : ∀ i, mulVec n A (fun i => y i + v i) i = mulVec n A y i + mulVec n A v i := fun i => by
    unfold mulVec
    rw [← sum_add_distrib]
    exact sum_congr rfl fun j _ => by ring
  have e2 : ip n v w = ip n v b - ip n v (mulVec n A y) := by
    rw [ip_congr (fun _ _ => rfl) hw, ip_sub_right]
  unfold energy
  rw [ip_congr (fun _ _ => rfl) fun i _ => e1 i, ip_add_right, ip_comm _ (mulVec n A y), ip_add_right, ip_comm _ (mulVec n A v), ip_add_right,
    ip_add_right, e2, ip_comm _ y, ip_comm _ v, ip_comm _ y, ip_comm _ v, ip_symm hs y v, ip_comm b v]
  ring

/-- Every pass makes the energy smaller, by the stated amount. -/
theorem C120_decrease (hs : Symm n A) (hp : PosDef n A) (h : CgSeq n A b x r p) (k : Nat) (hne : ∀ j, j ≤ k → ip n (r j) (r j) ≠ 0) :
    energy n A b (x (k + 1)) = energy n A b (x k) - ip n (r k) (r k) ^ 2 / ip n (p k) (mulVec n A (p k)) ∧
      energy n A b (x (k + 1)) < energy n A b (x k) := by
  have d0 := C120_divisor hs hp h k hne
  have c0 := hne k le_rfl
  have e0 : energy n A b (x (k + 1)) = energy n A b (x k) - ip n (r k) (r k) ^ 2 / ip n (p k) (mulVec n A (p k)) := by
    set c := ip n (r k) (r k) with hc
    set d := ip n (p k) (mulVec n A (p k)) with hd
    have e1 := energy_add hs (v := fun i => c / d * p k i) (C120_residual h k)
    have e2 : energy n A b (x (k + 1)) = energy n A b (fun i => x k i + c / d * p k i) := by
      have e3 : ∀ i, mulVec n A (x (k + 1)) i = mulVec n A (fun i => x k i + c / d * p k i) i := fun i =>
        sum_congr rfl fun j hj => by rw [h.xs k c0 j (mem_range.mp hj)]
      unfold energy
      rw [ip_congr (h.xs k c0) fun i _ => e3 i, ip_congr (fun _ _ => rfl) (h.xs k c0)]
    have e3 : ip n (fun i => c / d * p k i) (mulVec n A fun i => c / d * p k i) = (c / d) ^ 2 * d := by
      have : ∀ i, mulVec n A (fun i => c / d * p k i) i = c / d * mulVec n A (p k) i := fun i => by
        unfold mulVec
        rw [mul_sum]
        exact sum_congr rfl fun j _ => by ring
      rw [ip_congr (fun _ _ => rfl) fun i _ => this i, ip_smul_right, ip_comm, ip_smul_right, ip_comm, ← hd]
      ring
    have e4 : ip n (fun i => c / d * p k i) (r k) = c / d * c := by
      rw [ip_comm, ip_smul_right, (inv hs hp h k (fun j hj => hne j hj.le) k le_rfl).same]
    rw [e2, e1, e3, e4]
    have := d0.ne'
    field_simp
    ring
  refine ⟨e0, ?_⟩
  have : 0 < ip n (r k) (r k) ^ 2 / ip n (p k) (mulVec n A (p k)) := div_pos (by positivity) d0
  linarith

/-- No other combination of the directions used so far has a smaller energy. -/
theorem C120_optimal (hs : Symm n A) (hp : PosDef n A) (h : CgSeq n A b x r p) (k : Nat) (hne : ∀ j, j < k → ip n (r j) (r j) ≠ 0) (c : Nat → T) :
    energy n A b (x k) ≤ energy n A b fun i => x k i + ∑ j ∈ range k, c j * p j i := by
  rw [energy_add hs (C120_residual h k), ip_comm _ (r k), ip_sum_right]
  rw [sum_eq_zero fun j hj => by rw [(C120_orthogonal hs hp h k hne j (mem_range.mp hj)).2.1, mul_zero]]
  have : 0 ≤ ip n (fun i => ∑ j ∈ range k, c j * p j i) (mulVec n A fun i => ∑ j ∈ range k, c j * p j i) := by
    by_cases hz : ip n (fun i => ∑ j ∈ range k, c j * p j i) (mulVec n A fun i => ∑ j ∈ range k, c j * p j i) = 0
    · rw [hz]
    · rw [ip_comm] at hz
      exact (pos_of hp hz).le
  linarith

end

/-! ## The program -/

section
variable {n : Nat} {A : Nat → Nat → T}

omit [LinearOrder T] [IsStrictOrderedRing T] in
private theorem dot_val (m : Mem T) (x y : Nat) (hx : m.len x = n) (hy : m.len y = n) (hn : 0 < n) :
    dotDD m x y = .ok (ip n (m.val x) (m.val y)) := by
  rw [(C05_dot_partial m x y (by omega) (by omega)).2.1, dotSpec_eq_range (hx.trans hy.symm)]
  have : (m x).length = n := hx
  rw [this]
  rfl

omit [LinearOrder T] [IsStrictOrderedRing T] in
private theorem axpy_val (alpha : T) (m : Mem T) (a y : Nat) (ha : m.len a = n) (hy : m.len y = n) :
    ∃ m', axpyD alpha m a y = .ok m' ∧ (∀ z, z ≠ y → m' z = m z) ∧ m'.len y = n ∧ ∀ i, i < n → m'.val y i = alpha * m.val a i + m.val y i := by
  have la : (m a).length = n := ha
  have ly : (m y).length = n := hy
  refine ⟨_, axpyD_eq (hy.trans ha.symm), fun z hz => Mem.setBuf_other _ hz _, ?_, fun i hi => ?_⟩
  · simp [Mem.len, la, ly]
  · show val0 ((m.setBuf y _) y) i = _
    rw [Mem.setBuf_self, val0_of_lt (by simp [la, ly, hi]), List.getElem_zipWith, ← val0_of_lt, ← val0_of_lt]
    rfl

omit [LinearOrder T] [IsStrictOrderedRing T] in
private theorem scale_val (alpha : T) (m : Mem T) (y : Nat) (hy : m.len y = n) :
    ∃ m', scaleV alpha m y = .ok m' ∧ (∀ z, z ≠ y → m' z = m z) ∧ m'.len y = n ∧ ∀ i, i < n → m'.val y i = alpha * m.val y i := by
  have ly : (m y).length = n := hy
  obtain ⟨m', e, h⟩ := C01_scale alpha m y
  refine ⟨m', e, fun z hz => by rw [h.eq, Mem.setBuf_other _ hz], ?_, fun i hi => ?_⟩
  · rw [h.eq]
    simp [Mem.len, ly]
  · rw [h.eq]
    show val0 ((m.setBuf y _) y) i = _
    rw [Mem.setBuf_self, val0_of_lt (by simp [ly, hi]), List.getElem_map, ← val0_of_lt]
    rfl

omit [LinearOrder T] [IsStrictOrderedRing T] in
private theorem val_of {m m' : Mem T} {z : Nat} (h : m' z = m z) (i : Nat) : m'.val z i = m.val z i := by
  unfold Mem.val
  rw [h]

omit [Field T] [LinearOrder T] [IsStrictOrderedRing T] in
private theorem len_of {m m' : Mem T} {z : Nat} (h : m' z = m z) : m'.len z = m.len z := by
  unfold Mem.len
  rw [h]

omit [IsStrictOrderedRing T] in
/-- One pass whose residual is not zero and whose divisor is not zero. -/
private theorem pass (mul : Mem T → Res (Mem T)) (x r p q : Nat) (hxr : x ≠ r) (hxp : x ≠ p) (hxq : x ≠ q) (hrp : r ≠ p) (hrq : r ≠ q)
    (hpq : p ≠ q) (m : Mem T) (hn : 0 < n) (hx : m.len x = n) (hr : m.len r = n) (hp : m.len p = n)
    (hmul : ∃ l, l.length = n ∧ mul m = .ok (m.setBuf q l) ∧ ∀ i, i < n → val0 l i = mulVec n A (m.val p) i)
    (c0 : ip n (m.val r) (m.val r) ≠ 0) (d0 : ip n (m.val p) (mulVec n A (m.val p)) ≠ 0) :
    ∃ m', cgStep mul x r p q m = .ok m' ∧ (∀ z, z ≠ x → z ≠ r → z ≠ p → z ≠ q → m' z = m z) ∧ m'.len x = n ∧ m'.len r = n ∧ m'.len p = n ∧
      m'.len q = n ∧
      (∀ i, i < n → m'.val x i = m.val x i + ip n (m.val r) (m.val r) / ip n (m.val p) (mulVec n A (m.val p)) * m.val p i) ∧
      (∀ i, i < n → m'.val r i = m.val r i - ip n (m.val r) (m.val r) / ip n (m.val p) (mulVec n A (m.val p)) * mulVec n A (m.val p) i) ∧
      ∀ i, i < n → m'.val p i = m'.val r i + ip n (m'.val r) (m'.val r) / ip n (m.val r) (m.val r) * m.val p i := by
  obtain ⟨l, hl, e1, vl⟩ := hmul
  set m1 := m.setBuf q l with hm1
  have f1 : ∀ z, z ≠ q → m1 z = m z := fun z hz => Mem.setBuf_other _ hz _
  have q1 : m1.len q = n := by simp [hm1, Mem.len, hl]
  have v1 : ∀ i, i < n → m1.val q i = mulVec n A (m.val p) i := fun i hi => by
    rw [← vl i hi, hm1]
    simp [Mem.val]
  have d1 := dot_val m1 p q ((len_of (f1 p hpq)).trans hp) q1 hn
  rw [ip_congr (fun i _ => val_of (f1 p hpq) i) v1] at d1
  set c := ip n (m.val r) (m.val r) with hc
  set d := ip n (m.val p) (mulVec n A (m.val p)) with hd
  obtain ⟨m2, e2, f2, l2, v2⟩ := axpy_val (n := n) (c / d) m1 p x ((len_of (f1 p hpq)).trans hp) ((len_of (f1 x hxq)).trans hx)
  obtain ⟨m3, e3, f3, l3, v3⟩ := axpy_val (n := n) (-(c / d)) m2 q r ((len_of (f2 q hxq.symm)).trans q1)
    ((len_of (f2 r hxr.symm)).trans ((len_of (f1 r hrq)).trans hr))
  have d2 := dot_val m3 r r l3 l3 hn
  set e := ip n (m3.val r) (m3.val r) with he
  have p3 : m3 p = m p := by rw [f3 p hrp.symm, f2 p hxp.symm, f1 p hpq]
  obtain ⟨m4, e4, f4, l4, v4⟩ := scale_val (n := n) (e / c) m3 p ((len_of p3).trans hp)
  obtain ⟨m5, e5, f5, l5, v5⟩ := axpy_val (n := n) 1 m4 r p ((len_of (f4 r hrp)).trans l3) l4
  have r5 : m5 r = m3 r := by rw [f5 r hrp, f4 r hrp]
  have x5 : m5 x = m2 x := by rw [f5 x hxp, f4 x hxp, f3 x hxr]
  have q5 : m5 q = m1 q := by rw [f5 q hpq.symm, f4 q hpq.symm, f3 q hrq.symm, f2 q hxq.symm]
  refine ⟨m5, ?_, fun z z1 z2 z3 z4 => ?_, (len_of x5).trans l2, (len_of r5).trans l3, l5, (len_of q5).trans q1, fun i hi => ?_, fun i hi => ?_,
    fun i hi => ?_⟩
  · unfold cgStep
    rw [dot_val m r r hr hr hn, Lalib.ok_bind, if_neg c0, e1, Lalib.ok_bind, d1, Lalib.ok_bind, divC_ok d0, Lalib.ok_bind, e2, Lalib.ok_bind, e3,
      Lalib.ok_bind, d2, Lalib.ok_bind, divC_ok c0, Lalib.ok_bind, e4, Lalib.ok_bind, e5]
  · rw [f5 z z3, f4 z z3, f3 z z2, f2 z z1, f1 z z4]
  · rw [val_of x5, v2 i hi, val_of (f1 p hpq), val_of (f1 x hxq)]
    ring
  · rw [val_of r5, v3 i hi, val_of (f2 q hxq.symm), v1 i hi, val_of (f2 r hxr.symm), val_of (f1 r hrq)]
    ring
  · rw [v5 i hi, v4 i hi, val_of p3, val_of (f4 r hrp), ip_congr (fun i _ => val_of r5 i) (fun i _ => val_of r5 i), ← he, val_of r5]
    ring

/-- The vectors of the method, without a program. -/
private def seqs (n : Nat) (A : Nat → Nat → T) (x0 r0 p0 : Nat → T) : Nat → (Nat → T) × (Nat → T) × (Nat → T)
  | 0 => (x0, r0, p0)
  | k + 1 =>
    let s := seqs n A x0 r0 p0 k
    if ip n s.2.1 s.2.1 = 0 then s else
      let t := ip n s.2.1 s.2.1 / ip n s.2.2 (mulVec n A s.2.2)
      let r := fun i => s.2.1 i - t * mulVec n A s.2.2 i
      (fun i => s.1 i + t * s.2.2 i, r, fun i => r i + ip n r r / ip n s.2.1 s.2.1 * s.2.2 i)

omit [IsStrictOrderedRing T] in
private theorem seqs_cg (x0 r0 p0 b : Nat → T) (hr : ∀ i, i < n → r0 i = b i - mulVec n A x0 i) (hp : ∀ i, i < n → p0 i = r0 i) :
    CgSeq n A b (fun k => (seqs n A x0 r0 p0 k).1) (fun k => (seqs n A x0 r0 p0 k).2.1) (fun k => (seqs n A x0 r0 p0 k).2.2) := by
  refine ⟨hr, hp, fun k h => ?_, fun k h i _ => ?_, fun k h i _ => ?_, fun k h i _ => ?_⟩
  · simp only [seqs, if_pos h, implies_true, and_self]
  all_goals simp only [seqs, if_neg h]

/-- The program: no pass fails, only the four vectors change, and the vectors are those of the method. -/
theorem C120_program (hs : Symm n A) (hp : PosDef n A) (hn : 0 < n) (mul : Mem T → Res (Mem T)) (x r p q : Nat) (hxr : x ≠ r) (hxp : x ≠ p)
    (hxq : x ≠ q) (hrp : r ≠ p) (hrq : r ≠ q) (hpq : p ≠ q) (m : Mem T) (lx : m.len x = n) (lr : m.len r = n) (lp : m.len p = n)
    (hmul : ∀ m' : Mem T, (∀ z, z ≠ x → z ≠ r → z ≠ p → z ≠ q → m' z = m z) → m'.len p = n →
      ∃ l, l.length = n ∧ mul m' = .ok (m'.setBuf q l) ∧ ∀ i, i < n → val0 l i = mulVec n A (m'.val p) i)
    (b : Nat → T) (h0 : ∀ i, i < n → m.val r i = b i - mulVec n A (m.val x) i) (h1 : ∀ i, i < n → m.val p i = m.val r i) :
    ∃ X R P, CgSeq n A b X R P ∧ ∀ k, ∃ m', cgSteps mul x r p q k m = .ok m' ∧ (∀ z, z ≠ x → z ≠ r → z ≠ p → z ≠ q → m' z = m z) ∧
      m'.len x = n ∧ m'.len r = n ∧ m'.len p = n ∧ (∀ i, i < n → m'.val x i = X k i) ∧ (∀ i, i < n → m'.val r i = R k i) ∧
      ∀ i, i < n → m'.val p i = P k i := by
  have cg := seqs_cg (A := A) (m.val x) (m.val r) (m.val p) b h0 h1
  refine ⟨_, _, _, cg, fun k => ?_⟩
  induction k with
  | zero => exact ⟨m, rfl, fun _ _ _ _ _ => rfl, lx, lr, lp, fun _ _ => rfl, fun _ _ => rfl, fun _ _ => rfl⟩
  | succ k ih =>
    obtain ⟨m', e, f, l1, l2, l3, v1, v2, v3⟩ := ih
    have cc : ip n (m'.val r) (m'.val r) = _ := ip_congr v2 v2
    have ee : cgSteps mul x r p q (k + 1) m = cgStep mul x r p q m' := by
      simp only [cgSteps, e, Lalib.ok_bind]
    by_cases c0 : ip n (m'.val r) (m'.val r) = 0
    · rw [cc] at c0
      refine ⟨m', ?_, f, l1, l2, l3, ?_, ?_, ?_⟩
      · rw [ee, cgStep, dot_val m' r r l2 l2 hn, Lalib.ok_bind, if_pos (cc.trans c0)]
      all_goals
        simp only [seqs, if_pos c0]
        assumption
    · have c1 := c0
      rw [cc] at c1
      have mm : ∀ i, mulVec n A (m'.val p) i = mulVec n A (seqs n A (m.val x) (m.val r) (m.val p) k).2.2 i := fun i =>
        sum_congr rfl fun j hj => by rw [v3 j (mem_range.mp hj)]
      have dd : ip n (m'.val p) (mulVec n A (m'.val p)) = _ := ip_congr v3 fun i _ => mm i
      have hne : ∀ j, j ≤ k → ip n (seqs n A (m.val x) (m.val r) (m.val p) j).2.1 (seqs n A (m.val x) (m.val r) (m.val p) j).2.1 ≠ 0 := by
        intro j hj hc
        obtain ⟨l, rfl⟩ := Nat.exists_eq_add_of_le hj
        exact c1 (stays cg j hc l)
      have d0 := C120_divisor hs hp cg k hne
      obtain ⟨m'', e', f', l1', l2', l3', -, v1', v2', v3'⟩ := pass mul x r p q hxr hxp hxq hrp hrq hpq m' hn l1 l2 l3 (hmul m' f l3) c0
        (by rw [dd]; exact d0.ne')
      have w2 : ∀ i, i < n → m''.val r i = (seqs n A (m.val x) (m.val r) (m.val p) (k + 1)).2.1 i := fun i hi => by
        rw [v2' i hi, cc, dd, mm, v2 i hi]
        exact (cg.rs k c1 i hi).symm
      refine ⟨m'', ee.trans e', fun z z1 z2 z3 z4 => (f' z z1 z2 z3 z4).trans (f z z1 z2 z3 z4), l1', l2', l3', fun i hi => ?_, w2, fun i hi => ?_⟩
      · rw [v1' i hi, cc, dd, v1 i hi, v3 i hi]
        exact (cg.xs k c1 i hi).symm
      · rw [v3' i hi, cc, ip_congr w2 w2, w2 i hi, v3 i hi]
        exact (cg.ps k c1 i hi).symm

/-- All together for a dense matrix: `n` passes solve the system. -/
theorem C120_dense (nd : Bool) (a : MatRef) (han : a.n = n) (ham : a.m = n) (x r p q : Nat) (hxr : x ≠ r) (hxp : x ≠ p)
    (hxq : x ≠ q) (hrp : r ≠ p) (hrq : r ≠ q) (hpq : p ≠ q) (hax : a.buf ≠ x) (har : a.buf ≠ r) (hap : a.buf ≠ p) (haq : a.buf ≠ q) (m : Mem T)
    (ha : a.Wf m) (hs : Symm n (entry n (m a.buf))) (hp : PosDef n (entry n (m a.buf))) (hn : 0 < n) (lx : m.len x = n) (lr : m.len r = n)
    (lp : m.len p = n) (b : Nat → T) (h0 : ∀ i, i < n → m.val r i = b i - mulVec n (entry n (m a.buf)) (m.val x) i)
    (h1 : ∀ i, i < n → m.val p i = m.val r i) (k : Nat) (hk : n ≤ k) :
    ∃ m', cgSteps (fun m => matVecAt nd m a p q) x r p q k m = .ok m' ∧ (∀ z, z ≠ x → z ≠ r → z ≠ p → z ≠ q → m' z = m z) ∧ m'.len x = n ∧
      Solves n (entry n (m a.buf)) (m'.val x) b := by
  obtain ⟨X, R, P, cg, h⟩ := C120_program hs hp hn (fun m => matVecAt nd m a p q) x r p q hxr hxp hxq hrp hrq hpq m lx lr lp (fun m' f lp' => by
    have fa := f a.buf hax har hap haq
    obtain ⟨z, lz, ez, vz⟩ := C117_dense nd a han ham p q hpq haq m' (by
      unfold MatRef.Wf at ha ⊢
      rw [len_of fa]
      exact ha) lp'
    rw [fa] at vz
    exact ⟨z, lz, ez, vz⟩) b h0 h1
  obtain ⟨m', e, f, l1, -, -, v1, -, -⟩ := h k
  refine ⟨m', e, f, l1, fun i hi => ?_⟩
  rw [← C120_finite hs hp cg k hk i hi]
  exact sum_congr rfl fun j hj => by rw [v1 j (mem_range.mp hj)]

/-- All together for a CSR matrix with the entries `A`. -/
theorem C120_csr (nd : Bool) (a : Csr T) (hw : a.Wf) (hd : a.Distinct) (hsh : a.shape = .ok (n, n)) (hrow : a.nrows = n)
    (hA : ∀ i j, i < n → j < n → a.get i j = .ok (A i j)) (x r p q : Nat) (hxr : x ≠ r) (hxp : x ≠ p)
    (hxq : x ≠ q) (hrp : r ≠ p) (hrq : r ≠ q) (hpq : p ≠ q) (m : Mem T) (hs : Symm n A) (hp : PosDef n A) (hn : 0 < n) (lx : m.len x = n)
    (lr : m.len r = n) (lp : m.len p = n) (b : Nat → T) (h0 : ∀ i, i < n → m.val r i = b i - mulVec n A (m.val x) i)
    (h1 : ∀ i, i < n → m.val p i = m.val r i) (k : Nat) (hk : n ≤ k) :
    ∃ m', cgSteps (fun m => Csr.mulVecAt nd a m p q) x r p q k m = .ok m' ∧ (∀ z, z ≠ x → z ≠ r → z ≠ p → z ≠ q → m' z = m z) ∧ m'.len x = n ∧
      Solves n A (m'.val x) b := by
  obtain ⟨X, R, P, cg, h⟩ := C120_program hs hp hn (fun m => Csr.mulVecAt nd a m p q) x r p q hxr hxp hxq hrp hrq hpq m lx lr lp (fun m' _ lp' => by
    obtain ⟨s', e, hst⟩ := C31_op_partial nd a hw hd A n p q m' (by rw [hrow]; exact hsh) (by rw [hrow]; exact hA) lp' hpq
    refine ⟨_, ?_, hst.eq ▸ e, fun i hi => ?_⟩
    · simp [hrow]
    · rw [val0_of_lt (by simp [hrow, hi]), List.getElem_map, List.getElem_range]
      rfl) b h0 h1
  obtain ⟨m', e, f, l1, -, -, v1, -, -⟩ := h k
  refine ⟨m', e, f, l1, fun i hi => ?_⟩
  rw [← C120_finite hs hp cg k hk i hi]
  exact sum_congr rfl fun j hj => by rw [v1 j (mem_range.mp hj)]

end

/-! ## Cases -/

-- the method for `2 x = 6` from `x = 0`: one pass
example : CgSeq (T := ℚ) 1 (fun _ _ => 2) (fun _ => 6) (fun k _ => if k = 0 then 0 else 3) (fun k _ => if k = 0 then 6 else 0)
    (fun k _ => if k = 0 then 6 else 0) := by
  refine ⟨by simp [mulVec], by simp, fun k h => ?_, fun k h i _ => ?_, fun k h i _ => ?_, fun k h i _ => ?_⟩
  all_goals rcases k with _ | k
  all_goals simp [ip, mulVec] at h ⊢
  all_goals norm_num

end Lalib.Props
