import Verif.Model.Tdma
import Verif.Proofs.LinAlg
import Verif.Proofs.Fill
import Mathlib.Algebra.Order.Field.Basic

/-! # Lemmas about the tri-diagonal solver -/

namespace Lalib

variable {T : Type}

namespace Tdma

section ops
variable [Zero T] [Add T] [Sub T] [Mul T] [Neg T] [Div T]

/-- `-p_i`-recurrence of the forward sweep. -/
def P (a : TriDiag T) : Nat → T
  | 0 => -val0 a.du 0 / val0 a.d 0
  | i + 1 => -val0 a.du (i + 1) / (val0 a.d (i + 1) + val0 a.dl i * P a i)

/-- Pivots. -/
def D (a : TriDiag T) : Nat → T
  | 0 => val0 a.d 0
  | i + 1 => val0 a.d (i + 1) + val0 a.dl i * P a i

/-- Right-hand side after the forward sweep. -/
def Q (a : TriDiag T) (B : Nat → T) : Nat → T
  | 0 => B 0 / val0 a.d 0
  | i + 1 => (B (i + 1) - val0 a.dl i * Q a B i) / D a (i + 1)

omit [Sub T] in
theorem P_eq (a : TriDiag T) (i : Nat) : P a i = -val0 a.du i / D a i := by
  cases i <;> rfl

/-- What the backward sweep leaves in a column. -/
def BackEq (a : TriDiag T) (B : Nat → T) (n : Nat) (X : Nat → T) : Prop :=
  X (n - 1) = Q a B (n - 1) ∧ ∀ i, i < n - 1 → X i = P a i * X (i + 1) + Q a B i

end ops

section rec
variable [Field T]

theorem triFull_sum (a : TriDiag T) {n i : Nat} (hi : i < n) (X : Nat → T) :
    mulVec n (triFull a) X i = val0 a.d i * X i + (if i + 1 < n then val0 a.du i * X (i + 1) else 0) +
      (if 0 < i then val0 a.dl (i - 1) * X (i - 1) else 0) := by
  have e : ∀ j, triFull a i j * X j = (if j = i then val0 a.d i * X i else 0) +
      (if j = i + 1 then val0 a.du i * X (i + 1) else 0) +
      (if j + 1 = i then val0 a.dl (i - 1) * X (i - 1) else 0) := by
    intro j
    unfold triFull
    by_cases h1 : j = i
    · subst h1; simp
    · by_cases h2 : j = i + 1
      · subst h2; simp [show i + 1 + 1 ≠ i by omega]
      · by_cases h3 : j + 1 = i
        · subst h3; simp [show j + 1 + 1 ≠ j by omega, show j ≠ j + 1 + 1 by omega]
        · simp [h1, h2, h3, Ne.symm h1, Ne.symm h2, Ne.symm h3]
  unfold mulVec
  simp only [e]
  rw [Finset.sum_add_distrib, Finset.sum_add_distrib, Finset.sum_ite_eq', Finset.sum_ite_eq']
  simp only [Finset.mem_range, hi, if_true]
  congr 1
  cases i with
  | zero => simp
  | succ i =>
    simp only [Nat.add_right_cancel_iff]
    rw [Finset.sum_ite_eq']
    simp [show i < n by omega]

/-- The two sweeps solve the system. -/
theorem solves {a : TriDiag T} {n : Nat} (hn : 2 ≤ n) {B X : Nat → T}
    (hD : ∀ i, i < n → D a i ≠ 0) (hX : BackEq a B n X) : Solves n (triFull a) X B := by
  obtain ⟨hl, hb⟩ := hX
  intro i hi
  rw [triFull_sum a hi]
  have hDi := hD i hi
  have key : D a i * X i + (if i + 1 < n then val0 a.du i * X (i + 1) else 0) = D a i * Q a B i := by
    split
    · rw [hb i (by omega), P_eq]
      field_simp
      ring
    · rw [show i = n - 1 by omega, hl, add_zero]
  cases i with
  | zero =>
    have : D a 0 * Q a B 0 = B 0 := by
      show val0 a.d 0 * (B 0 / val0 a.d 0) = B 0
      have : val0 a.d 0 ≠ 0 := hDi
      field_simp
    simp only [Nat.lt_irrefl, if_false, add_zero]
    rw [← this, ← key]; rfl
  | succ i =>
    have h1 : D a (i + 1) * Q a B (i + 1) = B (i + 1) - val0 a.dl i * Q a B i := by
      show D a (i + 1) * ((B (i + 1) - val0 a.dl i * Q a B i) / D a (i + 1)) = _
      field_simp
    have h2 : D a (i + 1) = val0 a.d (i + 1) + val0 a.dl i * P a i := rfl
    have h3 := hb i (by omega)
    simp only [Nat.succ_pos, if_true, Nat.add_sub_cancel]
    rw [h1] at key
    rw [h2] at key
    rw [h3]
    linear_combination key

theorem minor_eq (a : TriDiag T) (k : Nat) (hD : ∀ i, i < k → D a i ≠ 0) :
    minor (triFull a) (k + 1) = ∏ i ∈ Finset.range (k + 1), D a i := by
  have := minor_LU (A := triFull a) (k := k + 1)
    (L := fun i t => (if t = i then 1 else 0) + (if t + 1 = i then val0 a.dl t / D a t else 0))
    (U := fun t j => (if t = j then D a t else 0) + (if t + 1 = j then val0 a.du t else 0)) ?_ ?_ ?_
  · rw [this]; simp
  · intro i t _ _ h
    rw [if_neg (by omega), if_neg (by omega), add_zero]
  · intro t j _ _ h
    rw [if_neg (by omega), if_neg (by omega), add_zero]
  · intro i j hi hj
    simp only [add_mul, Finset.sum_add_distrib, ite_mul, one_mul, zero_mul]
    rw [Finset.sum_ite_eq', if_pos (Finset.mem_range.mpr hi)]
    cases i with
    | zero =>
      simp only [Nat.succ_ne_zero, if_false, Finset.sum_const_zero, add_zero]
      unfold triFull
      by_cases h1 : 0 = j
      · subst h1; simp; rfl
      · simp [h1]
    | succ i =>
      have hi' : i < k + 1 := by omega
      simp only [Nat.add_right_cancel_iff]
      rw [Finset.sum_ite_eq', if_pos (Finset.mem_range.mpr hi')]
      unfold triFull
      have hDi := hD i (by omega)
      by_cases h1 : i + 1 = j
      · subst h1
        simp only [if_true, Nat.succ_ne_self, if_false, add_zero,
          show i ≠ i + 1 by omega, zero_add]
        show _ = val0 a.d (i + 1) + val0 a.dl i * P a i + _
        rw [P_eq]; field_simp; ring
      · by_cases h2 : i = j
        · subst h2
          simp only [if_neg h1, if_true, show i + 1 + 1 ≠ i by omega, if_false, add_zero, zero_add]
          field_simp
        · by_cases h3 : i + 1 + 1 = j
          · simp [h1, h2, h3]
          · simp [h1, h2, h3]

theorem regular_iff (a : TriDiag T) (n : Nat) : Regular (triFull a) n ↔ ∀ i, i < n → D a i ≠ 0 :=
  regular_iff_pivots fun k _ h => minor_eq a k h

end rec

section dom
variable [Field T] [LinearOrder T] [IsStrictOrderedRing T]

/-- The entries beside the diagonal are among those of the row. -/
theorem row_sum_le (a : TriDiag T) {n i : Nat} (hi : i < n) : (if 0 < i then |val0 a.dl (i - 1)| else 0) +
    (if i + 1 < n then |val0 a.du i| else 0) ≤ ∑ j ∈ (Finset.range n).erase i, |triFull a i j| := by
  have e1 : ∀ j, (if j + 1 = i then |val0 a.dl (i - 1)| else 0) +
      (if j = i + 1 then |val0 a.du i| else 0) ≤ |triFull a i j| := by
    intro j
    unfold triFull
    by_cases h1 : j + 1 = i
    · subst h1
      simp [show j ≠ j + 1 + 1 by omega, show j + 1 + 1 ≠ j by omega]
    · by_cases h2 : j = i + 1
      · subst h2; simp [show i + 1 + 1 ≠ i by omega]
      · simp only [h1, h2, if_false, add_zero]; exact abs_nonneg _
  calc _ = ∑ j ∈ (Finset.range n).erase i, ((if j + 1 = i then |val0 a.dl (i - 1)| else 0) +
      (if j = i + 1 then |val0 a.du i| else 0)) := by
        rw [Finset.sum_add_distrib, Finset.sum_ite_eq']
        congr 1
        · cases i with
          | zero => simp
          | succ i =>
            simp only [Nat.add_right_cancel_iff]
            rw [Finset.sum_ite_eq', if_pos (Finset.mem_erase.mpr ⟨by omega, Finset.mem_range.mpr (by omega)⟩)]
            simp
        · by_cases h : i + 1 < n
          · rw [if_pos h, if_pos (by simp [h])]
          · rw [if_neg h, if_neg (by simp; omega)]
    _ ≤ _ := Finset.sum_le_sum fun j _ => e1 j

theorem dom_pivots {a : TriDiag T} {n : Nat} (hd : DiagDom (triFull a) n) :
    ∀ i, i < n → D a i ≠ 0 ∧ (i + 1 < n → |P a i| < 1) := by
  have row : ∀ i, i < n → (if 0 < i then |val0 a.dl (i - 1)| else 0) +
      (if i + 1 < n then |val0 a.du i| else 0) < |val0 a.d i| := by
    intro i hi
    have h := hd i hi
    have e : triFull a i i = val0 a.d i := by simp [triFull]
    rw [e] at h
    exact lt_of_le_of_lt (row_sum_le a hi) h
  intro i
  induction i with
  | zero =>
    intro hi
    have h := row 0 hi
    simp only [Nat.lt_irrefl, if_false, zero_add] at h
    have h0 : D a 0 ≠ 0 := by
      intro h0
      have h0 : val0 a.d 0 = 0 := h0
      rw [h0, abs_zero] at h
      split at h
      · exact absurd h (not_lt.mpr (abs_nonneg _))
      · exact absurd h (lt_irrefl _)
    refine ⟨h0, fun h1 => ?_⟩
    rw [P_eq, abs_div, abs_neg, div_lt_one (abs_pos.mpr h0)]
    rw [if_pos h1] at h
    exact h
  | succ i ih =>
    intro hi
    have hP := (ih (by omega)).2 hi
    have h := row (i + 1) hi
    simp only [Nat.succ_pos, if_true, Nat.add_sub_cancel] at h
    have e : D a (i + 1) = val0 a.d (i + 1) + val0 a.dl i * P a i := rfl
    have h1 : |val0 a.dl i * P a i| ≤ |val0 a.dl i| := by
      rw [abs_mul]
      exact mul_le_of_le_one_right (abs_nonneg _) (le_of_lt hP)
    have h2 : |val0 a.d (i + 1)| ≤ |D a (i + 1)| + |val0 a.dl i * P a i| := by
      rw [e]
      calc |val0 a.d (i + 1)| = |(val0 a.d (i + 1) + val0 a.dl i * P a i) - val0 a.dl i * P a i| := by ring_nf
        _ ≤ _ := abs_sub _ _
    have h3 : (if i + 1 + 1 < n then |val0 a.du (i + 1)| else 0) < |D a (i + 1)| := by linarith
    have h0 : D a (i + 1) ≠ 0 := by
      intro h0
      rw [h0, abs_zero] at h3
      split at h3
      · exact absurd h3 (not_lt.mpr (abs_nonneg _))
      · exact absurd h3 (lt_irrefl _)
    refine ⟨h0, fun h4 => ?_⟩
    rw [P_eq, abs_div, abs_neg, div_lt_one (abs_pos.mpr h0)]
    simpa [h4] using h3

end dom

section runOps
variable [Zero T] [Add T] [Sub T] [Mul T] [Neg T] [Div T] [CDiv T] [DivCases T]

/-- The sizes that the kernel relies on. -/
structure Sizes (a : TriDiag T) (n nrow : Nat) (m : Mem T) (b x : Nat) : Prop where
  n2 : 2 ≤ n
  d : a.d.length = n
  dl : a.dl.length + 1 = n
  du : a.du.length + 1 = n
  b : n * nrow ≤ m.len b
  x : n * nrow ≤ m.len x

/-- The only failure: a vanishing pivot. -/
abbrev Fail (a : TriDiag T) (n : Nat) (e : Fault) : Prop := e = .nonFinite ∧ ∃ i, i < n ∧ ¬ DivAt (D a i)

omit [Zero T] [Add T] [Sub T] [Mul T] [Neg T] in
theorem stuckOr (b : T) : (¬ DivAt b ∧ ∀ a, divC a b = .error .nonFinite) ∨ DivAt b := by
  rcases DivCases.cases b with h | h
  · exact .inr h
  · refine .inl ⟨fun h' => ?_, h⟩
    have := h' b
    rw [h] at this
    exact nomatch this

theorem fwd_spec {a : TriDiag T} {n nrow b x k : Nat} {m : Mem T} (hs : Sizes a n nrow m b x)
    (hk : k < nrow) :
    Sat (fun pq => pq.1 = (List.range (n - 1)).map (P a) ∧
        pq.2 = (List.range (n - 1)).map (Q a fun i => entry nrow (m b) i k) ∧ ∀ i, i < n - 1 → DivAt (D a i))
      (Fail a n) (fwd a m n nrow b k) := by
  obtain ⟨n2, hd, hdl, hdu, hb, hx⟩ := hs
  have hcell : ∀ i, i < n → k + i * nrow < m.len b := fun i hi => by
    have := cell_lt hi hk; omega
  unfold fwd
  rw [lrd_val (by omega), ok_bind, lrd_val (by omega), ok_bind]
  rcases stuckOr (val0 a.d 0) with ⟨h0, hz⟩ | h0
  · rw [hz]; exact ⟨rfl, 0, by omega, h0⟩
  · have := hcell 0 (by omega)
    rw [h0, ok_bind, Mem.rd_ok (by omega), ok_bind, h0, ok_bind]
    refine Sat.mono (forRange_sat (I := fun i pq => pq.1 = (List.range i).map (P a) ∧
      pq.2 = (List.range i).map (Q a fun i => entry nrow (m b) i k) ∧ ∀ t, t < i → DivAt (D a t))
      (by omega) ?_ ?_) (fun _ h => h) (fun _ h => h)
    · refine ⟨rfl, ?_, ?_⟩
      · simp [Q, entry, Mem.val]
      · intro t ht
        obtain rfl : t = 0 := by omega
        exact h0
    · rintro i ⟨p, q⟩ h1 h2 ⟨hp, hq, hD⟩
      obtain ⟨i, rfl⟩ : ∃ j, i = j + 1 := ⟨i - 1, by omega⟩
      simp only at hp hq
      subst hp hq
      unfold fwdStep
      have hc := hcell (i + 1) (by omega)
      simp only [Nat.add_sub_cancel]
      rw [lrd_val (by omega), ok_bind, lrd_val (by omega), ok_bind, lrd_val (by simp), ok_bind,
        lrd_val (by omega), ok_bind, val0_map_range, if_pos (by omega)]
      rcases stuckOr (D a (i + 1)) with ⟨h0, hz⟩ | h0
      · have e : ∀ c, divC c (val0 a.d (i + 1) + val0 a.dl i * P a i) = _ := hz
        rw [e]
        exact ⟨rfl, i + 1, by omega, h0⟩
      · have e : DivAt (val0 a.d (i + 1) + val0 a.dl i * P a i) := h0
        rw [e, ok_bind, Mem.rd_ok hc, ok_bind, lrd_val (by simp), ok_bind, e, ok_bind,
          val0_map_range, if_pos (by omega)]
        refine ⟨?_, ?_, ?_⟩
        · rw [List.range_succ (n := i + 1)]
          simp only [List.map_append, List.map_cons, List.map_nil]
          rfl
        · rw [List.range_succ (n := i + 1)]
          simp only [List.map_append, List.map_cons, List.map_nil]
          congr 3
          simp only [entry, Mem.val]
          rw [add_comm ((i + 1) * nrow) k]
        · intro t ht
          by_cases hti : t = i + 1
          · subst hti; exact h0
          · exact hD t (by omega)

/-- One column: the solution is stored in column `k` of `x`, everything else keeps its value. -/
theorem column_spec {a : TriDiag T} {n nrow b x k : Nat} {m : Mem T} (hs : Sizes a n nrow m b x)
    (hk : k < nrow) :
    Sat (fun m' => ∃ l, m' = m.setBuf x l ∧ l.length = m.len x ∧
        BackEq a (fun i => entry nrow (m b) i k) n (fun i => entry nrow l i k) ∧
        (∀ c, (∀ i, i < n → c ≠ i * nrow + k) → val0 l c = val0 (m x) c) ∧ ∀ i, i < n → DivAt (D a i))
      (Fail a n) (column a n nrow b x k m) := by
  unfold column
  refine Sat.bind (fwd_spec hs hk) ?_
  rintro ⟨p, q⟩ ⟨hp, hq, hD⟩
  obtain ⟨n2, hd, hdl, hdu, hb, hx⟩ := hs
  simp only at hp hq
  subst hp hq
  have hcb : ∀ i, i < n → k + i * nrow < m.len b := fun i hi => by
    have := cell_lt hi hk; omega
  have hcx : ∀ i, i < n → i * nrow + k < m.len x := fun i hi => by
    have := cell_lt hi hk; omega
  obtain ⟨n, rfl⟩ : ∃ j, n = j + 2 := ⟨n - 2, by omega⟩
  have hsub : subSize (n + 1) 1 = n := by simp [subSize]
  unfold tailStep
  simp only [show n + 2 - 1 = n + 1 by omega, hsub] at hD ⊢
  have h1 := hcb (n + 1) (by omega)
  have h2 := hcx (n + 1) (by omega)
  rw [Mem.rd_ok h1, ok_bind, lrd_val (by omega), ok_bind, lrd_val (by simp), ok_bind, lrd_val (by omega),
    ok_bind, lrd_val (by simp), ok_bind, val0_map_range, if_pos (by omega), val0_map_range,
    if_pos (by omega)]
  rcases stuckOr (D a (n + 1)) with ⟨h0, hz⟩ | h0
  · have e : ∀ c, divC c (val0 a.d (n + 1) + val0 a.dl n * P a n) = _ := hz
    rw [e]
    exact ⟨rfl, n + 1, by omega, h0⟩
  have e : DivAt (val0 a.d (n + 1) + val0 a.dl n * P a n) := h0
  have hD' : ∀ i, i < n + 2 → DivAt (D a i) := by
    intro i hi
    by_cases h : i = n + 1
    · subst h; exact h0
    · exact hD i (by omega)
  have eq : (m.val b (k + (n + 1) * nrow) - val0 a.dl n * Q a (fun i => entry nrow (m b) i k) n) /
      (val0 a.d (n + 1) + val0 a.dl n * P a n) = Q a (fun i => entry nrow (m b) i k) (n + 1) := by
    simp only [Q, entry, Mem.val, D]
    rw [add_comm ((n + 1) * nrow) k]
  rw [e, ok_bind, eq, add_comm k, Mem.wr_ok h2, ok_bind, Mem.upd_eq_setBuf]
  refine Sat.mono (forDown_sat (I := fun i m' => ∃ l, m' = m.setBuf x l ∧ l.length = m.len x ∧
      entry nrow l (n + 1) k = Q a (fun i => entry nrow (m b) i k) (n + 1) ∧
      (∀ j, i ≤ j → j < n + 1 → entry nrow l j k =
        P a j * entry nrow l (j + 1) k + Q a (fun i => entry nrow (m b) i k) j) ∧
      ∀ c, (∀ i, i < n + 2 → c ≠ i * nrow + k) → val0 l c = val0 (m x) c) (n + 1) _ ?_ ?_) ?_ (fun _ h => h)
  · refine ⟨_, rfl, by simp, ?_, fun j h1 h2 => by omega, ?_⟩
    · unfold entry; rw [val0_set h2, if_pos rfl]
    · intro c hc
      rw [val0_set h2, if_neg (hc (n + 1) (by omega))]
  · rintro i m' hi ⟨l, rfl, hl, hn, he, hf⟩
    unfold backStep
    have hci := hcx i (by omega)
    have hci1 := hcx (i + 1) (by omega)
    rw [lrd_val (by simp; omega), ok_bind, Mem.setBuf_rd_self, lrd_val (by omega), ok_bind,
      lrd_val (by simp; omega), ok_bind, val0_map_range, if_pos (by omega), val0_map_range, if_pos (by omega),
      add_comm k, add_comm k, Mem.setBuf_wr _ _ (by omega)]
    have hent : ∀ j v, entry nrow (l.set (i * nrow + k) v) j k = if j = i then v else entry nrow l j k := by
      intro j v
      unfold entry
      rw [val0_set (by omega)]
      by_cases hji : j = i
      · subst hji; simp
      · rw [if_neg hji, if_neg (fun h => hji ((cell_inj hk hk).mp h).1)]
    refine ⟨_, rfl, by simp [hl], ?_, ?_, ?_⟩
    · rw [hent, if_neg (by omega), hn]
    · intro j h3 h4
      rw [hent, hent, if_neg (show j + 1 ≠ i by omega)]
      by_cases hji : j = i
      · subst hji; rw [if_pos rfl]; rfl
      · rw [if_neg hji]; exact he j (by omega) h4
    · intro c hc
      rw [val0_set (by omega), if_neg (hc i (by omega))]
      exact hf c hc
  · rintro m' ⟨l, rfl, hl, hn, he, hf⟩
    exact ⟨l, rfl, hl, ⟨hn, fun i hi => he i (by omega) (by omega)⟩, hf, hD'⟩

end runOps

section run
variable [Field T] [DecidableEq T]

/-- All columns; `b` and `x` may be the same buffer. -/
theorem tdma_spec {a : TriDiag T} {n nrow b x : Nat} {m : Mem T} (hs : Sizes a n nrow m b x) :
    Sat (fun m' => ∃ l, m' = m.setBuf x l ∧ l.length = m.len x ∧
        (∀ k, k < nrow → Solves n (triFull a) (fun i => entry nrow l i k) (fun i => entry nrow (m b) i k)) ∧
        (∀ c, n * nrow ≤ c → val0 l c = val0 (m x) c) ∧ (0 < nrow → ∀ i, i < n → D a i ≠ 0))
      (Fail a n) (tdma a n nrow b x m) := by
  unfold tdma
  refine Sat.mono (forRange_sat (I := fun k m' => ∃ l, m' = m.setBuf x l ∧ l.length = m.len x ∧
      (∀ k', k' < k → Solves n (triFull a) (fun i => entry nrow l i k') (fun i => entry nrow (m b) i k')) ∧
      (∀ k' i, k ≤ k' → k' < nrow → i < n → entry nrow l i k' = entry nrow (m x) i k') ∧
      (∀ c, n * nrow ≤ c → val0 l c = val0 (m x) c) ∧ (0 < k → ∀ i, i < n → D a i ≠ 0)) (Nat.zero_le _) ?_ ?_)
    ?_ (fun _ h => h)
  · exact ⟨m x, (Mem.setBuf_same _ _).symm, rfl, fun k h => by omega, fun _ _ _ _ _ => rfl, fun _ _ => rfl,
      fun h => by omega⟩
  · rintro k m' - hk ⟨l, rfl, hl, hsol, hrest, hout, hDD⟩
    have hlx : (m.setBuf x l).len x = m.len x := by
      show (m.setBuf x l x).length = _
      rw [Mem.setBuf_self, hl]
    have hlb : (m.setBuf x l).len b = m.len b := by
      by_cases hbx : b = x
      · subst hbx; exact hlx
      · show (m.setBuf x l b).length = _
        rw [Mem.setBuf_other _ hbx]
    have hs' : Sizes a n nrow (m.setBuf x l) b x :=
      ⟨hs.n2, hs.d, hs.dl, hs.du, by rw [hlb]; exact hs.b, by rw [hlx]; exact hs.x⟩
    have hB : ∀ i, i < n → entry nrow ((m.setBuf x l) b) i k = entry nrow (m b) i k := by
      intro i hi
      by_cases hbx : b = x
      · subst hbx; rw [Mem.setBuf_self]; exact hrest k i (Nat.le_refl _) hk hi
      · rw [Mem.setBuf_other _ hbx]
    refine Sat.mono (column_spec hs' hk) ?_ (fun _ h => h)
    rintro m'' ⟨l', rfl, hl', hback, hframe, hD⟩
    have hD : ∀ i, i < n → D a i ≠ 0 := fun i hi => divAt_iff.mp (hD i hi)
    rw [Mem.setBuf_self] at hframe
    refine ⟨l', Mem.setBuf_setBuf _ _ _ _, by rw [hl', hlx], ?_, ?_, ?_, fun _ => hD⟩
    · intro k' hk'
      by_cases hkk : k' = k
      · subst hkk
        intro i hi
        rw [solves hs.n2 hD hback i hi]
        exact hB i hi
      · intro i hi
        have := hsol k' (by omega) i hi
        rw [← this]
        unfold mulVec
        apply Finset.sum_congr rfl
        intro j hj
        congr 1
        apply hframe
        intro t _ he
        exact hkk ((cell_inj (by omega) hk).mp he).2
    · intro k' i h1 h2 hi
      rw [← hrest k' i (by omega) h2 hi]
      apply hframe
      intro t _ he
      have := ((cell_inj h2 hk).mp he).2
      omega
    · intro c hc
      rw [← hout c hc]
      apply hframe
      intro i hi he
      have := cell_lt hi hk
      omega
  · rintro m' ⟨l, rfl, hl, hsol, -, hout, hD⟩
    exact ⟨l, rfl, hl, hsol, hout, hD⟩

end run
end Tdma
end Lalib
