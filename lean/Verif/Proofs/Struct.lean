import Verif.Spec.Struct
import Verif.Proofs.Fill
import Verif.Spec.Basic
import Mathlib.Algebra.Field.Basic
import Mathlib.Tactic.Linarith
import Mathlib.Tactic.FieldSimp

/-! # Lemmas about the structured matrices -/

namespace Lalib

variable {T : Type}

/-! ## Packed positions -/

theorem tri_succ (k : Nat) : (k + 1 + 1) * (k + 1) / 2 = (k + 1) * k / 2 + (k + 1) := by
  have : (k + 1 + 1) * (k + 1) = (k + 1) * k + (k + 1) * 2 := by ring
  rw [this, Nat.add_mul_div_right _ _ (by omega)]

theorem tri_two (k : Nat) : 2 * ((k + 1) * k / 2) = (k + 1) * k := by
  have := Nat.even_mul_succ_self k
  rw [Nat.mul_comm] at this
  exact Nat.mul_div_cancel' this.two_dvd

theorem off_mono {off w : Nat → Nat} (h : ∀ j, off (j + 1) = off j + w j) {j j' : Nat} (hj : j < j') :
    off j + w j ≤ off j' := by
  induction j' with
  | zero => omega
  | succ k ih =>
    rw [h k]
    by_cases hk : j = k
    · subst hk; omega
    · have := ih (by omega); omega

/-- Consecutive blocks do not overlap. -/
theorem pack_inj {off w : Nat → Nat} (h : ∀ j, off (j + 1) = off j + w j) {i j i' j' : Nat}
    (hi : i < w j) (hi' : i' < w j') (he : off j + i = off j' + i') : i = i' ∧ j = j' := by
  rcases Nat.lt_trichotomy j j' with hj | hj | hj
  · have := off_mono h hj; omega
  · subst hj; omega
  · have := off_mono h hj; omega

/-- Offset of column `j` of a packed Hessenberg matrix. -/
def hOff (j : Nat) : Nat := ((j + 1) * j) / 2 + j

theorem hOff_succ (j : Nat) : hOff (j + 1) = hOff j + (j + 2) := by
  unfold hOff; rw [tri_succ]; omega

/-- Offset of column `j` of a packed upper-triangular matrix. -/
def uOff (j : Nat) : Nat := ((j + 1) * j) / 2

theorem uOff_succ (j : Nat) : uOff (j + 1) = uOff j + (j + 1) := tri_succ j

theorem uOff_mono {j j' : Nat} (h : j ≤ j') : uOff j ≤ uOff j' := by
  rcases Nat.lt_or_eq_of_le h with h | rfl
  · have := off_mono (w := fun j => j + 1) uOff_succ h; omega
  · exact Nat.le_refl _

theorem hOff_mono {j j' : Nat} (h : j ≤ j') : hOff j ≤ hOff j' := by
  rcases Nat.lt_or_eq_of_le h with h | rfl
  · have := off_mono (w := fun j => j + 2) hOff_succ h; omega
  · exact Nat.le_refl _

theorem hOff_inj {i j i' j' : Nat} (hi : i ≤ j + 1) (hi' : i' ≤ j' + 1)
    (he : hOff j + i = hOff j' + i') : i = i' ∧ j = j' :=
  pack_inj (w := fun j => j + 2) hOff_succ (by omega) (by omega) he

theorem uOff_inj {i j i' j' : Nat} (hi : i ≤ j) (hi' : i' ≤ j')
    (he : uOff j + i = uOff j' + i') : i = i' ∧ j = j' :=
  pack_inj (w := fun j => j + 1) uOff_succ (by omega) (by omega) he

/-! ## Perfect squares -/

/-- What is assumed of `static_cast<size_t>(std::sqrt(k))`: exact on perfect squares below `2^64`
(`sqrtExact_double` proves it of correctly rounded double arithmetic). -/
def SqrtExact (rt : Nat → Nat) : Prop := ∀ k, k * k < 2 ^ 64 → rt (k * k) = k

theorem sqrtExact_natSqrt : SqrtExact Nat.sqrt := fun k _ => Nat.sqrt_eq k

theorem hess_square {L s : Nat} (h : L + 1 = s * (s + 3) / 2) :
    17 + 8 * L = (2 * s + 3) * (2 * s + 3) := by
  have e : 2 * (s * (s + 3) / 2) = s * (s + 3) := by
    apply Nat.mul_div_cancel'
    have h1 := (Nat.even_mul_succ_self s).two_dvd
    have : s * (s + 3) = s * (s + 1) + 2 * s := by ring
    rw [this]; omega
  have : (2 * s + 3) * (2 * s + 3) = 4 * (s * (s + 3)) + 9 := by ring
  omega

theorem square_hess {L q : Nat} (hL : 0 < L) (h : 17 + 8 * L = q * q) :
    1 ≤ (q - 3) / 2 ∧ L + 1 = (q - 3) / 2 * ((q - 3) / 2 + 3) / 2 := by
  have h5 : 5 ≤ q := by
    by_contra hq
    have : q * q ≤ 4 * 4 := Nat.mul_le_mul (by omega) (by omega)
    omega
  obtain ⟨s, hs | hs⟩ : ∃ s, q = 2 * s + 3 ∨ q = 2 * s + 2 := ⟨(q - 2) / 2, by omega⟩
  · have e : (q - 3) / 2 = s := by omega
    rw [e]
    refine ⟨by omega, ?_⟩
    subst hs
    have : (2 * s + 3) * (2 * s + 3) = 4 * (s * (s + 3)) + 9 := by ring
    omega
  · subst hs
    have : (2 * s + 2) * (2 * s + 2) = 2 * (2 * (s * s) + 4 * s + 2) := by ring
    omega

theorem utri_square {L s : Nat} (h : L = s * (s + 1) / 2) : 1 + 8 * L = (2 * s + 1) * (2 * s + 1) := by
  have e : 2 * (s * (s + 1) / 2) = s * (s + 1) := Nat.mul_div_cancel' (Nat.even_mul_succ_self s).two_dvd
  have : (2 * s + 1) * (2 * s + 1) = 4 * (s * (s + 1)) + 1 := by ring
  omega

theorem square_utri {L q : Nat} (h : 1 + 8 * L = q * q) : L = (q - 1) / 2 * ((q - 1) / 2 + 1) / 2 := by
  have h1 : 1 ≤ q := by
    by_contra hq
    have : q = 0 := by omega
    subst this; omega
  obtain ⟨s, hs | hs⟩ : ∃ s, q = 2 * s + 1 ∨ q = 2 * s + 2 := ⟨(q - 1) / 2, by omega⟩
  · have e : (q - 1) / 2 = s := by omega
    rw [e]
    subst hs
    have : (2 * s + 1) * (2 * s + 1) = 4 * (s * (s + 1)) + 1 := by ring
    omega
  · subst hs
    have : (2 * s + 2) * (2 * s + 2) = 2 * (2 * (s * s) + 4 * s + 2) := by ring
    omega

/-! ## Hessenberg accesses -/

namespace Hess

theorem get_band [Zero T] (a : Hess T) {i j : Nat} (h : i ≤ j + 1) :
    a.get i j = lrd a.h (hOff j + i) := by simp [get, h, hOff]

theorem set_band (a : Hess T) {i j : Nat} (h : i ≤ j + 1) (hl : hOff j + i < a.h.length) (v : T) :
    a.set i j v = .ok { a with h := a.h.set (hOff j + i) v } := by
  have hl' : (j + 1) * j / 2 + j + i < a.h.length := hl
  simp [set, h, hOff, lwr_ok hl']

theorem get_low [Zero T] (a : Hess T) {i j : Nat} (h : ¬ i ≤ j + 1) : a.get i j = .ok 0 := by
  simp [get, h]

theorem set_low (a : Hess T) {i j : Nat} (h : ¬ i ≤ j + 1) (v : T) :
    a.set i j v = .error (.throw .invalidArgument) := by simp [set, h]

end Hess

namespace UTri

theorem get_band [Zero T] (a : UTri T) {i j : Nat} (h : i ≤ j) :
    a.get i j = lrd a.u (uOff j + i) := by simp [get, h, uOff]

theorem set_band (a : UTri T) {i j : Nat} (h : i ≤ j) (hl : uOff j + i < a.u.length) (v : T) :
    a.set i j v = .ok { a with u := a.u.set (uOff j + i) v } := by
  have hl' : (j + 1) * j / 2 + i < a.u.length := hl
  simp [set, h, uOff, lwr_ok hl']

theorem get_low [Zero T] (a : UTri T) {i j : Nat} (h : ¬ i ≤ j) : a.get i j = .ok 0 := by
  simp [get, h]

theorem set_low (a : UTri T) {i j : Nat} (h : ¬ i ≤ j) (v : T) :
    a.set i j v = .error (.throw .invalidArgument) := by simp [set, h]

end UTri

/-- `lrd` after a `set`. -/
theorem lrd_set {l : List T} {p : Nat} (hp : p < l.length) (v : T) (q : Nat) :
    lrd (l.set p v) q = if q = p then .ok v else lrd l q := by
  by_cases h : q = p
  · subst h; simp [lrd, hp]
  · rw [if_neg h]; simp [lrd, List.getElem?_set_ne (Ne.symm h)]

theorem lrd_append_left {l l' : List T} {p : Nat} (hp : p < l.length) : lrd (l ++ l') p = lrd l p := by
  simp [lrd, List.getElem?_append_left hp]

theorem lrd_append_right {l l' : List T} {p : Nat} (hp : l.length ≤ p) :
    lrd (l ++ l') p = lrd l' (p - l.length) := by
  simp [lrd, List.getElem?_append_right hp]

/-! ## Lower packing -/

theorem packIdx_comm (i j : Nat) : packIdx i j = packIdx j i := by
  unfold packIdx
  rcases Nat.lt_trichotomy i j with h | rfl | h
  · simp [h, Nat.not_lt.mpr (Nat.le_of_lt h)]
  · rfl
  · simp [h, Nat.not_lt.mpr (Nat.le_of_lt h)]

theorem packIdx_ge {i j : Nat} (h : j ≤ i) : packIdx i j = uOff i + j := by
  unfold packIdx uOff
  rw [if_neg (by omega), Nat.mul_comm]

theorem packIdx_lt {n i j : Nat} (hi : i < n) (hj : j < n) : packIdx i j < n * (n + 1) / 2 := by
  have e : n * (n + 1) / 2 = uOff n := by unfold uOff; rw [Nat.mul_comm]
  rw [e]
  rcases Nat.le_total j i with h | h
  · rw [packIdx_ge h]
    have := off_mono (w := fun j => j + 1) uOff_succ hi; omega
  · rw [packIdx_comm, packIdx_ge h]
    have := off_mono (w := fun j => j + 1) uOff_succ hj; omega

theorem packIdx_inj {i j i' j' : Nat} (h : packIdx i j = packIdx i' j') :
    (i = i' ∧ j = j') ∨ (i = j' ∧ j = i') := by
  have key : ∀ a b a' b', b ≤ a → b' ≤ a' → packIdx a b = packIdx a' b' → a = a' ∧ b = b' := by
    intro a b a' b' h1 h2 he
    rw [packIdx_ge h1, packIdx_ge h2] at he
    have := uOff_inj h1 h2 he
    exact ⟨this.2, this.1⟩
  rcases Nat.le_total j i with h1 | h1 <;> rcases Nat.le_total j' i' with h2 | h2
  · exact .inl (key _ _ _ _ h1 h2 h)
  · rw [packIdx_comm i' j'] at h; exact .inr (key _ _ _ _ h1 h2 h)
  · rw [packIdx_comm i j] at h; have := key _ _ _ _ h1 h2 h; exact .inr ⟨this.2, this.1⟩
  · rw [packIdx_comm i j, packIdx_comm i' j'] at h
    have := key _ _ _ _ h1 h2 h; exact .inl ⟨this.2, this.1⟩

/-! ## Back substitution -/

section field
variable [Field T] [DecidableEq T]

omit [DecidableEq T] in
theorem backSub_row (a : UTri T) {R : Nat → Nat → T} {n i : Nat} (hi : i < n)
    (hR : ∀ j, j < n → a.get i j = .ok (R i j)) (y : List T) (hy : y.length = n) :
    forRange (i + 1) n (fun j y => do
      let yi ← lrd y i
      let rij ← a.get i j
      let yj ← lrd y j
      lwr y i (yi - rij * yj)) y =
      .ok (y.set i (val0 y i - ∑ j ∈ Finset.Ico (i + 1) n, R i j * val0 y j)) := by
  have h0 : y = y.set i (val0 y i) := by rw [val0_of_lt (by omega), List.set_getElem_self]
  conv_lhs => rw [h0]
  have := acc_through (h := fun v => y.set i v) (f := fun j y => do
      let yi ← lrd y i
      let rij ← a.get i j
      let yj ← lrd y j
      lwr y i (yi - rij * yj)) (g := fun j => - (R i j * val0 y j)) (lo := i + 1) (hi := n)
      (by omega) (val0 y i) ?_
  · simp only [Finset.sum_neg_distrib, ← sub_eq_add_neg] at this
    exact this
  · intro k v h1 h2
    rw [lrd_set (by omega), if_pos rfl, ok_bind, hR k h2, ok_bind, lrd_set (by omega),
      if_neg (by omega), lrd_val (by omega), ok_bind, lwr_ok (by simp; omega), List.set_set,
      sub_eq_add_neg]

theorem backSub_ok (a : UTri T) {R : Nat → Nat → T} {y : List T} (hy : y.length = a.n)
    (hR : ∀ i j, i < a.n → j < a.n → a.get i j = .ok (R i j)) (hd : ∀ i, i < a.n → R i i ≠ 0) :
    ∃ x, a.backSub y = .ok x ∧ x.length = a.n ∧
      ∀ i, i < a.n → ∑ j ∈ Finset.Ico i a.n, R i j * val0 x j = val0 y i := by
  have key : Ok (fun x : List T => x.length = a.n ∧ (∀ k, k < 0 → val0 x k = val0 y k) ∧
      ∀ i, 0 ≤ i → i < a.n → ∑ j ∈ Finset.Ico i a.n, R i j * val0 x j = val0 y i)
      (a.backSub y) := by
    unfold UTri.backSub
    simp only [hy, bne_self_eq_false, throwIf_false, ok_bind]
    refine forDown_sat (I := fun i (x : List T) => x.length = a.n ∧
      (∀ k, k < i → val0 x k = val0 y k) ∧
      ∀ k, i ≤ k → k < a.n → ∑ j ∈ Finset.Ico k a.n, R k j * val0 x j = val0 y k) _ _
      ⟨hy, fun _ _ => rfl, fun k h1 h2 => by omega⟩ ?_
    rintro i x hi ⟨hl, hlo, hhi⟩
    rw [backSub_row a hi (fun j hj => hR i j hi hj) x hl]
    simp only [ok_bind]
    rw [lrd_set (by omega), if_pos rfl, hR i i hi hi]
    simp only [ok_bind]
    rw [divC_ok (hd i hi)]
    simp only [ok_bind]
    rw [lwr_ok (by simp; omega), List.set_set]
    refine ⟨by simpa using hl, ?_, ?_⟩
    · intro k hk
      rw [val0_set (by omega), if_neg (by omega), hlo k (by omega)]
    · intro k h1 h2
      rw [Finset.sum_congr rfl (g := fun j => R k j * (if j = i then
        (val0 x i - ∑ j ∈ Finset.Ico (i + 1) a.n, R i j * val0 x j) / R i i else val0 x j))
        (fun j hj => by rw [val0_set (by omega)])]
      by_cases hk : k = i
      · subst hk
        have hq := mul_div_cancel₀ (val0 x k - ∑ j ∈ Finset.Ico (k + 1) a.n, R k j * val0 x j)
          (hd k h2)
        generalize (val0 x k - ∑ j ∈ Finset.Ico (k + 1) a.n, R k j * val0 x j) / R k k = q at hq ⊢
        have hs : ∑ j ∈ Finset.Ico (k + 1) a.n, R k j * (if j = k then q else val0 x j) =
            ∑ j ∈ Finset.Ico (k + 1) a.n, R k j * val0 x j :=
          Finset.sum_congr rfl fun j hj => by rw [Finset.mem_Ico] at hj; rw [if_neg (by omega)]
        rw [Finset.sum_eq_sum_Ico_succ_bot h2, if_pos rfl, hs, hq, hlo k (by omega)]; ring
      · rw [← hhi k (by omega) h2]
        exact Finset.sum_congr rfl fun j hj => by
          rw [Finset.mem_Ico] at hj; rw [if_neg (by omega)]
  obtain ⟨x, h1, h2, _, h3⟩ := key.exists
  exact ⟨x, h1, h2, fun i hi => h3 i (Nat.zero_le _) hi⟩

omit [DecidableEq T] in
/-- A triangular system with non-zero diagonal has at most one solution. -/
theorem upper_unique {R : Nat → Nat → T} {n : Nat} (hd : ∀ i, i < n → R i i ≠ 0) {x x' : Nat → T}
    (h : ∀ i, i < n → ∑ j ∈ Finset.Ico i n, R i j * x j = ∑ j ∈ Finset.Ico i n, R i j * x' j) :
    ∀ i, i < n → x i = x' i := by
  have : ∀ k i, n ≤ i + k → i < n → x i = x' i := by
    intro k
    induction k with
    | zero => intro i h1 h2; omega
    | succ k ih =>
      intro i h1 h2
      have e := h i h2
      rw [Finset.sum_eq_sum_Ico_succ_bot h2, Finset.sum_eq_sum_Ico_succ_bot h2,
        Finset.sum_congr rfl (g := fun j => R i j * x' j) (fun j hj => by
          rw [Finset.mem_Ico] at hj; rw [ih j (by omega) hj.2])] at e
      exact mul_left_cancel₀ (hd i h2) (add_right_cancel e)
  intro i hi
  exact this n i (by omega) hi

end field

/-- The rows of an upper-triangular matrix start at the diagonal. -/
theorem upper_row_sum [CommRing T] {R : Nat → Nat → T} {n i : Nat} (x : Nat → T) (hi : i < n)
    (hz : ∀ j, j < i → R i j = 0) :
    ∑ j ∈ Finset.range n, R i j * x j = ∑ j ∈ Finset.Ico i n, R i j * x j := by
  rw [Finset.range_eq_Ico, ← Finset.sum_Ico_consecutive _ (Nat.zero_le i) (Nat.le_of_lt hi),
    Finset.sum_eq_zero, zero_add]
  intro j hj
  rw [Finset.mem_Ico] at hj
  rw [hz j hj.2, zero_mul]

/-! ## Tri-diagonal and Hessenberg positions -/

theorem subSize_one {i j : Nat} (hi : i < 2 ^ 64 - 1) : i = subSize j 1 ↔ i + 1 = j := by
  unfold subSize; split <;> omega

theorem tri_get {a : TriDiag T} {n : Nat} (hw : TriWf a n) {i j : Nat} (hi : i < n) (hj : j < n)
    (hb : InBand i j) : ∃ v, a.get i j = .ok v ∧ triElem a i j = some v := by
  obtain ⟨h1, h2, h3, h4⟩ := hw
  unfold TriDiag.get triElem
  rcases hb with rfl | rfl | rfl
  · simp only [if_pos]
    exact ⟨_, lrd_ok (by omega), List.getElem?_eq_getElem (by omega)⟩
  · rw [if_neg (by omega), if_pos ((subSize_one (by omega)).mpr rfl), if_neg (by omega),
      if_pos (by omega)]
    exact ⟨_, lrd_ok (by omega), List.getElem?_eq_getElem (by omega)⟩
  · rw [if_neg (by omega), if_neg (by rw [subSize_one (by omega)]; omega), if_pos rfl,
      if_neg (by omega), if_neg (by omega)]
    exact ⟨_, lrd_ok (by simp; omega), List.getElem?_eq_getElem (by omega)⟩

theorem hOff_eq (n : Nat) : hOff n = n * (n + 3) / 2 := by
  unfold hOff
  rw [show n * (n + 3) = (n + 1) * n + n * 2 by ring, Nat.add_mul_div_right _ _ (by omega)]

theorem hessSize_len {L s : Nat} (h : HessSize L s) : ∃ t, HessLen s t L := by
  rcases h with ⟨rfl, rfl⟩ | ⟨_, h⟩
  · exact ⟨true, rfl⟩
  · exact ⟨false, by simp [HessLen, h]⟩

theorem hess_idx {n : Nat} {t : Bool} {L i j : Nat} (hl : HessLen n t L) (hs : HessStored n t i j) :
    hOff j + i < L := by
  obtain ⟨h1, h2, h3⟩ := hs
  have hm := off_mono (w := fun j => j + 2) hOff_succ h1
  unfold HessLen at hl
  rw [← hOff_eq] at hl
  cases t with
  | true => simp only [if_true] at hl; omega
  | false =>
    simp only [Bool.false_eq_true, if_false, or_false] at hl h3
    by_cases h : j + 1 = n
    · subst h; have := hOff_succ j; omega
    · have h1' : j + 1 < n := by omega
      have hm' := off_mono (w := fun j => j + 2) hOff_succ h1'
      have := hOff_succ j
      omega

theorem hess_extend_len {n : Nat} {t : Bool} {L : Nat} (hl : HessLen n t L) :
    HessLen (n + 1) t (L + (n + 2)) := by
  unfold HessLen at *
  rw [← hOff_eq] at *
  rw [hOff_succ]
  cases t <;> simp_all; omega

theorem hess_old [Zero T] {n : Nat} {t : Bool} {a : Hess T} (hl : HessLen n t a.h.length) {i j : Nat}
    (hs : HessStored n t i j) (k : Nat) (es : List T) :
    (⟨k, a.h ++ es⟩ : Hess T).get i j = a.get i j := by
  rw [Hess.get_band _ hs.2.1, Hess.get_band _ hs.2.1]
  exact lrd_append_left (hess_idx hl hs)

/-- A position which is new after an extension. -/
theorem hess_new [Zero T] {n : Nat} {t : Bool} {a : Hess T} (hl : HessLen n t a.h.length) (es : List T)
    (hes : es.length = n + 2) {i j : Nat} (hs : HessStored (n + 1) t i j) (hn : ¬ HessStored n t i j)
    (k : Nat) :
    (⟨k, a.h ++ es⟩ : Hess T).get i j = .ok (val0 es (if t then i else if j = n then i + 1 else 0)) ∧
      (j = n ∨ (t = false ∧ j + 1 = n ∧ i = n)) := by
  obtain ⟨h1, h2, h3⟩ := hs
  have hc : j = n ∨ (t = false ∧ j + 1 = n ∧ i = n) := by
    by_cases hj : j = n
    · exact .inl hj
    · right
      have h4 : ¬ (i < n ∨ t = true) := fun h => hn ⟨by omega, h2, h⟩
      push Not at h4
      exact ⟨by simpa using h4.2, by omega, by omega⟩
  refine ⟨?_, hc⟩
  rw [Hess.get_band _ h2]
  simp only
  unfold HessLen at hl
  rw [← hOff_eq] at hl
  rcases hc with rfl | ⟨rfl, rfl, rfl⟩
  · cases t with
    | true =>
      simp only [if_true] at hl
      rw [lrd_append_right (by omega), lrd_val (by omega)]
      congr 2; simp; omega
    | false =>
      simp only [Bool.false_eq_true, if_false, or_false] at hl h3
      rw [lrd_append_right (by omega), lrd_val (by omega)]
      congr 2; simp; omega
  · simp only [Bool.false_eq_true, if_false] at hl
    have := hOff_succ j
    rw [lrd_append_right (by omega), lrd_val (by omega)]
    congr 2; simp; omega

theorem uOff_eq (n : Nat) : uOff n = n * (n + 1) / 2 := by unfold uOff; rw [Nat.mul_comm]

theorem utri_idx {n i j : Nat} (hj : j < n) (hi : i ≤ j) : uOff j + i < n * (n + 1) / 2 := by
  rw [← uOff_eq]
  have := off_mono (w := fun j => j + 1) uOff_succ hj
  omega

end Lalib
