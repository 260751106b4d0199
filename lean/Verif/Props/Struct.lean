import Verif.Proofs.Struct
import Verif.Proofs.SqrtDouble
import Mathlib.Data.Complex.Basic

/-! # Properties C18-C23: structured matrices -/

namespace Lalib.Props

open Lalib

variable {T : Type}

/-! ## C18: tri-diagonal matrices

The three vectors have the lengths of an `n x n` tri-diagonal matrix (by type for `SizedTriDiagMat`, by
convention for `DynTriDiagMat`); sizes are below `2^64`. -/

/-- Reading inside the band (through either overload) returns the stored element. -/
theorem C18_read_in_band_partial (sized : Bool) (a : TriDiag T) (n : Nat) (hw : TriWf a n) (i j : Nat)
    (hi : i < n) (hj : j < n) (hb : InBand i j) :
    ∃ v, a.get i j = .ok v ∧ a.getMut sized i j = .ok v ∧ triElem a i j = some v := by
  obtain ⟨v, h1, h2⟩ := tri_get hw hi hj hb
  refine ⟨v, h1, ?_, h2⟩
  have : a.getMut sized i j = a.get i j := by
    unfold TriDiag.getMut TriDiag.get
    split
    · rfl
    · split
      · rfl
      · split
        · rfl
        · next h1 h2 h3 =>
          obtain ⟨hd, _, _, h4⟩ := hw
          rw [subSize_one (by omega)] at h2
          rcases hb with h | h | h <;> contradiction
  rw [this, h1]

/-- The claim "reading outside the band returns 0" is false at *every* position outside the band: the
`const` overload returns a dangling reference. -/
theorem C18_read_off_band_false (a : TriDiag T) (n : Nat) (hw : TriWf a n) (i j : Nat)
    (hi : i < n) (hb : ¬ InBand i j) : a.get i j = .error (.ub .dangling) := by
  obtain ⟨h1, h2, h3, h4⟩ := hw
  unfold InBand at hb
  push Not at hb
  unfold TriDiag.get
  rw [if_neg hb.1, if_neg (by rw [subSize_one (by omega)]; exact hb.2.1), if_neg hb.2.2]

/-- Witness: element `(0, 2)` of a 3 x 3 tri-diagonal matrix cannot be read. -/
theorem C18_read_off_band_witness :
    (⟨[1, 2], [3, 4, 5], [6, 7]⟩ : TriDiag Int).get 0 2 ≠ .ok 0 := by
  rw [C18_read_off_band_false _ 3 (by refine ⟨rfl, rfl, rfl, by norm_num⟩) 0 2 (by omega)
    (by unfold InBand; omega)]
  simp

/-- Reading outside the band of a non-const matrix with `operator()` throws. -/
theorem C18_read_mut_off_band (sized : Bool) (a : TriDiag T) (n : Nat) (hw : TriWf a n) (i j : Nat)
    (hi : i < n) (hb : ¬ InBand i j) :
    a.getMut sized i j = .error (.throw (if sized then .outOfRange else .invalidArgument)) := by
  obtain ⟨h1, h2, h3, h4⟩ := hw
  unfold InBand at hb
  push Not at hb
  unfold TriDiag.getMut
  rw [if_neg hb.1, if_neg (by rw [subSize_one (by omega)]; exact hb.2.1), if_neg hb.2.2]
  rfl

/-- Writing inside the band changes exactly that element. -/
theorem C18_write_in_band (sized : Bool) (a : TriDiag T) (n : Nat) (hw : TriWf a n) (i j : Nat)
    (hi : i < n) (hj : j < n) (hb : InBand i j) (v : T) :
    ∃ a', a.set sized i j v = .ok a' ∧ TriWf a' n ∧ a'.get i j = .ok v ∧
      ∀ i' j', i' < n → j' < n → InBand i' j' → (i', j') ≠ (i, j) → a'.get i' j' = a.get i' j' := by
  have hw' := hw
  obtain ⟨h1, h2, h3, h4⟩ := hw'
  rcases hb with rfl | rfl | rfl
  · refine ⟨{ a with d := a.d.set i v }, ?_, ⟨by simpa using h1, h2, h3, h4⟩, ?_, ?_⟩
    · simp only [TriDiag.set, if_true]; rw [lwr_ok (by omega)]; rfl
    · simp only [TriDiag.get, if_true]; rw [lrd_set (by omega), if_pos rfl]
    · intro i' j' hi' hj' hb hne
      unfold TriDiag.get
      by_cases h : i' = j'
      · subst h
        simp only [if_true]; rw [lrd_set (by omega), if_neg (by simpa using hne)]
      · simp [h]
  · refine ⟨{ a with du := a.du.set i v }, ?_, ⟨h1, h2, by simpa using h3, h4⟩, ?_, ?_⟩
    · unfold TriDiag.set
      rw [if_neg (by omega), if_pos ((subSize_one (by omega)).mpr rfl), lwr_ok (by omega)]; rfl
    · unfold TriDiag.get
      rw [if_neg (by omega), if_pos ((subSize_one (by omega)).mpr rfl)]
      simp only; rw [lrd_set (by omega), if_pos rfl]
    · intro i' j' hi' hj' hb hne
      unfold TriDiag.get
      split
      · rfl
      · split
        · next h =>
          simp only
          rw [subSize_one (by omega)] at h
          rw [lrd_set (by omega), if_neg (by intro he; apply hne; rw [← h, he])]
        · rfl
  · refine ⟨{ a with dl := a.dl.set j v }, ?_, ⟨h1, by simpa using h2, h3, h4⟩, ?_, ?_⟩
    · unfold TriDiag.set
      rw [if_neg (by omega), if_neg (by rw [subSize_one (by omega)]; omega), if_pos rfl,
        lwr_ok (by simp; omega)]; rfl
    · unfold TriDiag.get
      rw [if_neg (by omega), if_neg (by rw [subSize_one (by omega)]; omega), if_pos rfl]
      simp only [Nat.add_sub_cancel]; rw [lrd_set (by omega), if_pos rfl]
    · intro i' j' hi' hj' hb hne
      unfold TriDiag.get
      split
      · rfl
      · split
        · rfl
        · split
          · next h =>
            subst h
            simp only [Nat.add_sub_cancel]
            rw [lrd_set (by omega), if_neg (by intro he; apply hne; rw [he])]
          · rfl

/-- Writing outside the band throws; no new state is produced. -/
theorem C18_write_off_band (sized : Bool) (a : TriDiag T) (n : Nat) (hw : TriWf a n) (i j : Nat)
    (hi : i < n) (hb : ¬ InBand i j) (v : T) :
    a.set sized i j v = .error (.throw (if sized then .outOfRange else .invalidArgument)) := by
  obtain ⟨h1, h2, h3, h4⟩ := hw
  unfold InBand at hb
  push Not at hb
  unfold TriDiag.set
  rw [if_neg hb.1, if_neg (by rw [subSize_one (by omega)]; exact hb.2.1), if_neg hb.2.2]
  rfl

/-- Non-vacuity: a 3 x 3 matrix; the wrap-around of `j - 1` at `j = 0` is harmless. -/
example : TriWf (⟨[1, 2], [3, 4, 5], [6, 7]⟩ : TriDiag Int) 3 := ⟨rfl, rfl, rfl, by norm_num⟩
example : (⟨[1, 2], [3, 4, 5], [6, 7]⟩ : TriDiag Int).set false 1 0 9 = .ok ⟨[9, 2], [3, 4, 5], [6, 7]⟩ := rfl

/-! ## C19: Hessenberg construction and access -/

theorem C19_construct (rt : Nat → Nat) (hrt : SqrtExact rt) (v : List T) (hb : 17 + 8 * v.length < 2 ^ 64) :
    (∀ s, HessSize v.length s → ∃ a, Hess.new rt v = .ok a ∧ a.shape = (s, s) ∧ a.h = v) ∧
    ((¬ ∃ s, HessSize v.length s) → Hess.new rt v = .error (.throw .invalidArgument)) := by
  constructor
  · rintro s (⟨h0, rfl⟩ | ⟨hs, h⟩)
    · exact ⟨⟨0, v⟩, by simp [Hess.new, Hess.calcSize, h0], rfl, rfl⟩
    · have hne : v.length ≠ 0 := by
        intro h0
        rw [h0] at h
        have : 1 * (1 + 3) ≤ s * (s + 3) := Nat.mul_le_mul hs (by omega)
        omega
      have hsq := hess_square h
      refine ⟨⟨s, v⟩, ?_, rfl, rfl⟩
      have hr := hrt (2 * s + 3) (by rw [← hsq]; exact hb)
      simp [Hess.new, Hess.calcSize, hne, hsq, hr]
  · intro hno
    have hne : v.length ≠ 0 := fun h0 => hno ⟨0, .inl ⟨h0, rfl⟩⟩
    have : 17 + 8 * v.length ≠ rt (17 + 8 * v.length) * rt (17 + 8 * v.length) := by
      intro h
      obtain ⟨h1, h2⟩ := square_hess (by omega) h
      exact hno ⟨_, .inr ⟨h1, h2⟩⟩
    simp [Hess.new, Hess.calcSize, hne, this]

/-- The shape is determined by the number of elements. -/
theorem C19_size_unique (L s s' : Nat) (h : HessSize L s) (h' : HessSize L s') : s = s' := by
  rcases h with ⟨h0, rfl⟩ | ⟨h1, h2⟩ <;> rcases h' with ⟨h0', rfl⟩ | ⟨h1', h2'⟩
  · rfl
  · subst h0
    have : 1 * (1 + 3) ≤ s' * (s' + 3) := Nat.mul_le_mul h1' (by omega)
    omega
  · subst h0'
    have : 1 * (1 + 3) ≤ s * (s + 3) := Nat.mul_le_mul h1 (by omega)
    omega
  · have e1 := hess_square h2
    have e2 := hess_square h2'
    rw [e1] at e2
    have := Nat.mul_self_inj.mp e2
    omega

/-- Every in-range position on or above the sub-diagonal addresses its own element inside the storage; a
write changes exactly one element. -/
theorem C19_access [Zero T] (a : Hess T) (t : Bool) (hl : HessLen a.n t a.h.length) (i j : Nat)
    (hi : i < a.n) (hj : j < a.n) (hb : i ≤ j + 1) (v : T) :
    (∃ w, a.get i j = .ok w ∧ a.getMut i j = .ok w) ∧
    ∃ a', a.set i j v = .ok a' ∧ a'.n = a.n ∧ a'.h.length = a.h.length ∧ a'.get i j = .ok v ∧
      ∀ i' j', (i', j') ≠ (i, j) → a'.get i' j' = a.get i' j' := by
  have hx := hess_idx hl (i := i) (j := j) ⟨hj, hb, .inl hi⟩
  refine ⟨⟨val0 a.h (hOff j + i), ?_, ?_⟩, _, Hess.set_band a hb hx v, rfl, by simp, ?_, ?_⟩
  · rw [Hess.get_band a hb, lrd_val hx]
  · have : a.getMut i j = lrd a.h (hOff j + i) := by simp [Hess.getMut, hb, hOff]
    rw [this, lrd_val hx]
  · rw [Hess.get_band _ hb]; simp only; rw [lrd_set hx, if_pos rfl]
  · intro i' j' hne
    by_cases hb' : i' ≤ j' + 1
    · rw [Hess.get_band _ hb', Hess.get_band _ hb']
      simp only
      rw [lrd_set hx, if_neg]
      intro he
      obtain ⟨rfl, rfl⟩ := hOff_inj hb' hb he
      exact hne rfl
    · rw [Hess.get_low _ hb', Hess.get_low _ hb']

/-- Positions below the sub-diagonal read 0 through `at` / the const overload, and throw through the mutable
overload. -/
theorem C19_below [Zero T] (a : Hess T) (i j : Nat) (hb : j + 1 < i) (v : T) :
    a.get i j = .ok 0 ∧ a.getMut i j = .error (.throw .invalidArgument) ∧
    a.set i j v = .error (.throw .invalidArgument) :=
  ⟨Hess.get_low a (by omega), by simp [Hess.getMut, Nat.not_le.mpr hb], Hess.set_low a (by omega) v⟩

/-- An accepted vector gives a matrix to which `C19_access` applies. -/
theorem C19_construct_len (rt : Nat → Nat) (hrt : SqrtExact rt) (v : List T)
    (hb : 17 + 8 * v.length < 2 ^ 64) (a : Hess T) (h : Hess.new rt v = .ok a) :
    ∃ t, HessLen a.n t a.h.length := by
  obtain ⟨h1, h2⟩ := C19_construct rt hrt v hb
  by_cases hs : ∃ s, HessSize v.length s
  · obtain ⟨s, hs⟩ := hs
    obtain ⟨a', ha', hsh, hv⟩ := h1 s hs
    rw [h] at ha'
    cases ha'
    have : a.n = s := by simpa [Hess.shape] using hsh
    rw [this, hv]
    exact hessSize_len hs
  · rw [h2 hs] at h; cases h

/-- The square root of double arithmetic is exact on the perfect squares below `2^64`, although most of them are not
doubles: the assumption of the theorems on constructors holds for it. -/
theorem C19_sqrt_double : SqrtExact sqrtDouble := sqrtExact_double

/-- The constructor with this square root. -/
theorem C19_construct_double (v : List T) (hb : 17 + 8 * v.length < 2 ^ 64) :
    (∀ s, HessSize v.length s → ∃ a, Hess.new sqrtDouble v = .ok a ∧ a.shape = (s, s) ∧ a.h = v) ∧
    ((¬ ∃ s, HessSize v.length s) → Hess.new sqrtDouble v = .error (.throw .invalidArgument)) :=
  C19_construct sqrtDouble sqrtExact_double v hb

/-- Non-vacuity: 8 elements make a 3 x 3 matrix; 7 elements are rejected. -/
example : Hess.new Nat.sqrt [1, 2, 3, 4, 5, 6, 7, (8 : Int)] = .ok ⟨3, [1, 2, 3, 4, 5, 6, 7, 8]⟩ := by
  obtain ⟨a, h1, h2, h3⟩ := (C19_construct Nat.sqrt sqrtExact_natSqrt
    [1, 2, 3, 4, 5, 6, 7, (8 : Int)] (by norm_num)).1 3 (.inr ⟨by omega, rfl⟩)
  obtain ⟨n, v⟩ := a
  rw [h1]
  simp only [Hess.shape, Prod.mk.injEq, and_self] at h2 h3
  rw [h2, h3]
example : ¬ ∃ s, HessSize 7 s := by
  rintro ⟨s, ⟨h, _⟩ | ⟨_, h⟩⟩
  · omega
  · have h' := hess_square h
    rcases Nat.lt_or_ge s 3 with h1 | h1
    · have : (2 * s + 3) * (2 * s + 3) ≤ 7 * 7 := Nat.mul_le_mul (by omega) (by omega)
      omega
    · have : 9 * 9 ≤ (2 * s + 3) * (2 * s + 3) := Nat.mul_le_mul (by omega) (by omega)
      omega

/-! ## C20: growing a Hessenberg matrix -/

theorem C20_step [Zero T] (a : Hess T) (s : HView T) (h : HShows a s) (op : HOp T) (hv : op.Valid s.n) :
    ∃ a', hessExec a op = .ok a' ∧ HShows a' (s.step op) := by
  obtain ⟨hn, hl, hg⟩ := h
  cases op with
  | write i j v =>
    by_cases hb : i ≤ j + 1
    · have hij : i < s.n ∧ j < s.n := by
        rcases hv with h | h
        · exact h
        · omega
      have hst : HessStored s.n s.tail i j := ⟨hij.2, hb, .inl hij.1⟩
      have hx := hess_idx hl hst
      refine ⟨{ a with h := a.h.set (hOff j + i) v }, by simp [hessExec, Hess.set_band a hb hx], ?_⟩
      simp only [HView.step, hb, if_true]
      refine ⟨hn, by simpa using hl, ?_⟩
      intro i' j' hs'
      simp only at hs' ⊢
      rw [Hess.get_band _ hs'.2.1]
      simp only
      rw [lrd_set hx]
      by_cases he : i' = i ∧ j' = j
      · obtain ⟨rfl, rfl⟩ := he; simp
      · rw [if_neg, if_neg he, ← Hess.get_band a hs'.2.1, hg _ _ hs']
        intro h; exact he (hOff_inj hs'.2.1 hb h)
    · refine ⟨a, by simp [hessExec, Hess.set_low a hb], ?_⟩
      simp only [HView.step, hb, if_false]
      exact ⟨hn, hl, hg⟩
  | extZero =>
    by_cases h0 : s.n = 0
    · have hL : a.h = [] := by
        rw [h0] at hl
        unfold HessLen at hl
        cases ht : s.tail <;> simp_all
      refine ⟨⟨1, [0]⟩, by simp [hessExec, Hess.extendWithZero, hn, h0, hL], ?_⟩
      simp only [HView.step, h0, if_true]
      refine ⟨rfl, by simp [HessLen], ?_⟩
      rintro i j ⟨h1, h2, h3⟩
      simp only [Nat.lt_one_iff, Bool.false_eq_true, or_false] at h1 h3
      subst h1 h3
      simp [Hess.get, lrd]
    · refine ⟨⟨s.n + 1, a.h ++ List.replicate (s.n + 2) 0⟩,
        by simp [hessExec, Hess.extendWithZero, hn, h0], ?_⟩
      simp only [HView.step, h0, if_false]
      refine ⟨rfl, by simpa using hess_extend_len hl, ?_⟩
      intro i j hs
      simp only at hs ⊢
      by_cases ho : HessStored s.n s.tail i j
      · rw [hess_old hl ho, hg _ _ ho, if_neg]
        rintro (rfl | ⟨h1, rfl, h2⟩)
        · exact absurd ho.1 (by omega)
        · rcases ho.2.2 with h | h
          · omega
          · rw [h2] at h; cases h
      · obtain ⟨e, hc⟩ := hess_new hl (List.replicate (s.n + 2) (0 : T)) (by simp) hs ho (s.n + 1)
        have hz : ∀ p, val0 (List.replicate (s.n + 2) (0 : T)) p = 0 := by
          intro p; rw [val0_replicate]; split <;> rfl
        rw [e, hz, if_pos (by
          rcases hc with h | ⟨h1, h2, h3⟩
          · exact .inl h
          · exact .inr ⟨h2, h3, h1⟩)]
  | ext es =>
    by_cases hes : es.length = s.n + 2
    · refine ⟨⟨s.n + 1, a.h ++ es⟩, by simp [hessExec, Hess.extendWith, hn, hes], ?_⟩
      simp only [HView.step, hes, ne_eq, not_true_eq_false, if_false]
      cases ht : s.tail with
      | true =>
        rw [ht] at hl hg
        simp only [if_true]
        refine ⟨rfl, by simpa [hes] using hess_extend_len hl, ?_⟩
        intro i j hs
        simp only at hs ⊢
        by_cases ho : HessStored s.n true i j
        · rw [hess_old hl ho, hg _ _ ho, if_neg (by have := ho.1; omega)]
        · obtain ⟨e, hc⟩ := hess_new hl es hes hs ho (s.n + 1)
          rw [e]
          rcases hc with h | ⟨h1, h2, h3⟩
          · simp [h]
          · cases h1
      | false =>
        rw [ht] at hl hg
        simp only [Bool.false_eq_true, if_false]
        refine ⟨rfl, by simpa [hes] using hess_extend_len hl, ?_⟩
        intro i j hs
        simp only at hs ⊢
        by_cases ho : HessStored s.n false i j
        · obtain ⟨h1, h2, h3⟩ := ho
          rw [hess_old hl ⟨h1, h2, h3⟩, hg _ _ ⟨h1, h2, h3⟩, if_neg (by omega),
            if_neg (by simp at h3; omega)]
        · obtain ⟨e, hc⟩ := hess_new hl es hes hs ho (s.n + 1)
          rw [e]
          rcases hc with h | ⟨h1, h2, h3⟩
          · simp [h]
          · simp [show j ≠ s.n by omega, h2, h3]
    · refine ⟨a, ?_, ?_⟩
      · simp only [hessExec, Hess.extendWith, hn]
        rw [throwIf_ne hes]; rfl
      · simp only [HView.step, ne_eq, hes, not_false_eq_true, if_true]
        exact ⟨hn, hl, hg⟩

/-- After any history of writes and extensions the matrix shows exactly what the history says; no operation
of it runs into undefined behaviour. -/
theorem C20_history [Zero T] (h : List (HOp T)) (a : Hess T) (s : HView T) (hs : HShows a s)
    (hv : HValid s h) : ∃ a', h.foldlM hessExec a = .ok a' ∧ HShows a' (h.foldl HView.step s) := by
  induction h generalizing a s with
  | nil => exact ⟨a, rfl, hs⟩
  | cons op h ih =>
    obtain ⟨b, hb, hsb⟩ := C20_step a s hs op hv.1
    obtain ⟨c, hc, hsc⟩ := ih b _ hsb hv.2
    refine ⟨c, ?_, hsc⟩
    simp only [List.foldlM_cons, hb]
    exact hc

/-- Every accepted matrix is a starting point for `C20_history`; so is an empty one with capacity. -/
theorem C20_start [Zero T] (rt : Nat → Nat) (hrt : SqrtExact rt) (v : List T)
    (hb : 17 + 8 * v.length < 2 ^ 64) (a : Hess T) (h : Hess.new rt v = .ok a) :
    ∃ s, HShows a s ∧ s.n = a.n := by
  obtain ⟨t, ht⟩ := C19_construct_len rt hrt v hb a h
  refine ⟨⟨a.n, t, fun i j => val0 a.h (hOff j + i)⟩, ⟨rfl, ht, ?_⟩, rfl⟩
  intro i j hs
  rw [Hess.get_band _ hs.2.1, lrd_val (hess_idx ht hs)]

theorem C20_start_empty [Zero T] (rt : Nat → Nat) (cap : Nat) (f : Nat → Nat → T) :
    ∃ a, Hess.withCapacity rt cap = .ok a ∧ HShows a ⟨0, true, f⟩ :=
  ⟨⟨0, []⟩, rfl, rfl, by simp [HessLen], fun i j h => absurd h.1 (by simp)⟩

/-- Both extensions add one row and one column and keep every element of the old square. -/
theorem C20_extend_keeps [Zero T] (a : Hess T) (t : Bool) (hl : HessLen a.n t a.h.length) :
    (∃ a', a.extendWithZero = .ok a' ∧ a'.n = a.n + 1 ∧
      ∀ i j, i < a.n → j < a.n → a'.get i j = a.get i j) ∧
    (∀ es : List T, es.length = a.n + 2 → ∃ a', a.extendWith es = .ok a' ∧ a'.n = a.n + 1 ∧
      ∀ i j, i < a.n → j < a.n → a'.get i j = a.get i j) := by
  have key : ∀ k (es : List T) i j, i < a.n → j < a.n →
      (⟨k, a.h ++ es⟩ : Hess T).get i j = a.get i j := by
    intro k es i j hi hj
    by_cases hb : i ≤ j + 1
    · exact hess_old hl ⟨hj, hb, .inl hi⟩ k es
    · rw [Hess.get_low _ hb, Hess.get_low _ hb]
  constructor
  · exact ⟨_, rfl, rfl, fun i j hi hj => key _ _ i j hi hj⟩
  · intro es hes
    refine ⟨_, by simp only [Hess.extendWith, hes, bne_self_eq_false, throwIf_false, ok_bind]; rfl, rfl,
      fun i j hi hj => key _ _ i j hi hj⟩

/-- A wrong length throws, and the matrix is unchanged. -/
theorem C20_extend_wrong_length (a : Hess T) (es : List T) (h : es.length ≠ a.n + 2) :
    a.extendWith es = .error (.throw .invalidArgument) ∧
      (Hess.extendWithKept es a).res = .error (.throw .invalidArgument) ∧ (Hess.extendWithKept es a).obj = a := by
  simp only [Hess.extendWith, Hess.extendWithKept, Kept.run, Kept.check, throwIf_ne h, error_bind, and_self]

/-- The form which keeps the object is the same function. -/
theorem C20_extend_same (a : Hess T) (es : List T) : a.extendWith es = (Hess.extendWithKept es a).toRes := by
  by_cases h : es.length = a.n + 2
  · simp [Hess.extendWith, Hess.extendWithKept, Kept.run, Kept.check, Kept.toRes, h, Except.map]
  · simp only [Hess.extendWith, Hess.extendWithKept, Kept.run, Kept.check, throwIf_ne h, error_bind]; rfl

/-- Where the elements go when a matrix holding just its square is extended: the first one at `(n, n-1)`,
the others down the new column. -/
theorem C20_extend_placement_partial [Zero T] (a : Hess T) (hl : HessLen a.n false a.h.length)
    (es : List T) (hes : es.length = a.n + 2) :
    ∃ a', a.extendWith es = .ok a' ∧ (∀ j, j + 1 = a.n → a'.get a.n j = .ok (val0 es 0)) ∧
      ∀ i, i ≤ a.n → a'.get i a.n = .ok (val0 es (i + 1)) := by
  refine ⟨⟨a.n + 1, a.h ++ es⟩, by simp [Hess.extendWith, hes], ?_, ?_⟩
  · intro j hj
    have := (hess_new hl es hes (i := a.n) (j := j) ⟨by omega, by omega, .inl (by omega)⟩
      (by rintro ⟨_, _, h | h⟩ <;> simp_all) (a.n + 1)).1
    rw [this]; simp [show j ≠ a.n by omega]
  · intro i hi
    have := (hess_new hl es hes (i := i) (j := a.n) ⟨by omega, by omega, .inl (by omega)⟩
      (by rintro ⟨h, _⟩; omega) (a.n + 1)).1
    rw [this]; simp

/-- Extending with zeros puts zeros on every new position, when the matrix holds just its square. -/
theorem C20_extend_zero_placement_partial [Zero T] (a : Hess T) (hl : HessLen a.n false a.h.length)
    (i j : Nat) (hi : i ≤ a.n) (hj : j ≤ a.n) (hn : i = a.n ∨ j = a.n) :
    ∃ a', a.extendWithZero = .ok a' ∧ a'.get i j = .ok 0 := by
  refine ⟨_, rfl, ?_⟩
  have h0 : a.n ≠ 0 := by
    intro h; rw [h] at hl; simp [HessLen] at hl
  by_cases hb : i ≤ j + 1
  · rw [if_neg h0]
    have := (hess_new hl (List.replicate (a.n + 2) (0 : T)) (by simp) (i := i) (j := j)
      ⟨by omega, hb, .inl (by omega)⟩ (by rintro ⟨_, _, h | h⟩ <;> simp_all; omega) (a.n + 1)).1
    rw [this, val0_replicate, ite_self]
  · rw [Hess.get_low _ hb]

/-- The documented placement fails for a matrix which was grown from empty: `extend_with` on an empty matrix
takes two elements, keeps the second hidden, and a later `extend_with_zero` shows it at `(1, 0)`. -/
theorem C20_extend_zero_false : ∃ a b : Hess Int,
    (⟨0, []⟩ : Hess Int).extendWith [1, 2] = .ok a ∧ a.shape = (1, 1) ∧
      a.extendWithZero = .ok b ∧ b.get 1 0 = .ok 2 :=
  ⟨⟨1, [1, 2]⟩, ⟨2, [1, 2, 0, 0, 0]⟩, rfl, rfl, rfl, rfl⟩

/-- `get_col` returns exactly the stored elements of the column: rows `0 .. j+1`, without row `n` when that
is not stored. -/
theorem C20_get_col [Zero T] (a : Hess T) (t : Bool) (hl : HessLen a.n t a.h.length) (j : Nat)
    (hj : j < a.n) : ∃ c, a.getCol j = .ok c ∧
      c.length = (if j + 1 < a.n ∨ t = true then j + 2 else j + 1) ∧
      ∀ i, i < c.length → a.get i j = .ok (val0 c i) := by
  have h0 := hess_idx hl (i := j) (j := j) ⟨hj, by omega, .inl hj⟩
  have hlen : min (hOff j + j + 2) a.h.length - hOff j =
      (if j + 1 < a.n ∨ t = true then j + 2 else j + 1) := by
    split
    · next h =>
      have := hess_idx hl (i := j + 1) (j := j) ⟨hj, by omega, h⟩
      omega
    · next h =>
      push Not at h
      have hn : a.n = j + 1 := by omega
      have ht : t = false := by simpa using h.2
      subst ht
      unfold HessLen at hl
      rw [← hOff_eq, hn, hOff_succ] at hl
      simp only [Bool.false_eq_true, if_false] at hl
      omega
  refine ⟨(a.h.drop (hOff j)).take (min (hOff j + j + 2) a.h.length - hOff j), ?_, ?_, ?_⟩
  · unfold Hess.getCol
    simp only
    rw [if_pos (by unfold hOff at h0; omega)]
    rfl
  · rw [← hlen]; simp; omega
  · intro i hi
    simp only [List.length_take, List.length_drop] at hi
    have hij : i ≤ j + 1 := by rw [hlen] at hi; split at hi <;> omega
    rw [Hess.get_band _ hij, lrd_val (by omega)]
    simp [val0, List.getElem?_take, List.getElem?_drop]
    rw [if_pos (by omega)]

/-- Non-vacuity: a history with writes, extensions, a rejected extension and a rejected write. -/
example : [HOp.ext [5, 6, 7], .write 2 0 9, .extZero, .ext [1], .write 2 1 8].foldlM hessExec
    (⟨1, [4]⟩ : Hess Int) = .ok ⟨3, [4, 5, 6, 7, 8, 0, 0, 0]⟩ := rfl
example : HValid (⟨1, false, fun _ _ => 4⟩ : HView Int)
    [.ext [5, 6, 7], .write 2 0 9, .extZero, .ext [1], .write 2 1 8] := by
  simp [HValid, HOp.Valid, HView.step]

/-! ## C21: upper-triangular matrices -/

/-- Triangular-number sizes are accepted with the right shape; any other size ends the program, because the
constructor is `noexcept`: the claim "reported to the caller" is false (see `C21_reject_false`). -/
theorem C21_construct_partial (rt : Nat → Nat) (hrt : SqrtExact rt) (v : List T)
    (hb : 1 + 8 * v.length < 2 ^ 64) :
    (∀ s, v.length = s * (s + 1) / 2 → ∃ a, UTri.new rt v = .ok a ∧ a.shape = (s, s) ∧ a.u = v) ∧
    ((¬ ∃ s, v.length = s * (s + 1) / 2) → UTri.new rt v = .error .terminate) := by
  constructor
  · intro s h
    have hsq := utri_square h
    have hr := hrt (2 * s + 1) (by rw [← hsq]; exact hb)
    exact ⟨⟨s, v⟩, by simp [UTri.new, UTri.calcSize, hsq, hr], rfl, rfl⟩
  · intro hno
    have : 1 + 8 * v.length ≠ rt (1 + 8 * v.length) * rt (1 + 8 * v.length) := fun h =>
      hno ⟨_, square_utri h⟩
    simp [UTri.new, UTri.calcSize, this]

/-- A wrong size is never reported: no call of the constructor throws to its caller. -/
theorem C21_reject_false (rt : Nat → Nat) (v : List T) (e : Exn) : UTri.new rt v ≠ .error (.throw e) := by
  unfold UTri.new
  generalize (do let n ← UTri.calcSize rt v.length; Except.ok (⟨n, v⟩ : UTri T) : Res (UTri T)) = r
  cases r with
  | ok a => simp
  | error f => cases f <;> simp [noexcept]

/-- Witness: two elements are not a triangle; the program ends. -/
theorem C21_reject_witness (rt : Nat → Nat) :
    UTri.new rt [(1 : Int), 2] = .error .terminate := by
  have : 1 + 8 * 2 ≠ rt 17 * rt 17 := by
    intro h
    rcases Nat.lt_or_ge (rt 17) 5 with h1 | h1
    · have : rt 17 * rt 17 ≤ 4 * 4 := Nat.mul_le_mul (by omega) (by omega)
      omega
    · have : 5 * 5 ≤ rt 17 * rt 17 := Nat.mul_le_mul h1 h1
      omega
  simp [UTri.new, UTri.calcSize, this]

/-- The shape is determined by the number of elements. -/
theorem C21_size_unique (s s' : Nat) (h : s * (s + 1) / 2 = s' * (s' + 1) / 2) : s = s' := by
  have e1 := utri_square (s := s) rfl
  have e2 := utri_square (s := s') rfl
  rw [h, e2] at e1
  have := Nat.mul_self_inj.mp e1
  omega

/-- In-range positions on or above the diagonal address distinct elements in storage. -/
theorem C21_access [Zero T] (a : UTri T) (hl : a.u.length = a.n * (a.n + 1) / 2) (i j : Nat)
    (hj : j < a.n) (hb : i ≤ j) (v : T) :
    (∃ w, a.get i j = .ok w ∧ a.getMut i j = .ok w) ∧
    ∃ a', a.set i j v = .ok a' ∧ a'.n = a.n ∧ a'.u.length = a.u.length ∧ a'.get i j = .ok v ∧
      ∀ i' j', (i', j') ≠ (i, j) → a'.get i' j' = a.get i' j' := by
  have hx : uOff j + i < a.u.length := by rw [hl]; exact utri_idx hj hb
  refine ⟨⟨val0 a.u (uOff j + i), ?_, ?_⟩, _, UTri.set_band a hb hx v, rfl, by simp, ?_, ?_⟩
  · rw [UTri.get_band a hb, lrd_val hx]
  · have : a.getMut i j = lrd a.u (uOff j + i) := by simp [UTri.getMut, hb, uOff]
    rw [this, lrd_val hx]
  · rw [UTri.get_band _ hb]; simp only; rw [lrd_set hx, if_pos rfl]
  · intro i' j' hne
    by_cases hb' : i' ≤ j'
    · rw [UTri.get_band _ hb', UTri.get_band _ hb']
      simp only
      rw [lrd_set hx, if_neg]
      intro he
      obtain ⟨rfl, rfl⟩ := uOff_inj hb' hb he
      exact hne rfl
    · rw [UTri.get_low _ hb', UTri.get_low _ hb']

theorem C21_below [Zero T] (a : UTri T) (i j : Nat) (hb : j < i) (v : T) :
    a.get i j = .ok 0 ∧ a.getMut i j = .error (.throw .invalidArgument) ∧
    a.set i j v = .error (.throw .invalidArgument) :=
  ⟨UTri.get_low a (by omega), by simp [UTri.getMut, Nat.not_le.mpr hb], UTri.set_low a (by omega) v⟩

theorem C21_step [Zero T] (a : UTri T) (s : UView T) (h : UShows a s) (op : HOp T) (hv : op.UValid s.n) :
    ∃ a', utriExec a op = .ok a' ∧ UShows a' (s.step op) := by
  obtain ⟨hn, hl, hg⟩ := h
  have hold : ∀ k (es : List T) i j, j < s.n → i ≤ j → (⟨k, a.u ++ es⟩ : UTri T).get i j = a.get i j := by
    intro k es i j hj hi
    rw [UTri.get_band _ hi, UTri.get_band _ hi]
    exact lrd_append_left (by rw [hl]; exact utri_idx hj hi)
  have hnew : ∀ k (es : List T) i, es.length = s.n + 1 → i ≤ s.n →
      (⟨k, a.u ++ es⟩ : UTri T).get i s.n = .ok (val0 es i) := by
    intro k es i hes hi
    rw [UTri.get_band _ hi]
    simp only
    have hle : a.u.length = uOff s.n := by rw [hl, uOff_eq]
    rw [lrd_append_right (by omega), lrd_val (by omega)]
    congr 2; omega
  have hlen : ∀ es : List T, es.length = s.n + 1 →
      (a.u ++ es).length = (s.n + 1) * (s.n + 1 + 1) / 2 := by
    intro es hes
    rw [List.length_append, hes, hl, ← uOff_eq, ← uOff_eq, uOff_succ]
  cases op with
  | write i j v =>
    by_cases hb : i ≤ j
    · have hij : i < s.n ∧ j < s.n := by
        rcases hv with h | h
        · exact h
        · omega
      obtain ⟨_, a', h1, h2, h3, h4, h5⟩ := C21_access a (by rw [hn]; exact hl) i j
        (by rw [hn]; exact hij.2) hb v
      refine ⟨a', by simp [utriExec, h1], ?_⟩
      simp only [UView.step, hb, if_true]
      refine ⟨by rw [h2, hn], by rw [h3, hl], ?_⟩
      intro i' j' hj' hb'
      simp only at hj' ⊢
      by_cases he : i' = i ∧ j' = j
      · obtain ⟨rfl, rfl⟩ := he; simp [h4]
      · rw [if_neg he, h5 _ _ (by simpa using he), hg _ _ hj' hb']
    · refine ⟨a, by simp [utriExec, UTri.set_low a hb], ?_⟩
      simp only [UView.step, hb, if_false]
      exact ⟨hn, hl, hg⟩
  | extZero =>
    refine ⟨⟨s.n + 1, a.u ++ List.replicate (s.n + 1) 0⟩, by simp [utriExec, UTri.extendWithZero, hn], ?_⟩
    refine ⟨rfl, hlen _ (by simp), ?_⟩
    intro i j hj hb
    simp only [UView.step] at hj ⊢
    by_cases h : j = s.n
    · subst h
      rw [hnew _ _ _ (by simp) hb, if_pos rfl, val0_replicate, if_pos (by omega)]
    · rw [hold _ _ _ _ (by omega) hb, if_neg h, hg _ _ (by omega) hb]
  | ext es =>
    by_cases hes : es.length = s.n + 1
    · refine ⟨⟨s.n + 1, a.u ++ es⟩, by simp [utriExec, UTri.extendWith, hn, hes], ?_⟩
      simp only [UView.step, hes, ne_eq, not_true_eq_false, if_false]
      refine ⟨rfl, hlen _ hes, ?_⟩
      intro i j hj hb
      simp only at hj ⊢
      by_cases h : j = s.n
      · subst h
        rw [hnew _ _ _ hes hb, if_pos rfl]
      · rw [hold _ _ _ _ (by omega) hb, if_neg h, hg _ _ (by omega) hb]
    · refine ⟨a, ?_, ?_⟩
      · simp only [utriExec, UTri.extendWith, hn]
        rw [throwIf_ne hes]; rfl
      · simp only [UView.step, ne_eq, hes, not_false_eq_true, if_true]
        exact ⟨hn, hl, hg⟩

/-- After any history of writes and extensions the matrix shows exactly what the history says. -/
theorem C21_history [Zero T] (h : List (HOp T)) (a : UTri T) (s : UView T) (hs : UShows a s)
    (hv : UValid s h) : ∃ a', h.foldlM utriExec a = .ok a' ∧ UShows a' (h.foldl UView.step s) := by
  induction h generalizing a s with
  | nil => exact ⟨a, rfl, hs⟩
  | cons op h ih =>
    obtain ⟨b, hb, hsb⟩ := C21_step a s hs op hv.1
    obtain ⟨c, hc, hsc⟩ := ih b _ hsb hv.2
    refine ⟨c, ?_, hsc⟩
    simp only [List.foldlM_cons, hb]
    exact hc

/-- `extend_with` with a wrong length throws, and the matrix is unchanged. -/
theorem C21_extend_wrong_length (a : UTri T) (es : List T) (h : es.length ≠ a.n + 1) :
    a.extendWith es = .error (.throw .invalidArgument) ∧
      (UTri.extendWithKept es a).res = .error (.throw .invalidArgument) ∧ (UTri.extendWithKept es a).obj = a := by
  simp only [UTri.extendWith, UTri.extendWithKept, Kept.run, Kept.check, throwIf_ne h, error_bind, and_self]

/-- The form which keeps the object is the same function. -/
theorem C21_extend_same (a : UTri T) (es : List T) : a.extendWith es = (UTri.extendWithKept es a).toRes := by
  by_cases h : es.length = a.n + 1
  · simp [UTri.extendWith, UTri.extendWithKept, Kept.run, Kept.check, Kept.toRes, h, Except.map]
  · simp only [UTri.extendWith, UTri.extendWithKept, Kept.run, Kept.check, throwIf_ne h, error_bind]; rfl

/-- Every constructed matrix is a starting point for `C21_history`. -/
theorem C21_start [Zero T] (rt : Nat → Nat) (hrt : SqrtExact rt) (v : List T)
    (hb : 1 + 8 * v.length < 2 ^ 64) (a : UTri T) (h : UTri.new rt v = .ok a) :
    ∃ s, UShows a s ∧ s.n = a.n := by
  obtain ⟨h1, h2⟩ := C21_construct_partial rt hrt v hb
  by_cases hs : ∃ s, v.length = s * (s + 1) / 2
  · obtain ⟨s, hs⟩ := hs
    obtain ⟨a', ha', hsh, hv⟩ := h1 s hs
    rw [h] at ha'
    cases ha'
    have hn : a.n = s := by simpa [UTri.shape] using hsh
    refine ⟨⟨a.n, fun i j => val0 a.u (uOff j + i)⟩, ⟨rfl, by rw [hv, hs, hn], ?_⟩, rfl⟩
    intro i j hj hb
    rw [UTri.get_band _ hb, lrd_val (by rw [hv, hs, ← hn]; exact utri_idx hj hb)]
  · rw [h2 hs] at h; cases h

/-- Non-vacuity. -/
example : [HOp.ext [5, 6], .write 1 0 9, .extZero, .write 1 2 8].foldlM utriExec (⟨1, [4]⟩ : UTri Int) =
    .ok ⟨3, [4, 5, 6, 0, 8, 0]⟩ := rfl

/-! ## C22: back substitution -/

/-- `back_sub` replaces `y` by the unique solution of `R x = y`. -/
theorem C22_solves [Field T] [DecidableEq T] (a : UTri T) (R : Nat → Nat → T) (y : List T)
    (hy : y.length = a.n) (hR : ∀ i j, i < a.n → j < a.n → a.get i j = .ok (R i j))
    (hd : ∀ i, i < a.n → R i i ≠ 0) :
    ∃ x, a.backSub y = .ok x ∧ x.length = a.n ∧
      (∀ i, i < a.n → ∑ j ∈ Finset.range a.n, R i j * val0 x j = val0 y i) ∧
      ∀ x' : List T, x'.length = a.n →
        (∀ i, i < a.n → ∑ j ∈ Finset.range a.n, R i j * val0 x' j = val0 y i) → x' = x := by
  have hz : ∀ i j, i < a.n → j < i → R i j = 0 := by
    intro i j hi hj
    have := hR i j hi (by omega)
    rw [UTri.get_low a (by omega)] at this
    injection this with this; exact this.symm
  obtain ⟨x, h1, h2, h3⟩ := backSub_ok a hy hR hd
  refine ⟨x, h1, h2, fun i hi => ?_, fun x' hx' h' => ?_⟩
  · rw [upper_row_sum _ hi (fun j hj => hz i j hi hj), h3 i hi]
  · apply list_ext_val0 (by rw [hx', h2])
    intro i hi
    refine upper_unique hd (fun i hi => ?_) i (by omega)
    rw [h3 i hi, ← h' i hi, upper_row_sum _ hi (fun j hj => hz i j hi hj)]

/-- A vector of the wrong size is rejected and unchanged. -/
theorem C22_wrong_size [Field T] [DecidableEq T] (a : UTri T) (y : List T) (hy : y.length ≠ a.n) :
    a.backSub y = .error (.throw .invalidArgument) ∧
      (a.backSubKept y).res = .error (.throw .invalidArgument) ∧ (a.backSubKept y).obj = y := by
  simp only [UTri.backSub, UTri.backSubKept, Kept.run, Kept.check, throwIf_ne hy, error_bind, and_self]

/-- The form which keeps the object is the same function. -/
theorem C22_same [Field T] [DecidableEq T] (a : UTri T) (y : List T) : a.backSub y = (a.backSubKept y).toRes := by
  by_cases h : y.length = a.n
  · simp only [UTri.backSub, UTri.backSubKept, Kept.run, Kept.check, Kept.toRes, h, bne_self_eq_false, throwIf_false,
      ok_bind]
    cases a.backSubLoop y <;> rfl
  · simp only [UTri.backSub, UTri.backSubKept, Kept.run, Kept.check, throwIf_ne h, error_bind]; rfl

/-- Non-vacuity: a 2 x 2 system with a solution that is not the right-hand side. -/
example : (⟨2, [2, 1, 4]⟩ : UTri Rat).backSub [5, 8] = .ok [3 / 2, 2] := by
  decide +kernel

/-! ## C23: packed lower-triangular and Hermitian matrices -/

/-- `(i, j)` and `(j, i)` of a Hermitian matrix are one element; distinct unordered pairs are distinct
elements; a write changes exactly the pair. -/
theorem C23_hermite_pairs (a : Herm T) (hl : a.l.length = a.n * (a.n + 1) / 2) (i j : Nat)
    (hi : i < a.n) (hj : j < a.n) (v : T) :
    (∃ w, a.get i j = .ok w ∧ a.get j i = .ok w) ∧
    ∃ a', a.set i j v = .ok a' ∧ a'.n = a.n ∧ a'.l.length = a.l.length ∧
      a'.get i j = .ok v ∧ a'.get j i = .ok v ∧
      ∀ i' j', (i', j') ≠ (i, j) → (i', j') ≠ (j, i) → a'.get i' j' = a.get i' j' := by
  have hx : packIdx i j < a.l.length := by rw [hl]; exact packIdx_lt hi hj
  refine ⟨⟨a.l[packIdx i j], ?_, ?_⟩, { a with l := a.l.set (packIdx i j) v }, ?_, rfl, by simp, ?_, ?_, ?_⟩
  · exact lrd_ok hx
  · unfold Herm.get; rw [packIdx_comm j i]; exact lrd_ok hx
  · simp [Herm.set, lwr_ok hx]
  · unfold Herm.get; rw [lrd_set hx, if_pos rfl]
  · unfold Herm.get; rw [packIdx_comm j i, lrd_set hx, if_pos rfl]
  · intro i' j' h1 h2
    unfold Herm.get
    rw [lrd_set hx, if_neg]
    intro he
    rcases packIdx_inj he with ⟨rfl, rfl⟩ | ⟨rfl, rfl⟩
    · exact h1 rfl
    · exact h2 rfl

/-- The lower triangle of a `DynLowerTriMat`/`SizedLowerTriMat`: own elements, row by row. -/
theorem C23_lower_access_partial (a : LTri T) (hl : a.l.length = a.n * (a.n + 1) / 2) (i j : Nat)
    (hi : i < a.n) (hj : j ≤ i) (v : T) :
    (∃ w, a.get i j = .ok w) ∧
    ∃ a', a.set i j v = .ok a' ∧ a'.n = a.n ∧ a'.l.length = a.l.length ∧ a'.get i j = .ok v ∧
      ∀ i' j', j' ≤ i' → (i', j') ≠ (i, j) → a'.get i' j' = a.get i' j' := by
  have hx : packIdx i j < a.l.length := by rw [hl]; exact packIdx_lt hi (by omega)
  refine ⟨⟨_, lrd_ok hx⟩, { a with l := a.l.set (packIdx i j) v }, ?_, rfl, by simp, ?_, ?_⟩
  · simp [LTri.set, lwr_ok hx]
  · unfold LTri.get; rw [lrd_set hx, if_pos rfl]
  · intro i' j' h1 h2
    unfold LTri.get
    rw [lrd_set hx, if_neg]
    intro he
    rcases packIdx_inj he with ⟨rfl, rfl⟩ | ⟨rfl, rfl⟩
    · exact h2 rfl
    · exact h2 (by rw [show i' = j' by omega])

/-- The claim "reads 0 above the diagonal" is false: position `(i, j)` above the diagonal is the mirrored
element `(j, i)`, for every matrix and position. -/
theorem C23_lower_mirror (a : LTri T) (i j : Nat) : a.get i j = a.get j i := by
  unfold LTri.get; rw [packIdx_comm]

/-- Writing above the diagonal overwrites an element of the lower triangle. -/
theorem C23_lower_write_mirror (a : LTri T) (hl : a.l.length = a.n * (a.n + 1) / 2) (i j : Nat)
    (hi : i < a.n) (hj : j < a.n) (v : T) : ∃ a', a.set i j v = .ok a' ∧ a'.get j i = .ok v := by
  have hx : packIdx i j < a.l.length := by rw [hl]; exact packIdx_lt hi hj
  refine ⟨{ a with l := a.l.set (packIdx i j) v }, ?_, ?_⟩
  · simp [LTri.set, lwr_ok hx]
  · unfold LTri.get; rw [packIdx_comm j i, lrd_set hx, if_pos rfl]

theorem C23_lower_zero_false : ∃ a : LTri Int, a.l.length = a.n * (a.n + 1) / 2 ∧ a.get 0 1 = .ok 5 :=
  ⟨⟨2, [1, 5, 2]⟩, rfl, rfl⟩

open Complex in
/-- The Hermitian matrix is symmetric, not conjugate-symmetric: `(0,1)` is not the conjugate of `(1,0)`. -/
theorem C23_conjugate_false : ∃ (a : Herm ℂ) (w : ℂ), a.l.length = a.n * (a.n + 1) / 2 ∧
    a.get 1 0 = .ok w ∧ a.get 0 1 = .ok w ∧ w ≠ (starRingEnd ℂ) w := by
  refine ⟨⟨2, [1, I, 1]⟩, I, rfl, rfl, rfl, ?_⟩
  intro h
  have := congrArg Complex.im h
  simp at this
  norm_num at this

/-- `into_lower_mat` keeps the size and every lower element. -/
theorem C23_into_lower (a : Herm T) :
    ∃ b, a.intoLowerMat = .ok b ∧ b.n = a.n ∧ ∀ i j, j ≤ i → b.get i j = a.get i j :=
  ⟨_, rfl, rfl, fun _ _ _ => rfl⟩

/-- Non-vacuity. -/
example : (⟨2, [1, 5, 2]⟩ : Herm Int).set 0 1 7 = .ok ⟨2, [1, 7, 2]⟩ := rfl

end Lalib.Props
