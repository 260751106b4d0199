import Verif.Proofs.VecNorm
import Verif.Proofs.Interleave
import Verif.Spec.Basic
import Verif.Spec.Sqrt
import Mathlib.Tactic.Linarith
import Mathlib.Tactic.FieldSimp
import Mathlib.Tactic.LinearCombination

/-! # Properties C01-C08: vector operations -/

namespace Lalib.Props

open Lalib

variable {T : Type}

/-! ## C01: element-wise operations are exact and alias-safe

`v1`, `v2`, `vr` are arbitrary object identifiers: any of them may be equal. -/

theorem C01_neg [Neg T] (m : Mem T) (v vr : Nat) (h : m.len vr = m.len v) :
    ∃ m', negD m v vr = .ok m' ∧ Stores m m' vr ((m v).map (fun a => -a)) :=
  ⟨_, negD_eq h, stores_setBuf _ _ _⟩

theorem C01_neg_sized [Neg T] (N : Nat) (m : Mem T) (v vr : Nat) (hv : m.len v = N)
    (hr : m.len vr = N) :
    ∃ m', negS N m v vr = .ok m' ∧ Stores m m' vr ((m v).map (fun a => -a)) :=
  ⟨_, by unfold negS negCoreSimd; rw [elem1_range _ hv hr]; rfl, stores_setBuf _ _ _⟩

theorem C01_add [Add T] (m : Mem T) (v1 v2 vr : Nat) (h2 : m.len v2 = m.len v1)
    (hr : m.len vr = m.len v1) (ord : List Nat) (hp : ord.Perm (List.range (m.len v1))) :
    ∃ m', addDD ord m v1 v2 vr = .ok m' ∧ Stores m m' vr (List.zipWith (· + ·) (m v1) (m v2)) :=
  ⟨_, addDD_eq hp h2 hr, stores_setBuf _ _ _⟩

theorem C01_add_sized [Add T] (N : Nat) (m : Mem T) (v1 v2 vr : Nat) (h1 : m.len v1 = N)
    (h2 : m.len v2 = N) (hr : m.len vr = N) (ord : List Nat) (hp : ord.Perm (List.range N)) :
    ∃ m', addSS ord N m v1 v2 vr = .ok m' ∧ addSD ord N m v1 v2 vr = .ok m' ∧
      Stores m m' vr (List.zipWith (· + ·) (m v1) (m v2)) := by
  have h := addCore_eq (m := m) (v1 := v1) (v2 := v2) (vr := vr) hp (by omega) (by omega) (by omega)
  rw [zipPrefix_full _ h1 h2 hr] at h
  exact ⟨_, by unfold addSS; rw [h]; rfl, by unfold addSD; rw [h1, h2, checkSize_self, ok_bind, h],
    stores_setBuf _ _ _⟩

theorem C01_sub [Sub T] (m : Mem T) (v1 v2 vr : Nat) (h2 : m.len v2 = m.len v1)
    (hr : m.len vr = m.len v1) (ord : List Nat) (hp : ord.Perm (List.range (m.len v1))) :
    ∃ m', subDD ord m v1 v2 vr = .ok m' ∧ Stores m m' vr (List.zipWith (· - ·) (m v1) (m v2)) :=
  ⟨_, subDD_eq hp h2 hr, stores_setBuf _ _ _⟩

theorem C01_sub_sized [Sub T] (N : Nat) (m : Mem T) (v1 v2 vr : Nat) (h1 : m.len v1 = N)
    (h2 : m.len v2 = N) (hr : m.len vr = N) (ord : List Nat) (hp : ord.Perm (List.range N)) :
    ∃ m', subSS ord N m v1 v2 vr = .ok m' ∧ subSD ord N m v1 v2 vr = .ok m' ∧
      Stores m m' vr (List.zipWith (· - ·) (m v1) (m v2)) := by
  have h := subCore_eq (m := m) (v1 := v1) (v2 := v2) (vr := vr) hp (by omega) (by omega) (by omega)
  rw [zipPrefix_full _ h1 h2 hr] at h
  exact ⟨_, by unfold subSS; rw [h]; rfl, by unfold subSD; rw [h1, h2, checkSize_self, ok_bind, h],
    stores_setBuf _ _ _⟩

theorem C01_axpy [Add T] [Mul T] (alpha : T) (m : Mem T) (x y : Nat) (h : m.len y = m.len x) :
    ∃ m', axpyD alpha m x y = .ok m' ∧ axpyS (m.len x) alpha m x y = .ok m' ∧
      Stores m m' y (List.zipWith (fun a b => alpha * a + b) (m x) (m y)) :=
  ⟨_, axpyD_eq h, by unfold axpyS; rw [axpyCore_eq rfl h]; rfl, stores_setBuf _ _ _⟩

theorem C01_scale [Mul T] (alpha : T) (m : Mem T) (x : Nat) :
    ∃ m', scaleV alpha m x = .ok m' ∧ Stores m m' x ((m x).map (fun a => alpha * a)) :=
  ⟨_, by unfold scaleV; rw [scalCore_eq rfl]; rfl, stores_setBuf _ _ _⟩

-- a case with 17 elements (parallel branch), reversed order and all three objects the same
example : addDD (List.range 17).reverse (Mem.ofList [List.range 17]) 0 0 0 =
    .ok (Mem.ofList [List.range 17] |>.setBuf 0 ((List.range 17).map (2 * ·))) := by
  rw [addDD_eq (by exact List.reverse_perm _) rfl rfl]
  rfl

/-! ## C02: size mismatch -/

/-- The variants which keep the final memory are the same functions: equal outcome for all inputs, and on
success the memory they keep is the one returned. -/
theorem C02_same [Add T] [Sub T] (ord : List Nat) (N : Nat) (m : Mem T) (v1 v2 vr : Nat) :
    addDD ord m v1 v2 vr = (addDDOut ord m v1 v2 vr).res.map (fun _ => (addDDOut ord m v1 v2 vr).mem) ∧
      subDD ord m v1 v2 vr = (subDDOut ord m v1 v2 vr).res.map (fun _ => (subDDOut ord m v1 v2 vr).mem) ∧
      addSD ord N m v1 v2 vr =
        (addSDOut ord N m v1 v2 vr).res.map (fun _ => (addSDOut ord N m v1 v2 vr).mem) ∧
      subSD ord N m v1 v2 vr =
        (subSDOut ord N m v1 v2 vr).res.map (fun _ => (subSDOut ord N m v1 v2 vr).mem) := by
  unfold addDD addDDOut subDD subDDOut addSD addSDOut subSD subSDOut Out.check Out.kernel
  refine ⟨?_, ?_, ?_, ?_⟩ <;> cases checkSize (m.len v1) (m.len v2) with
  | error e => rfl
  | ok u =>
    simp only [ok_bind]
    split <;> next h => simp only [h]; rfl

theorem C02_add [Add T] (ord : List Nat) (m : Mem T) (v1 v2 vr : Nat) (h : m.len v1 ≠ m.len v2) :
    addDD ord m v1 v2 vr = .error (.throw (.sizeMismatched (m.len v1) (m.len v2))) ∧
      (addDDOut ord m v1 v2 vr).res = .error (.throw (.sizeMismatched (m.len v1) (m.len v2))) ∧
      (addDDOut ord m v1 v2 vr).mem = m := by
  simp [addDD, addDDOut, checkSize_ne h, Out.check]

theorem C02_add_mixed [Add T] (ord : List Nat) (N : Nat) (m : Mem T) (v1 v2 vr : Nat)
    (h : m.len v1 ≠ m.len v2) :
    addSD ord N m v1 v2 vr = .error (.throw (.sizeMismatched (m.len v1) (m.len v2))) ∧
      (addSDOut ord N m v1 v2 vr).res = .error (.throw (.sizeMismatched (m.len v1) (m.len v2))) ∧
      (addSDOut ord N m v1 v2 vr).mem = m := by
  simp [addSD, addSDOut, checkSize_ne h, Out.check]

theorem C02_sub [Sub T] (ord : List Nat) (m : Mem T) (v1 v2 vr : Nat) (h : m.len v1 ≠ m.len v2) :
    subDD ord m v1 v2 vr = .error (.throw (.sizeMismatched (m.len v1) (m.len v2))) ∧
      (subDDOut ord m v1 v2 vr).res = .error (.throw (.sizeMismatched (m.len v1) (m.len v2))) ∧
      (subDDOut ord m v1 v2 vr).mem = m := by
  simp [subDD, subDDOut, checkSize_ne h, Out.check]

theorem C02_sub_mixed [Sub T] (ord : List Nat) (N : Nat) (m : Mem T) (v1 v2 vr : Nat)
    (h : m.len v1 ≠ m.len v2) :
    subSD ord N m v1 v2 vr = .error (.throw (.sizeMismatched (m.len v1) (m.len v2))) ∧
      (subSDOut ord N m v1 v2 vr).res = .error (.throw (.sizeMismatched (m.len v1) (m.len v2))) ∧
      (subSDOut ord N m v1 v2 vr).mem = m := by
  simp [subSD, subSDOut, checkSize_ne h, Out.check]

/-- The operators report a mismatch in the same way. -/
theorem C02_op [Add T] [Sub T] (ord : List Nat) (x y : List T) (h : x.length ≠ y.length) :
    addOp ord x y = .error (.throw (.sizeMismatched x.length y.length)) ∧
      subOp ord x y = .error (.throw (.sizeMismatched x.length y.length)) := by
  have hc := checkSize_ne h
  simp [addOp, subOp, addOpAt, subOpAt, addDD, subDD, Mem.ofList, Mem.setBuf, Mem.len, hc]

/-- With matching sizes nothing is reported. -/
theorem C02_match [Add T] [Sub T] (m : Mem T) (v1 v2 vr : Nat) (h2 : m.len v2 = m.len v1)
    (hr : m.len vr = m.len v1) (ord : List Nat) (hp : ord.Perm (List.range (m.len v1))) :
    (addDDOut ord m v1 v2 vr).res = .ok () ∧ (subDDOut ord m v1 v2 vr).res = .ok () := by
  have ha := addCore_eq (m := m) (v1 := v1) (v2 := v2) (vr := vr) hp (le_refl _) (by omega) (by omega)
  have hs := subCore_eq (m := m) (v1 := v1) (v2 := v2) (vr := vr) hp (le_refl _) (by omega) (by omega)
  simp only [addDDOut, subDDOut, h2, checkSize_self, Out.check, Out.kernel, ha, hs, and_self]

theorem C02_member_dot [Add T] [Mul T] (m : Mem T) (x y : Nat) (h : m.len x ≠ m.len y) :
    dynDot m x y = .error (.throw (.sizeMismatched (m.len x) (m.len y))) := by
  simp [dynDot, checkSize_ne h]

/-- The operations declared `noexcept` end the program on a size mismatch. -/
theorem C02_noexcept_terminate [Neg T] [Add T] [Mul T] (alpha : T) (m : Mem T) (x y : Nat)
    (h : m.len x ≠ m.len y) :
    negD m x y = .error .terminate ∧ axpyD alpha m x y = .error .terminate ∧
      dotDD m x y = .error .terminate := by
  simp [negD, axpyD, dotDD, checkSize_ne h]

/-- No operation of the group lets an exception escape when sizes match. -/
theorem C02_no_throw [Neg T] [Add T] [Mul T] (alpha : T) (m : Mem T) (x y : Nat)
    (h : m.len y = m.len x) :
    (∃ m', negD m x y = .ok m') ∧ (∃ m', axpyD alpha m x y = .ok m') :=
  ⟨⟨_, negD_eq h⟩, ⟨_, axpyD_eq h⟩⟩

example : (addDDOut [] (Mem.ofList [[1, 2, 3], [4, 5], [0, 0, 0]]) 0 1 2).res =
    .error (.throw (.sizeMismatched 3 2)) := rfl

/-! ## C03: the result vector is never written outside its bounds

The full claim - `addDD`, `subDD` and `sizedDotDyn` never end in `.ub` - is false. -/

/-- Every result vector shorter than the operands is written out of bounds, in every order of the parallel loop. -/
theorem C03_add_oob [Add T] (ord : List Nat) (m : Mem T) (v1 v2 vr : Nat)
    (h2 : m.len v2 = m.len v1) (hr : m.len vr < m.len v1) (hp : ord.Perm (List.range (m.len v1))) :
    addDD ord m v1 v2 vr = .error (.ub .oob) := by
  unfold addDD addCore
  rw [h2, checkSize_self, ok_bind]
  split
  · exact elem2_oob _ (Or.inr (Or.inr hr))
  · exact elem2_order_oob _ hp (Or.inr (Or.inr hr))

theorem C03_sub_oob [Sub T] (ord : List Nat) (m : Mem T) (v1 v2 vr : Nat)
    (h2 : m.len v2 = m.len v1) (hr : m.len vr < m.len v1) (hp : ord.Perm (List.range (m.len v1))) :
    subDD ord m v1 v2 vr = .error (.ub .oob) := by
  unfold subDD subCore
  rw [h2, checkSize_self, ok_bind]
  split
  · exact elem2_oob _ (Or.inr (Or.inr hr))
  · exact elem2_order_oob _ hp (Or.inr (Or.inr hr))

/-- `SizedVec<T,N>::dot` of every `DynVec` with fewer than `N` elements reads out of bounds. -/
theorem C03_sized_dot_oob [Add T] [Mul T] (N : Nat) (m : Mem T) (x y : Nat) (h : m.len y < N) :
    sizedDotDyn N m x y = .error (.ub .oob) := by
  unfold sizedDotDyn
  rw [dotCore_oob (.inr h)]; rfl

/-- What does hold: with at least `N` elements there is no access out of bounds; those behind the first `N` are
ignored.  (Missing: shorter operands, see `C03_sized_dot_oob`, and `N = 0`, see `C05_empty_ub`.) -/
theorem C03_sized_dot_partial [CommRing T] (N : Nat) (m : Mem T) (x y : Nat) (h0 : 0 < N) (hx : m.len x = N)
    (h : N ≤ m.len y) : sizedDotDyn N m x y = .ok (dotSpec (m x) ((m y).take N)) := by
  have hl : ((m y).take N).length = N := by rw [List.length_take]; exact min_eq_left h
  unfold sizedDotDyn
  rw [dotCore_eq h0 (by omega) h, noexcept_ok, dotSpec_eq_range (by rw [hl]; exact hx)]
  congr 1
  rw [show (m x).length = N from hx]
  refine Finset.sum_congr rfl fun i hi => ?_
  have hi := Finset.mem_range.mp hi
  rw [val0_of_lt (l := (m y).take N) (by omega), List.getElem_take, Mem.val, Mem.val,
    val0_of_lt (l := m y) (by have : (m y).length = m.len y := rfl; omega)]

example : sizedDotDyn 3 (Mem.ofList [[1, 2, 3], [4, 5]] : Mem Int) 0 1 = .error (.ub .oob) := rfl
example : sizedDotDyn 2 (Mem.ofList [[1, 2], [4, 5, 6]] : Mem Int) 0 1 = .ok 14 := rfl

example : addDD [0, 1] (Mem.ofList [[1, 2], [3, 4], [0]] : Mem Int) 0 1 2 = .error (.ub .oob) := rfl

/-- What does hold: with a result vector at least as long as the operands no access is out of bounds,
and elements behind the operands' size keep their values.  (Missing: shorter result vectors, see
`C03_add_oob`.) -/
theorem C03_add_partial [Add T] (ord : List Nat) (m : Mem T) (v1 v2 vr : Nat)
    (h2 : m.len v2 = m.len v1) (hr : m.len v1 ≤ m.len vr)
    (hp : ord.Perm (List.range (m.len v1))) :
    ∃ m', addDD ord m v1 v2 vr = .ok m' ∧
      Stores m m' vr (List.zipWith (· + ·) (m v1) (m v2) ++ (m vr).drop (m.len v1)) := by
  refine ⟨_, ?_, stores_setBuf _ _ _⟩
  unfold addDD
  rw [h2, checkSize_self, ok_bind, addCore_eq hp (le_refl _) (by omega) hr]
  simp [zipPrefix, Mem.len, List.take_of_length_le (show (m v2).length ≤ (m v1).length from h2.le)]

theorem C03_sub_partial [Sub T] (ord : List Nat) (m : Mem T) (v1 v2 vr : Nat)
    (h2 : m.len v2 = m.len v1) (hr : m.len v1 ≤ m.len vr)
    (hp : ord.Perm (List.range (m.len v1))) :
    ∃ m', subDD ord m v1 v2 vr = .ok m' ∧
      Stores m m' vr (List.zipWith (· - ·) (m v1) (m v2) ++ (m vr).drop (m.len v1)) := by
  refine ⟨_, ?_, stores_setBuf _ _ _⟩
  unfold subDD
  rw [h2, checkSize_self, ok_bind, subCore_eq hp (le_refl _) (by omega) hr]
  simp [zipPrefix, Mem.len, List.take_of_length_le (show (m v2).length ≤ (m v1).length from h2.le)]

/-- The overloads with `SizedVec`s of `N` elements and a `DynVec` of any size access nothing out of bounds: they throw (and
change nothing) or write the `N` elements of the result. -/
theorem C03_mixed [Add T] [Sub T] (ord : List Nat) (N : Nat) (m : Mem T) (v1 v2 vr : Nat)
    (h1 : m.len v1 = N ∨ m.len v2 = N) (hr : m.len vr = N) (hp : ord.Perm (List.range N)) :
    (m.len v1 ≠ m.len v2 ∧
      addSDOut ord N m v1 v2 vr = ⟨.error (.throw (.sizeMismatched (m.len v1) (m.len v2))), m⟩ ∧
      subSDOut ord N m v1 v2 vr = ⟨.error (.throw (.sizeMismatched (m.len v1) (m.len v2))), m⟩) ∨
    (m.len v1 = m.len v2 ∧
      ((addSDOut ord N m v1 v2 vr).res = .ok () ∧
        Stores m (addSDOut ord N m v1 v2 vr).mem vr (List.zipWith (· + ·) (m v1) (m v2))) ∧
      (subSDOut ord N m v1 v2 vr).res = .ok () ∧
        Stores m (subSDOut ord N m v1 v2 vr).mem vr (List.zipWith (· - ·) (m v1) (m v2))) := by
  by_cases h : m.len v1 = m.len v2
  · refine Or.inr ⟨h, ?_⟩
    have l1 : (m v1).length = N := by rcases h1 with h1 | h1 <;> [exact h1; exact h.trans h1]
    have l2 : (m v2).length = N := by rw [← l1]; exact h.symm
    have lr : (m vr).length = N := hr
    have ha := addCore_eq (m := m) (v1 := v1) (v2 := v2) (vr := vr) hp l1.ge l2.ge hr.ge
    have hs := subCore_eq (m := m) (v1 := v1) (v2 := v2) (vr := vr) hp l1.ge l2.ge hr.ge
    have z : ∀ f : T → T → T, zipPrefix f N (m v1) (m v2) (m vr) = List.zipWith f (m v1) (m v2) := by
      intro f
      simp [zipPrefix, List.take_of_length_le l1.le, List.take_of_length_le l2.le, lr]
    rw [z] at ha hs
    simp only [addSDOut, subSDOut, h, checkSize_self, Out.check, Out.kernel, ha, hs, true_and]
    exact ⟨stores_setBuf _ _ _, stores_setBuf _ _ _⟩
  · exact Or.inl ⟨h, by simp [addSDOut, checkSize_ne h, Out.check], by simp [subSDOut, checkSize_ne h, Out.check]⟩

example : (addSDOut [1, 0] 2 (Mem.ofList [[1, 2], [3, 4], [0, 0]] : Mem Int) 0 1 2).mem 2 = [4, 6] := rfl
example : (addSDOut [1, 0] 2 (Mem.ofList [[1, 2], [3, 4, 5], [0, 0]] : Mem Int) 0 1 2).res =
    .error (.throw (.sizeMismatched 2 3)) := rfl

/-! ## C04: parallel element-wise loops are schedule-independent -/

/-- Whatever the interleaving of the single loads and stores, no access is out of bounds, and once all
iterations are finished the memory is the one which the sequential loop produces. -/
theorem C04_schedule_independent (f : T → T → T) (m : Mem T) (v1 v2 vr n : Nat)
    (h1 : n ≤ m.len v1) (h2 : n ≤ m.len v2) (hr : n ≤ m.len vr)
    (sched : List Nat) (hs : ∀ i ∈ sched, i < n) :
    ∃ s, prun f v1 v2 vr sched (pinit m) = .ok s ∧
      (s.finished n → forRange 0 n (elem2 f v1 v2 vr) m = .ok s.mem) := by
  obtain ⟨s, hs', hi⟩ := (prun_inv h1 h2 hr sched _ hs (pinit_inv f v1 v2 vr n m)).exists
  refine ⟨s, hs', fun hd => ?_⟩
  rw [hi.final h1 h2 hr hd]
  exact elem2_range f h1 h2 hr

/-- Two finished executions agree. -/
theorem C04_deterministic (f : T → T → T) (m : Mem T) (v1 v2 vr n : Nat)
    (h1 : n ≤ m.len v1) (h2 : n ≤ m.len v2) (hr : n ≤ m.len vr)
    (sched sched' : List Nat) (hs : ∀ i ∈ sched, i < n) (hs' : ∀ i ∈ sched', i < n)
    (s s' : PState T) (he : prun f v1 v2 vr sched (pinit m) = .ok s)
    (he' : prun f v1 v2 vr sched' (pinit m) = .ok s') (hd : s.finished n) (hd' : s'.finished n) :
    s.mem = s'.mem := by
  have i1 := (prun_inv h1 h2 hr sched _ hs (pinit_inv f v1 v2 vr n m)).of_ok he
  have i2 := (prun_inv h1 h2 hr sched' _ hs' (pinit_inv f v1 v2 vr n m)).of_ok he'
  rw [i1.final h1 h2 hr hd, i2.final h1 h2 hr hd']

/-- Every partial execution can be completed (the loop never gets stuck). -/
theorem C04_progress (f : T → T → T) (m : Mem T) (v1 v2 vr n : Nat)
    (h1 : n ≤ m.len v1) (h2 : n ≤ m.len v2) (hr : n ≤ m.len vr)
    (sched : List Nat) (hs : ∀ i ∈ sched, i < n) :
    ∃ ext s, (∀ i ∈ ext, i < n) ∧ prun f v1 v2 vr (sched ++ ext) (pinit m) = .ok s ∧
      s.finished n := by
  obtain ⟨s, hs', hi⟩ := (prun_inv h1 h2 hr sched _ hs (pinit_inv f v1 v2 vr n m)).exists
  obtain ⟨l, s', hl, hs'', _, hf⟩ := prun_finish h1 h2 hr n (le_refl _) s hi
  exact ⟨l, s', hl, by rw [prun_append, hs']; exact hs'', hf⟩

/-- The functions the library calls: a run of the parallel kernels in any iteration order equals the
`simd` kernel. -/
theorem C04_kernels [Neg T] [Add T] [Sub T] [Mul T] (alpha : T) (m : Mem T) (v1 v2 vr n : Nat)
    (h1 : m.len v1 = n) (h2 : m.len v2 = n) (hr : m.len vr = n)
    (ord : List Nat) (hp : ord.Perm (List.range n)) :
    addCoreParallel ord m v1 v2 vr = addCoreSimd m v1 v2 vr n ∧
    subCoreParallel ord m v1 v2 vr = subCoreSimd m v1 v2 vr n ∧
    negCoreParallel ord m v1 vr = negCoreSimd m v1 vr n ∧
    axpyCoreParallel alpha ord m v1 vr = axpyCore alpha m v1 vr n := by
  unfold addCoreParallel addCoreSimd subCoreParallel subCoreSimd negCoreParallel negCoreSimd
    axpyCoreParallel axpyCore
  rw [elem2_perm _ hp (by omega) (by omega) (by omega), elem2_range _ (by omega) (by omega) (by omega),
    elem2_perm _ hp (by omega) (by omega) (by omega), elem2_range _ (by omega) (by omega) (by omega),
    elem1_perm _ hp h1 hr, elem1_range _ h1 hr,
    elem2_perm _ hp (by omega) (by omega) (by omega), elem2_range _ (by omega) (by omega) (by omega)]
  simp

-- an interleaved schedule with the result aliased to the first operand
example : ∃ s, prun (· + ·) 0 1 0 [1, 0, 1, 0, 0, 1] (pinit (Mem.ofList [[1, 2], [10, 20]] : Mem Int)) = .ok s
    ∧ s.finished 2 ∧ s.mem 0 = [11, 22] := by
  refine ⟨_, rfl, ?_, rfl⟩
  intro i hi
  match i, hi with
  | 0, _ => rfl
  | 1, _ => rfl

/-! ## C05: dot products -/

/-- Equal sizes.  (Missing: empty vectors, see `C05_empty_ub`.) -/
theorem C05_dot_partial [CommRing T] (m : Mem T) (x y : Nat) (h : m.len y = m.len x) (h0 : 0 < m.len x) :
    dynDot m x y = .ok (dotSpec (m x) (m y)) ∧ dotDD m x y = .ok (dotSpec (m x) (m y)) ∧
      dotSS (m.len x) m x y = .ok (dotSpec (m x) (m y)) ∧
      sizedDotDyn (m.len x) m x y = .ok (dotSpec (m x) (m y)) := by
  have e := dotCore_eq (m := m) (x := x) (y := y) h0 (le_refl _) (by omega)
  have e' : dotCore m x y (m.len x) = .ok (dotSpec (m x) (m y)) := by
    rw [e, dotSpec_eq_range h.symm]; rfl
  refine ⟨?_, ?_, ?_, ?_⟩
  · unfold dynDot; rw [h, checkSize_self, ok_bind, e']
  · unfold dotDD; rw [h, checkSize_self, ok_bind, e']; rfl
  · unfold dotSS; rw [e']; rfl
  · unfold sizedDotDyn; rw [e']; rfl

/-- Any shape of the SIMD reduction gives the inner product. -/
theorem C05_reduction_order [CommRing T] (m : Mem T) (x y : Nat) (h : m.len y = m.len x)
    (h0 : 0 < m.len x) (t : RedTree) (ht : t.leaves.Perm (List.range' 1 (m.len x - 1))) :
    dotCoreTree t m x y = .ok (dotSpec (m x) (m y)) := by
  have hl : ∀ i ∈ t.leaves, i < m.len x ∧ i < m.len y := by
    intro i hi
    have := List.mem_range'_1.mp (ht.mem_iff.mp hi)
    omega
  unfold dotCoreTree
  rw [Mem.rd_ok (by omega), ok_bind, Mem.rd_ok (by omega), ok_bind, t.eval_eq hl, ok_bind,
    (ht.map _).sum_eq, dotSpec_eq_range h.symm]
  congr 1
  have : (m x).length = (m.len x - 1) + 1 := by show m.len x = _; omega
  rw [this, Finset.sum_range_succ', add_comm]
  congr 1
  rw [list_sum_eq_range]
  simp only [List.length_map, List.length_range']
  apply Finset.sum_congr rfl
  intro i hi
  have hi := Finset.mem_range.mp hi
  simp [val0, hi, Mem.val, Nat.add_comm 1 i]

theorem C05_symmetric [CommRing T] (m : Mem T) (x y : Nat) (h : m.len y = m.len x)
    (h0 : 0 < m.len x) : dynDot m x y = dynDot m y x := by
  rw [(C05_dot_partial m x y h h0).1, (C05_dot_partial m y x h.symm (by omega)).1]
  congr 1
  unfold dotSpec
  rw [List.zipWith_comm]
  simp [mul_comm]

/-- Linearity in the first argument; with `C05_symmetric` also in the second. -/
theorem C05_linear [CommRing T] (a : T) (m : Mem T) (x y z w : Nat) (hy : m.len y = m.len x)
    (hz : m.len z = m.len x) (h0 : 0 < m.len x)
    (hw : m w = List.zipWith (fun u v => a * u + v) (m x) (m y)) :
    ∃ dx dy, dynDot m x z = .ok dx ∧ dynDot m y z = .ok dy ∧ dynDot m w z = .ok (a * dx + dy) := by
  have lw : m.len w = m.len x := by
    unfold Mem.len; rw [hw]; simp; exact hy.ge
  refine ⟨_, _, (C05_dot_partial m x z hz h0).1, (C05_dot_partial m y z (by omega) (by omega)).1, ?_⟩
  rw [(C05_dot_partial m w z (by omega) (by omega)).1]
  congr 1
  rw [dotSpec_eq_range (show (m w).length = _ from lw.trans hz.symm),
    dotSpec_eq_range (show (m x).length = _ from hz.symm),
    dotSpec_eq_range (show (m y).length = _ from hy.trans hz.symm),
    show (m w).length = (m x).length from lw, show (m y).length = (m x).length from hy,
    Finset.mul_sum, ← Finset.sum_add_distrib]
  apply Finset.sum_congr rfl
  intro i hi
  rw [hw, val0_zipWith hy.symm (Finset.mem_range.mp hi)]
  ring

/-- The claim for empty vectors is false: every `dot` of two empty vectors is undefined behaviour, since
the first product is read unconditionally. -/
theorem C05_empty_ub [Add T] [Mul T] (m : Mem T) (x y : Nat) (hx : m.len x = 0) (hy : m.len y = 0) :
    dynDot m x y = .error (.ub .oob) ∧ dotDD m x y = .error (.ub .oob) ∧
      dotSS 0 m x y = .error (.ub .oob) ∧ sizedDotDyn 0 m x y = .error (.ub .oob) := by
  have e : ∀ n, dotCore m x y n = .error (.ub .oob) := by
    intro n; unfold dotCore; rw [Mem.rd_oob (by omega)]; rfl
  refine ⟨?_, ?_, ?_, ?_⟩
  · unfold dynDot; rw [hx, hy, checkSize_self, ok_bind, e]
  · unfold dotDD; rw [hx, hy, checkSize_self, ok_bind, e]; rfl
  · unfold dotSS; rw [e]; rfl
  · unfold sizedDotDyn; rw [e]; rfl

-- a reduction with two lanes
example : dotCoreTree (.node (.node (.node .zero (.leaf 2)) (.leaf 4)) (.node (.leaf 1) (.leaf 3)))
    (Mem.ofList [[1, 2, 3, 4, 5], [1, 1, 1, 1, 2]] : Mem Int) 0 1 = .ok 20 := rfl

/-! ## C06: Euclidean norm -/

section norm
variable [Field T] [LinearOrder T] [IsStrictOrderedRing T] [Sqrt T] [LawfulSqrt T]

theorem C06_norm2 (m : Mem T) (x : Nat) :
    ∃ r, vecNorm2 m x = .ok r ∧ 0 ≤ r ∧ r * r = dotSpec (m x) (m x) ∧
      (r = 0 ↔ ∀ a ∈ m x, a = 0) := by
  have hn := dotSpec_self_nonneg (m x)
  refine ⟨_, norm2_run m x, LawfulSqrt.sqrt_nonneg _, LawfulSqrt.mul_self_sqrt _ hn, ?_⟩
  have h2 := LawfulSqrt.mul_self_sqrt _ hn
  constructor
  · intro h0
    rw [h0, mul_zero, dotSpec_eq_range rfl] at h2
    have := (Finset.sum_eq_zero_iff_of_nonneg (fun i _ => mul_self_nonneg _)).mp h2.symm
    intro a ha
    obtain ⟨i, hi, rfl⟩ := List.getElem_of_mem ha
    have := this i (Finset.mem_range.mpr hi)
    rw [val0_of_lt hi] at this
    exact mul_self_eq_zero.mp this
  · intro h0
    have : dotSpec (m x) (m x) = 0 := by
      rw [dotSpec_eq_range rfl]
      apply Finset.sum_eq_zero
      intro i hi
      rw [val0_of_lt (Finset.mem_range.mp hi), h0 _ (List.getElem_mem _), mul_zero]
    rw [this] at h2 ⊢
    exact mul_self_eq_zero.mp h2

omit [LawfulSqrt T] in
/-- Any shape of the SIMD reduction gives the same number. -/
theorem C06_reduction_order (m : Mem T) (x : Nat) (t : RedTree) (ht : t.leaves.Perm (List.range (m.len x))) :
    norm2CoreTree t m x = vecNorm2 m x := by
  have hl : ∀ i ∈ t.leaves, i < m.len x ∧ i < m.len x := by
    intro i hi
    have := List.mem_range.mp (ht.mem_iff.mp hi)
    exact ⟨this, this⟩
  have e : ((List.range (m.len x)).map fun i => m.val x i * m.val x i).sum = dotSpec (m x) (m x) := by
    rw [dotSpec_eq_range rfl, list_sum_eq_range]
    simp only [List.length_map, List.length_range]
    refine Finset.sum_congr rfl fun i hi => ?_
    have hi := Finset.mem_range.mp hi
    simp [val0, hi, Mem.val]
  unfold norm2CoreTree
  rw [t.eval_eq hl, ok_bind, (ht.map _).sum_eq, e, zero_add, sqrtC_eq,
    if_neg (not_lt.mpr (dotSpec_self_nonneg _)), norm2_run]

theorem C06_homogeneous (m : Mem T) (x y : Nat) (a : T) (hy : m y = (m x).map (fun v => a * v)) :
    ∃ r, vecNorm2 m x = .ok r ∧ vecNorm2 m y = .ok (|a| * r) := by
  obtain ⟨r, hr, h0, h2, -⟩ := C06_norm2 m x
  obtain ⟨s, hs, s0, s2, -⟩ := C06_norm2 m y
  refine ⟨r, hr, ?_⟩
  rw [hs]
  congr 1
  have e : dotSpec (m y) (m y) = a * a * dotSpec (m x) (m x) := by
    rw [dotSpec_eq_range rfl, dotSpec_eq_range rfl, hy, Finset.mul_sum, List.length_map]
    apply Finset.sum_congr rfl
    intro i hi
    rw [val0_map (Finset.mem_range.mp hi)]
    ring
  have : s * s = (|a| * r) * (|a| * r) := by
    rw [s2, e, ← h2, ← abs_mul_abs_self a]; ring
  exact (mul_self_inj s0 (mul_nonneg (abs_nonneg _) h0)).mp this

end norm

example : vecNorm2 (Mem.ofList [[3, 4]] : Mem ℚ) 0 = .ok 5 := by decide +kernel
example : ∃ r, vecNorm2 (Mem.ofList [[1, 1]] : Mem ℝ) 0 = .ok r ∧ 0 ≤ r ∧ r * r = 2 := by
  obtain ⟨r, h, h0, h1, -⟩ := C06_norm2 (Mem.ofList [[1, 1]] : Mem ℝ) 0
  refine ⟨r, h, h0, h1.trans ?_⟩
  norm_num [dotSpec, Mem.ofList]

/-! ## C07: cross products -/

theorem C07_cross [CommRing T] (nd dx dy dr : Bool) (m : Mem T) (x y vr : Nat) (hx : m.len x = 3)
    (hy : m.len y = 3) (hr : m.len vr = 3) :
    ∃ m', cross3 nd dx dy dr m x y vr = .ok m' ∧ Stores m m' vr (crossSpec (m x) (m y)) := by
  refine ⟨_, ?_, stores_setBuf _ _ _⟩
  simp only [cross3, cross3Core, hx, hy, hr, beq_self_eq_true, Bool.or_true, cassert_true, ok_bind,
    Mem.rd_ok (show 0 < m.len x by omega), Mem.rd_ok (show 1 < m.len x by omega),
    Mem.rd_ok (show 2 < m.len x by omega), Mem.rd_ok (show 0 < m.len y by omega),
    Mem.rd_ok (show 1 < m.len y by omega), Mem.rd_ok (show 2 < m.len y by omega)]
  rw [Mem.wr_ok (by omega), ok_bind, Mem.wr_ok (by rw [Mem.len_upd]; omega), ok_bind,
    Mem.wr_ok (by rw [Mem.len_upd, Mem.len_upd]; omega), noexcept_ok]
  congr 1
  simp only [Mem.upd_eq_setBuf, Mem.setBuf_self, Mem.setBuf_setBuf, set3 hr, crossSpec, Mem.val]
  congr 2
  · ring
  · congr 1
    · ring
    · congr 1
      ring

theorem C07_cross_acc [CommRing T] (nd dx dy dr : Bool) (m : Mem T) (x y vr : Nat)
    (hx : m.len x = 3) (hy : m.len y = 3) (hr : m.len vr = 3) :
    ∃ m', crossAcc nd dx dy dr m x y vr = .ok m' ∧
      Stores m m' vr (List.zipWith (· + ·) (crossSpec (m x) (m y)) (m vr)) := by
  refine ⟨_, ?_, stores_setBuf _ _ _⟩
  simp only [crossAcc, cross3AccCore, hx, hy, hr, beq_self_eq_true, Bool.or_true, cassert_true, ok_bind,
    Mem.rd_ok (show 0 < m.len x by omega), Mem.rd_ok (show 1 < m.len x by omega),
    Mem.rd_ok (show 2 < m.len x by omega), Mem.rd_ok (show 0 < m.len y by omega),
    Mem.rd_ok (show 1 < m.len y by omega), Mem.rd_ok (show 2 < m.len y by omega),
    Mem.rd_ok (show 0 < m.len vr by omega),
    Mem.rd_ok (show 1 < m.len vr by omega), Mem.rd_ok (show 2 < m.len vr by omega)]
  rw [Mem.wr_ok (by omega), ok_bind, Mem.wr_ok (by rw [Mem.len_upd]; omega), ok_bind,
    Mem.wr_ok (by rw [Mem.len_upd, Mem.len_upd]; omega), noexcept_ok]
  congr 1
  simp only [Mem.upd_eq_setBuf, Mem.setBuf_self, Mem.setBuf_setBuf, set3 hr, crossSpec, Mem.val]
  obtain ⟨a, b, c, h3⟩ := len3 hr
  rw [h3]
  simp only [List.zipWith_cons_cons, List.zipWith_nil_left]
  simp only [val0, List.getD_cons_zero, List.getD_cons_succ]
  congr 2
  · ring
  · congr 1
    · ring
    · congr 1
      ring

theorem C07_cross2 [CommRing T] (nd dx dy : Bool) (m : Mem T) (x y : Nat) (hx : m.len x = 2)
    (hy : m.len y = 2) :
    cross2 nd dx dy m x y =
      .ok (m.val x 0 * m.val y 1 - m.val x 1 * m.val y 0) := by
  simp only [cross2, cross2Core, hx, hy, beq_self_eq_true, Bool.or_true, cassert_true, ok_bind,
    Mem.rd_ok (show 0 < m.len x by omega), Mem.rd_ok (show 1 < m.len x by omega),
    Mem.rd_ok (show 0 < m.len y by omega), Mem.rd_ok (show 1 < m.len y by omega), noexcept_ok]
  congr 1
  ring

/-- Antisymmetry, orthogonality to both operands, Lagrange's identity. -/
theorem C07_identities [CommRing T] (a b : List T) (ha : a.length = 3) (hb : b.length = 3) :
    crossSpec a b = (crossSpec b a).map (fun v => -v) ∧
    dotSpec a (crossSpec a b) = 0 ∧ dotSpec b (crossSpec a b) = 0 ∧
    dotSpec (crossSpec a b) (crossSpec a b) =
      dotSpec a a * dotSpec b b - dotSpec a b * dotSpec a b := by
  obtain ⟨a0, a1, a2, rfl⟩ := len3 ha
  obtain ⟨b0, b1, b2, rfl⟩ := len3 hb
  simp only [crossSpec, dotSpec, val0, List.getD_cons_zero, List.getD_cons_succ, List.map_cons,
    List.map_nil, List.zipWith_cons_cons, List.zipWith_nil_left, List.sum_cons, List.sum_nil]
  refine ⟨?_, by ring, by ring, by ring⟩
  congr 1
  · ring
  · congr 1
    · ring
    · congr 1
      ring

/-- In a debug build every `DynVec` argument of a wrong length (flags as in `cross3`: operand or result)
fails the assertion, whatever the other arguments are. -/
theorem C07_assert [CommRing T] (dx dy dr : Bool) (m : Mem T) (x y vr : Nat)
    (h : (dx = true ∧ m.len x ≠ 3) ∨ (dy = true ∧ m.len y ≠ 3) ∨ (dr = true ∧ m.len vr ≠ 3)) :
    cross3 false dx dy dr m x y vr = .error .assertFail ∧
      crossAcc false dx dy dr m x y vr = .error .assertFail := by
  have e : ∀ f : Res (Mem T), noexcept (do
      cassert false (!dx || m.len x == 3)
      cassert false (!dy || m.len y == 3)
      cassert false (!dr || m.len vr == 3)
      f) = .error .assertFail := by
    intro f
    by_cases hx : (!dx || m.len x == 3) = true
    · by_cases hy : (!dy || m.len y == 3) = true
      · have hr : (!dr || m.len vr == 3) = false := by
          simp only [Bool.or_eq_true, Bool.not_eq_true', beq_iff_eq] at hx hy
          rcases h with ⟨h, h'⟩ | ⟨h, h'⟩ | ⟨h, h'⟩
          · simp_all
          · simp_all
          · simp [h, h']
        simp [hx, hy, hr, noexcept]
      · rw [Bool.not_eq_true] at hy
        simp [hx, hy, noexcept]
    · rw [Bool.not_eq_true] at hx
      simp [hx, noexcept]
  exact ⟨e _, e _⟩

theorem C07_assert2 [CommRing T] (dx dy : Bool) (m : Mem T) (x y : Nat)
    (h : (dx = true ∧ m.len x ≠ 2) ∨ (dy = true ∧ m.len y ≠ 2)) :
    cross2 false dx dy m x y = .error .assertFail := by
  unfold cross2
  by_cases hx : (!dx || m.len x == 2) = true
  · have hy : (!dy || m.len y == 2) = false := by
      simp only [Bool.or_eq_true, Bool.not_eq_true', beq_iff_eq] at hx
      rcases h with ⟨h, h'⟩ | ⟨h, h'⟩
      · simp_all
      · simp [h, h']
    simp [hx, hy, noexcept]
  · rw [Bool.not_eq_true] at hx
    simp [hx, noexcept]

-- a result vector of length 4
example : cross3 false true true true (Mem.ofList [[1, 2, 3], [4, 5, 6], [0, 0, 0, 0]] : Mem Int) 0 1 2 =
    .error .assertFail := rfl

/-- With assertions compiled out, an argument that is too short is accessed out of bounds. -/
theorem C07_too_short [CommRing T] (dx dy dr : Bool) (m : Mem T) (x y vr : Nat)
    (h : m.len x < 3 ∨ m.len y < 3 ∨ m.len vr < 3) :
    cross3 true dx dy dr m x y vr = .error (.ub .oob) ∧ crossAcc true dx dy dr m x y vr = .error (.ub .oob) := by
  have rd : ∀ p i, (∃ v, m.rd p i = .ok v ∧ i < m.len p) ∨ m.rd p i = .error (.ub .oob) := fun p i => by
    by_cases c : i < (m p).length
    · exact .inl ⟨_, lrd_ok c, c⟩
    · exact .inr (Mem.rd_oob (by show (m p).length ≤ i; omega))
  have wr : ∀ (m' : Mem T) i v, m'.len vr = m.len vr →
      (∃ m'', m'.wr vr i v = .ok m'' ∧ m''.len vr = m.len vr ∧ i < m.len vr) ∨ m'.wr vr i v = .error (.ub .oob) := by
    intro m' i v hm
    by_cases c : i < m'.len vr
    · exact .inl ⟨_, Mem.wr_ok c v, by rw [Mem.len_upd]; exact hm, by omega⟩
    · exact .inr (Mem.wr_oob (by omega) v)
  constructor
  · simp only [cross3, cassert_nd, ok_bind, cross3Core]
    rcases rd x 0 with ⟨a0, e, -⟩ | e <;> rw [e]
    swap
    · rfl
    rcases rd x 1 with ⟨a1, e, -⟩ | e <;> rw [ok_bind, e]
    swap
    · rfl
    rcases rd x 2 with ⟨a2, e, hx⟩ | e <;> rw [ok_bind, e]
    swap
    · rfl
    rcases rd y 0 with ⟨b0, e, -⟩ | e <;> rw [ok_bind, e]
    swap
    · rfl
    rcases rd y 1 with ⟨b1, e, -⟩ | e <;> rw [ok_bind, e]
    swap
    · rfl
    rcases rd y 2 with ⟨b2, e, hy⟩ | e <;> rw [ok_bind, e]
    swap
    · rfl
    simp only [ok_bind]
    rcases wr m 0 (a1 * b2 - b1 * a2) rfl with ⟨m1, e, h1, -⟩ | e <;> rw [e]
    swap
    · rfl
    rcases wr m1 1 (a2 * b0 - b2 * a0) h1 with ⟨m2, e, h2, -⟩ | e <;> rw [ok_bind, e]
    swap
    · rfl
    rcases wr m2 2 (a0 * b1 - b0 * a1) h2 with ⟨m3, e, h3, hr⟩ | e <;> rw [ok_bind, e]
    swap
    · rfl
    omega
  · simp only [crossAcc, cassert_nd, ok_bind, cross3AccCore]
    rcases rd x 0 with ⟨a0, e, -⟩ | e <;> rw [e]
    swap
    · rfl
    rcases rd x 1 with ⟨a1, e, -⟩ | e <;> rw [ok_bind, e]
    swap
    · rfl
    rcases rd x 2 with ⟨a2, e, hx⟩ | e <;> rw [ok_bind, e]
    swap
    · rfl
    rcases rd y 0 with ⟨b0, e, -⟩ | e <;> rw [ok_bind, e]
    swap
    · rfl
    rcases rd y 1 with ⟨b1, e, -⟩ | e <;> rw [ok_bind, e]
    swap
    · rfl
    rcases rd y 2 with ⟨b2, e, hy⟩ | e <;> rw [ok_bind, e]
    swap
    · rfl
    rcases rd vr 0 with ⟨c0, e, -⟩ | e <;> rw [ok_bind, e]
    swap
    · rfl
    rcases rd vr 1 with ⟨c1, e, -⟩ | e <;> rw [ok_bind, e]
    swap
    · rfl
    rcases rd vr 2 with ⟨c2, e, hr⟩ | e <;> rw [ok_bind, e]
    swap
    · rfl
    omega

theorem C07_too_short2 [CommRing T] (dx dy : Bool) (m : Mem T) (x y : Nat) (h : m.len x < 2 ∨ m.len y < 2) :
    cross2 true dx dy m x y = .error (.ub .oob) := by
  have rd : ∀ p i, (∃ v, m.rd p i = .ok v ∧ i < m.len p) ∨ m.rd p i = .error (.ub .oob) := fun p i => by
    by_cases c : i < (m p).length
    · exact .inl ⟨_, lrd_ok c, c⟩
    · exact .inr (Mem.rd_oob (by show (m p).length ≤ i; omega))
  simp only [cross2, cassert_nd, ok_bind, cross2Core]
  rcases rd x 0 with ⟨a0, e, -⟩ | e <;> rw [e]
  swap
  · rfl
  rcases rd y 1 with ⟨b1, e, hy⟩ | e <;> rw [ok_bind, e]
  swap
  · rfl
  rcases rd y 0 with ⟨b0, e, -⟩ | e <;> rw [ok_bind, e]
  swap
  · rfl
  rcases rd x 1 with ⟨a1, e, hx⟩ | e <;> rw [ok_bind, e]
  swap
  · rfl
  omega

/-- With assertions compiled out, a longer argument is used as if it had three elements. -/
theorem C07_longer [CommRing T] (dx dy dr : Bool) (m : Mem T) (x y vr : Nat) (hx : 3 ≤ m.len x)
    (hy : 3 ≤ m.len y) (hr : 3 ≤ m.len vr) :
    ∃ m', cross3 true dx dy dr m x y vr = .ok m' ∧
      Stores m m' vr (crossSpec ((m x).take 3) ((m y).take 3) ++ (m vr).drop 3) := by
  refine ⟨_, ?_, stores_setBuf _ _ _⟩
  simp only [cross3, cross3Core, cassert_nd, ok_bind,
    Mem.rd_ok (show 0 < m.len x by omega), Mem.rd_ok (show 1 < m.len x by omega),
    Mem.rd_ok (show 2 < m.len x by omega), Mem.rd_ok (show 0 < m.len y by omega),
    Mem.rd_ok (show 1 < m.len y by omega), Mem.rd_ok (show 2 < m.len y by omega)]
  rw [Mem.wr_ok (by omega), ok_bind, Mem.wr_ok (by rw [Mem.len_upd]; omega), ok_bind,
    Mem.wr_ok (by rw [Mem.len_upd, Mem.len_upd]; omega), noexcept_ok]
  congr 1
  have len3' : ∀ {l : List T}, 3 ≤ l.length → ∃ a b c t, l = a :: b :: c :: t := by
    intro l h
    match l, h with
    | a :: b :: c :: t, _ => exact ⟨a, b, c, t, rfl⟩
  obtain ⟨a0, a1, a2, ta, ea⟩ := len3' hx
  obtain ⟨b0, b1, b2, tb, eb⟩ := len3' hy
  obtain ⟨c0, c1, c2, tc, ec⟩ := len3' hr
  simp only [Mem.upd_eq_setBuf, Mem.setBuf_self, Mem.setBuf_setBuf, crossSpec, Mem.val, ea, eb]
  congr 1
  rw [ec]
  simp only [val0, List.getD_cons_zero, List.getD_cons_succ, List.take_succ_cons, List.take_zero, List.drop_succ_cons,
    List.drop_zero, List.set_cons_zero, List.set_cons_succ, List.cons_append, List.nil_append]
  congr 1
  · ring
  · congr 1
    · ring
    · congr 1
      ring

example : (cross3 true true true true (Mem.ofList [[1, 2, 3], [4, 5, 6]] : Mem Int) 0 1 0).map (· 0) =
    .ok [-3, 6, -3] := rfl

/-! ## C08: scalar multiplication and division -/

theorem C08_forms_agree [CommRing T] (a : T) (x : List T) :
    smulOp a x = .ok (x.map (fun v => a * v)) ∧ mulsOp x a = .ok (x.map (fun v => a * v)) ∧
      scaled a x = .ok (x.map (fun v => a * v)) :=
  ⟨smulOp_eq a x, mulsOp_eq a x, by unfold scaled; rw [smulOp_eq]; rfl⟩

theorem C08_div [Field T] [DecidableEq T] (a : T) (ha : a ≠ 0) (x : List T) :
    ∃ y, divOp x a = .ok y ∧ y = x.map (fun v => v / a) ∧ mulsOp y a = .ok x := by
  refine ⟨_, ?_, rfl, ?_⟩
  · unfold divOp
    rw [divOpAt_eq ha]
    simp [Mem.ofList]
  · rw [mulsOp_eq, List.map_map]
    congr 1
    conv_rhs => rw [← List.map_id x]
    apply List.map_congr_left
    intro v _
    simp only [Function.comp, id]
    field_simp

theorem C08_div_zero [Field T] [DecidableEq T] (x : List T) :
    divOp x (0 : T) = .error .nonFinite := by
  simp [divOp, divOpAt, reciprocal, noexcept]

/-- `a*(b*x) = (a*b)*x`. -/
theorem C08_assoc [CommRing T] (a b : T) (x : List T) :
    (smulOp b x >>= smulOp a) = smulOp (a * b) x := by
  rw [smulOp_eq, ok_bind, smulOp_eq, smulOp_eq, List.map_map]
  congr 1
  apply List.map_congr_left
  intro v _
  simp [mul_assoc]

/-- `a*(x+y) = a*x + a*y`, for the library's `+` and `*`, in every execution order of the additions. -/
theorem C08_distrib [CommRing T] (a : T) (x y : List T) (h : y.length = x.length)
    (ord ord' : List Nat) (hp : ord.Perm (List.range x.length)) (hp' : ord'.Perm (List.range x.length)) :
    (addOp ord x y >>= smulOp a) =
      (do let ax ← smulOp a x; let ay ← smulOp a y; addOp ord' ax ay) := by
  rw [addOp_eq hp h, ok_bind, smulOp_eq, smulOp_eq, ok_bind, smulOp_eq, ok_bind,
    addOp_eq (by simpa using hp') (by simpa using h)]
  congr 1
  rw [List.map_zipWith, List.zipWith_map]
  simp only [mul_add]

example : divOp [2, 4] (2 : ℚ) = .ok [1, 2] := by decide +kernel

end Lalib.Props
