import Verif.Spec.StoreCsr
import Verif.Props.Store

/-! # Property C64: programs over sparse-matrix objects of both formats -/

namespace Lalib.Props

open Lalib

variable {T : Type}

/-! ## Helpers -/

theorem csr_assignTmp_eq (x : Nat) (t : Csr T) (s : CsrStore T) : s.assignTmp x t = s.put x t := by
  funext q
  by_cases h : q = x <;> simp [CsrStore.assignTmp, CsrStore.setVal, CsrStore.setPtr, CsrStore.setCol, CsrStore.put, h]

theorem csr_copyAssign_eq (x y : Nat) (s : CsrStore T) : s.copyAssign x y = s.put x (s y) := by
  funext q
  by_cases h : q = x <;> by_cases h' : y = x <;>
    simp [CsrStore.copyAssign, CsrStore.setVal, CsrStore.setPtr, CsrStore.setCol, CsrStore.put, h, h']

theorem csr_moveAssign_eq (left : Csr T) (x y : Nat) (s : CsrStore T) :
    s.moveAssign left x y = (s.put x (s y)).put y left := by
  funext q
  by_cases h : q = x <;> by_cases h' : y = x <;> by_cases h2 : q = y <;> subst_vars <;>
    simp_all [CsrStore.moveAssign, CsrStore.setVal, CsrStore.setPtr, CsrStore.setCol, CsrStore.put]

theorem csr_put_shows [Zero T] {s : SpStore T} {a : ASp T} (h : s.Shows a) (x : Nat) {c : Csr T}
    {m : Option (RMat T)} (hc : ∀ n, m = some n → c.Shows n) :
    ({ s with csr := s.csr.put x c } : SpStore T).Shows (SpStmt.set a x m) := by
  refine ⟨h.1, fun q n hq => ?_⟩
  unfold SpStmt.set at hq
  simp only at hq
  show (s.csr.put x c q).Shows n
  unfold CsrStore.put
  split at hq
  · next hx => rw [if_pos hx]; exact hc n hq
  · next hx => rw [if_neg hx]; exact h.2 q n hq

theorem csr_shows_map [CommRing T] {c : Csr T} {a : RMat T} (h : c.Shows a) (alpha : T) :
    ({ c with val := c.val.map (fun x => alpha * x) } : Csr T).Shows (a.map (alpha * ·)) := by
  refine ⟨⟨by simpa using h.wf.len, h.wf.ptr0, h.wf.mono, by simpa using h.wf.last⟩, h.distinct, h.rows, h.pos,
    fun i j hi => ?_⟩
  obtain ⟨x, h1, h2⟩ := Csr_get_map alpha c h.wf h.distinct (i := i) (by rw [h.rows]; exact hi) j
  rw [h.elem i j hi] at h1
  injection h1 with h1
  rw [h2, ← h1]; rfl

theorem csr_shows_ofCoo [CommRing T] {c : Coo T} {a : AMat T} (h : c.Shows a) :
    ∃ m, Csr.ofCoo c = .ok m ∧ m.Shows (RMat.ofAMat a) := by
  obtain ⟨m, e, hv, hc, hm, hn, hp⟩ := Csr.ofCoo_spec h.wf h.sorted
  obtain ⟨m', em', hd, _⟩ := C28_distinct c h.wf h.sorted h.distinct
  rw [e] at em'
  injection em' with em'
  subst em'
  have hrows : m.nrows = a.pos.sup (fun p => p.1 + 1) := by
    rw [hn]
    split
    · next h0 =>
      symm
      rw [← Nat.le_zero, Finset.sup_le_iff]
      intro p hp'
      rw [← h.pos] at hp'
      have := (List.of_mem_zip (show (p.1, p.2) ∈ c.row.zip c.col from hp')).1
      rw [h0] at this; simp at this
    · next h0 =>
      apply Nat.le_antisymm
      · obtain ⟨r, e1, hm, _⟩ := maxElem_spec h0
        have hr : r = c.row.foldr max 0 := by simp [maxElem, h0] at e1; exact e1.symm
        rw [hr] at hm
        obtain ⟨j, hj⟩ := (mem_row_iff h.wf _).mp hm
        exact Finset.le_sup (f := fun p : Nat × Nat => p.1 + 1) ((h.pos _).mp hj)
      · rw [Finset.sup_le_iff]
        intro p hp'
        rw [← h.pos] at hp'
        have := (List.of_mem_zip (show (p.1, p.2) ∈ c.row.zip c.col from hp')).1
        obtain ⟨t, ht, e'⟩ := List.getElem_of_mem this
        have := Csr.foldr_max_le ht
        rw [Coo.getD_getElem ht] at this
        omega
  refine ⟨m, e, hm, hd, hrows, fun i j hi => ?_, fun i j hi => ?_⟩
  · show _ ↔ decide ((i, j) ∈ a.pos) = true
    rw [decide_eq_true_eq]
    replace hi : i < m.nrows := by rw [hrows]; exact hi
    rw [← h.pos]
    unfold Csr.StoredAt
    constructor
    · rintro ⟨k, h1, h2, h3⟩
      obtain ⟨h4, h5⟩ := (hp i k hi).mp ⟨h1, h2⟩
      rw [hc] at h3
      obtain ⟨h6, h7⟩ := List.getElem?_eq_some_iff.mp h3
      rw [Coo.getD_getElem h4] at h5
      have : c.pos[k]'(by simp [Coo.pos]; omega) = (i, j) := by simp [Coo.pos, h5, h7]
      rw [← this]; exact List.getElem_mem _
    · intro hm
      obtain ⟨k, hk, e'⟩ := List.getElem_of_mem hm
      simp only [Coo.pos, List.length_zip, List.getElem_zip, Prod.mk.injEq] at hk e'
      have h4 : k < c.row.length := by omega
      obtain ⟨h1, h2⟩ := (hp i k hi).mpr ⟨h4, by rw [Coo.getD_getElem h4]; exact e'.1⟩
      exact ⟨k, h1, h2, by rw [hc, List.getElem?_eq_getElem (by omega), e'.2]⟩
  · rw [Csr.ofCoo_get h.wf hv hc hm hp (by rw [hrows]; exact hi), h.elem]; rfl

theorem csr_shows_new [CommRing T] {val : List T} {ptr col : List Nat} (hl : val.length = col.length)
    (h0 : ptr[0]? = some 0) (hm : ptr.Pairwise (· ≤ ·)) (hlast : ptr.getLast? = some val.length)
    (hd : ∀ i j k k', RMat.At ptr col i j k → RMat.At ptr col i j k' → k = k') :
    (⟨val, ptr, col⟩ : Csr T).Shows (RMat.ofArrays val ptr col) := by
  have hw : (⟨val, ptr, col⟩ : Csr T).Wf := ⟨hl.symm, h0, hm, hlast⟩
  have hle : ∀ i k, k < ptr.getD (i + 1) 0 → k < val.length := by
    intro i k hk
    by_cases hi : i < (⟨val, ptr, col⟩ : Csr T).nrows
    · exact Nat.lt_of_lt_of_le hk (Csr.Wf.ptr_le hw hi).2.2
    · unfold Csr.nrows at hi
      simp only at hi
      rw [List.getD_eq_getElem?_getD, List.getElem?_eq_none (by omega)] at hk
      simp at hk
  have hD : (⟨val, ptr, col⟩ : Csr T).Distinct := by
    intro i k k' h1 h2 h3 h4 h5
    simp only at h1 h2 h3 h4 h5
    have hk : k < col.length := by have := hle i k h2; omega
    have hk' : k' < col.length := by have := hle i k' h4; omega
    rw [Coo.getD_getElem hk, Coo.getD_getElem hk'] at h5
    exact hd i col[k] k k' ⟨h1, h2, by rw [List.getElem?_eq_getElem hk]⟩
      ⟨h3, h4, by rw [List.getElem?_eq_getElem hk', h5]⟩
  refine ⟨hw, hD, rfl, fun i j _ => ?_, fun i j hi => ?_⟩
  · simp only [RMat.ofArrays, List.any_eq_true, List.mem_range, decide_eq_true_eq]
    exact ⟨fun ⟨k, hk⟩ => ⟨k, (List.getElem?_eq_some_iff.mp hk.2.2).1, hk⟩, fun ⟨k, _, hk⟩ => ⟨k, hk⟩⟩
  by_cases hs : ∃ k, (⟨val, ptr, col⟩ : Csr T).StoredAt i j k
  · obtain ⟨k, hk⟩ := hs
    rw [Csr.get_stored hw hD hi hk]
    congr 1
    have hkl : k < val.length := hk.lt hw
    simp only [RMat.ofArrays]
    rw [Finset.sum_eq_single k]
    · rw [if_pos (show RMat.At ptr col i j k from hk), val0_of_lt hkl]
    · intro k' _ hne
      rw [if_neg fun h' => hne (hd i j k' k h' hk)]
    · intro h; exact absurd (Finset.mem_range.mpr hkl) h
  · push Not at hs
    rw [Csr.get_unstored hw hi hs]
    congr 1
    simp only [RMat.ofArrays]
    symm
    apply Finset.sum_eq_zero
    intro k _
    rw [if_neg (show ¬ RMat.At ptr col i j k from hs k)]

theorem csr_shows_unit [CommRing T] (n : Nat) :
    ∃ c : Csr T, Csr.unit n = .ok c ∧ c.Shows ⟨n, fun i j => decide (i = j), fun i j => if i = j then 1 else 0⟩ := by
  obtain ⟨c, e, _, w, d, hr, hg⟩ := C30_csr (T := T) n
  refine ⟨c, e, w, d, hr, fun i j hi => ?_, fun i j hi => hg i j hi⟩
  rw [Csr_unit_eq] at e
  injection e with e
  subst e
  simp only at hi
  have hptr : ∀ k, k ≤ n → (List.range (n + 1)).getD k 0 = k := by
    intro k hk
    rw [List.getD_eq_getElem?_getD, List.getElem?_range (by omega)]; rfl
  constructor
  · rintro ⟨k, h1, h2, h3⟩
    simp only at h1 h2 h3
    rw [hptr i (by omega)] at h1
    rw [hptr (i + 1) (by omega)] at h2
    obtain ⟨_, h4⟩ := List.getElem?_eq_some_iff.mp h3
    simp at h4
    show decide (i = j) = true
    rw [decide_eq_true_eq]; omega
  · intro h
    have h : i = j := by simpa using h
    subst h
    exact ⟨i, by simp only; rw [hptr i (by omega)], by simp only; rw [hptr (i + 1) (by omega)]; omega, by simp [hi]⟩

theorem sp_exec_ok [CommRing T] {srt : SortFn} {st : SpStmt T} {s s' : SpStore T} (h : st.act srt s = .ok s') :
    st.exec srt s = ⟨.ok (), s'⟩ := by
  unfold SpStmt.exec Kept.run
  rw [h]; rfl

theorem sp_exec_error [CommRing T] {srt : SortFn} {st : SpStmt T} {s : SpStore T} {f : Fault}
    (h : st.act srt s = .error f) : st.exec srt s = ⟨.error f, s⟩ := by
  unfold SpStmt.exec Kept.run
  rw [h]

/-! ## C64 -/

/-- One statement does to the objects what it does to the matrices, exceptions included. -/
theorem C64_step [CommRing T] {srt : SortFn} (hs : LawfulSort srt) (st : SpStmt T) (s : SpStore T) (a : ASp T)
    (h : s.Shows a) (hv : st.Valid a) :
    (st.exec srt s).res = thrown (st.step a).2 ∧ (st.exec srt s).obj.Shows (st.step a).1 := by
  cases st with
  | coo st =>
    obtain ⟨h1, h2⟩ := C63_step hs st s.coo a.coo h.1 hv
    have : (SpStmt.coo st).exec srt s = ⟨(st.exec srt s.coo).res, { s with coo := (st.exec srt s.coo).obj }⟩ := by
      unfold SpStmt.exec CooStmt.exec Kept.run
      rw [show (SpStmt.coo st).act srt s = st.act srt s.coo >>= fun c => .ok { s with coo := c } from rfl]
      cases st.act srt s.coo <;> rfl
    rw [this]
    exact ⟨h1, h2, h.2⟩
  | ofCoo x y =>
    obtain ⟨m, hm⟩ := hv
    obtain ⟨c, e, hc⟩ := csr_shows_ofCoo (h.1 y m hm)
    rw [sp_exec_ok (s' := { s with csr := s.csr.put x c }) (by simp [SpStmt.act, e, csr_assignTmp_eq])]
    refine ⟨rfl, csr_put_shows h x fun n hn => ?_⟩
    rw [hm] at hn
    injection hn with hn
    subst hn; exact hc
  | construct x val ptr col =>
    by_cases hl : val.length = col.length
    · obtain ⟨v1, v2, v3, v4⟩ := hv hl
      rw [sp_exec_ok (s' := { s with csr := s.csr.put x ⟨val, ptr, col⟩ })
        (by simp [SpStmt.act, (C29_new val ptr col).1 hl, csr_assignTmp_eq])]
      simp only [SpStmt.step, if_pos hl]
      refine ⟨rfl, csr_put_shows h x fun n hn => ?_⟩
      injection hn with hn
      subst hn; exact csr_shows_new hl v1 v2 v3 v4
    · rw [sp_exec_error (f := .throw .runtimeError) (by simp [SpStmt.act, (C29_new val ptr col).2 hl])]
      simp only [SpStmt.step, if_neg hl]
      exact ⟨rfl, h⟩
  | unit x n =>
    obtain ⟨c, e, hc⟩ := csr_shows_unit (T := T) n
    rw [sp_exec_ok (s' := { s with csr := s.csr.put x c }) (by simp [SpStmt.act, e, csr_assignTmp_eq])]
    refine ⟨rfl, csr_put_shows h x fun n hn => ?_⟩
    injection hn with hn
    subst hn
    exact ⟨hc.wf, hc.distinct, hc.rows, hc.pos, fun i j hi => by rw [hc.elem i j hi]⟩
  | copy x y =>
    rw [sp_exec_ok (s' := { s with csr := s.csr.put x (s.csr y) }) (by simp [SpStmt.act, csr_copyAssign_eq])]
    exact ⟨rfl, csr_put_shows h x fun n hn => h.2 y n hn⟩
  | move x y left =>
    rw [sp_exec_ok (s' := { s with csr := (s.csr.put x (s.csr y)).put y left })
      (by simp [SpStmt.act, csr_moveAssign_eq])]
    exact ⟨rfl, csr_put_shows (csr_put_shows h x fun n hn => h.2 y n hn) y fun n hn => by cases hn⟩
  | write x i j v =>
    obtain ⟨m, hm, hi⟩ := hv
    have hx := h.2 x m hm
    obtain ⟨h1, h2⟩ := C29_update (s.csr x) hx.wf hx.distinct i j (by rw [hx.rows]; exact hi) v
    simp only [SpStmt.step, hm]
    by_cases hp : m.pos i j = true
    · obtain ⟨c, e, w, d, hr, hc, hg, hg'⟩ := h1 ((hx.pos i j hi).mpr hp)
      rw [sp_exec_ok (s' := { s with csr := s.csr.put x c }) (by simp [SpStmt.act, e])]
      rw [if_pos hp]
      refine ⟨rfl, csr_put_shows h x fun n hn => ?_⟩
      injection hn with hn
      subst hn
      refine ⟨w, d, by unfold Csr.nrows; rw [hr]; exact hx.rows, fun i' j' hi' => ?_, fun i' j' hi' => ?_⟩
      · rw [← hx.pos i' j' hi']
        unfold Csr.StoredAt
        rw [hr, hc]
      · by_cases hij : i' = i ∧ j' = j
        · obtain ⟨rfl, rfl⟩ := hij
          simp [hg]
        · simp only [if_neg hij]
          rw [hg' i' j' (by rw [hx.rows]; exact hi') (by simpa using hij), hx.elem i' j' hi']
    · rw [sp_exec_error (f := .throw .outOfRange)
        (by simp [SpStmt.act, h2 (fun k hk => hp ((hx.pos i j hi).mp ⟨k, hk⟩))]), if_neg hp]
      exact ⟨rfl, h⟩
  | scale x alpha =>
    obtain ⟨m, hm⟩ := hv
    rw [sp_exec_ok (s' := { s with csr := s.csr.put x _ }) (by simp only [SpStmt.act, Csr.scale_eq, ok_bind]; rfl)]
    refine ⟨rfl, csr_put_shows h x fun n hn => ?_⟩
    rw [hm] at hn
    injection hn with hn
    subst hn
    exact csr_shows_map (h.2 x m hm) alpha
  | smul x alpha y =>
    obtain ⟨m, hm⟩ := hv
    rw [sp_exec_ok (s' := { s with csr := s.csr.put x _ }) (by
      simp only [SpStmt.act, Csr.smul, Csr.scale_eq, noexcept, ok_bind, csr_assignTmp_eq]; rfl)]
    refine ⟨rfl, csr_put_shows h x fun n hn => ?_⟩
    rw [hm] at hn
    injection hn with hn
    subst hn
    exact csr_shows_map (h.2 y m hm) alpha
  | neg x y =>
    obtain ⟨m, hm⟩ := hv
    rw [sp_exec_ok (s' := { s with csr := s.csr.put x _ }) (by
      simp only [SpStmt.act, Csr.neg, Csr.scale_eq, noexcept, ok_bind, csr_assignTmp_eq]; rfl)]
    refine ⟨rfl, csr_put_shows h x fun n hn => ?_⟩
    rw [hm] at hn
    injection hn with hn
    subst hn
    have hc := csr_shows_map (h.2 y m hm) (-1)
    refine ⟨hc.wf, hc.distinct, hc.rows, hc.pos, fun i j hi => ?_⟩
    rw [hc.elem i j hi]
    congr 1
    simp only [RMat.map]
    ring

/-- A program over objects of both formats computes what it computes on matrices. -/
theorem C64_program [CommRing T] {srt : SortFn} (hs : LawfulSort srt) (p : List (SpStmt T)) (s : SpStore T)
    (a : ASp T) (h : s.Shows a) (hv : SpStmt.ValidAll p a) :
    ∃ s', SpStmt.runAll srt p s = .ok (s', (SpStmt.stepAll p a).2) ∧ s'.Shows (SpStmt.stepAll p a).1 := by
  induction p generalizing s a with
  | nil => exact ⟨s, rfl, h⟩
  | cons st p ih =>
    obtain ⟨h1, h2⟩ := C64_step hs st s a h hv.1
    obtain ⟨s', e, h'⟩ := ih _ _ h2 hv.2
    refine ⟨s', ?_, h'⟩
    unfold SpStmt.runAll
    rw [h1]
    cases ho : (st.step a).2 with
    | none => simp only [thrown, SpStmt.stepAll, ho, e, ok_bind]
    | some x => simp only [thrown, SpStmt.stepAll, ho, e, ok_bind]

/-- A statement changes only the objects it is directed at, and nothing if it fails. -/
theorem C64_frame [Zero T] [One T] [Neg T] [Add T] [Mul T] (srt : SortFn) (st : SpStmt T) (s : SpStore T) :
    (∀ q, q ∉ st.cooTargets → (st.exec srt s).obj.coo q = s.coo q) ∧
    (∀ q, q ∉ st.csrTargets → (st.exec srt s).obj.csr q = s.csr q) ∧
    ((st.exec srt s).res ≠ .ok () → (st.exec srt s).obj = s) := by
  have key : ∀ (x : Nat) (r : Res (Csr T)) (s' : SpStore T),
      (r >>= fun t => .ok { s with csr := s.csr.put x t }) = .ok s' →
      (∀ q, s'.coo q = s.coo q) ∧ ∀ q, q ≠ x → s'.csr q = s.csr q := by
    intro x r s' hr
    cases r with
    | error f => cases hr
    | ok t =>
      injection hr with hr
      rw [← hr]
      exact ⟨fun _ => rfl, fun q hx => by simp [CsrStore.put, hx]⟩
  unfold SpStmt.exec Kept.run
  cases e : st.act srt s with
  | error f => exact ⟨fun _ _ => rfl, fun _ _ => rfl, fun _ => rfl⟩
  | ok s' =>
    refine ⟨fun q hq => ?_, fun q hq => ?_, fun h => absurd rfl h⟩
    · show s'.coo q = s.coo q
      cases st with
      | coo st =>
        have := C63_frame srt st s.coo q hq
        unfold CooStmt.exec Kept.run at this
        change (st.act srt s.coo >>= fun c => .ok { s with coo := c }) = .ok s' at e
        cases e' : st.act srt s.coo with
        | error f => rw [e'] at e; cases e
        | ok c =>
          rw [e'] at e this
          injection e with e
          rw [← e]; exact this
      | copy x y => injection e with e; rw [← e]
      | move x y left => injection e with e; rw [← e]
      | _ =>
        simp only [SpStmt.act, csr_assignTmp_eq] at e
        exact (key _ _ _ e).1 q
    · show s'.csr q = s.csr q
      cases st with
      | coo st =>
        change (st.act srt s.coo >>= fun c => .ok { s with coo := c }) = .ok s' at e
        cases e' : st.act srt s.coo with
        | error f => rw [e'] at e; cases e
        | ok c =>
          rw [e'] at e
          injection e with e
          rw [← e]
      | copy x y =>
        simp only [SpStmt.csrTargets, List.mem_cons, List.not_mem_nil, or_false] at hq
        simp only [SpStmt.act, csr_copyAssign_eq] at e
        injection e with e; rw [← e]; simp [CsrStore.put, hq]
      | move x y left =>
        simp only [SpStmt.csrTargets, List.mem_cons, List.not_mem_nil, or_false, not_or] at hq
        simp only [SpStmt.act, csr_moveAssign_eq] at e
        injection e with e; rw [← e]; simp [CsrStore.put, hq]
      | _ =>
        simp only [SpStmt.csrTargets, List.mem_cons, List.not_mem_nil, or_false] at hq
        simp only [SpStmt.act, csr_assignTmp_eq] at e
        exact (key _ _ _ e).2 q hq

/-- The product with a vector, from the represented matrix alone. -/
theorem C64_observe [CommRing T] (nd : Bool) (c : Csr T) (a : RMat T) (h : c.Shows a) (i0 j0 : Nat) (hi0 : i0 < a.n)
    (hne : a.pos i0 j0 = true) :
    c.nrows = a.n ∧ ∃ n, c.shape = .ok (a.n, n) ∧ (∀ i j, i < a.n → a.pos i j = true → j < n) ∧
      (∃ i j, i < a.n ∧ a.pos i j = true ∧ j + 1 = n) ∧ ∀ x : List T, x.length = n →
        Csr.mulVec nd c x = .ok ((List.range a.n).map fun i => ∑ j ∈ Finset.range n, a.elem i j * val0 x j) := by
  obtain ⟨k0, hk0⟩ := (h.pos i0 j0 hi0).mpr hne
  have hval : c.val ≠ [] := by
    intro h0
    have := hk0.lt h.wf
    rw [h0] at this
    simp at this
  obtain ⟨n, e, h1, j, hj, h2⟩ := Csr.shape_eq h.wf hval
  refine ⟨h.rows, n, by rw [e, h.rows], ?_, ?_, ?_⟩
  · intro i j hi hp
    obtain ⟨k, hk⟩ := (h.pos i j hi).mpr hp
    exact h1 j (List.mem_of_getElem? hk.2.2)
  · obtain ⟨k, hk, he⟩ := List.getElem_of_mem hj
    obtain ⟨i, hi, hk1, hk2⟩ := Csr.Wf.row_of h.wf (by rw [← h.wf.len]; exact hk)
    exact ⟨i, j, by rw [← h.rows]; exact hi,
      (h.pos i j (by rw [← h.rows]; exact hi)).mp ⟨k, hk1, hk2, by rw [List.getElem?_eq_getElem hk, he]⟩, h2⟩
  · intro x hx
    obtain ⟨s', e', hst⟩ := C31_op_partial nd c h.wf h.distinct a.elem n 0 1 (Mem.ofList [x]) e
      (fun i j hi _ => h.elem i j (by rw [← h.rows]; exact hi)) (by simpa [Mem.len, Mem.ofList] using hx) (by omega)
    unfold Csr.mulVec
    rw [e', ok_bind, hst.1, h.rows]
    rfl

-- `a = {(0,0):1, (2,1):2}; b = SpMat(a); c = b; scale(3, b); c.mut_at(2,1) = 7; c.mut_at(1,0) = 1 (throws);
-- a += a; b = -b; d = SpMat(a)`
example : (SpStmt.runAll Coo.insSort [.coo (.construct 0 [2, 1] [2, 0] [1, 0]), .ofCoo 1 0, .copy 2 1, .scale 1 3,
      .write 2 2 1 7, .write 2 1 0 1, .coo (.addAssign 0 0), .neg 1 1, .ofCoo 3 0]
      ⟨fun _ => Coo.empty, fun _ => Csr.empty⟩).map (fun r => (r.1.csr 1, r.1.csr 2, r.1.csr 3, r.2)) =
    .ok ((⟨[-3, -6], [0, 1, 1, 2], [0, 1]⟩ : Csr Int), ⟨[1, 7], [0, 1, 1, 2], [0, 1]⟩, ⟨[2, 4], [0, 1, 1, 2], [0, 1]⟩,
      [none, none, none, none, none, some .outOfRange, none, none, none]) := by decide +kernel

-- the same program is valid on matrices
example : SpStmt.ValidAll [.coo (.construct 0 [2, 1] [2, 0] [1, 0]), .ofCoo 1 0, .copy 2 1, .scale 1 3,
      .write 2 2 1 7, .write 2 1 0 1, .coo (.addAssign 0 0), .neg 1 1, .ofCoo 3 0]
      (⟨fun _ => none, fun _ => none⟩ : ASp Int) := by
  exact ⟨(by decide : List.Nodup _), ⟨_, rfl⟩, ⟨_, rfl⟩, ⟨_, rfl⟩, ⟨_, rfl, by decide⟩, ⟨_, rfl, by decide⟩,
    ⟨_, _, rfl, rfl, C63_addable_rows _ _ (by decide) (by decide)⟩, ⟨_, rfl⟩, ⟨_, rfl⟩, trivial⟩

end Lalib.Props
