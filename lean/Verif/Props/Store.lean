import Verif.Spec.Store
import Verif.Props.Sparse

/-! # Property C63: programs over several sparse-matrix objects -/

namespace Lalib.Props

open Lalib

variable {T : Type}

/-! ## Helpers -/

theorem assignTmp_eq (x : Nat) (t : Coo T) (s : CooStore T) : s.assignTmp x t = s.put x t := by
  funext q
  by_cases h : q = x <;> simp [CooStore.assignTmp, CooStore.setVal, CooStore.setRow, CooStore.setCol, CooStore.put, h]

theorem copyAssign_eq (x y : Nat) (s : CooStore T) : s.copyAssign x y = s.put x (s y) := by
  funext q
  by_cases h : q = x <;> by_cases h' : y = x <;>
    simp [CooStore.copyAssign, CooStore.setVal, CooStore.setRow, CooStore.setCol, CooStore.put, h, h']

theorem moveAssign_eq (left : Coo T) (x y : Nat) (s : CooStore T) :
    s.moveAssign left x y = (s.put x (s y)).put y left := by
  funext q
  by_cases h : q = x <;> by_cases h' : y = x <;> by_cases h2 : q = y <;> subst_vars <;>
    simp_all [CooStore.moveAssign, CooStore.setVal, CooStore.setRow, CooStore.setCol, CooStore.put]

/-- The first element of a sorted list. -/
theorem head_first {l : List (Nat × Nat)} (hs : l.Pairwise posLe) {S : Nat × Nat → Prop} (hl : ∀ p, p ∈ l ↔ S p)
    {p : Nat × Nat} (h : AMat.First S p) : l.head? = some p := by
  cases l with
  | nil => exact absurd ((hl p).mpr h.1) (by simp)
  | cons q l =>
    have h1 := h.2 q ((hl q).mp (by simp))
    have h2 : posLe q p := by
      rcases List.mem_cons.mp ((hl p).mpr h.1) with e | e
      · rw [e]; exact Coo.posLe_refl _
      · exact (List.pairwise_cons.mp hs).1 p e
    have : q = p := by
      unfold posLe at h1 h2
      apply Prod.ext <;> omega
    rw [this]; rfl

theorem mem_row_iff {a : Coo T} (hw : a.Wf) (i : Nat) : a.Occupied i ↔ ∃ j, (i, j) ∈ a.pos := by
  unfold Coo.Occupied Coo.pos
  constructor
  · intro h
    obtain ⟨k, hk, rfl⟩ := List.getElem_of_mem h
    have hk' : k < a.col.length := by rw [hw.2, ← hw.1]; exact hk
    refine ⟨a.col[k], ?_⟩
    have : (a.row.zip a.col)[k]'(by simp; omega) = (a.row[k], a.col[k]) := by simp
    rw [← this]; exact List.getElem_mem _
  · rintro ⟨j, h⟩
    exact (List.of_mem_zip h).1

theorem addable_safe [Zero T] {A B : Coo T} {a b : AMat T} (hA : A.Shows a) (hB : B.Shows b)
    (h : AMat.Addable a.pos b.pos) : B.val ≠ [] ∧ Coo.AddSafe A B := by
  constructor
  · intro h0
    obtain ⟨p, hp⟩ := h.1
    rw [← hB.pos] at hp
    have := List.length_pos_of_mem hp
    rw [Coo.length_pos hB.wf, h0] at this
    simp at this
  · intro i ho hn
    rw [mem_row_iff hB.wf] at ho
    rw [mem_row_iff hA.wf] at hn
    obtain ⟨r, c, hc, hf⟩ := h.2 i (by obtain ⟨j, hj⟩ := ho; exact ⟨j, (hB.pos _).mp hj⟩)
      (fun j hj => hn ⟨j, (hA.pos _).mpr hj⟩)
    refine ⟨c, ?_, fun hm => hc ((hB.pos _).mp hm)⟩
    unfold Coo.nextCol
    rcases hf with hf | ⟨hle, hf⟩
    · have := head_first (l := A.pos.filter (fun p => decide (i < p.1))) (hA.sorted.filter _) (p := (r, c))
        (fun p => by simp [hA.pos]) hf
      rw [List.head?_append, this]; rfl
    · have h0 : A.pos.filter (fun p => decide (i < p.1)) = [] := by
        rw [List.filter_eq_nil_iff]
        intro p hp
        have := hle p ((hA.pos p).mp hp)
        simp; omega
      have := head_first (l := B.pos.filter (fun p => decide (p.1 < i ∧ p ∉ A.pos))) (hB.sorted.filter _) (p := (r, c))
        (S := fun p => p ∈ b.pos ∧ p.1 < i ∧ p ∉ a.pos) (fun p => by simp [hA.pos, hB.pos]) hf
      rw [h0, List.nil_append, this]; rfl

theorem put_shows [Zero T] {s : CooStore T} {a : AStore T} (h : s.Shows a) (x : Nat) {c : Coo T} {m : Option (AMat T)}
    (hc : ∀ n, m = some n → c.Shows n) : (s.put x c).Shows (CooStmt.set a x m) := by
  intro q n hq
  unfold CooStmt.set at hq
  unfold CooStore.put
  split at hq
  · next hx => rw [if_pos hx]; exact hc n hq
  · next hx => rw [if_neg hx]; exact h q n hq

theorem shows_new [CommRing T] {srt : SortFn} (hs : LawfulSort srt) {val : List T} {row col : List Nat}
    (h1 : val.length = row.length) (h2 : val.length = col.length) (hd : (row.zip col).Nodup) :
    ∃ c, Coo.new srt val row col = .ok c ∧
      c.Shows ⟨(row.zip col).toFinset, fun i j => ((triplets val row col).lookup (i, j)).getD 0⟩ := by
  obtain ⟨c, e, w, p, o⟩ := Coo_new_ok hs val row col h1 h2
  have hp := (new_keeps hs e).2.2
  have hn : (c.entries.map Prod.fst).Nodup := by rw [Coo.entries_fst w]; exact hp.nodup_iff.mpr hd
  refine ⟨c, e, w, o, hp.nodup_iff.mpr hd, fun q => ?_, fun i j => ?_⟩
  · rw [hp.mem_iff]; simp
  · rw [Coo.get_eq w]
    unfold Coo.elem
    rw [lookup_perm p hn]

theorem shows_unit [CommRing T] {srt : SortFn} (hs : LawfulSort srt) (n : Nat) :
    ∃ c : Coo T, Coo.unit srt n = .ok c ∧
      c.Shows ⟨(Finset.range n).image fun i => (i, i), fun i j => if i = j ∧ i < n then 1 else 0⟩ := by
  obtain ⟨c, e, hn, w, o, d, hg⟩ := C30_coo (T := T) hs n
  refine ⟨c, e, w, o, d, ?_, hg⟩
  have e' : Coo.new srt (List.replicate n (1 : T)) (List.range n) (List.range n) = .ok c := by
    unfold Coo.unit at e
    rw [Coo.unit_loop n n (Nat.le_refl _), ok_bind] at e
    simpa using e
  have hp := (new_keeps hs e').2.2
  intro q
  have := Coo.pos_range n (List.replicate n (1 : T))
  unfold Coo.pos at this
  rw [hp.mem_iff, this]
  simp

theorem shows_map [CommRing T] {c : Coo T} {a : AMat T} (h : c.Shows a) (alpha : T) :
    ({ c with val := c.val.map (fun x => alpha * x) } : Coo T).Shows (a.map (alpha * ·)) := by
  have hw : ({ c with val := c.val.map (fun x => alpha * x) } : Coo T).Wf :=
    ⟨by simp [h.wf.1], by simp [h.wf.2]⟩
  refine ⟨hw, h.sorted, h.distinct, h.pos, fun i j => ?_⟩
  rw [Coo.get_eq hw, Coo.elem_scale]
  have := h.elem i j
  rw [Coo.get_eq h.wf] at this
  injection this with this
  rw [this]; rfl

theorem shows_addAssign [CommRing T] {srt : SortFn} (hs : LawfulSort srt) {A B : Coo T} {a b : AMat T} (hA : A.Shows a)
    (hB : B.Shows b) (h : AMat.Addable a.pos b.pos) :
    ∃ C, Coo.addAssign srt (fun _ => B) A = .ok C ∧ C.Shows (a.zip (· + ·) b) := by
  obtain ⟨hne, safe⟩ := addable_safe hA hB h
  obtain ⟨C, e, w, o, d, p, g⟩ := C26_add_partial hs A B hA.wf hB.wf hA.sorted hB.sorted hA.distinct hB.distinct hne safe
  refine ⟨C, e, w, o, d, fun q => by rw [p, hA.pos, hB.pos]; simp [AMat.zip], fun i j => ?_⟩
  obtain ⟨x, y, h1, h2, h3⟩ := g i j
  rw [hA.elem] at h1
  rw [hB.elem] at h2
  injection h1 with h1
  injection h2 with h2
  rw [h3, ← h1, ← h2]; rfl

theorem shows_addSelf [CommRing T] {srt : SortFn} (hs : LawfulSort srt) {A : Coo T} {a : AMat T} (hA : A.Shows a)
    (h : AMat.Addable a.pos a.pos) :
    ∃ C, Coo.addAssign srt (fun c => c) A = .ok C ∧ C.Shows (a.zip (· + ·) a) := by
  obtain ⟨hne, _⟩ := addable_safe hA hA h
  obtain ⟨C, e, w, p, g⟩ := C26_self hs A hA.wf hA.sorted hA.distinct hne
  refine ⟨C, e, w, ?_, ?_, fun q => by rw [p, hA.pos]; simp [AMat.zip], fun i j => ?_⟩
  · unfold Coo.Sorted; rw [p]; exact hA.sorted
  · unfold Coo.Distinct; rw [p]; exact hA.distinct
  obtain ⟨x, h1, h3⟩ := g i j
  rw [hA.elem] at h1
  injection h1 with h1
  rw [h3, ← h1]; rfl

theorem exec_ok [CommRing T] {srt : SortFn} {st : CooStmt T} {s s' : CooStore T} (h : st.act srt s = .ok s') :
    st.exec srt s = ⟨.ok (), s'⟩ := by
  unfold CooStmt.exec Kept.run
  rw [h]; rfl

theorem exec_error [CommRing T] {srt : SortFn} {st : CooStmt T} {s : CooStore T} {f : Fault}
    (h : st.act srt s = .error f) : st.exec srt s = ⟨.error f, s⟩ := by
  unfold CooStmt.exec Kept.run
  rw [h]

/-! ## C63 -/

/-- What a statement throws. -/
def thrown : Option Exn → Res Unit
  | none => .ok ()
  | some e => .error (.throw e)

/-- One statement does to the objects what it does to the matrices, exceptions included. -/
theorem C63_step [CommRing T] {srt : SortFn} (hs : LawfulSort srt) (st : CooStmt T) (s : CooStore T) (a : AStore T)
    (h : s.Shows a) (hv : st.Valid a) :
    (st.exec srt s).res = thrown (st.step a).2 ∧ (st.exec srt s).obj.Shows (st.step a).1 := by
  cases st with
  | construct x val row col =>
    by_cases hl : val.length = row.length ∧ val.length = col.length
    · obtain ⟨c, e, hc⟩ := shows_new hs hl.1 hl.2 hv
      rw [exec_ok (s' := s.put x c) (by simp [CooStmt.act, e, assignTmp_eq])]
      simp only [CooStmt.step, if_pos hl]
      exact ⟨rfl, put_shows h x fun n hn => by injection hn with hn; subst hn; exact hc⟩
    · rw [exec_error (f := .throw .runtimeError) (by simp [CooStmt.act, (C24_throws hs val row col).mpr hl])]
      simp only [CooStmt.step, if_neg hl]
      exact ⟨rfl, h⟩
  | unit x n =>
    obtain ⟨c, e, hc⟩ := shows_unit (T := T) hs n
    rw [exec_ok (s' := s.put x c) (by simp [CooStmt.act, e, assignTmp_eq])]
    exact ⟨rfl, put_shows h x fun n hn => by injection hn with hn; subst hn; exact hc⟩
  | copy x y =>
    rw [exec_ok (s' := s.put x (s y)) (by simp [CooStmt.act, copyAssign_eq])]
    exact ⟨rfl, put_shows h x fun n hn => h y n hn⟩
  | move x y left =>
    rw [exec_ok (s' := (s.put x (s y)).put y left) (by simp [CooStmt.act, moveAssign_eq])]
    exact ⟨rfl, put_shows (put_shows h x fun n hn => h y n hn) y fun n hn => by cases hn⟩
  | write x i j v =>
    obtain ⟨m, hm⟩ := hv
    have hx := h x m hm
    obtain ⟨h1, h2⟩ := C25_update (s x) hx.wf i j v
    simp only [CooStmt.step, hm]
    by_cases hp : (i, j) ∈ m.pos
    · obtain ⟨c, e, hr, hc, hl, hg, hg'⟩ := h1 ((hx.pos _).mpr hp)
      rw [exec_ok (s' := s.put x c) (by simp [CooStmt.act, e])]
      rw [if_pos hp]
      have hpos : c.pos = (s x).pos := by unfold Coo.pos; rw [hr, hc]
      refine ⟨rfl, put_shows h x fun n hn => ?_⟩
      injection hn with hn
      subst hn
      refine ⟨⟨by rw [hr, hl]; exact hx.wf.1, by rw [hc, hl]; exact hx.wf.2⟩, ?_, ?_, fun q => by rw [hpos, hx.pos],
        fun i' j' => ?_⟩
      · unfold Coo.Sorted; rw [hpos]; exact hx.sorted
      · unfold Coo.Distinct; rw [hpos]; exact hx.distinct
      · by_cases hij : i' = i ∧ j' = j
        · obtain ⟨rfl, rfl⟩ := hij
          simp [hg]
        · simp only [if_neg hij]
          rw [hg' i' j' (by simpa using hij), hx.elem]
    · rw [exec_error (f := .throw .outOfRange) (by simp [CooStmt.act, h2 (fun hh => hp ((hx.pos _).mp hh))]),
        if_neg hp]
      exact ⟨rfl, h⟩
  | scale x alpha =>
    obtain ⟨m, hm⟩ := hv
    rw [exec_ok (s' := s.put x _) (by simp only [CooStmt.act, Coo.scale_eq, ok_bind]; rfl)]
    refine ⟨rfl, put_shows h x fun n hn => ?_⟩
    rw [hm] at hn
    injection hn with hn
    subst hn
    exact shows_map (h x m hm) alpha
  | addAssign x y =>
    obtain ⟨m, m', hm, hm', hadd⟩ := hv
    by_cases hxy : y = x
    · subst hxy
      rw [hm] at hm'
      injection hm' with hm'
      subst hm'
      obtain ⟨c, e, hc⟩ := shows_addSelf hs (h y m hm) hadd
      rw [exec_ok (s' := s.put y c) (by simp [CooStmt.act, e])]
      refine ⟨rfl, put_shows h y fun n hn => ?_⟩
      rw [hm] at hn
      injection hn with hn
      subst hn; exact hc
    · obtain ⟨c, e, hc⟩ := shows_addAssign hs (h x m hm) (h y m' hm') hadd
      rw [exec_ok (s' := s.put x c) (by simp [CooStmt.act, hxy, e])]
      refine ⟨rfl, put_shows h x fun n hn => ?_⟩
      rw [hm, hm'] at hn
      injection hn with hn
      subst hn; exact hc
  | add x y z =>
    obtain ⟨m, m', hm, hm', hadd⟩ := hv
    obtain ⟨c, e, hc⟩ := shows_addAssign hs (h y m hm) (h z m' hm') hadd
    rw [exec_ok (s' := s.put x c) (by simp [CooStmt.act, Coo.add, e, noexcept, assignTmp_eq])]
    refine ⟨rfl, put_shows h x fun n hn => ?_⟩
    rw [hm, hm'] at hn
    injection hn with hn
    subst hn; exact hc
  | sub x y z =>
    obtain ⟨m, m', hm, hm', hadd⟩ := hv
    obtain ⟨c, e, hc⟩ := shows_addAssign hs (h y m hm) (shows_map (h z m' hm') (-1)) hadd
    rw [exec_ok (s' := s.put x c) (by
      simp only [CooStmt.act, Coo.sub, Coo.neg, Coo.scale_eq, noexcept, ok_bind, e, assignTmp_eq])]
    refine ⟨rfl, put_shows h x fun n hn => ?_⟩
    rw [hm, hm'] at hn
    injection hn with hn
    subst hn
    refine ⟨hc.wf, hc.sorted, hc.distinct, hc.pos, fun i j => ?_⟩
    rw [hc.elem]
    congr 1
    simp only [AMat.zip, AMat.map]
    ring
  | smul x alpha y =>
    obtain ⟨m, hm⟩ := hv
    rw [exec_ok (s' := s.put x _) (by
      simp only [CooStmt.act, Coo.smul, Coo.scale_eq, noexcept, ok_bind, assignTmp_eq]; rfl)]
    refine ⟨rfl, put_shows h x fun n hn => ?_⟩
    rw [hm] at hn
    injection hn with hn
    subst hn
    exact shows_map (h y m hm) alpha
  | neg x y =>
    obtain ⟨m, hm⟩ := hv
    rw [exec_ok (s' := s.put x _) (by
      simp only [CooStmt.act, Coo.neg, Coo.scale_eq, noexcept, ok_bind, assignTmp_eq]; rfl)]
    refine ⟨rfl, put_shows h x fun n hn => ?_⟩
    rw [hm] at hn
    injection hn with hn
    subst hn
    have hc := shows_map (h y m hm) (-1)
    refine ⟨hc.wf, hc.sorted, hc.distinct, hc.pos, fun i j => ?_⟩
    rw [hc.elem]
    congr 1
    simp only [AMat.map]
    ring

/-- A program over named objects computes what it computes on matrices: it runs to the end, throws exactly the
expected exceptions, and every object then shows the expected matrix. -/
theorem C63_program [CommRing T] {srt : SortFn} (hs : LawfulSort srt) (p : List (CooStmt T)) (s : CooStore T)
    (a : AStore T) (h : s.Shows a) (hv : CooStmt.ValidAll p a) :
    ∃ s', CooStmt.runAll srt p s = .ok (s', (CooStmt.stepAll p a).2) ∧ s'.Shows (CooStmt.stepAll p a).1 := by
  induction p generalizing s a with
  | nil => exact ⟨s, rfl, h⟩
  | cons st p ih =>
    obtain ⟨h1, h2⟩ := C63_step hs st s a h hv.1
    obtain ⟨s', e, h'⟩ := ih _ _ h2 hv.2
    refine ⟨s', ?_, h'⟩
    unfold CooStmt.runAll
    rw [h1]
    cases ho : (st.step a).2 with
    | none => simp only [thrown, CooStmt.stepAll, ho, e, ok_bind]
    | some x => simp only [thrown, CooStmt.stepAll, ho, e, ok_bind]

/-- Whatever the objects hold and whatever a statement's outcome, it changes only the object it is directed at
(`move` also changes its source). -/
theorem C63_frame [Zero T] [One T] [Neg T] [Add T] [Mul T] (srt : SortFn) (st : CooStmt T) (s : CooStore T) (q : Nat)
    (hq : q ∉ st.targets) : (st.exec srt s).obj q = s q := by
  unfold CooStmt.exec Kept.run
  cases e : st.act srt s with
  | error f => rfl
  | ok s' =>
    show s' q = s q
    have key : ∀ (x : Nat) (r : Res (Coo T)), q ≠ x → (r >>= fun t => .ok (s.put x t)) = .ok s' → s' q = s q := by
      intro x r hx hr
      cases r with
      | error f => cases hr
      | ok t => injection hr with hr; rw [← hr]; simp [CooStore.put, hx]
    cases st <;> simp only [CooStmt.targets, List.mem_cons, List.not_mem_nil, or_false, not_or] at hq <;>
      simp only [CooStmt.act, assignTmp_eq, copyAssign_eq, moveAssign_eq] at e <;>
      first
      | exact key _ _ hq e
      | (injection e with e; rw [← e]; simp [CooStore.put, hq])

/-- A statement that fails changes nothing at all. -/
theorem C63_failure [Zero T] [One T] [Neg T] [Add T] [Mul T] (srt : SortFn) (st : CooStmt T) (s : CooStore T)
    (h : (st.exec srt s).res ≠ .ok ()) : (st.exec srt s).obj = s := by
  unfold CooStmt.exec Kept.run at *
  cases e : st.act srt s with
  | error f => rfl
  | ok s' => rw [e] at h; exact absurd rfl h

/-- Self-assignment keeps the object; `x = y` makes the two objects equal. -/
theorem C63_copy [CommRing T] (srt : SortFn) (x y : Nat) (s : CooStore T) :
    ((CooStmt.copy x y).exec srt s).obj x = s y ∧ ((CooStmt.copy x x).exec srt s).obj = s := by
  constructor
  · rw [exec_ok (s' := s.put x (s y)) (by simp [CooStmt.act, copyAssign_eq])]
    simp [CooStore.put]
  · rw [exec_ok (s' := s.put x (s x)) (by simp [CooStmt.act, copyAssign_eq])]
    funext q
    by_cases h : q = x <;> simp [CooStore.put, h]

/-- The represented matrix determines the object. -/
theorem C63_unique [Zero T] (c c' : Coo T) (a : AMat T) (h : c.Shows a) (h' : c'.Shows a) : c = c' := by
  have hpos : c.pos = c'.pos := by
    refine List.Perm.eq_of_pairwise (le := posLt) ?_ (Coo.strict_of_sorted h.sorted h.distinct)
      (Coo.strict_of_sorted h'.sorted h'.distinct) ?_
    · intro x y _ _ h1 h2
      exfalso
      rcases h1 with h1 | ⟨h1, h1'⟩ <;> rcases h2 with h2 | ⟨h2, h2'⟩ <;> omega
    · exact (List.perm_ext_iff_of_nodup h.distinct h'.distinct).mpr fun p => by rw [h.pos, h'.pos]
  have hlen : c.val.length = c'.val.length := by rw [← Coo.length_pos h.wf, ← Coo.length_pos h'.wf, hpos]
  have hrow : c.row = c'.row := by
    have := congrArg (List.map Prod.fst) hpos
    unfold Coo.pos at this
    rwa [List.map_fst_zip (by rw [h.wf.1, h.wf.2]), List.map_fst_zip (by rw [h'.wf.1, h'.wf.2])] at this
  have hcol : c.col = c'.col := by
    have := congrArg (List.map Prod.snd) hpos
    unfold Coo.pos at this
    rwa [List.map_snd_zip (by rw [h.wf.1, h.wf.2]), List.map_snd_zip (by rw [h'.wf.1, h'.wf.2])] at this
  have hval : c.val = c'.val := by
    refine List.ext_getElem hlen fun k h1 h2 => ?_
    have key : ∀ (d : Coo T) (hd : d.Shows a) (hk : k < d.val.length),
        a.elem (d.row[k]'(by rw [hd.wf.1]; exact hk)) (d.col[k]'(by rw [hd.wf.2]; exact hk)) = d.val[k] := by
      intro d hd hk
      have e := hd.elem (d.row[k]'(by rw [hd.wf.1]; exact hk)) (d.col[k]'(by rw [hd.wf.2]; exact hk))
      rw [Coo.get_eq hd.wf] at e
      injection e with e
      rw [← e]
      unfold Coo.elem
      rw [lookup_of_mem (v := d.val[k]) (by rw [Coo.entries_fst hd.wf]; exact hd.distinct)]
      · rfl
      · rw [← Coo.entries_getElem hd.wf hk]; exact List.getElem_mem _
    rw [← key c h h1, ← key c' h' h2]
    simp only [hrow, hcol]
  cases c; cases c'; simp_all

/-- A sum whose right operand has no row of its own is in the safe domain. -/
theorem C63_addable_rows (P Q : Finset (Nat × Nat)) (hne : Q.Nonempty) (h : ∀ q ∈ Q, ∃ p ∈ P, p.1 = q.1) :
    AMat.Addable P Q := by
  refine ⟨hne, fun i ⟨j, hj⟩ hn => ?_⟩
  obtain ⟨p, hp, he⟩ := h _ hj
  exact absurd hp (by rw [show p = (i, p.2) from Prod.ext he rfl]; exact hn p.2)

/-- Objects that no statement of a program is directed at keep their contents. -/
theorem C63_program_frame [Zero T] [One T] [Neg T] [Add T] [Mul T] (srt : SortFn) (p : List (CooStmt T))
    (s s' : CooStore T) (o : List (Option Exn)) (h : CooStmt.runAll srt p s = .ok (s', o)) (q : Nat)
    (hq : ∀ st ∈ p, q ∉ st.targets) : s' q = s q := by
  induction p generalizing s o with
  | nil =>
    injection h with h
    rw [Prod.mk.injEq] at h
    rw [h.1]
  | cons st p ih =>
    rw [← C63_frame srt st s q (hq st (by simp))]
    unfold CooStmt.runAll at h
    cases e : CooStmt.runAll srt p (st.exec srt s).obj with
    | error f => rw [e] at h; split at h <;> cases h
    | ok r =>
      refine ih _ r.2 ?_ fun st' hst' => hq st' (by simp [hst'])
      rw [e] at h ⊢
      have : r.1 = s' := by
        split at h
        · injection h with h; exact (Prod.mk.inj h).1
        · injection h with h; exact (Prod.mk.inj h).1
        · cases h
      rw [← this]

/-- What follows from the represented matrix: the number of stored elements, the shape, and the product of the
compressed matrix with a vector. -/
theorem C63_observe [CommRing T] (nd : Bool) (c : Coo T) (a : AMat T) (h : c.Shows a) (hne : a.pos.Nonempty) :
    c.nnz = a.pos.card ∧ ∃ r n, c.shape = .ok (r, n) ∧ (∀ p ∈ a.pos, p.1 < r ∧ p.2 < n) ∧
      (∃ p ∈ a.pos, p.1 + 1 = r) ∧ (∃ p ∈ a.pos, p.2 + 1 = n) ∧ ∃ m, Csr.ofCoo c = .ok m ∧ m.shape = .ok (r, n) ∧
        ∀ x : List T, x.length = n → Csr.mulVec nd m x =
          .ok ((List.range r).map fun i => ∑ j ∈ Finset.range n, a.elem i j * val0 x j) := by
  have hval : c.val ≠ [] := by
    intro h0
    obtain ⟨p, hp⟩ := hne
    rw [← h.pos] at hp
    have := List.length_pos_of_mem hp
    rw [Coo.length_pos h.wf, h0] at this
    simp at this
  refine ⟨?_, ?_⟩
  · unfold Coo.nnz
    rw [← Coo.length_pos h.wf, ← List.toFinset_card_of_nodup h.distinct]
    congr 1
    ext p
    rw [List.mem_toFinset, h.pos]
  obtain ⟨r, n, e, h1, ⟨p, hp, h2⟩, ⟨q, hq, h3⟩⟩ := Coo.shape_spec h.wf hval
  obtain ⟨m, em, hm, _, hg, hsh, _⟩ := C28_convert c h.wf h.sorted
  obtain ⟨m', em', hd, _⟩ := C28_distinct c h.wf h.sorted h.distinct
  rw [em] at em'
  injection em' with em'
  subst em'
  obtain ⟨s1, s2, _⟩ := hsh r n e
  refine ⟨r, n, e, fun p hp => h1 p ((h.pos p).mpr hp), ⟨p, (h.pos p).mp hp, h2⟩, ⟨q, (h.pos q).mp hq, h3⟩, m, em, s1, ?_⟩
  intro x hx
  rw [← s2] at s1
  obtain ⟨s', e', hst⟩ := C31_op_partial nd m hm hd a.elem n 0 1 (Mem.ofList [x]) s1
    (fun i j hi _ => by rw [hg i j hi, h.elem]) (by simpa [Mem.len, Mem.ofList] using hx) (by omega)
  unfold Csr.mulVec
  rw [e', ok_bind, hst.1, s2]
  rfl

-- `a = {(0,0):1, (2,1):2}; b = {(0,3):4, (1,0):5}; c = a; a += b; c += c; a.mut_at(5,5) = 7 (throws);
-- b = a - b; a = std::move(c);` with the insertion sort
example : (CooStmt.runAll Coo.insSort [.construct 0 [2, 1] [2, 0] [1, 0], .construct 1 [4, 5] [0, 1] [3, 0],
      .copy 2 0, .addAssign 0 1, .addAssign 2 2, .write 0 5 5 7, .sub 1 0 1, .move 0 2 Coo.empty]
      (fun _ => Coo.empty)).map (fun r => (r.1 0, r.1 1, r.1 2, r.2)) =
    .ok ((⟨[2, 4], [0, 2], [0, 1]⟩ : Coo Int), ⟨[1, 0, 0, 2], [0, 0, 1, 2], [0, 3, 0, 1]⟩, ⟨[], [], []⟩,
      [none, none, none, none, none, some .outOfRange, none, none]) := by decide +kernel

-- the same program is valid on matrices
example : CooStmt.ValidAll [.construct 0 [2, 1] [2, 0] [1, 0], .construct 1 [4, 5] [0, 1] [3, 0],
      .copy 2 0, .addAssign 0 1, .addAssign 2 2, .write 0 5 5 7, .sub 1 0 1, .move 0 2 Coo.empty]
      (fun _ => (none : Option (AMat Int))) := by
  refine ⟨(by decide : List.Nodup _), (by decide : List.Nodup _), ⟨_, rfl⟩, ⟨_, _, rfl, rfl, by decide, ?_⟩,
    ⟨_, _, rfl, rfl, C63_addable_rows _ _ (by decide) (by decide)⟩, ⟨_, rfl⟩,
    ⟨_, _, rfl, rfl, C63_addable_rows _ _ (by decide) (by decide)⟩, ⟨_, rfl⟩, trivial⟩
  -- row 1 is not stored in `a`; the next stored position is (2,1), and (1,1) is not stored in `b`
  rintro i ⟨j, hj⟩ hn
  have hj' : (i, j) = (0, 3) ∨ (i, j) = (1, 0) := by simpa [or_comm] using hj
  simp only [Prod.mk.injEq] at hj'
  rcases hj' with ⟨rfl, rfl⟩ | ⟨rfl, rfl⟩
  · exact absurd (by decide) (hn 0)
  · refine ⟨2, 1, by decide, .inl ⟨by decide, ?_⟩⟩
    rintro ⟨k, l⟩ ⟨hk, hlt⟩
    have hk' : (k, l) = (2, 1) ∨ (k, l) = (0, 0) := by simpa [or_comm] using hk
    simp only [Prod.mk.injEq] at hk'
    unfold posLe
    simp only at hlt ⊢
    omega

end Lalib.Props
