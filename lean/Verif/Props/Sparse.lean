import Verif.Proofs.SparseAdd
import Verif.Proofs.DenseOps
import Mathlib.Tactic.NormNum

/-! # Properties C24-C33 and C49: sparse matrices -/

namespace Lalib.Props

open Lalib

variable {T : Type}

/-! ## C24: construction of COO matrices -/

theorem C24_throws {srt : SortFn} (hs : LawfulSort srt) (val : List T) (row col : List Nat) :
    Coo.new srt val row col = .error (.throw .runtimeError) ↔
      ¬ (val.length = row.length ∧ val.length = col.length) := by
  constructor
  · rintro h ⟨h1, h2⟩
    obtain ⟨a, e, _⟩ := Coo.sort_spec hs (a := ⟨val, row, col⟩) ⟨h1.symm, h2.symm⟩
    simp [Coo.new, throwIf, h1, e] at h
    rw [← h2, h1] at h
    simp at h
  · intro h
    have : (val.length != row.length || val.length != col.length) = true := by
      rw [Bool.or_eq_true, bne_iff_ne, bne_iff_ne]
      tauto
    simp [Coo.new, throwIf, this]

theorem Coo_new_ok {srt : SortFn} (hs : LawfulSort srt) (val : List T) (row col : List Nat)
    (h1 : val.length = row.length) (h2 : val.length = col.length) :
    ∃ a, Coo.new srt val row col = .ok a ∧ a.Wf ∧ a.entries.Perm (triplets val row col) ∧ a.Sorted := by
  obtain ⟨a, e, w, p, o⟩ := Coo.sort_spec hs (a := ⟨val, row, col⟩) ⟨h1.symm, h2.symm⟩
  refine ⟨a, ?_, w, p, o⟩
  have : (val.length != row.length || val.length != col.length) = false := by simp [← h1, ← h2]
  simp [Coo.new, throwIf, this, e]

/-- The stored triplets are a permutation of the given ones, in row-major order, for every admissible
sort. -/
theorem C24_triplets {srt : SortFn} (hs : LawfulSort srt) (val : List T) (row col : List Nat)
    (h1 : val.length = row.length) (h2 : val.length = col.length) :
    ∃ a, Coo.new srt val row col = .ok a ∧ a.row.length = a.val.length ∧ a.col.length = a.val.length ∧
      (triplets a.val a.row a.col).Perm (triplets val row col) ∧ (a.row.zip a.col).Pairwise posLe := by
  obtain ⟨a, e, w, p, o⟩ := Coo_new_ok hs val row col h1 h2
  exact ⟨a, e, w.1, w.2, p, o⟩

theorem map_fst_triplets {val : List T} {row col : List Nat} (h1 : val.length = row.length)
    (h2 : val.length = col.length) : (triplets val row col).map Prod.fst = row.zip col :=
  Coo.entries_fst (a := ⟨val, row, col⟩) ⟨h1.symm, h2.symm⟩

/-- Reading returns the given value at every given position and 0 elsewhere. -/
theorem C24_read [Zero T] {srt : SortFn} (hs : LawfulSort srt) (val : List T) (row col : List Nat)
    (h1 : val.length = row.length) (h2 : val.length = col.length) (hd : (row.zip col).Nodup) :
    ∃ a, Coo.new srt val row col = .ok a ∧
      (∀ (k i j : Nat) (v : T), val[k]? = some v → row[k]? = some i → col[k]? = some j →
        a.get i j = .ok v) ∧
      (∀ i j, (∀ k : Nat, ¬ (row[k]? = some i ∧ col[k]? = some j)) → a.get i j = .ok 0) := by
  obtain ⟨a, e, w, p, o⟩ := Coo_new_ok hs val row col h1 h2
  have hn : ((triplets val row col).map Prod.fst).Nodup := by rw [map_fst_triplets h1 h2]; exact hd
  refine ⟨a, e, ?_, ?_⟩
  · intro k i j v hv hi hj
    rw [Coo.get_eq w]
    unfold Coo.elem
    rw [lookup_perm p ((p.map _).nodup_iff.mpr hn), lookup_of_mem (v := v) hn]
    · rfl
    · obtain ⟨k1, rfl⟩ := List.getElem?_eq_some_iff.mp hi
      obtain ⟨k2, rfl⟩ := List.getElem?_eq_some_iff.mp hj
      obtain ⟨k3, rfl⟩ := List.getElem?_eq_some_iff.mp hv
      have : (triplets val row col)[k]'(by simp [triplets]; omega) = ((row[k], col[k]), val[k]) := by
        simp [triplets]
      rw [← this]
      exact List.getElem_mem _
  · intro i j hno
    rw [Coo.get_eq w]
    unfold Coo.elem
    rw [lookup_none]
    · rfl
    · intro x hx hxe
      have : (i, j) ∈ row.zip col := by
        rw [← map_fst_triplets h1 h2, ← hxe]
        exact List.mem_map.mpr ⟨x, p.subset hx, rfl⟩
      obtain ⟨k, hk, he⟩ := List.getElem_of_mem this
      simp only [List.length_zip] at hk
      simp only [List.getElem_zip, Prod.mk.injEq] at he
      exact hno k ⟨by rw [List.getElem?_eq_getElem (by omega), he.1],
        by rw [List.getElem?_eq_getElem (by omega), he.2]⟩

/-- The stored object depends neither on the order of the input nor on how the sort breaks ties. -/
theorem C24_order_independent {srt srt' : SortFn} (hs : LawfulSort srt) (hs' : LawfulSort srt')
    (val val' : List T) (row col row' col' : List Nat) (h1 : val.length = row.length)
    (h2 : val.length = col.length) (h1' : val'.length = row'.length) (h2' : val'.length = col'.length)
    (hd : (row.zip col).Nodup) (hp : (triplets val row col).Perm (triplets val' row' col')) :
    Coo.new srt val row col = Coo.new srt' val' row' col' := by
  obtain ⟨a, e, w, p, o⟩ := Coo_new_ok hs val row col h1 h2
  obtain ⟨a', e', w', p', o'⟩ := Coo_new_ok hs' val' row' col' h1' h2'
  rw [e, e']
  have hperm : a.entries.Perm a'.entries := p.trans (hp.trans p'.symm)
  have hn : a.pos.Nodup := by
    rw [← Coo.entries_fst w, (p.map _).nodup_iff, map_fst_triplets h1 h2]; exact hd
  have hn' : a'.pos.Nodup := by
    rw [← Coo.entries_fst w', ← (hperm.map _).nodup_iff, Coo.entries_fst w]; exact hn
  have sA := Coo.strict_of_sorted o hn
  have sA' := Coo.strict_of_sorted o' hn'
  have hE : a.entries = a'.entries := by
    refine List.Perm.eq_of_pairwise (le := fun x y => posLt x.1 y.1) ?_ ?_ ?_ hperm
    · intro x y _ _ h1 h2
      exfalso
      rcases h1 with h1 | ⟨h1, h1'⟩ <;> rcases h2 with h2 | ⟨h2, h2'⟩ <;> omega
    · rw [← Coo.entries_fst w] at sA; exact List.pairwise_map.mp sA
    · rw [← Coo.entries_fst w'] at sA'; exact List.pairwise_map.mp sA'
  have key : ∀ b : Coo T, b.Wf → b = ⟨b.entries.map Prod.snd, b.entries.map (fun x => x.1.1),
      b.entries.map (fun x => x.1.2)⟩ := by
    intro b hb
    have e1 := Coo.entries_fst hb
    have e2 : b.entries.map Prod.snd = b.val := by
      unfold Coo.entries triplets
      rw [List.map_snd_zip (by simp; exact ⟨hb.1.ge, hb.2.ge⟩ )]
    have e3 : b.entries.map (fun x => x.1.1) = b.row := by
      have : b.entries.map (fun x => x.1.1) = (b.entries.map Prod.fst).map Prod.fst := by simp
      rw [this, e1]
      unfold Coo.pos
      rw [List.map_fst_zip (by rw [hb.1, hb.2])]
    have e4 : b.entries.map (fun x => x.1.2) = b.col := by
      have : b.entries.map (fun x => x.1.2) = (b.entries.map Prod.fst).map Prod.snd := by simp
      rw [this, e1]
      unfold Coo.pos
      rw [List.map_snd_zip (by rw [hb.1, hb.2])]
    rw [e2, e3, e4]
  rw [key a w, key a' w', hE]

/-- The contract of the sort can be met. -/
theorem C24_sort_exists : ∃ srt, LawfulSort srt := ⟨_, Coo.lawful_insSort⟩

-- a concrete unsorted input with distinct positions
example : ∃ a, Coo.new Coo.insSort [3, 1, 2] [1, 0, 1] [0, 2, 5] =
    .ok (a : Coo Int) ∧ a = ⟨[1, 3, 2], [0, 1, 1], [2, 0, 5]⟩ := ⟨_, by decide +kernel, rfl⟩

/-! ## C25: element update -/

/-- An update of a stored position replaces exactly that element and keeps the positions; an unstored
position throws (and there is no new state). -/
theorem C25_update [Zero T] (a : Coo T) (hw : a.Wf) (i j : Nat) (v : T) :
    ((i, j) ∈ a.pos → ∃ a', a.set i j v = .ok a' ∧ a'.row = a.row ∧ a'.col = a.col ∧
      a'.val.length = a.val.length ∧ a'.get i j = .ok v ∧
      ∀ i' j', (i', j') ≠ (i, j) → a'.get i' j' = a.get i' j') ∧
    ((i, j) ∉ a.pos → a.set i j v = .error (.throw .outOfRange)) := by
  rcases Coo.set_spec hw i j v with ⟨h, a', e, w, hp, h1, h2⟩ | ⟨h, e⟩
  · refine ⟨fun _ => ?_, fun h' => absurd h h'⟩
    have hrc : a'.row = a.row ∧ a'.col = a.col ∧ a'.val.length = a.val.length := by
      unfold Coo.set at e
      cases hs : a.search i j with
      | error f => simp [hs] at e
      | ok r =>
        rw [hs, ok_bind] at e
        cases r with
        | inl u => simp at e
        | inr k =>
          simp only at e
          by_cases hk : k < a.val.length
          · rw [lwr_ok hk, ok_bind] at e
            injection e with e
            subst e; simp
          · rw [lwr_oob (by omega)] at e; simp at e
    refine ⟨a', e, hrc.1, hrc.2.1, hrc.2.2, by rw [Coo.get_eq w, h1], ?_⟩
    intro i' j' hne
    rw [Coo.get_eq w, Coo.get_eq hw, h2 i' j' hne]
  · exact ⟨fun h' => absurd h' h, fun _ => e⟩

example : (⟨[1, 3, 2], [0, 1, 1], [2, 0, 5]⟩ : Coo Int).set 1 0 9 =
    .ok ⟨[1, 9, 2], [0, 1, 1], [2, 0, 5]⟩ := by decide +kernel

/-! ## C26: in-place addition

The full claim (correct for all pairs) is false.  `C26_add_partial` proves it on the domain `AddSafe`,
`C26_add_iff` shows that this domain is exact for matrices without stored zeros in `B`; the theorems
named `_false` describe the failures. -/

theorem C26_add_partial [AddCommMonoid T] {srt : SortFn} (hs : LawfulSort srt) (A B : Coo T) (hA : A.Wf)
    (hB : B.Wf) (sA : A.Sorted) (sB : B.Sorted) (dA : A.Distinct) (dB : B.Distinct) (hne : B.val ≠ [])
    (safe : Coo.AddSafe A B) :
    ∃ C, Coo.addAssign srt (fun _ => B) A = .ok C ∧ C.Wf ∧ C.Sorted ∧ C.Distinct ∧
      (∀ p, p ∈ C.pos ↔ p ∈ A.pos ∨ p ∈ B.pos) ∧
      ∀ i j, ∃ x y, A.get i j = .ok x ∧ B.get i j = .ok y ∧ C.get i j = .ok (x + y) := by
  obtain ⟨C, e, w, s, p, h⟩ := Coo.addAssign_spec hs hA hB (Coo.strict_of_sorted sA dA)
    (Coo.strict_of_sorted sB dB) hne safe
  refine ⟨C, e, w, (Coo.sorted_of_strict s).1, (Coo.sorted_of_strict s).2, p, ?_⟩
  intro i j
  exact ⟨_, _, Coo.get_eq hA i j, Coo.get_eq hB i j, by rw [Coo.get_eq w, h]⟩

/-- The safe domain contains all pairs where `B` has no row that `A` lacks. -/
theorem C26_rows_subset (A B : Coo T) (h : ∀ i, B.Occupied i → A.Occupied i) : Coo.AddSafe A B :=
  fun i ho hn => absurd (h i ho) hn

/-- For `B` without stored zeros, `A += B` is correct exactly on the safe domain. -/
theorem C26_add_iff [AddCommMonoid T] {srt : SortFn} (hs : LawfulSort srt) (A B : Coo T) (hA : A.Wf)
    (hB : B.Wf) (sA : A.Sorted) (sB : B.Sorted) (dA : A.Distinct) (dB : B.Distinct) (hne : B.val ≠ [])
    (hz : ∀ v ∈ B.val, v ≠ 0) :
    (∃ C, Coo.addAssign srt (fun _ => B) A = .ok C ∧
      ∀ i j, ∃ x y, A.get i j = .ok x ∧ B.get i j = .ok y ∧ C.get i j = .ok (x + y)) ↔
    Coo.AddSafe A B := by
  constructor
  · rintro ⟨C, e, h⟩
    by_contra hc
    obtain ⟨wC, ⟨i, j⟩, p1, p2, p3⟩ := Coo.addAssign_unsafe hs hA hB (Coo.strict_of_sorted sA dA)
      (Coo.strict_of_sorted sB dB) hne hc C e
    obtain ⟨x, y, h1, h2, h3⟩ := h i j
    have hnone : ∀ D : Coo T, D.Wf → (i, j) ∉ D.pos → D.get i j = .ok 0 := by
      intro D hD hn
      rw [Coo.get_eq hD, Coo.elem, lookup_none]
      · rfl
      · intro x hx hxe
        apply hn
        rw [← Coo.entries_fst hD, ← hxe]
        exact List.mem_map.mpr ⟨x, hx, rfl⟩
    rw [hnone A hA p2] at h1
    injection h1 with h1
    rw [hnone C wC p3] at h3
    injection h3 with h3
    rw [← h1, zero_add] at h3
    rw [Coo.get_eq hB] at h2
    injection h2 with h2
    rw [← Coo.entries_fst hB] at p1
    obtain ⟨⟨q, v⟩, hm, hq⟩ := List.mem_map.mp p1
    simp only at hq
    subst hq
    have hv : B.elem i j = v := by
      unfold Coo.elem
      rw [lookup_of_mem (by rw [Coo.entries_fst hB]; exact dB) hm]; rfl
    have hvm : v ∈ B.val := (List.of_mem_zip hm).2
    exact hz v hvm (by rw [← hv, h2, ← h3])
  · intro safe
    obtain ⟨C, e, _, _, _, _, h⟩ := C26_add_partial hs A B hA hB sA sB dA dB hne safe
    exact ⟨C, e, h⟩

/-- Whatever the operands: if `+=` returns, the positions are sorted, distinct, contain those of `A` and
come from `A` or `B`. -/
theorem C26_positions [Add T] {srt : SortFn} (hs : LawfulSort srt) (A B C : Coo T) (hA : A.Wf)
    (hB : B.Wf) (sA : A.Sorted) (sB : B.Sorted) (dA : A.Distinct) (dB : B.Distinct)
    (h : Coo.addAssign srt (fun _ => B) A = .ok C) :
    C.Wf ∧ C.Sorted ∧ C.Distinct ∧ (∀ p ∈ A.pos, p ∈ C.pos) ∧ ∀ p ∈ C.pos, p ∈ A.pos ∨ p ∈ B.pos := by
  obtain ⟨h1, h2, h3, h4⟩ := Coo.addAssign_part hs hA hB (Coo.strict_of_sorted sA dA)
    (Coo.strict_of_sorted sB dB) h
  exact ⟨h1, (Coo.sorted_of_strict h2).1, (Coo.sorted_of_strict h2).2, h3, h4⟩

/-- `A += A` doubles every element. -/
theorem C26_self [AddCommMonoid T] {srt : SortFn} (hs : LawfulSort srt) (A : Coo T) (hA : A.Wf)
    (sA : A.Sorted) (dA : A.Distinct) (hne : A.val ≠ []) :
    ∃ C, Coo.addAssign srt id A = .ok C ∧ C.Wf ∧ C.pos = A.pos ∧
      ∀ i j, ∃ x, A.get i j = .ok x ∧ C.get i j = .ok (x + x) := by
  obtain ⟨C, e, w, p, h⟩ := Coo.addAssign_self hs hA (Coo.strict_of_sorted sA dA) hne
  exact ⟨C, e, w, p, fun i j => ⟨_, Coo.get_eq hA i j, by rw [Coo.get_eq w, h]⟩⟩

/-- Adding a matrix without stored elements is undefined behaviour (`shape()` dereferences `end()`). -/
theorem C26_empty_rhs_false [Add T] (srt : SortFn) (A : Coo T) :
    Coo.addAssign srt (fun _ => Coo.empty) A = .error (.ub .derefEnd) :=
  Coo.addAssign_empty srt ⟨rfl, rfl⟩ rfl

/-- Adding any non-empty matrix to a matrix without stored elements reads out of bounds. -/
theorem C26_empty_lhs_false [AddCommMonoid T] (srt : SortFn) (B : Coo T) (hB : B.Wf) (sB : B.Sorted)
    (dB : B.Distinct) (hne : B.val ≠ []) :
    Coo.addAssign srt (fun _ => B) Coo.empty = .error (.ub .oob) :=
  Coo.addAssign_empty_left ⟨rfl, rfl⟩ hB rfl (Coo.strict_of_sorted sB dB) hne

/-- Witness: `{(1,0): 5} += {(0,0): 1}` yields `{(1,0): 6}`. -/
theorem C26_wrong_row_false {srt : SortFn} (hs : LawfulSort srt) :
    Coo.addAssign srt (fun _ => ⟨[1], [0], [0]⟩) ⟨[5], [1], [0]⟩ = .ok (⟨[6], [1], [0]⟩ : Coo Int) := by
  have : Coo.addRows (fun _ => ⟨[1], [0], [0]⟩) 2 1 1 1 0 ⟨⟨[5], [1], [0]⟩, 0, 0⟩ =
      .ok (⟨⟨[6], [1], [0]⟩, 0, 1⟩ : Coo.AddRow Int) := by rfl
  exact (congrArg (· >>= fun s : Coo.AddRow Int => s.a.sort srt) this).trans (Coo.sort_singleton hs _ _ _)

/-- Witness: `{(0,0): 1} += {(1,0): 1}` reads past the end. -/
theorem C26_past_end_false (srt : SortFn) :
    Coo.addAssign srt (fun _ => ⟨[1], [1], [0]⟩) ⟨[1], [0], [0]⟩ = (.error (.ub .oob) : Res (Coo Int)) := by
  refine Coo.addAssign_oob (i := 1) ⟨rfl, rfl⟩ ⟨rfl, rfl⟩ (by simp [Coo.pos]) (by simp [Coo.pos]) (by simp)
    ?_ (by simp [Coo.Occupied]) (by simp [Coo.Occupied]) (by decide +kernel)
  intro i' hi' ho
  simp [Coo.Occupied] at ho
  omega

-- a pair in the safe domain where `B` has a row which `A` lacks
example : Coo.AddSafe (⟨[1, 2], [0, 2], [0, 1]⟩ : Coo Int) ⟨[4, 5], [0, 1], [3, 0]⟩ := by
  intro i ho hn
  simp only [Coo.Occupied, List.mem_cons, List.not_mem_nil, or_false] at ho hn
  have : i = 1 := by omega
  subst this
  exact ⟨1, by decide +kernel, by decide +kernel⟩

/-! ## C27: `A + B` and `A - B` -/

theorem pos_map (b : Coo T) (f : T → T) : ({ b with val := b.val.map f } : Coo T).pos = b.pos := rfl

theorem C27_add_partial [AddCommMonoid T] {srt : SortFn} (hs : LawfulSort srt) (A B : Coo T) (hA : A.Wf)
    (hB : B.Wf) (sA : A.Sorted) (sB : B.Sorted) (dA : A.Distinct) (dB : B.Distinct) (hne : B.val ≠ [])
    (safe : Coo.AddSafe A B) :
    ∃ C, Coo.add srt A B = .ok C ∧ C.Wf ∧ C.Sorted ∧ C.Distinct ∧
      ∀ i j, ∃ x y, A.get i j = .ok x ∧ B.get i j = .ok y ∧ C.get i j = .ok (x + y) := by
  obtain ⟨C, e, w, s, d, _, h⟩ := C26_add_partial hs A B hA hB sA sB dA dB hne safe
  exact ⟨C, by unfold Coo.add; rw [e]; rfl, w, s, d, h⟩

theorem C27_sub_partial [CommRing T] {srt : SortFn} (hs : LawfulSort srt) (A B : Coo T) (hA : A.Wf)
    (hB : B.Wf) (sA : A.Sorted) (sB : B.Sorted) (dA : A.Distinct) (dB : B.Distinct) (hne : B.val ≠ [])
    (safe : Coo.AddSafe A B) :
    ∃ C, Coo.sub srt A B = .ok C ∧ C.Wf ∧ C.Sorted ∧ C.Distinct ∧
      ∀ i j, ∃ x y, A.get i j = .ok x ∧ B.get i j = .ok y ∧ C.get i j = .ok (x - y) := by
  obtain ⟨C, e, w, s, d, _, h⟩ := C26_add_partial hs A { B with val := B.val.map (fun x => -1 * x) } hA
    ⟨by simp [hB.1], by simp [hB.2]⟩ sA sB dA dB (by simpa using hne) safe
  refine ⟨C, ?_, w, s, d, ?_⟩
  · unfold Coo.sub Coo.neg
    rw [Coo.scale_eq]
    simp only [noexcept, ok_bind, e]
  · intro i j
    obtain ⟨x, y, h1, h2, h3⟩ := h i j
    refine ⟨x, B.elem i j, h1, Coo.get_eq hB i j, ?_⟩
    rw [Coo.get_eq ⟨by simp [hB.1], by simp [hB.2]⟩, Coo.elem_scale] at h2
    injection h2 with h2
    rw [h3, ← h2]
    congr 1
    ring

/-- `A + A` is always correct for a non-empty matrix: the left operand is copied. -/
theorem C27_add_self [AddCommMonoid T] {srt : SortFn} (hs : LawfulSort srt) (A : Coo T) (hA : A.Wf)
    (sA : A.Sorted) (dA : A.Distinct) (hne : A.val ≠ []) :
    ∃ C, Coo.add srt A A = .ok C ∧ ∀ i j, ∃ x, A.get i j = .ok x ∧ C.get i j = .ok (x + x) := by
  obtain ⟨C, e, _, _, _, h⟩ := C27_add_partial hs A A hA hA sA sA dA dA hne
    (C26_rows_subset A A fun _ h => h)
  refine ⟨C, e, fun i j => ?_⟩
  obtain ⟨x, y, h1, h2, h3⟩ := h i j
  rw [h1] at h2
  injection h2 with h2
  exact ⟨x, h1, by rw [h3, h2]⟩

/-- Witness: `{(1,0): 5} - {(0,0): 1}` yields `{(1,0): 4}`. -/
theorem C27_wrong_row_false {srt : SortFn} (hs : LawfulSort srt) :
    Coo.sub srt (⟨[5], [1], [0]⟩ : Coo Int) ⟨[1], [0], [0]⟩ = .ok ⟨[4], [1], [0]⟩ := by
  have : Coo.addRows (fun _ => ⟨[-1], [0], [0]⟩) 2 1 1 1 0 ⟨⟨[5], [1], [0]⟩, 0, 0⟩ =
      .ok (⟨⟨[4], [1], [0]⟩, 0, 1⟩ : Coo.AddRow Int) := by rfl
  have := (congrArg (· >>= fun s : Coo.AddRow Int => s.a.sort srt) this).trans (Coo.sort_singleton hs _ _ _)
  exact congrArg noexcept this

/-- `A + B` with `A` lacking stored elements is undefined, although `A` is the zero matrix. -/
theorem C27_empty_false [AddCommMonoid T] (srt : SortFn) (A B : Coo T) (hB : B.Wf) (sB : B.Sorted)
    (dB : B.Distinct) (hne : B.val ≠ []) :
    Coo.add srt Coo.empty B = .error (.ub .oob) ∧ Coo.add srt A Coo.empty = .error (.ub .derefEnd) := by
  unfold Coo.add
  rw [C26_empty_lhs_false srt B hB sB dB hne, C26_empty_rhs_false srt A]
  exact ⟨rfl, rfl⟩

example : Coo.add Coo.insSort (⟨[1, 2], [0, 2], [0, 1]⟩ : Coo Int)
    ⟨[4, 5], [0, 1], [3, 0]⟩ = .ok ⟨[1, 4, 5, 2], [0, 0, 1, 2], [0, 3, 0, 1]⟩ := by decide +kernel

/-! ## C28: conversion to the compressed format -/

theorem C28_convert [Zero T] (a : Coo T) (hw : a.Wf) (hs : a.Sorted) :
    ∃ m : Csr T, Csr.ofCoo a = .ok m ∧ m.Wf ∧ m.nnz = a.nnz ∧
      (∀ i j, i < m.nrows → m.get i j = a.get i j) ∧
      (∀ r c, a.shape = .ok (r, c) → m.shape = .ok (r, c) ∧ m.nrows = r ∧ m.rowPtr.length = r + 1) ∧
      (∀ p ∈ a.pos, p.1 < m.nrows) := by
  obtain ⟨m, e, hv, hc, hm, hn, hp⟩ := Csr.ofCoo_spec hw hs
  refine ⟨m, e, hm, by simp [Csr.nnz, Coo.nnz, hv], fun i j hi => Csr.ofCoo_get hw hv hc hm hp hi j, ?_, ?_⟩
  · intro r c hsh
    unfold Coo.shape at hsh
    by_cases hr : a.row = []
    · rw [hr, maxElem_nil] at hsh; simp at hsh
    rw [if_neg hr] at hn
    have e1 : maxElem a.row = .ok (a.row.foldr max 0) := by simp [maxElem, hr]
    rw [e1, ok_bind] at hsh
    cases h2 : maxElem a.col with
    | error f => rw [h2] at hsh; simp at hsh
    | ok x =>
      rw [h2, ok_bind] at hsh
      injection hsh with hsh
      rw [Prod.mk.injEq] at hsh
      have hpos := hm.length_pos
      have hrow : m.nrows = r := by omega
      have hlen : m.rowPtr.length = r + 1 := by unfold Csr.nrows at hrow; omega
      refine ⟨?_, hrow, hlen⟩
      unfold Csr.shape
      rw [hc, h2, ok_bind, if_neg (by omega), hlen, Nat.add_sub_cancel, hsh.2]
  · rintro ⟨i, j⟩ hp
    have hi : i ∈ a.row := (List.of_mem_zip hp).1
    rw [hn, if_neg (by rintro h; rw [h] at hi; simp at hi)]
    obtain ⟨t, ht, rfl⟩ := List.getElem_of_mem hi
    have := Csr.foldr_max_le ht
    rw [Coo.getD_getElem ht] at this
    simp only
    omega

/-- The compressed rows hold strictly increasing columns: no position is stored twice. -/
theorem C28_distinct (a : Coo T) (hw : a.Wf) (hs : a.Sorted) (hd : a.Distinct) :
    ∃ m : Csr T, Csr.ofCoo a = .ok m ∧ m.Distinct ∧ ∀ i k k', m.rowPtr.getD i 0 ≤ k → k < k' →
      k' < m.rowPtr.getD (i + 1) 0 → m.col.getD k 0 < m.col.getD k' 0 := by
  obtain ⟨m, e, hv, hc, hm, hn, hp⟩ := Csr.ofCoo_spec hw hs
  have key : ∀ i k k', m.rowPtr.getD i 0 ≤ k → k < k' → k' < m.rowPtr.getD (i + 1) 0 →
      m.col.getD k 0 < m.col.getD k' 0 := by
    intro i k k' h1 h2 h3
    have hi : i < m.nrows := by
      by_contra hi
      unfold Csr.nrows at hi
      rw [List.getD_eq_getElem?_getD, List.getElem?_eq_none (by omega)] at h3
      simp only [Option.getD_none] at h3
      omega
    obtain ⟨a1, a2⟩ := (hp i k hi).mp ⟨h1, by omega⟩
    obtain ⟨b1, b2⟩ := (hp i k' hi).mp ⟨by omega, h3⟩
    have ck : k < a.col.length := by rw [hw.2, ← hw.1]; exact a1
    have ck' : k' < a.col.length := by rw [hw.2, ← hw.1]; exact b1
    have := List.pairwise_iff_getElem.mp (Coo.strict_of_sorted hs hd) k k' (by simp [Coo.pos]; omega)
      (by simp [Coo.pos]; omega) h2
    simp only [Coo.pos, List.getElem_zip, posLt] at this
    rw [hc, Coo.getD_getElem ck, Coo.getD_getElem ck']
    rw [Coo.getD_getElem a1] at a2
    rw [Coo.getD_getElem b1] at b2
    omega
  refine ⟨m, e, fun i k k' h1 h2 h3 h4 h5 => ?_, key⟩
  rcases Nat.lt_trichotomy k k' with h | h | h
  · exact absurd h5 (by have := key i k k' h1 h h4; omega)
  · exact h
  · exact absurd h5 (by have := key i k' k h3 h h2; omega)

-- a matrix with an empty first row and an empty row in the middle
example : Csr.ofCoo (⟨[7, 8, 9], [1, 1, 3], [0, 2, 1]⟩ : Coo Int) =
    .ok ⟨[7, 8, 9], [0, 0, 2, 2, 3], [0, 2, 1]⟩ := by decide +kernel

/-! ## C29: access to compressed matrices -/

theorem C29_read [Zero T] (a : Csr T) (hw : a.Wf) (hd : a.Distinct) (i j : Nat) (hi : i < a.nrows) :
    (∀ k v, a.StoredAt i j k → a.val[k]? = some v → a.get i j = .ok v) ∧
    ((∀ k, ¬ a.StoredAt i j k) → a.get i j = .ok 0) := by
  refine ⟨fun k v h hv => ?_, Csr.get_unstored hw hi⟩
  rw [Csr.get_stored hw hd hi h]
  obtain ⟨_, rfl⟩ := List.getElem?_eq_some_iff.mp hv
  rfl

/-- A row index beyond the rows: the row pointers are read behind their end, `mut_at` throws nothing. -/
theorem C29_beyond [Zero T] (a : Csr T) (i j : Nat) (hi : a.nrows ≤ i) (v : T) :
    a.get i j = .error (.ub .oob) ∧ a.set i j v = .error (.ub .oob) := by
  have h : a.search i j = .error (.ub .oob) := by
    unfold Csr.search
    have h2 : ¬ i + 1 < a.rowPtr.length := by unfold Csr.nrows at hi; omega
    by_cases h1 : i < a.rowPtr.length
    · simp [lrd, h1, h2]
    · simp [lrd, h1]
  unfold Csr.get Csr.set
  simp [h]

example : (⟨[7], [0, 1], [0]⟩ : Csr Int).set 1 0 5 = .error (.ub .oob) := by decide +kernel

theorem C29_update [Zero T] (a : Csr T) (hw : a.Wf) (hd : a.Distinct) (i j : Nat) (hi : i < a.nrows)
    (v : T) :
    ((∃ k, a.StoredAt i j k) → ∃ a', a.set i j v = .ok a' ∧ a'.Wf ∧ a'.Distinct ∧ a'.rowPtr = a.rowPtr ∧
      a'.col = a.col ∧ a'.get i j = .ok v ∧
      ∀ i' j', i' < a.nrows → (i', j') ≠ (i, j) → a'.get i' j' = a.get i' j') ∧
    ((∀ k, ¬ a.StoredAt i j k) → a.set i j v = .error (.throw .outOfRange)) := by
  refine ⟨?_, fun h => Csr.set_unstored hw hi h v⟩
  rintro ⟨k, hk⟩
  have hk' := hk.lt hw
  have hw' : ({ a with val := a.val.set k v } : Csr T).Wf :=
    ⟨by simpa using hw.len, hw.ptr0, hw.mono, by simpa using hw.last⟩
  refine ⟨_, Csr.set_stored hw hd hi hk v, hw', hd, rfl, rfl, ?_, ?_⟩
  · rw [Csr.get_stored (k := k) hw' hd hi hk]
    simp
  · intro i' j' hi' hne
    by_cases hst : ∃ k', a.StoredAt i' j' k'
    · obtain ⟨k', h'⟩ := hst
      rw [Csr.get_stored hw hd hi' h', Csr.get_stored (k := k') hw' hd hi' h']
      congr 1
      rw [List.getElem_set_ne]
      rintro rfl
      apply hne
      have hj : j' = j := by
        have h1 := hk.2.2
        rw [h'.2.2] at h1
        simpa using h1
      have hii : i' = i := by
        have hm := List.pairwise_iff_getElem.mp hw.mono
        have mono : ∀ s t, s ≤ t → t < a.rowPtr.length → a.rowPtr.getD s 0 ≤ a.rowPtr.getD t 0 := by
          intro s t h1 h2
          rcases Nat.lt_or_eq_of_le h1 with h1 | rfl
          · rw [Coo.getD_getElem h2, Coo.getD_getElem (by omega)]
            exact hm s t (by omega) h2 h1
          · exact Nat.le_refl _
        have l1 := (hw.ptr_le hi).1
        have l2 := (hw.ptr_le hi').1
        rcases Nat.lt_trichotomy i' i with h | h | h
        · have := mono (i' + 1) i (by omega) (by omega)
          have := hk.1
          have := h'.2.1
          omega
        · exact h
        · have := mono (i + 1) i' (by omega) (by omega)
          have := hk.2.1
          have := h'.1
          omega
      rw [hii, hj]
    · push Not at hst
      rw [Csr.get_unstored hw hi' hst]
      exact Csr.get_unstored (a := { a with val := a.val.set k v }) hw' hi' hst

theorem C29_new (val : List T) (rowPtr col : List Nat) :
    (val.length = col.length → Csr.new val rowPtr col = .ok ⟨val, rowPtr, col⟩) ∧
    (val.length ≠ col.length → Csr.new val rowPtr col = .error (.throw .runtimeError)) := by
  constructor
  · intro h; simp [Csr.new, throwIf, h]
  · intro h; simp [Csr.new, throwIf, h]

-- the matrix of the example above meets the hypotheses
example : (⟨[7, 8, 9], [0, 0, 2, 2, 3], [0, 2, 1]⟩ : Csr Int).Wf ∧
    (⟨[7, 8, 9], [0, 0, 2, 2, 3], [0, 2, 1]⟩ : Csr Int).Distinct := by
  refine ⟨⟨rfl, rfl, by decide, rfl⟩, ?_⟩
  intro i k k' h1 h2 h3 h4 h5
  rcases i with _ | _ | _ | _ | i
  · simp at h2
  · simp at h1 h2 h3 h4
    have e : k = 0 ∨ k = 1 := by omega
    have e' : k' = 0 ∨ k' = 1 := by omega
    rcases e with rfl | rfl <;> rcases e' with rfl | rfl <;> simp at h5 <;> rfl
  · simp at h1 h2; omega
  · simp at h1 h2 h3 h4; omega
  · simp at h2

/-! ## C30: unit matrices -/

theorem C30_coo [Zero T] [One T] {srt : SortFn} (hs : LawfulSort srt) (n : Nat) :
    ∃ a : Coo T, Coo.unit srt n = .ok a ∧ a.nnz = n ∧ a.Wf ∧ a.Sorted ∧ a.Distinct ∧
      ∀ i j, a.get i j = .ok (if i = j ∧ i < n then 1 else 0) := by
  have hd : ((List.range n).zip (List.range n)).Nodup := by
    have := Coo.pos_range n (List.replicate n (1 : T))
    unfold Coo.pos at this
    simp only at this
    rw [this]
    exact List.Nodup.map (fun x y h => by simpa using h) List.nodup_range
  obtain ⟨a, e, w, p, o⟩ := Coo_new_ok hs (List.replicate n (1 : T)) (List.range n) (List.range n)
    (by simp) (by simp)
  obtain ⟨a', e', r1, r2⟩ := C24_read hs (List.replicate n (1 : T)) (List.range n) (List.range n)
    (by simp) (by simp) hd
  rw [e] at e'
  injection e' with e'
  subst e'
  refine ⟨a, ?_, ?_, w, o, ?_, ?_⟩
  · unfold Coo.unit
    rw [Coo.unit_loop n n (Nat.le_refl _), ok_bind]
    simp [e]
  · have := p.length_eq
    rw [Coo.length_entries w] at this
    simpa [triplets, Coo.nnz] using this
  · unfold Coo.Distinct
    rw [← Coo.entries_fst w, (p.map _).nodup_iff, map_fst_triplets (by simp) (by simp)]
    exact hd
  · intro i j
    split
    · next h =>
      obtain ⟨rfl, h⟩ := h
      exact r1 i i i 1 (by simp [h]) (by simp [h]) (by simp [h])
    · next h =>
      apply r2
      rintro k ⟨h1, h2⟩
      have h1 := List.getElem?_eq_some_iff.mp h1
      have h2 := List.getElem?_eq_some_iff.mp h2
      simp only [List.getElem_range, List.length_range, exists_prop] at h1 h2
      omega

theorem Csr_unit_eq [One T] (n : Nat) :
    Csr.unit n = .ok (⟨List.replicate n 1, List.range (n + 1), List.range n⟩ : Csr T) := by
  unfold Csr.unit
  rw [Coo.unit_loop n (n + 1) (by omega), ok_bind]
  simp only [show n + 1 - n = 1 by omega]
  rw [lwr_ok (by simp), ok_bind]
  have : (List.range n ++ List.replicate 1 0).set n n = List.range (n + 1) := by
    rw [List.set_append_right _ _ (by simp), List.range_succ]
    simp
  rw [this]
  exact (C29_new _ _ _).1 (by simp)

theorem unit_wf [One T] (n : Nat) :
    (⟨List.replicate n 1, List.range (n + 1), List.range n⟩ : Csr T).Wf ∧
    (⟨List.replicate n 1, List.range (n + 1), List.range n⟩ : Csr T).Distinct ∧
    (⟨List.replicate n 1, List.range (n + 1), List.range n⟩ : Csr T).nrows = n := by
  refine ⟨⟨by simp, by simp, ?_, by simp [List.getLast?_range]⟩, ?_, by simp [Csr.nrows]⟩
  · exact List.pairwise_lt_range.imp (fun h => Nat.le_of_lt h)
  · intro i k k' h1 h2 h3 h4 _
    simp only [List.getD_eq_getElem?_getD] at h1 h2 h3 h4
    by_cases hi : i + 1 < n + 1
    · rw [List.getElem?_range (by omega), Option.getD_some] at h1 h3
      rw [List.getElem?_range hi, Option.getD_some] at h2 h4
      omega
    · rw [List.getElem?_eq_none (by simp; omega)] at h2
      simp at h2

theorem C30_csr [Zero T] [One T] (n : Nat) :
    ∃ a : Csr T, Csr.unit n = .ok a ∧ a.nnz = n ∧ a.Wf ∧ a.Distinct ∧ a.nrows = n ∧
      ∀ i j, i < n → a.get i j = .ok (if i = j then 1 else 0) := by
  obtain ⟨w, d, hn⟩ := unit_wf (T := T) n
  refine ⟨_, Csr_unit_eq n, by simp [Csr.nnz], w, d, hn, ?_⟩
  intro i j hi
  have hptr : ∀ k, k ≤ n → (List.range (n + 1)).getD k 0 = k := by
    intro k hk
    rw [List.getD_eq_getElem?_getD, List.getElem?_range (by omega)]; rfl
  obtain ⟨r1, r2⟩ := C29_read _ w d i j (by rw [hn]; exact hi)
  split
  · next h =>
    subst h
    refine r1 i 1 ⟨?_, ?_, ?_⟩ (by simp [hi])
    · simp only; rw [hptr i (by omega)]
    · simp only; rw [hptr (i + 1) (by omega)]; omega
    · simp [hi]
  · next h =>
    apply r2
    rintro k ⟨h1, h2, h3⟩
    simp only at h1 h2 h3
    rw [hptr i (by omega)] at h1
    rw [hptr (i + 1) (by omega)] at h2
    have h3 := List.getElem?_eq_some_iff.mp h3
    simp only [List.getElem_range, List.length_range, exists_prop] at h3
    omega

/-! ## C31: compressed matrix times vector

The full claim includes `x = y`, for which it is false (`C31_alias_false`), and matrices without stored
elements, for which the shape is undefined (`C31_empty_false`). -/

/-- `y := alpha A x + beta y` for separate `x` and `y`.  In a debug build `x` must have exactly
`shape().second` elements, otherwise at least so many. -/
theorem C31_mul_partial [CommRing T] (nd : Bool) (alpha beta : T) (a : Csr T) (hw : a.Wf)
    (hd : a.Distinct) (A : Nat → Nat → T) (m x y : Nat) (s : Mem T) (hsh : a.shape = .ok (a.nrows, m))
    (hA : ∀ i j, i < a.nrows → j < m → a.get i j = .ok (A i j)) (hx : m ≤ s.len x)
    (hx' : nd = false → s.len x = m) (hy : s.len y = a.nrows) (hxy : x ≠ y) :
    ∃ s', Csr.mul nd alpha a x beta y s = .ok s' ∧ Stores s s' y ((List.range a.nrows).map fun i =>
      alpha * (∑ j ∈ Finset.range m, A i j * val0 (s x) j) + beta * val0 (s y) i) := by
  have hc : ∀ c ∈ a.col, c < m := by
    intro c hc
    have hne : a.val ≠ [] := by
      intro h
      have := hw.len; rw [h] at this
      rw [List.length_eq_zero_iff.mp this] at hc; simp at hc
    obtain ⟨c', e, h1, _⟩ := Csr.shape_eq hw hne
    rw [hsh] at e
    injection e with e
    rw [Prod.mk.injEq] at e
    rw [e.2]; exact h1 c hc
  have h1 : cassert nd (m == s.len x) = .ok () := by
    cases nd with
    | true => simp
    | false => rw [hx' rfl]; simp
  have h2 : cassert nd (a.nrows == s.len y) = .ok () := by rw [hy]; simp
  refine ⟨_, ?_, stores_setBuf _ _ _⟩
  · unfold Csr.mul
    rw [hsh, ok_bind]
    simp only
    rw [h1, ok_bind, h2, ok_bind, Csr.mulCore_eq hw (fun c hcm => Nat.lt_of_lt_of_le (hc c hcm) hx) hy hxy]
    show Except.ok _ = _
    congr 2
    apply List.map_congr_left
    intro i hi
    rw [← Csr.row_sum hw hd hc (List.mem_range.mp hi) (fun j hj => hA i j (List.mem_range.mp hi) hj),
      Finset.mul_sum, add_comm]
    congr 1
    exact Finset.sum_congr rfl fun k _ => by ring

/-- The operator returns the product in a new vector. -/
theorem C31_op_partial [CommRing T] (nd : Bool) (a : Csr T) (hw : a.Wf) (hd : a.Distinct)
    (A : Nat → Nat → T) (m v r : Nat) (s : Mem T) (hsh : a.shape = .ok (a.nrows, m))
    (hA : ∀ i j, i < a.nrows → j < m → a.get i j = .ok (A i j)) (hx : s.len v = m) (hvr : v ≠ r) :
    ∃ s', Csr.mulVecAt nd a s v r = .ok s' ∧ Stores s s' r ((List.range a.nrows).map fun i =>
      ∑ j ∈ Finset.range m, A i j * val0 (s v) j) := by
  have hv : (s.setBuf r (List.replicate a.nrows 0)) v = s v := Mem.setBuf_other _ hvr _
  have hl : (s.setBuf r (List.replicate a.nrows 0)).len v = m := by
    show ((s.setBuf r (List.replicate a.nrows 0)) v).length = m
    rw [hv]; exact hx
  have hr : (s.setBuf r (List.replicate a.nrows (0 : T))) r = List.replicate a.nrows 0 := by simp [Mem.setBuf]
  obtain ⟨s', e, hst⟩ := C31_mul_partial nd 1 0 a hw hd A m v r (s.setBuf r (List.replicate a.nrows 0)) hsh hA
    hl.ge (fun _ => hl) (by
      show ((s.setBuf r (List.replicate a.nrows (0 : T))) r).length = _
      rw [hr]; simp) hvr
  refine ⟨s', ?_, ?_⟩
  · unfold Csr.mul at e
    unfold Csr.mulVecAt
    rw [hsh, ok_bind] at e ⊢
    simp only at e ⊢
    have h1 : cassert nd (m == (s.setBuf r (List.replicate a.nrows 0)).len v) = .ok () := by rw [hl]; simp
    have h2 : cassert nd (a.nrows == (s.setBuf r (List.replicate a.nrows (0 : T))).len r) = .ok () := by
      have : (s.setBuf r (List.replicate a.nrows (0 : T))).len r = a.nrows := by
        show ((s.setBuf r (List.replicate a.nrows (0 : T))) r).length = _
        rw [hr]; simp
      rw [this]; simp
    rw [h1, ok_bind, h2, ok_bind] at e
    have h3 : cassert nd (m == s.len v) = .ok () := by rw [hx]; simp
    rw [h3, ok_bind]
    exact e
  · obtain ⟨k1, k2⟩ := hst
    refine ⟨?_, fun q hq => ?_⟩
    · rw [k1, hv]
      apply List.map_congr_left
      intro i _
      ring
    · rw [k2 q hq, Mem.setBuf_other _ hq]

/-- The compressed product agrees with the dense product of the same matrix. -/
theorem C31_dense [CommRing T] (nd : Bool) (a : Csr T) (hw : a.Wf) (hd : a.Distinct) (d : MatRef)
    (v r : Nat) (s : Mem T) (hsh : a.shape = .ok (d.n, d.m)) (hrow : d.n = a.nrows) (hdw : d.Wf s)
    (hA : ∀ i j, i < d.n → j < d.m → a.get i j = .ok (entry d.m (s d.buf) i j)) (hx : s.len v = d.m)
    (hvr : v ≠ r) (hdr : d.buf ≠ r) :
    Csr.mulVecAt nd a s v r = matVecAt nd s d v r := by
  rw [hrow] at hsh hA
  obtain ⟨s', e, hst⟩ := C31_op_partial nd a hw hd (entry d.m (s d.buf)) d.m v r s hsh hA hx hvr
  rw [e, matVecAt_eq hdw hx hdr hvr, hst.eq, hrow]

/-- `mul(1, A, x, 0, x)` with `A = [[0,1],[1,0]]`, `x = (1,2)` stores `(2,2)` instead of `(2,1)`: the claim
fails for `x = y`. -/
theorem C31_alias_false :
    ∃ s', Csr.mul false 1 (⟨[1, 1], [0, 1, 2], [1, 0]⟩ : Csr Int) 0 0 0 (Mem.ofList [[1, 2]]) = .ok s' ∧
      s' 0 = [2, 2] := ⟨_, rfl, rfl⟩

/-- With no stored element the product is undefined, although the matrix is the zero matrix. -/
theorem C31_empty_false [CommRing T] (nd : Bool) (a : Csr T) (h : a.col = []) (s : Mem T) (v r : Nat) :
    Csr.mulVecAt nd a s v r = .error (.ub .derefEnd) := by
  unfold Csr.mulVecAt
  rw [Csr.shape_empty h]; rfl

/-- `unit(n) * x = x`.  (Missing: `n = 0`, see `C30_unit_zero_false`.) -/
theorem C30_unit_mul_partial [CommRing T] (nd : Bool) (n : Nat) (hn : 0 < n) (x : List T) (hx : x.length = n) :
    ∃ a : Csr T, Csr.unit n = .ok a ∧ Csr.mulVec nd a x = .ok x := by
  obtain ⟨a, e, hnnz, w, d, hr, hg⟩ := C30_csr (T := T) n
  have hval : a.val ≠ [] := by
    intro h; unfold Csr.nnz at hnnz; rw [h] at hnnz; simp at hnnz; omega
  have hsh : a.shape = .ok (a.nrows, n) := by
    rw [Csr_unit_eq] at e
    injection e with e
    obtain ⟨c, h1, h2, j, h3, h4⟩ := Csr.shape_eq w hval
    rw [h1]
    rw [← e] at h2 h3
    simp only [List.mem_range] at h2 h3
    have := h2 (n - 1) (by omega)
    rw [show c = n by omega]
  refine ⟨a, e, ?_⟩
  have hl : Mem.len (Mem.ofList [x]) 0 = n := by simpa [Mem.len, Mem.ofList] using hx
  obtain ⟨s', e', hst⟩ := C31_op_partial nd a w d (fun i j => if i = j then 1 else 0) n 0 1
    (Mem.ofList [x]) hsh (fun i j hi _ => hg i j (by omega)) hl (by omega)
  unfold Csr.mulVec
  rw [e', ok_bind, hst.1, hr]
  have h0 : (Mem.ofList [x] : Mem T) 0 = x := by simp [Mem.ofList]
  rw [h0]
  congr 1
  apply list_ext_val0 (by simp [hx])
  intro i hi
  simp only [List.length_map, List.length_range] at hi
  rw [val0_map_range, if_pos hi]
  rw [Finset.sum_eq_single i]
  · simp
  · intro j _ hne; simp [Ne.symm hne]
  · intro h; exact absurd (Finset.mem_range.mpr hi) h

/-- `unit(0) * x` is undefined. -/
theorem C30_unit_zero_false [CommRing T] (nd : Bool) (x : List T) :
    ∃ a : Csr T, Csr.unit 0 = .ok a ∧ Csr.mulVec nd a x = .error (.ub .derefEnd) := by
  refine ⟨_, Csr_unit_eq 0, ?_⟩
  unfold Csr.mulVec
  rw [C31_empty_false nd _ rfl]; rfl

example : Csr.mulVec false (⟨[7, 8, 9], [0, 0, 2, 2, 3], [0, 2, 1]⟩ : Csr Int) [1, 10, 100] =
    .ok [0, 807, 0, 90] := by decide +kernel

/-! ## C32: scaling and negation -/

theorem C32_coo [CommRing T] (alpha : T) (a : Coo T) (hw : a.Wf) :
    (∃ a', a.scale alpha = .ok a' ∧ a.smul alpha = .ok a' ∧ a'.pos = a.pos ∧ a'.Wf ∧
      ∀ i j, ∃ x, a.get i j = .ok x ∧ a'.get i j = .ok (alpha * x)) ∧
    (∃ a', a.neg = .ok a' ∧ a'.pos = a.pos ∧ a'.Wf ∧
      ∀ i j, ∃ x, a.get i j = .ok x ∧ a'.get i j = .ok (-x)) := by
  have hw' : ∀ c : T, ({ a with val := a.val.map (fun x => c * x) } : Coo T).Wf := fun c =>
    ⟨by simp [hw.1], by simp [hw.2]⟩
  constructor
  · refine ⟨_, Coo.scale_eq alpha a, ?_, rfl, hw' _, fun i j => ⟨_, Coo.get_eq hw i j, ?_⟩⟩
    · unfold Coo.smul; rw [Coo.scale_eq]; rfl
    · rw [Coo.get_eq (hw' _), Coo.elem_scale]
  · refine ⟨{ a with val := a.val.map (fun x => -1 * x) }, ?_, rfl, hw' _, fun i j => ⟨_, Coo.get_eq hw i j, ?_⟩⟩
    · unfold Coo.neg; rw [Coo.scale_eq]; rfl
    · rw [Coo.get_eq (hw' _), Coo.elem_scale]; congr 1; ring

theorem Csr_get_map [MulZeroClass T] (alpha : T) (a : Csr T) (hw : a.Wf) (hd : a.Distinct) {i : Nat}
    (hi : i < a.nrows) (j : Nat) :
    ∃ x, a.get i j = .ok x ∧
      ({ a with val := a.val.map (fun x => alpha * x) } : Csr T).get i j = .ok (alpha * x) := by
  have hw' : ({ a with val := a.val.map (fun x => alpha * x) } : Csr T).Wf :=
    ⟨by simpa using hw.len, hw.ptr0, hw.mono, by simpa using hw.last⟩
  by_cases h : ∃ k, a.StoredAt i j k
  · obtain ⟨k, hk⟩ := h
    refine ⟨_, Csr.get_stored hw hd hi hk, ?_⟩
    rw [Csr.get_stored (k := k) hw' hd hi hk]
    simp
  · push Not at h
    refine ⟨0, Csr.get_unstored hw hi h, ?_⟩
    rw [mul_zero]
    exact Csr.get_unstored hw' hi h

theorem C32_csr [CommRing T] (alpha : T) (a : Csr T) (hw : a.Wf) (hd : a.Distinct) :
    (∃ a', a.scale alpha = .ok a' ∧ a.smul alpha = .ok a' ∧ a'.rowPtr = a.rowPtr ∧ a'.col = a.col ∧
      ∀ i j, i < a.nrows → ∃ x, a.get i j = .ok x ∧ a'.get i j = .ok (alpha * x)) ∧
    (∃ a', a.neg = .ok a' ∧ a'.rowPtr = a.rowPtr ∧ a'.col = a.col ∧
      ∀ i j, i < a.nrows → ∃ x, a.get i j = .ok x ∧ a'.get i j = .ok (-x)) := by
  constructor
  · refine ⟨_, Csr.scale_eq alpha a, ?_, rfl, rfl, fun i j hi => Csr_get_map alpha a hw hd hi j⟩
    unfold Csr.smul; rw [Csr.scale_eq]; rfl
  · refine ⟨{ a with val := a.val.map (fun x => -1 * x) }, ?_, rfl, rfl, fun i j hi => ?_⟩
    · unfold Csr.neg; rw [Csr.scale_eq]; rfl
    · obtain ⟨x, h1, h2⟩ := Csr_get_map (-1) a hw hd hi j
      exact ⟨x, h1, by rw [h2]; congr 1; ring⟩

example : Coo.neg (⟨[1, 3, 2], [0, 1, 1], [2, 0, 5]⟩ : Coo Int) = .ok ⟨[-1, -3, -2], [0, 1, 1], [2, 0, 5]⟩ := by
  decide +kernel

/-! ## C33: shape -/

/-- With at least one stored element the shape is the smallest one containing all stored positions. -/
theorem C33_coo_partial (a : Coo T) (hw : a.Wf) (hne : a.val ≠ []) :
    ∃ r c, a.shape = .ok (r, c) ∧ (∀ p ∈ a.pos, p.1 < r ∧ p.2 < c) ∧
      ∀ r' c', (∀ p ∈ a.pos, p.1 < r' ∧ p.2 < c') → r ≤ r' ∧ c ≤ c' := by
  obtain ⟨r, c, e, h1, ⟨p, hp, h2⟩, ⟨q, hq, h3⟩⟩ := Coo.shape_spec hw hne
  refine ⟨r, c, e, h1, fun r' c' h => ?_⟩
  have := (h p hp).1
  have := (h q hq).2
  omega

theorem C33_csr_partial (a : Csr T) (hw : a.Wf) (hne : a.val ≠ []) :
    ∃ c, a.shape = .ok (a.nrows, c) ∧ (∀ j ∈ a.col, j < c) ∧ ∀ c', (∀ j ∈ a.col, j < c') → c ≤ c' := by
  obtain ⟨c, e, h1, j, hj, h2⟩ := Csr.shape_eq hw hne
  exact ⟨c, e, h1, fun c' h => by have := h j hj; omega⟩

/-- With no stored element `shape()` dereferences the end of an empty range. -/
theorem C33_empty_false :
    (Coo.empty : Coo T).shape = .error (.ub .derefEnd) ∧
    (∀ ptr, (⟨[], ptr, []⟩ : Csr T).shape = .error (.ub .derefEnd)) :=
  ⟨Coo.shape_empty ⟨rfl, rfl⟩ rfl, fun _ => Csr.shape_empty rfl⟩

example : (⟨[1, 3, 2], [0, 1, 1], [2, 0, 5]⟩ : Coo Int).shape = .ok (2, 6) := by decide +kernel

/-! ## C49: all histories of a COO matrix -/

/-- The matrices that a program can build: from arrays whose positions satisfy `P`, by element updates,
scaling, negation, and additions of matrices built in the same way (`+=`, `+`, `-`, `A += A`) which
return.  Every sort may behave differently. -/
inductive Reach [CommRing T] (P : List (Nat × Nat) → Prop) : Coo T → Prop
  | new (srt val row col a) (hs : LawfulSort srt) (hp : P (row.zip col))
      (h : Coo.new srt val row col = .ok a) : Reach P a
  | unit (srt n a) (hs : LawfulSort srt) (hp : P ((List.range n).map fun i => (i, i)))
      (h : Coo.unit srt n = .ok a) : Reach P a
  | set (a a' i j v) (r : Reach P a) (h : a.set i j v = .ok a') : Reach P a'
  | scale (a a' alpha) (r : Reach P a) (h : a.scale alpha = .ok a') : Reach P a'
  | neg (a a') (r : Reach P a) (h : a.neg = .ok a') : Reach P a'
  | addAssign (srt a b c) (hs : LawfulSort srt) (ra : Reach P a) (rb : Reach P b)
      (h : Coo.addAssign srt (fun _ => b) a = .ok c) : Reach P c
  | addSelf (srt a c) (hs : LawfulSort srt) (ra : Reach P a) (h : Coo.addAssign srt id a = .ok c) : Reach P c
  | add (srt a b c) (hs : LawfulSort srt) (ra : Reach P a) (rb : Reach P b)
      (h : Coo.add srt a b = .ok c) : Reach P c
  | sub (srt a b c) (hs : LawfulSort srt) (ra : Reach P a) (rb : Reach P b)
      (h : Coo.sub srt a b = .ok c) : Reach P c

theorem noexcept_ok {α : Type} {r : Res α} {a : α} (h : noexcept r = .ok a) : r = .ok a := by
  unfold noexcept at h
  split at h
  · cases h
  · exact h

theorem set_keeps [Zero T] {a a' : Coo T} (hw : a.Wf) {i j : Nat} {v : T} (h : a.set i j v = .ok a') :
    a'.Wf ∧ a'.pos = a.pos := by
  rcases Coo.set_spec hw i j v with ⟨_, b, e, w, p, _⟩ | ⟨_, e⟩
  · rw [h] at e; injection e with e; subst e; exact ⟨w, p⟩
  · rw [h] at e; cases e

theorem scale_keeps [Mul T] {a a' : Coo T} (hw : a.Wf) {alpha : T} (h : a.scale alpha = .ok a') :
    a'.Wf ∧ a'.pos = a.pos := by
  rw [Coo.scale_eq] at h
  injection h with h
  subst h
  exact ⟨⟨by simp [hw.1], by simp [hw.2]⟩, rfl⟩

theorem new_keeps {srt : SortFn} (hs : LawfulSort srt) {val : List T} {row col : List Nat} {a : Coo T}
    (h : Coo.new srt val row col = .ok a) :
    a.Wf ∧ a.Sorted ∧ a.pos.Perm (row.zip col) := by
  by_cases hl : val.length = row.length ∧ val.length = col.length
  · obtain ⟨b, e, w, p, o⟩ := Coo_new_ok hs val row col hl.1 hl.2
    rw [h] at e; injection e with e; subst e
    refine ⟨w, o, ?_⟩
    rw [← Coo.entries_fst w, ← map_fst_triplets hl.1 hl.2]
    exact p.map _
  · rw [(C24_throws hs val row col).mpr hl] at h; cases h

theorem sub_ok [CommRing T] {srt : SortFn} {a b c : Coo T} (h : Coo.sub srt a b = .ok c) :
    Coo.addAssign srt (fun _ => { b with val := b.val.map (fun x => -1 * x) }) a = .ok c := by
  have := noexcept_ok h
  unfold Coo.neg at this
  rw [Coo.scale_eq] at this
  exact this

/-- Every reachable matrix has equally long arrays in row-major order. -/
theorem C49_wf [CommRing T] (P : List (Nat × Nat) → Prop) (a : Coo T) (h : Reach P a) :
    a.Wf ∧ a.Sorted := by
  induction h with
  | new srt val row col a hs hp h => exact ⟨(new_keeps hs h).1, (new_keeps hs h).2.1⟩
  | unit srt n a hs hp h =>
    obtain ⟨b, e, _, w, o, _⟩ := C30_coo (T := T) hs n
    rw [h] at e; injection e with e; subst e; exact ⟨w, o⟩
  | set a a' i j v r h ih =>
    obtain ⟨w, p⟩ := set_keeps ih.1 h
    exact ⟨w, by unfold Coo.Sorted; rw [p]; exact ih.2⟩
  | scale a a' alpha r h ih =>
    obtain ⟨w, p⟩ := scale_keeps ih.1 h
    exact ⟨w, by unfold Coo.Sorted; rw [p]; exact ih.2⟩
  | neg a a' r h ih =>
    obtain ⟨w, p⟩ := scale_keeps ih.1 (noexcept_ok h)
    exact ⟨w, by unfold Coo.Sorted; rw [p]; exact ih.2⟩
  | addAssign srt a b c hs ra rb h iha ihb => exact Coo.addAssign_wf hs iha.1 h
  | addSelf srt a c hs ra h iha => exact Coo.addAssign_wf hs iha.1 h
  | add srt a b c hs ra rb h iha ihb => exact Coo.addAssign_wf hs iha.1 (noexcept_ok h)
  | sub srt a b c hs ra rb h iha ihb => exact Coo.addAssign_wf hs iha.1 (sub_ok h)

/-- If every constructor call was given distinct positions, the positions stay distinct, whether or not
the additions were inside the safe domain. -/
theorem C49_distinct [CommRing T] (a : Coo T) (h : Reach List.Nodup a) : a.Distinct := by
  induction h with
  | new srt val row col a hs hp h => exact (new_keeps hs h).2.2.nodup_iff.mpr hp
  | unit srt n a hs hp h =>
    obtain ⟨b, e, _, _, _, d, _⟩ := C30_coo (T := T) hs n
    rw [h] at e; injection e with e; subst e; exact d
  | set a a' i j v r h ih =>
    obtain ⟨w, p⟩ := set_keeps (C49_wf _ _ r).1 h
    unfold Coo.Distinct; rw [p]; exact ih
  | scale a a' alpha r h ih =>
    obtain ⟨w, p⟩ := scale_keeps (C49_wf _ _ r).1 h
    unfold Coo.Distinct; rw [p]; exact ih
  | neg a a' r h ih =>
    obtain ⟨w, p⟩ := scale_keeps (C49_wf _ _ r).1 (noexcept_ok h)
    unfold Coo.Distinct; rw [p]; exact ih
  | addAssign srt a b c hs ra rb h iha ihb =>
    obtain ⟨wa, sa⟩ := C49_wf _ _ ra
    obtain ⟨wb, sb⟩ := C49_wf _ _ rb
    exact (C26_positions hs a b c wa wb sa sb iha ihb h).2.2.1
  | addSelf srt a c hs ra h iha =>
    obtain ⟨wa, sa⟩ := C49_wf _ _ ra
    by_cases hne : a.val = []
    · exfalso
      unfold Coo.addAssign at h
      simp only [Coo.addRows, id_eq, Coo.shape_empty wa hne] at h
      cases h
    · obtain ⟨c', e, _, p, _⟩ := C26_self hs a wa sa iha hne
      rw [h] at e; injection e with e; subst e
      unfold Coo.Distinct; rw [p]; exact iha
  | add srt a b c hs ra rb h iha ihb =>
    obtain ⟨wa, sa⟩ := C49_wf _ _ ra
    obtain ⟨wb, sb⟩ := C49_wf _ _ rb
    exact (C26_positions hs a b c wa wb sa sb iha ihb (noexcept_ok h)).2.2.1
  | sub srt a b c hs ra rb h iha ihb =>
    obtain ⟨wa, sa⟩ := C49_wf _ _ ra
    obtain ⟨wb, sb⟩ := C49_wf _ _ rb
    exact (C26_positions hs a { b with val := b.val.map (fun x => -1 * x) } c wa
      ⟨by simp [wb.1], by simp [wb.2]⟩ sa sb iha ihb (sub_ok h)).2.2.1

-- a history with an addition
example : Reach List.Nodup (⟨[1, 4, 5, 2], [0, 0, 1, 2], [0, 3, 0, 1]⟩ : Coo Int) :=
  .add Coo.insSort ⟨[1, 2], [0, 2], [0, 1]⟩ ⟨[4, 5], [0, 1], [3, 0]⟩ _ Coo.lawful_insSort
    (.new Coo.insSort [2, 1] [2, 0] [1, 0] _ Coo.lawful_insSort (by decide) (by decide +kernel))
    (.new Coo.insSort [4, 5] [0, 1] [3, 0] _ Coo.lawful_insSort (by decide) (by decide +kernel))
    (by decide +kernel)

end Lalib.Props
