import Verif.Spec.Sparse
import Verif.Proofs.VecOps
import Mathlib.Data.List.Nodup
import Mathlib.Algebra.BigOperators.Group.List.Lemmas
import Mathlib.Data.List.Sort
import Mathlib.Data.List.TakeWhile

/-! # Lemmas about the sparse matrices: search, sort, binary search -/

namespace Lalib

variable {T : Type}

/-! ## Searching loops -/

/-- A loop which returns at the first index satisfying `P`. -/
theorem find_loop {f : Nat → Unit → Res (Unit ⊕ Nat)} {P : Nat → Prop} [DecidablePred P] {lo hi : Nat}
    (hf : ∀ k, lo ≤ k → k < hi → f k () = .ok (if P k then .inr k else .inl ())) :
    (∃ k, lo ≤ k ∧ k < hi ∧ P k ∧ (∀ k', lo ≤ k' → k' < k → ¬ P k') ∧ forRet lo hi f () = .ok (.inr k)) ∨
    ((∀ k, lo ≤ k → k < hi → ¬ P k) ∧ forRet lo hi f () = .ok (.inl ())) := by
  by_cases hle : lo ≤ hi
  · have := forRet_sat (I := fun i (_ : Unit) => ∀ k', lo ≤ k' → k' < i → ¬ P k')
      (R := fun k => lo ≤ k ∧ k < hi ∧ P k ∧ ∀ k', lo ≤ k' → k' < k → ¬ P k')
      (Q := fun _ => False) (f := f) (s := ()) hle (fun k' h1 h2 => by omega) (by
        intro i s h1 h2 hI
        rw [hf i h1 h2]
        split
        · next hp => exact ⟨h1, h2, hp, hI⟩
        · next hp =>
          intro k' h3 h4
          by_cases he : k' = i
          · subst he; exact hp
          · exact hI k' h3 (by omega))
    obtain ⟨r, hr, hP⟩ := Ok.exists (P := Sum.elim _ _) this
    rw [hr]
    cases r with
    | inl u => exact .inr ⟨hP, rfl⟩
    | inr k => exact .inl ⟨k, hP.1, hP.2.1, hP.2.2.1, hP.2.2.2, rfl⟩
  · right
    refine ⟨fun k h1 h2 => by omega, ?_⟩
    simp [forRet, Nat.sub_eq_zero_of_le (Nat.le_of_not_le hle), forUpRet]

theorem lookup_none {es : List ((Nat × Nat) × T)} {p : Nat × Nat} (h : ∀ e ∈ es, e.1 ≠ p) :
    es.lookup p = none := by
  induction es with
  | nil => rfl
  | cons e es ih =>
    rw [List.lookup_cons]
    have h1 : (p == e.1) = false := by simpa using (h e (by simp)).symm
    rw [h1]
    exact ih (fun e he => h e (List.mem_cons_of_mem _ he))

theorem lookup_first {es : List ((Nat × Nat) × T)} {p : Nat × Nat} {k : Nat} (hk : k < es.length)
    (hp : es[k].1 = p) (hlt : ∀ k' (h : k' < k), (es[k']'(by omega)).1 ≠ p) :
    es.lookup p = some es[k].2 := by
  induction es generalizing k with
  | nil => simp at hk
  | cons e es ih =>
    rw [List.lookup_cons]
    cases k with
    | zero =>
      have : (p == e.1) = true := by simpa using hp.symm
      rw [this]; rfl
    | succ k =>
      have h0 := hlt 0 (by omega)
      have : (p == e.1) = false := by simpa using Ne.symm h0
      rw [this]
      exact ih (k := k) (by simpa using hk) hp (fun k' h => hlt (k' + 1) (by omega))

theorem lookup_of_mem {es : List ((Nat × Nat) × T)} {p : Nat × Nat} {v : T}
    (hn : (es.map Prod.fst).Nodup) (h : (p, v) ∈ es) : es.lookup p = some v := by
  induction es with
  | nil => simp at h
  | cons e es ih =>
    rw [List.lookup_cons]
    rw [List.map_cons, List.nodup_cons] at hn
    rcases List.mem_cons.mp h with rfl | h
    · simp
    · have : p ∈ es.map Prod.fst := List.mem_map.mpr ⟨_, h, rfl⟩
      have hne : (p == e.1) = false := by
        rw [beq_eq_false_iff_ne]; rintro rfl; exact hn.1 this
      rw [hne]
      exact ih hn.2 h

theorem lookup_perm {es es' : List ((Nat × Nat) × T)} (h : es.Perm es')
    (hn : (es.map Prod.fst).Nodup) (p : Nat × Nat) : es.lookup p = es'.lookup p := by
  have hn' : (es'.map Prod.fst).Nodup := (h.map _).nodup_iff.mp hn
  by_cases hp : ∃ v, (p, v) ∈ es
  · obtain ⟨v, hv⟩ := hp
    rw [lookup_of_mem hn hv, lookup_of_mem hn' (h.subset hv)]
  · rw [lookup_none, lookup_none]
    · rintro ⟨q, v⟩ he rfl
      exact hp ⟨v, h.symm.subset he⟩
    · rintro ⟨q, v⟩ he rfl
      exact hp ⟨v, he⟩

section sums
variable [AddCommMonoid T]

theorem sumAt_append (es es' : List ((Nat × Nat) × T)) (i j : Nat) :
    sumAt (es ++ es') i j = sumAt es i j + sumAt es' i j := by
  simp [sumAt]

@[simp] theorem sumAt_nil (i j : Nat) : sumAt ([] : List ((Nat × Nat) × T)) i j = 0 := rfl

theorem sumAt_cons (e : (Nat × Nat) × T) (es : List ((Nat × Nat) × T)) (i j : Nat) :
    sumAt (e :: es) i j = (if e.1 = (i, j) then e.2 else 0) + sumAt es i j := by
  simp [sumAt]

theorem sumAt_perm {es es' : List ((Nat × Nat) × T)} (h : es.Perm es') (i j : Nat) :
    sumAt es i j = sumAt es' i j := (h.map _).sum_eq

theorem sumAt_none {es : List ((Nat × Nat) × T)} {i j : Nat} (h : (i, j) ∉ es.map Prod.fst) :
    sumAt es i j = 0 := by
  induction es with
  | nil => rfl
  | cons e es ih =>
    simp only [List.map_cons, List.mem_cons, not_or] at h
    rw [sumAt_cons, ih h.2, if_neg (Ne.symm h.1), add_zero]

/-- With distinct positions the stored value is the sum. -/
theorem lookup_eq_sumAt {es : List ((Nat × Nat) × T)} (hn : (es.map Prod.fst).Nodup) (i j : Nat) :
    (es.lookup (i, j)).getD 0 = sumAt es i j := by
  induction es with
  | nil => rfl
  | cons e es ih =>
    rw [List.map_cons, List.nodup_cons] at hn
    rw [List.lookup_cons, sumAt_cons]
    by_cases h : e.1 = (i, j)
    · have : ((i, j) == e.1) = true := by simp [h]
      rw [this, if_pos h, sumAt_none (by rw [← h]; exact hn.1), add_zero]; rfl
    · have : ((i, j) == e.1) = false := by simpa using Ne.symm h
      rw [this, if_neg h, zero_add]
      exact ih hn.2

end sums

/-! ## COO element access -/

namespace Coo

theorem length_entries {a : Coo T} (hw : a.Wf) : a.entries.length = a.val.length := by
  obtain ⟨h1, h2⟩ := hw
  simp [entries, triplets]; omega

theorem length_pos {a : Coo T} (hw : a.Wf) : a.pos.length = a.val.length := by
  obtain ⟨h1, h2⟩ := hw
  simp [pos]; omega

theorem entries_fst {a : Coo T} (hw : a.Wf) : a.entries.map Prod.fst = a.pos := by
  have : a.pos.length ≤ a.val.length := Nat.le_of_eq (length_pos hw)
  exact List.map_fst_zip this

theorem entries_getElem {a : Coo T} (hw : a.Wf) {k : Nat} (hk : k < a.val.length) :
    a.entries[k]'(by rw [length_entries hw]; exact hk) =
      ((a.row[k]'(by rw [hw.1]; exact hk), a.col[k]'(by rw [hw.2]; exact hk)), a.val[k]) := by
  simp [entries, triplets]

/-- The search finds the first stored index of the position, or nothing. -/
theorem search_spec {a : Coo T} (hw : a.Wf) (i j : Nat) :
    (∃ k, ∃ h : k < a.val.length, a.entries[k]'(by rw [length_entries hw]; exact h) = ((i, j), a.val[k]) ∧
      (∀ k' (h : k' < k), (a.entries[k']'(by rw [length_entries hw]; omega)).1 ≠ (i, j)) ∧
      a.search i j = .ok (.inr k)) ∨
    ((i, j) ∉ a.pos ∧ a.search i j = .ok (.inl ())) := by
  have hf : ∀ k, 0 ≤ k → k < a.val.length →
      (fun cnt (_ : Unit) => do
        let r ← lrd a.row cnt
        if r = i then do
          let c ← lrd a.col cnt
          if c = j then .ok (.inr cnt) else .ok (.inl ())
        else .ok (.inl ()) : Nat → Unit → Res (Unit ⊕ Nat)) k () =
      .ok (if (fun k => a.row.getD k 0 = i ∧ a.col.getD k 0 = j) k then .inr k else .inl ()) := by
    intro k _ hk
    have hr : k < a.row.length := by rw [hw.1]; exact hk
    have hc : k < a.col.length := by rw [hw.2]; exact hk
    simp only [lrd_ok hr, ok_bind]
    simp only [List.getD_eq_getElem?_getD, List.getElem?_eq_getElem hr, List.getElem?_eq_getElem hc,
      Option.getD_some]
    by_cases h1 : a.row[k] = i
    · simp only [h1, if_true, lrd_ok hc, ok_bind, true_and]
      by_cases h2 : a.col[k] = j <;> simp [h2]
    · simp [h1]
  rcases find_loop (lo := 0) (hi := a.val.length)
      (f := fun cnt (_ : Unit) => do
        let r ← lrd a.row cnt
        if r = i then do
          let c ← lrd a.col cnt
          if c = j then .ok (.inr cnt) else .ok (.inl ())
        else .ok (.inl ()))
      (P := fun k => a.row.getD k 0 = i ∧ a.col.getD k 0 = j) hf with
    ⟨k, _, h2, h3, h4, h5⟩ | ⟨h1, h2⟩
  · left
    have hr : k < a.row.length := by rw [hw.1]; exact h2
    have hc : k < a.col.length := by rw [hw.2]; exact h2
    refine ⟨k, h2, ?_, ?_, h5⟩
    · rw [entries_getElem hw h2]
      simp only [List.getD_eq_getElem?_getD, List.getElem?_eq_getElem hr, List.getElem?_eq_getElem hc,
        Option.getD_some] at h3
      rw [h3.1, h3.2]
    · intro k' hk'
      rw [entries_getElem hw (by omega)]
      have := h4 k' (Nat.zero_le _) hk'
      have hr' : k' < a.row.length := by omega
      have hc' : k' < a.col.length := by omega
      simp only [List.getD_eq_getElem?_getD, List.getElem?_eq_getElem hr', List.getElem?_eq_getElem hc',
        Option.getD_some] at this
      simpa using this
  · right
    refine ⟨?_, h2⟩
    intro hm
    obtain ⟨k, hk, he⟩ := List.getElem_of_mem hm
    have hkv : k < a.val.length := by rw [← length_pos hw]; exact hk
    have hr : k < a.row.length := by rw [hw.1]; exact hkv
    have hc : k < a.col.length := by rw [hw.2]; exact hkv
    have := h1 k (Nat.zero_le _) hkv
    simp only [List.getD_eq_getElem?_getD, List.getElem?_eq_getElem hr, List.getElem?_eq_getElem hc,
      Option.getD_some] at this
    simp only [pos, List.getElem_zip, Prod.mk.injEq] at he
    exact this he

theorem get_eq [Zero T] {a : Coo T} (hw : a.Wf) (i j : Nat) : a.get i j = .ok (a.elem i j) := by
  unfold get elem
  rcases search_spec hw i j with ⟨k, hk, h1, h2, h3⟩ | ⟨h1, h2⟩
  · rw [h3, ok_bind]
    simp only
    rw [lrd_ok hk, lookup_first (k := k) (by rw [length_entries hw]; exact hk) (by rw [h1]) h2, h1]
    rfl
  · rw [h2, ok_bind]
    simp only
    rw [lookup_none]
    · rfl
    · intro e he hp
      apply h1
      rw [← entries_fst hw, ← hp]
      exact List.mem_map.mpr ⟨e, he, rfl⟩

theorem elem_eq_sumAt [AddCommMonoid T] {a : Coo T} (hw : a.Wf) (hd : a.Distinct) (i j : Nat) :
    a.elem i j = sumAt a.entries i j :=
  lookup_eq_sumAt (by rw [entries_fst hw]; exact hd) i j

/-! ## Sorting -/

theorem posLe_refl (p : Nat × Nat) : posLe p p := .inr ⟨rfl, Nat.le_refl _⟩

theorem posLt_of_le_ne {p q : Nat × Nat} (h : posLe p q) (hne : p ≠ q) : posLt p q := by
  rcases h with h | ⟨h1, h2⟩
  · exact .inl h
  · refine .inr ⟨h1, Nat.lt_of_le_of_ne h2 ?_⟩
    intro h3; exact hne (Prod.ext h1 h3)

theorem posLt_irrefl (p : Nat × Nat) : ¬ posLt p p := by
  rintro (h | ⟨_, h⟩) <;> omega

theorem strict_of_sorted {l : List (Nat × Nat)} (hs : l.Pairwise posLe) (hn : l.Nodup) :
    l.Pairwise posLt := by
  rw [List.nodup_iff_pairwise_ne] at hn
  exact (hs.and hn).imp fun h => posLt_of_le_ne h.1 h.2

theorem sorted_of_strict {l : List (Nat × Nat)} (hs : l.Pairwise posLt) :
    l.Pairwise posLe ∧ l.Nodup := by
  constructor
  · exact hs.imp fun h => by
      rcases h with h | ⟨h1, h2⟩
      · exact .inl h
      · exact .inr ⟨h1, Nat.le_of_lt h2⟩
  · rw [List.nodup_iff_pairwise_ne]
    refine hs.imp fun {a b} h => ?_
    rintro rfl; exact posLt_irrefl _ h

theorem cmp_strictWeak (a : Coo T) : StrictWeak a.cmp where
  irrefl i := by simp [cmp]
  trans i j k := by
    simp only [cmp]
    split <;> split <;> split <;> simp only [decide_eq_true_eq] <;> omega
  incomp i j k := by
    simp only [cmp]
    split <;> split <;> split <;> split <;> split <;> split <;>
      simp only [decide_eq_false_iff_not] <;> omega

theorem mapM_lrd {S : Type} {l : List S} {ids : List Nat} (h : ∀ k ∈ ids, k < l.length) :
    ∃ l', ids.mapM (fun k => lrd l k) = .ok l' ∧ l'.map some = ids.map (fun k => l[k]?) := by
  induction ids with
  | nil => exact ⟨[], rfl, rfl⟩
  | cons k ids ih =>
    obtain ⟨l', h1, h2⟩ := ih (fun k hk => h k (List.mem_cons_of_mem _ hk))
    have hk := h k (by simp)
    refine ⟨l[k] :: l', ?_, ?_⟩
    · rw [List.mapM_cons, lrd_ok hk, ok_bind, h1]; rfl
    · simp [h2, hk]

theorem map_some_inj {S : Type} {l l' : List S} (h : l.map some = l'.map some) : l = l' :=
  List.map_injective_iff.mpr (Option.some_injective S) h

/-- The outcome of `_sort`: the same triplets, in row-major order. -/
theorem sort_spec {srt : SortFn} (hs : LawfulSort srt) {a : Coo T} (hw : a.Wf) :
    ∃ a', a.sort srt = .ok a' ∧ a'.Wf ∧ a'.entries.Perm a.entries ∧ a'.Sorted := by
  obtain ⟨hp, hpw⟩ := hs a.cmp (cmp_strictWeak a) (List.range a.val.length)
  generalize hids : srt a.cmp (List.range a.val.length) = ids at hp hpw
  have hlt : ∀ k ∈ ids, k < a.val.length := fun k hk => by
    simpa using hp.subset hk
  obtain ⟨v, hv, hv'⟩ := mapM_lrd (l := a.val) hlt
  obtain ⟨r, hr, hr'⟩ := mapM_lrd (l := a.row) (ids := ids) (fun k hk => by rw [hw.1]; exact hlt k hk)
  obtain ⟨c, hc, hc'⟩ := mapM_lrd (l := a.col) (ids := ids) (fun k hk => by rw [hw.2]; exact hlt k hk)
  have lv : v.length = ids.length := by simpa using congrArg List.length hv'
  have lr : r.length = ids.length := by simpa using congrArg List.length hr'
  have lc : c.length = ids.length := by simpa using congrArg List.length hc'
  have ev : ∀ t (h : t < ids.length), v[t]'(by omega) = a.val[ids[t]]'(hlt _ (List.getElem_mem _)) := by
    intro t h
    have h1 := hlt _ (List.getElem_mem h)
    have := List.getElem_of_eq hv' (i := t) (by simp; omega)
    simpa [List.getElem?_eq_getElem h1] using this
  have er : ∀ t (h : t < ids.length), r[t]'(by omega) =
      a.row[ids[t]]'(by rw [hw.1]; exact hlt _ (List.getElem_mem _)) := by
    intro t h
    have h1 := hlt _ (List.getElem_mem h)
    have := List.getElem_of_eq hr' (i := t) (by simp; omega)
    simpa [List.getElem?_eq_getElem (l := a.row) (i := ids[t]) (by rw [hw.1]; exact h1)] using this
  have ec : ∀ t (h : t < ids.length), c[t]'(by omega) =
      a.col[ids[t]]'(by rw [hw.2]; exact hlt _ (List.getElem_mem _)) := by
    intro t h
    have h1 := hlt _ (List.getElem_mem h)
    have := List.getElem_of_eq hc' (i := t) (by simp; omega)
    simpa [List.getElem?_eq_getElem (l := a.col) (i := ids[t]) (by rw [hw.2]; exact h1)] using this
  have hw' : (⟨v, r, c⟩ : Coo T).Wf := ⟨by simp; omega, by simp; omega⟩
  refine ⟨⟨v, r, c⟩, ?_, hw', ?_, ?_⟩
  · unfold sort
    rw [if_pos ⟨Nat.le_of_eq hw.1.symm, Nat.le_of_eq hw.2.symm⟩]
    simp only [hids, hv, hr, hc, ok_bind]
  · have e1 : (⟨v, r, c⟩ : Coo T).entries.map some = ids.map (fun k => a.entries[k]?) := by
      apply List.ext_getElem
      · simp [length_entries hw', lv]
      · intro t h1 h2
        simp only [List.length_map] at h1 h2
        have h3 := hlt _ (List.getElem_mem h2)
        have h4 : ids[t] < a.entries.length := by rw [length_entries hw]; exact h3
        simp only [List.getElem_map, List.getElem?_eq_getElem h4]
        rw [entries_getElem hw' (by simp; omega), entries_getElem hw h3]
        simp only [ev t h2, er t h2, ec t h2]
    have e2 : a.entries.map some = (List.range a.val.length).map (fun k => a.entries[k]?) := by
      apply List.ext_getElem
      · simp [length_entries hw]
      · intro t h1 h2
        simp at h1 h2
        simp [h1]
    have : ((⟨v, r, c⟩ : Coo T).entries.map some).Perm (a.entries.map some) := by
      rw [e1, e2]; exact hp.map _
    exact (List.map_perm_map_iff (Option.some_injective _)).mp this
  · unfold Sorted
    rw [List.pairwise_iff_getElem] at hpw ⊢
    intro s t h1 h2 hst
    have l1 : s < ids.length := by simp [pos] at h1; omega
    have l2 : t < ids.length := by simp [pos] at h2; omega
    have h := hpw s t l1 l2 hst
    have k1 := hlt _ (List.getElem_mem l1)
    have k2 := hlt _ (List.getElem_mem l2)
    simp only [pos, List.getElem_zip, er s l1, er t l2, ec s l1, ec t l2]
    have r1 : ids[s] < a.row.length := by rw [hw.1]; exact k1
    have r2 : ids[t] < a.row.length := by rw [hw.1]; exact k2
    have c1 : ids[s] < a.col.length := by rw [hw.2]; exact k1
    have c2 : ids[t] < a.col.length := by rw [hw.2]; exact k2
    simp only [cmp, List.getD_eq_getElem?_getD, List.getElem?_eq_getElem r1,
      List.getElem?_eq_getElem r2, List.getElem?_eq_getElem c1, List.getElem?_eq_getElem c2,
      Option.getD_some] at h
    unfold posLe
    simp only
    split at h <;> simp only [decide_eq_false_iff_not] at h <;> omega

/-- Insertion sort, as an example of a sort function. -/
def insSort : SortFn := fun lt l => l.insertionSort (fun a b => lt b a = false)

/-- A sort function with the required contract exists. -/
theorem lawful_insSort : LawfulSort insSort := by
  intro lt h l
  refine ⟨List.perm_insertionSort _ _, ?_⟩
  have h1 : ∀ a b c : Nat, lt b a = false → lt c b = false → lt c a = false := by
    intro a b c hab hbc
    by_contra hca
    have hca : lt c a = true := by simpa using hca
    by_cases hba : lt a b = true
    · have := h.trans _ _ _ hca hba
      rw [hbc] at this; cases this
    · have hab' : lt a b = false := by simpa using hba
      by_cases hcb : lt b c = true
      · have := h.trans _ _ _ hcb hca
        rw [hab] at this; cases this
      · have hbc' : lt b c = false := by simpa using hcb
        have := (h.incomp a b c hab' hab hbc' hbc).2
        rw [hca] at this; cases this
  have h2 : ∀ a b : Nat, lt b a = false ∨ lt a b = false := by
    intro a b
    cases hb : lt b a with
    | false => exact .inl rfl
    | true =>
      cases ha : lt a b with
      | false => exact .inr rfl
      | true =>
        have := h.trans _ _ _ hb ha
        rw [h.irrefl] at this; cases this
  have : Std.Total (fun a b : Nat => lt b a = false) := ⟨h2⟩
  have : IsTrans Nat (fun a b : Nat => lt b a = false) := ⟨h1⟩
  exact List.pairwise_insertionSort _ l

theorem sort_singleton {srt : SortFn} (hs : LawfulSort srt) (v : T) (i j : Nat) :
    sort srt (⟨[v], [i], [j]⟩ : Coo T) = .ok ⟨[v], [i], [j]⟩ := by
  obtain ⟨hp, _⟩ := hs (cmp (⟨[v], [i], [j]⟩ : Coo T)) (cmp_strictWeak _) [0]
  have : srt (cmp (⟨[v], [i], [j]⟩ : Coo T)) [0] = [0] := List.perm_singleton.mp hp
  unfold sort
  simp [this, lrd, List.range_succ]

end Coo

/-! ## Binary search -/

theorem takeWhile_pred {p : Nat → Bool} (l : List Nat) {t : Nat} (h : t < (l.takeWhile p).length) :
    ∃ h' : t < l.length, p l[t] = true := by
  have h' : t < l.length := Nat.lt_of_lt_of_le h (List.takeWhile_prefix p).length_le
  refine ⟨h', ?_⟩
  have h1 : (l.takeWhile p)[t] ∈ l.takeWhile p := List.getElem_mem h
  have h2 := List.mem_takeWhile_imp h1
  have h3 : (l.takeWhile p)[t] = l[t] := (List.takeWhile_prefix p).getElem h
  rw [← h3]; exact h2

theorem upperBound_spec {l : List Nat} {lo hi i : Nat} (hle : lo ≤ hi) (hl : hi ≤ l.length)
    (hs : ∀ s t, lo ≤ s → s < t → t < hi → l.getD s 0 ≤ l.getD t 0) :
    ∃ k, upperBound l lo hi i = .ok k ∧ lo ≤ k ∧ k ≤ hi ∧
      (∀ t, lo ≤ t → t < k → l.getD t 0 ≤ i) ∧ (∀ t, k ≤ t → t < hi → i < l.getD t 0) := by
  set seg := (l.drop lo).take (hi - lo) with hseg
  have hlen : seg.length = hi - lo := by simp [hseg]; omega
  have hget : ∀ t (h : t < seg.length), seg[t] = l.getD (lo + t) 0 := by
    intro t h
    have : lo + t < l.length := by omega
    simp [hseg, this]
  set k := (seg.takeWhile (fun x => decide (x ≤ i))).length with hk
  have hkl : k ≤ seg.length := (List.takeWhile_prefix _).length_le
  have hlow : ∀ t, t < k → l.getD (lo + t) 0 ≤ i := by
    intro t ht
    obtain ⟨h', hp⟩ := takeWhile_pred seg ht
    rw [hget t h'] at hp
    simpa using hp
  have hk1 : ∀ h : k < seg.length, i < seg[k] := by
    intro h
    by_contra hc
    have hall : ∀ t (h : t < k + 1), decide (seg[t] ≤ i) = true := by
      intro t ht
      by_cases he : t = k
      · subst he; simp; omega
      · obtain ⟨h', hp⟩ := takeWhile_pred (p := fun x => decide (x ≤ i)) seg (t := t) (by omega)
        exact hp
    have : seg.take (k + 1) <+: seg.takeWhile (fun x => decide (x ≤ i)) := by
      have h1 : (seg.take (k + 1)).takeWhile (fun x => decide (x ≤ i)) = seg.take (k + 1) := by
        rw [List.takeWhile_eq_self_iff]
        intro x hx
        obtain ⟨t, ht, rfl⟩ := List.getElem_of_mem hx
        rw [List.getElem_take]
        exact hall t (by simp at ht; omega)
      have h2 : seg = seg.take (k + 1) ++ seg.drop (k + 1) := (List.take_append_drop _ _).symm
      conv_rhs => rw [h2]
      rw [List.takeWhile_append, h1, if_pos rfl]
      exact List.prefix_append _ _
    have := this.length_le
    rw [← hk] at this
    simp at this; omega
  have hhigh : ∀ t (h : t < seg.length), k ≤ t → i < seg[t] := by
    intro t h ht
    have h0 := hk1 (by omega)
    rw [hget _ (by omega)] at h0 ⊢
    by_cases he : k = t
    · subst he; exact h0
    · have := hs (lo + k) (lo + t) (by omega) (by omega) (by omega)
      omega
  refine ⟨lo + k, ?_, by omega, by omega, ?_, ?_⟩
  · unfold upperBound
    rw [if_pos ⟨hle, hl⟩]
    simp only [← hseg, ← hk]
    rw [if_pos]
    rw [List.all_eq_true]
    intro x hx
    obtain ⟨t, ht, rfl⟩ := List.getElem_of_mem hx
    rw [List.getElem_drop]
    simp only [List.length_drop] at ht
    simpa using hhigh (k + t) (by omega) (by omega)
  · intro t h1 h2
    have := hlow (t - lo) (by omega)
    rwa [show lo + (t - lo) = t by omega] at this
  · intro t h1 h2
    have := hhigh (t - lo) (by omega) (by omega)
    rw [hget _ (by omega), show lo + (t - lo) = t by omega] at this
    exact this

/-! ## Largest element -/

theorem maxElem_spec {l : List Nat} (h : l ≠ []) :
    ∃ m, maxElem l = .ok m ∧ m ∈ l ∧ ∀ x ∈ l, x ≤ m := by
  refine ⟨l.foldr max 0, by simp [maxElem, h], ?_, ?_⟩
  · induction l with
    | nil => exact absurd rfl h
    | cons x l ih =>
      by_cases hl : l = []
      · subst hl; simp
      · have := ih hl
        rw [List.foldr_cons]
        rcases Nat.le_total x (l.foldr max 0) with hx | hx
        · rw [Nat.max_eq_right hx]; exact List.mem_cons_of_mem _ this
        · rw [Nat.max_eq_left hx]; simp
  · clear h
    intro x hx
    induction l with
    | nil => simp at hx
    | cons y l ih =>
      rw [List.foldr_cons]
      rcases List.mem_cons.mp hx with rfl | hx
      · exact Nat.le_max_left _ _
      · exact Nat.le_trans (ih hx) (Nat.le_max_right _ _)

theorem maxElem_nil : maxElem [] = .error (.ub .derefEnd) := rfl

end Lalib
