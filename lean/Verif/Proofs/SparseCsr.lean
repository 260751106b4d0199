import Verif.Proofs.Sparse
import Verif.Proofs.Fill
import Mathlib.Algebra.BigOperators.Ring.Finset

/-! # Lemmas about sparse matrices: updates, scaling, shape, the compressed format -/

namespace Lalib

variable {T : Type}

/-! ## Updates of a triplet list -/

theorem lookup_set_other {es : List ((Nat × Nat) × T)} {p q : Nat × Nat} {k : Nat} {v : T}
    (hk : k < es.length) (hp : es[k].1 = p) (hq : q ≠ p) :
    (es.set k (p, v)).lookup q = es.lookup q := by
  induction es generalizing k with
  | nil => simp at hk
  | cons e es ih =>
    cases k with
    | zero =>
      simp only [List.getElem_cons_zero] at hp
      have h1 : (q == p) = false := by simpa using hq
      have h2 : (q == e.1) = false := by rw [hp]; exact h1
      rw [List.set_cons_zero, List.lookup_cons, List.lookup_cons, h1, h2]
    | succ k =>
      rw [List.set_cons_succ, List.lookup_cons, List.lookup_cons]
      rw [ih (by simpa using hk) (by simpa using hp)]

theorem lookup_map (f : T → T) (es : List ((Nat × Nat) × T)) (p : Nat × Nat) :
    (es.map fun e => (e.1, f e.2)).lookup p = (es.lookup p).map f := by
  induction es with
  | nil => rfl
  | cons e es ih =>
    rw [List.map_cons, List.lookup_cons, List.lookup_cons]
    split
    · rfl
    · exact ih

namespace Coo

theorem entries_set {a : Coo T} (hw : a.Wf) {k : Nat} (hk : k < a.val.length) (v : T)
    {p : Nat × Nat} (hp : (a.entries[k]'(by rw [length_entries hw]; exact hk)).1 = p) :
    ({ a with val := a.val.set k v } : Coo T).entries = a.entries.set k (p, v) := by
  have hw' : ({ a with val := a.val.set k v } : Coo T).Wf := ⟨by simp [hw.1], by simp [hw.2]⟩
  rw [entries_getElem hw hk] at hp
  apply List.ext_getElem
  · rw [length_entries hw', List.length_set, List.length_set, length_entries hw]
  · intro t h1 h2
    have ht : t < a.val.length := by rw [length_entries hw'] at h1; simpa using h1
    rw [entries_getElem hw' (by simpa using ht), List.getElem_set]
    by_cases he : k = t
    · subst he
      simp only [if_true, List.getElem_set, ← hp]
    · simp only [if_neg he, List.getElem_set]
      rw [entries_getElem hw ht]

theorem set_spec [Zero T] {a : Coo T} (hw : a.Wf) (i j : Nat) (v : T) :
    ((i, j) ∈ a.pos ∧ ∃ a', a.set i j v = .ok a' ∧ a'.Wf ∧ a'.pos = a.pos ∧ a'.elem i j = v ∧
      ∀ i' j', (i', j') ≠ (i, j) → a'.elem i' j' = a.elem i' j') ∨
    ((i, j) ∉ a.pos ∧ a.set i j v = .error (.throw .outOfRange)) := by
  rcases search_spec hw i j with ⟨k, hk, h1, h2, h3⟩ | ⟨h1, h2⟩
  · left
    have hke : k < a.entries.length := by rw [length_entries hw]; exact hk
    have hp : a.entries[k].1 = (i, j) := by rw [h1]
    refine ⟨?_, { a with val := a.val.set k v }, ?_, ⟨by simp [hw.1], by simp [hw.2]⟩, rfl, ?_, ?_⟩
    · rw [← entries_fst hw, ← hp]
      exact List.mem_map.mpr ⟨_, List.getElem_mem hke, rfl⟩
    · unfold set
      rw [h3, ok_bind]
      simp only
      rw [lwr_ok hk]; rfl
    · unfold elem
      rw [entries_set hw hk v hp]
      rw [lookup_first (k := k) (by simpa using hke) (by simp)]
      · simp
      · intro k' hk'
        rw [List.getElem_set_ne (by omega)]
        exact h2 k' hk'
    · intro i' j' hne
      unfold elem
      rw [entries_set hw hk v hp, lookup_set_other hke hp hne]
  · right
    refine ⟨h1, ?_⟩
    unfold set
    rw [h2]; rfl

/-! ## Scaling -/

theorem scale_eq [Mul T] (alpha : T) (a : Coo T) :
    a.scale alpha = .ok { a with val := a.val.map (fun x => alpha * x) } := by
  unfold scale nnz
  rw [scalCore_eq (by simp [Mem.len, Mem.ofList]), ok_bind]
  simp [Mem.setBuf, Mem.ofList, noexcept]

theorem entries_map (a : Coo T) (f : T → T) :
    ({ a with val := a.val.map f } : Coo T).entries = a.entries.map fun e => (e.1, f e.2) := by
  simp only [entries, triplets]
  rw [List.zip_map_right]
  rfl

theorem elem_scale [MulZeroClass T] (alpha : T) (a : Coo T) (i j : Nat) :
    ({ a with val := a.val.map (fun x => alpha * x) } : Coo T).elem i j = alpha * a.elem i j := by
  unfold elem
  rw [entries_map, lookup_map]
  cases h : a.entries.lookup (i, j) <;> simp

/-! ## Shape -/

theorem shape_spec {a : Coo T} (hw : a.Wf) (hne : a.val ≠ []) :
    ∃ r c, a.shape = .ok (r, c) ∧ (∀ p ∈ a.pos, p.1 < r ∧ p.2 < c) ∧
      (∃ p ∈ a.pos, p.1 + 1 = r) ∧ (∃ p ∈ a.pos, p.2 + 1 = c) := by
  have hl : 0 < a.val.length := List.length_pos_iff.mpr hne
  have hr : a.row ≠ [] := by intro h; have := hw.1; rw [h] at this; simp at this; omega
  have hc : a.col ≠ [] := by intro h; have := hw.2; rw [h] at this; simp at this; omega
  obtain ⟨r, e1, m1, b1⟩ := maxElem_spec hr
  obtain ⟨c, e2, m2, b2⟩ := maxElem_spec hc
  refine ⟨r + 1, c + 1, ?_, ?_, ?_, ?_⟩
  · unfold shape; rw [e1, e2]; rfl
  · rintro ⟨i, j⟩ hp
    exact ⟨Nat.lt_succ_of_le (b1 i (List.of_mem_zip hp).1), Nat.lt_succ_of_le (b2 j (List.of_mem_zip hp).2)⟩
  · obtain ⟨k, hk, rfl⟩ := List.getElem_of_mem m1
    refine ⟨(a.row[k], a.col[k]'(by rw [hw.2, ← hw.1]; exact hk)), ?_, rfl⟩
    unfold pos
    rw [← List.getElem_zip (h := by simp; exact ⟨hk, by rw [hw.2, ← hw.1]; exact hk⟩)]
    exact List.getElem_mem _
  · obtain ⟨k, hk, rfl⟩ := List.getElem_of_mem m2
    refine ⟨(a.row[k]'(by rw [hw.1, ← hw.2]; exact hk), a.col[k]), ?_, rfl⟩
    unfold pos
    rw [← List.getElem_zip (h := by simp; exact ⟨by rw [hw.1, ← hw.2]; exact hk, hk⟩)]
    exact List.getElem_mem _

theorem shape_empty {a : Coo T} (hw : a.Wf) (h : a.val = []) : a.shape = .error (.ub .derefEnd) := by
  have h1 := hw.1
  rw [h] at h1
  have : a.row = [] := List.length_eq_zero_iff.mp h1
  unfold shape; rw [this]; rfl

/-- The two index arrays as filled by the loop of `unit`. -/
theorem unit_loop (n N : Nat) (hN : n ≤ N) :
    forRange 0 n (fun i (p : List Nat × List Nat) => do
      let row ← lwr p.1 i i
      let col ← lwr p.2 i i
      .ok (row, col)) (List.replicate N 0, List.replicate n 0) =
      (.ok (List.range n ++ List.replicate (N - n) 0, List.range n) : Res _) := by
  have : Ok (fun p : List Nat × List Nat => p = (List.range n ++ List.replicate (N - n) 0, List.range n))
      (forRange 0 n (fun i (p : List Nat × List Nat) => do
      let row ← lwr p.1 i i
      let col ← lwr p.2 i i
      .ok (row, col)) (List.replicate N 0, List.replicate n 0)) := by
    refine Sat.mono (forRange_sat (I := fun i (p : List Nat × List Nat) =>
      p = (List.range i ++ List.replicate (N - i) 0, List.range i ++ List.replicate (n - i) 0))
      (Nat.zero_le _) (by simp) ?_) ?_ (fun _ h => h)
    · intro i p _ hi hp
      subst hp
      have e : ∀ M, i < M → (List.range i ++ List.replicate (M - i) 0).set i i =
          List.range (i + 1) ++ List.replicate (M - (i + 1)) 0 := by
        intro M hM
        obtain ⟨d, rfl⟩ : ∃ d, M = i + 1 + d := ⟨M - (i + 1), by omega⟩
        rw [show i + 1 + d - i = d + 1 by omega, show i + 1 + d - (i + 1) = d by omega,
          List.replicate_succ, List.set_append_right _ _ (by simp), List.range_succ]
        simp
      simp only
      rw [lwr_ok (by simp; omega), ok_bind, lwr_ok (by simp; omega), ok_bind, e N (by omega), e n hi]
      rfl
    · rintro p rfl; simp
  obtain ⟨p, h1, h2⟩ := this.exists
  rw [h1, h2]

theorem pos_range (n : Nat) (v : List T) :
    (⟨v, List.range n, List.range n⟩ : Coo T).pos = (List.range n).map fun i => (i, i) := by
  simp only [pos]
  apply List.ext_getElem
  · simp
  · intro k h1 h2; simp

end Coo

/-! ## Compressed format -/

namespace Csr

theorem getD_eq {l : List Nat} {i x : Nat} (h : l[i]? = some x) : l.getD i 0 = x := by
  simp [List.getD_eq_getElem?_getD, h]

theorem Wf.length_pos {a : Csr T} (hw : a.Wf) : 0 < a.rowPtr.length := by
  have := hw.ptr0
  by_contra hc
  have : a.rowPtr = [] := List.length_eq_zero_iff.mp (by omega)
  have h := hw.ptr0
  rw [this] at h; simp at h

theorem Wf.ptr_le {a : Csr T} (hw : a.Wf) {i : Nat} (hi : i < a.nrows) :
    i + 1 < a.rowPtr.length ∧ a.rowPtr.getD i 0 ≤ a.rowPtr.getD (i + 1) 0 ∧
      a.rowPtr.getD (i + 1) 0 ≤ a.val.length := by
  have h1 : i + 1 < a.rowPtr.length := by unfold nrows at hi; omega
  have hm := List.pairwise_iff_getElem.mp hw.mono
  have hl := hw.last
  rw [List.getLast?_eq_getElem?] at hl
  have hlt : a.rowPtr.length - 1 < a.rowPtr.length := by omega
  rw [List.getElem?_eq_getElem hlt] at hl
  have hl' : a.rowPtr[a.rowPtr.length - 1] = a.val.length := by simpa using hl
  have e1 : a.rowPtr.getD i 0 = a.rowPtr[i] := by simp [List.getD_eq_getElem?_getD, show i < a.rowPtr.length by omega]
  have e2 : a.rowPtr.getD (i + 1) 0 = a.rowPtr[i + 1] := by simp [List.getD_eq_getElem?_getD, h1]
  refine ⟨h1, ?_, ?_⟩
  · rw [e1, e2]; exact hm i (i + 1) (by omega) h1 (by omega)
  · rw [e2, ← hl']
    by_cases he : i + 1 = a.rowPtr.length - 1
    · simp [he]
    · exact hm (i + 1) (a.rowPtr.length - 1) h1 hlt (by omega)

/-- Every stored index belongs to a row. -/
theorem Wf.row_of {a : Csr T} (hw : a.Wf) {k : Nat} (hk : k < a.val.length) :
    ∃ i, i < a.nrows ∧ a.rowPtr.getD i 0 ≤ k ∧ k < a.rowPtr.getD (i + 1) 0 := by
  have hpos := hw.length_pos
  have h0 : a.rowPtr.getD 0 0 = 0 := by rw [List.getD_eq_getElem?_getD, hw.ptr0]; rfl
  have hl : a.rowPtr.getD a.nrows 0 = a.val.length := by
    have := hw.last
    rw [List.getLast?_eq_getElem?] at this
    unfold nrows
    rw [List.getD_eq_getElem?_getD, this]; rfl
  have key : ∀ n, n ≤ a.nrows → k < a.rowPtr.getD n 0 →
      ∃ i, i < n ∧ a.rowPtr.getD i 0 ≤ k ∧ k < a.rowPtr.getD (i + 1) 0 := by
    intro n
    induction n with
    | zero => intro _ h; omega
    | succ n ih =>
      intro hn h
      by_cases hc : k < a.rowPtr.getD n 0
      · obtain ⟨i, h1, h2⟩ := ih (by omega) hc
        exact ⟨i, by omega, h2⟩
      · exact ⟨n, by omega, by omega, h⟩
  exact key _ (Nat.le_refl _) (by omega)

theorem lrd_ptr {l : List Nat} {i : Nat} (h : i < l.length) : lrd l i = .ok (l.getD i 0) := by
  rw [lrd_ok h]; simp [List.getD_eq_getElem?_getD, h]

/-- The search finds the first stored index of the column within the row, or nothing. -/
theorem search_spec {a : Csr T} (hw : a.Wf) {i : Nat} (hi : i < a.nrows) (j : Nat) :
    (∃ k, a.StoredAt i j k ∧ (∀ k', k' < k → ¬ a.StoredAt i j k') ∧ a.search i j = .ok (.inr k)) ∨
    ((∀ k, ¬ a.StoredAt i j k) ∧ a.search i j = .ok (.inl ())) := by
  obtain ⟨h1, h2, h3⟩ := hw.ptr_le hi
  have hf : ∀ k, a.rowPtr.getD i 0 ≤ k → k < a.rowPtr.getD (i + 1) 0 →
      (fun cnt (_ : Unit) => do
        let c ← lrd a.col cnt
        if c = j then .ok (.inr cnt) else .ok (.inl ()) : Nat → Unit → Res (Unit ⊕ Nat)) k () =
      .ok (if (fun k => a.col[k]? = some j) k then .inr k else .inl ()) := by
    intro k _ hk
    have hc : k < a.col.length := by rw [hw.len]; omega
    simp only [lrd_ok hc, ok_bind, List.getElem?_eq_getElem hc, Option.some.injEq]
    by_cases h : a.col[k] = j <;> simp [h]
  have hs : a.search i j = forRet (a.rowPtr.getD i 0) (a.rowPtr.getD (i + 1) 0)
      (fun cnt (_ : Unit) => do
        let c ← lrd a.col cnt
        if c = j then .ok (.inr cnt) else .ok (.inl ())) () := by
    unfold search
    rw [lrd_ptr (show i < a.rowPtr.length by omega), ok_bind, lrd_ptr h1, ok_bind, if_pos h2]
  rw [hs]
  rcases find_loop (lo := a.rowPtr.getD i 0) (hi := a.rowPtr.getD (i + 1) 0)
      (f := fun cnt (_ : Unit) => do
        let c ← lrd a.col cnt
        if c = j then .ok (.inr cnt) else .ok (.inl ()))
      (P := fun k => a.col[k]? = some j) hf with ⟨k, l1, l2, l3, l4, l5⟩ | ⟨l1, l2⟩
  · left
    refine ⟨k, ⟨l1, l2, l3⟩, ?_, l5⟩
    rintro k' hk' ⟨m1, m2, m3⟩
    exact l4 k' m1 hk' m3
  · right
    refine ⟨?_, l2⟩
    rintro k ⟨m1, m2, m3⟩
    exact l1 k m1 m2 m3

theorem StoredAt.lt {a : Csr T} (hw : a.Wf) {i j k : Nat} (h : a.StoredAt i j k) :
    k < a.val.length := by
  rw [← hw.len]
  obtain ⟨_, _, h⟩ := h
  exact (List.getElem?_eq_some_iff.mp h).1

theorem StoredAt.unique {a : Csr T} (hd : a.Distinct) {i j k k' : Nat} (h : a.StoredAt i j k)
    (h' : a.StoredAt i j k') : k = k' :=
  hd i k k' h.1 h.2.1 h'.1 h'.2.1 (by rw [getD_eq h.2.2, getD_eq h'.2.2])

theorem get_stored [Zero T] {a : Csr T} (hw : a.Wf) (hd : a.Distinct) {i j k : Nat} (hi : i < a.nrows)
    (h : a.StoredAt i j k) : a.get i j = .ok (a.val[k]'(h.lt hw)) := by
  unfold get
  rcases search_spec hw hi j with ⟨k', h1, _, h3⟩ | ⟨h1, _⟩
  · obtain rfl := h.unique hd h1
    rw [h3, ok_bind]
    simp only
    rw [lrd_ok (h.lt hw)]
  · exact absurd h (h1 k)

theorem get_unstored [Zero T] {a : Csr T} (hw : a.Wf) {i j : Nat} (hi : i < a.nrows)
    (h : ∀ k, ¬ a.StoredAt i j k) : a.get i j = .ok 0 := by
  unfold get
  rcases search_spec hw hi j with ⟨k', h1, _, h3⟩ | ⟨h1, h2⟩
  · exact absurd h1 (h k')
  · rw [h2]; rfl

theorem set_stored {a : Csr T} (hw : a.Wf) (hd : a.Distinct) {i j k : Nat} (hi : i < a.nrows)
    (h : a.StoredAt i j k) (v : T) : a.set i j v = .ok { a with val := a.val.set k v } := by
  unfold set
  rcases search_spec hw hi j with ⟨k', h1, _, h3⟩ | ⟨h1, _⟩
  · obtain rfl := h.unique hd h1
    rw [h3, ok_bind]
    simp only
    rw [lwr_ok (h.lt hw)]
    rfl
  · exact absurd h (h1 k)

theorem set_unstored {a : Csr T} (hw : a.Wf) {i j : Nat} (hi : i < a.nrows)
    (h : ∀ k, ¬ a.StoredAt i j k) (v : T) : a.set i j v = .error (.throw .outOfRange) := by
  unfold set
  rcases search_spec hw hi j with ⟨k', h1, _, h3⟩ | ⟨h1, h2⟩
  · exact absurd h1 (h k')
  · rw [h2]; rfl

theorem scale_eq [Mul T] (alpha : T) (a : Csr T) :
    a.scale alpha = .ok { a with val := a.val.map (fun x => alpha * x) } := by
  unfold scale nnz
  rw [scalCore_eq (by simp [Mem.len, Mem.ofList]), ok_bind]
  simp [Mem.setBuf, Mem.ofList, noexcept]

/-! ### Conversion -/

/-- `p` separates the entries smaller than `r` from the others. -/
def Bnd (l : List Nat) (r p : Nat) : Prop :=
  p ≤ l.length ∧ (∀ t, t < p → l.getD t 0 < r) ∧ ∀ t, p ≤ t → t < l.length → r ≤ l.getD t 0

theorem Bnd.unique {l : List Nat} {r p q : Nat} (h : Bnd l r p) (h' : Bnd l r q) : p = q := by
  rcases Nat.lt_trichotomy p q with hlt | he | hlt
  · have := h.2.2 p (Nat.le_refl _) (by have := h'.1; omega)
    have := h'.2.1 p hlt
    omega
  · exact he
  · have := h'.2.2 q (Nat.le_refl _) (by have := h.1; omega)
    have := h.2.1 q hlt
    omega

theorem Bnd.mono {l : List Nat} {r r' p q : Nat} (h : Bnd l r p) (h' : Bnd l r' q) (hr : r ≤ r') : p ≤ q := by
  by_contra hc
  have := h.2.1 q (by omega)
  have := h'.2.2 q (Nat.le_refl _) (by have := h.1; omega)
  omega

theorem foldr_max_le {l : List Nat} {t : Nat} (h : t < l.length) : l.getD t 0 ≤ l.foldr max 0 := by
  have : l.getD t 0 = l[t] := by simp [List.getD_eq_getElem?_getD, h]
  rw [this]
  clear this
  induction l generalizing t with
  | nil => simp at h
  | cons x l ih =>
    rw [List.foldr_cons]
    cases t with
    | zero => exact Nat.le_max_left _ _
    | succ t => exact Nat.le_trans (ih (by simpa using h)) (Nat.le_max_right _ _)

theorem convLoop_spec {l : List Nat} (hs : ∀ s t, s < t → t < l.length → l.getD s 0 ≤ l.getD t 0) :
    ∀ (fuel i it : Nat) (ptr : List Nat), i + fuel = l.foldr max 0 + 1 → Bnd l i it →
      ptr.length = i + 1 → (∀ r, r ≤ i → Bnd l r (ptr.getD r 0)) → ptr.getLast? = some it →
      (l ≠ [] → i < l.foldr max 0 + 1 → it < l.length) →
      ∃ ptr', convLoop l fuel i it ptr = .ok ptr' ∧
        (ptr'.length = (if l = [] then i else l.foldr max 0 + 1) + 1) ∧
        (∀ r, r < ptr'.length → Bnd l r (ptr'.getD r 0)) ∧ ptr'.getLast? = some l.length := by
  intro fuel
  induction fuel with
  | zero =>
    intro i it ptr hf hb hl hp hlast hlt
    have hit : it = l.length := by
      by_contra hc
      have h1 := hb.1
      have := hb.2.2 it (Nat.le_refl _) (by omega)
      have := foldr_max_le (l := l) (t := it) (by omega)
      omega
    refine ⟨ptr, ?_, ?_, ?_, ?_⟩
    · simp [convLoop, hit]
    · rw [hl]; split <;> omega
    · intro r hr; exact hp r (by omega)
    · rw [hlast, hit]
  | succ fuel ih =>
    intro i it ptr hf hb hl hp hlast hlt
    by_cases hlt' : it < l.length
    · obtain ⟨k, k1, k2, k3, k4, k5⟩ := upperBound_spec (l := l) (lo := it) (hi := l.length) (i := i)
        (Nat.le_of_lt hlt') (Nat.le_refl _) (fun s t _ h2 h3 => hs s t h2 h3)
      have hne : l ≠ [] := by rintro rfl; simp at hlt'
      have hb' : Bnd l (i + 1) k := by
        refine ⟨k3, ?_, ?_⟩
        · intro t ht
          by_cases h : t < it
          · have := hb.2.1 t h; omega
          · have := k4 t (by omega) ht; omega
        · intro t h1 h2
          exact k5 t h1 h2
      obtain ⟨ptr', p1, p2, p3, p4⟩ := ih (i + 1) k (ptr ++ [k]) (by omega) hb' (by simp; omega) (by
        intro r hr
        by_cases h : r ≤ i
        · have : (ptr ++ [k]).getD r 0 = ptr.getD r 0 := by
            simp only [List.getD_eq_getElem?_getD]
            rw [List.getElem?_append_left (by omega)]
          rw [this]; exact hp r h
        · obtain rfl : r = i + 1 := by omega
          have : (ptr ++ [k]).getD (i + 1) 0 = k := by
            simp only [List.getD_eq_getElem?_getD]
            rw [List.getElem?_append_right (by omega)]
            simp [hl]
          rw [this]; exact hb') (by simp) (by
        intro _ hi
        -- the largest row index occurs, at or after `k`
        obtain ⟨m, e, hm, _⟩ := maxElem_spec hne
        have e' : m = l.foldr max 0 := by simp [maxElem, hne] at e; exact e.symm
        obtain ⟨t, ht, hm⟩ := List.getElem_of_mem hm
        by_contra hc
        have := hb'.2.1 t (by omega)
        have : l.getD t 0 = l[t] := by simp [List.getD_eq_getElem?_getD, ht]
        omega)
      refine ⟨ptr', ?_, ?_, p3, p4⟩
      · rw [convLoop, if_pos hlt', k1, ok_bind]; exact p1
      · rw [p2, if_neg hne, if_neg hne]
    · have he : l = [] := by
        by_contra hne
        have := hlt hne (by omega)
        omega
      subst he
      refine ⟨ptr, ?_, ?_, ?_, ?_⟩
      · rw [convLoop, if_neg hlt']
      · simpa using hl
      · intro r hr; exact hp r (by omega)
      · rw [hlast]
        have := hb.1
        simp at this
        simp [this]

theorem convert_spec {l : List Nat} (hs : l.Pairwise (· ≤ ·)) :
    ∃ ptr, convert l = .ok ptr ∧ (ptr.length = (if l = [] then 0 else l.foldr max 0 + 1) + 1) ∧
        (∀ r, r < ptr.length → Bnd l r (ptr.getD r 0)) ∧ ptr.getLast? = some l.length := by
  have hs' : ∀ s t, s < t → t < l.length → l.getD s 0 ≤ l.getD t 0 := by
    intro s t h1 h2
    have := List.pairwise_iff_getElem.mp hs s t (by omega) h2 h1
    simpa [List.getD_eq_getElem?_getD, h2, show s < l.length by omega] using this
  refine convLoop_spec hs' _ 0 0 [0] (by omega) ⟨Nat.zero_le _, fun t h => by omega, fun t _ _ => Nat.zero_le _⟩
    rfl ?_ rfl ?_
  · intro r hr
    obtain rfl : r = 0 := by omega
    exact ⟨Nat.zero_le _, fun t h => by simp at h, fun t _ _ => Nat.zero_le _⟩
  · intro hne _
    exact List.length_pos_iff.mpr hne

theorem rows_sorted {a : Coo T} (hw : a.Wf) (hs : a.Sorted) : a.row.Pairwise (· ≤ ·) := by
  rw [List.pairwise_iff_getElem]
  intro s t h1 h2 hst
  have l1 : s < a.pos.length := by rw [Coo.length_pos hw, ← hw.1]; exact h1
  have l2 : t < a.pos.length := by rw [Coo.length_pos hw, ← hw.1]; exact h2
  have := List.pairwise_iff_getElem.mp hs s t l1 l2 hst
  simp only [Coo.pos, List.getElem_zip, posLe] at this
  omega

theorem ofCoo_spec {a : Coo T} (hw : a.Wf) (hs : a.Sorted) :
    ∃ m : Csr T, ofCoo a = .ok m ∧ m.val = a.val ∧ m.col = a.col ∧ m.Wf ∧
      m.nrows = (if a.row = [] then 0 else a.row.foldr max 0 + 1) ∧
      ∀ i k, i < m.nrows → ((m.rowPtr.getD i 0 ≤ k ∧ k < m.rowPtr.getD (i + 1) 0) ↔
        k < a.row.length ∧ a.row.getD k 0 = i) := by
  obtain ⟨ptr, p1, p2, p3, p4⟩ := convert_spec (rows_sorted hw hs)
  refine ⟨⟨a.val, ptr, a.col⟩, ?_, rfl, rfl, ⟨hw.2, ?_, ?_, ?_⟩, ?_, ?_⟩
  · unfold ofCoo
    rw [p1]; rfl
  · have hb := p3 0 (by omega)
    have h0 : ptr.getD 0 0 = 0 := by
      refine Bnd.unique hb ⟨Nat.zero_le _, fun t h => by omega, fun t _ _ => Nat.zero_le _⟩
    have : 0 < ptr.length := by omega
    simp only [List.getElem?_eq_getElem this]
    simpa [List.getD_eq_getElem?_getD, this] using h0
  · rw [List.pairwise_iff_getElem]
    intro s t h1 h2 hst
    have b1 := p3 s h1
    have b2 := p3 t h2
    have := b1.mono b2 (Nat.le_of_lt hst)
    simpa [List.getD_eq_getElem?_getD, h1, h2] using this
  · show ptr.getLast? = some a.val.length
    rw [p4, hw.1]
  · unfold nrows
    simp only
    rw [p2, Nat.add_sub_cancel]
  · intro i k hi
    unfold nrows at hi
    simp only at hi ⊢
    have b1 := p3 i (by omega)
    have b2 := p3 (i + 1) (by omega)
    constructor
    · rintro ⟨h1, h2⟩
      have hk : k < a.row.length := by have := b2.1; omega
      have := b1.2.2 k h1 hk
      have := b2.2.1 k h2
      exact ⟨hk, by omega⟩
    · rintro ⟨h1, h2⟩
      constructor
      · by_contra hc
        have := b1.2.1 k (by omega)
        omega
      · by_contra hc
        have := b2.2.2 k (by omega) h1
        omega

/-- Same elements before and after the conversion. -/
theorem ofCoo_get [Zero T] {a : Coo T} (hw : a.Wf) {m : Csr T} (hv : m.val = a.val) (hc : m.col = a.col)
    (hm : m.Wf) (hp : ∀ i k, i < m.nrows → ((m.rowPtr.getD i 0 ≤ k ∧ k < m.rowPtr.getD (i + 1) 0) ↔
        k < a.row.length ∧ a.row.getD k 0 = i)) {i : Nat} (hi : i < m.nrows) (j : Nat) :
    m.get i j = a.get i j := by
  have key : ∀ k, m.StoredAt i j k ↔ ∃ h : k < a.val.length,
      (a.entries[k]'(by rw [Coo.length_entries hw]; exact h)).1 = (i, j) := by
    intro k
    constructor
    · rintro ⟨h1, h2, h3⟩
      obtain ⟨h4, h5⟩ := (hp i k hi).mp ⟨h1, h2⟩
      have h6 : k < a.val.length := by rw [← hw.1]; exact h4
      refine ⟨h6, ?_⟩
      rw [Coo.entries_getElem hw h6]
      rw [hc] at h3
      obtain ⟨_, h7⟩ := List.getElem?_eq_some_iff.mp h3
      have : a.row.getD k 0 = a.row[k] := by simp [List.getD_eq_getElem?_getD, h4]
      rw [Prod.mk.injEq]
      exact ⟨by omega, h7⟩
    · rintro ⟨h1, h2⟩
      rw [Coo.entries_getElem hw h1, Prod.mk.injEq] at h2
      have h4 : k < a.row.length := by rw [hw.1]; exact h1
      have : a.row.getD k 0 = a.row[k] := by simp [List.getD_eq_getElem?_getD, h4]
      have h5 := (hp i k hi).mpr ⟨h4, by rw [this]; exact h2.1⟩
      refine ⟨h5.1, h5.2, ?_⟩
      rw [hc, List.getElem?_eq_getElem (by rw [hw.2]; exact h1)]
      simp [h2.2]
  have hs : m.search i j = a.search i j := by
    rcases search_spec hm hi j with ⟨k, h1, h2, h3⟩ | ⟨h1, h2⟩ <;>
      rcases Coo.search_spec hw i j with ⟨k', l1, l2, l3, l4⟩ | ⟨l1, l2⟩
    · rw [h3, l4]
      obtain ⟨h4, h5⟩ := (key k).mp h1
      have h6 := (key k').mpr ⟨l1, by rw [l2]⟩
      have : k = k' := by
        rcases Nat.lt_trichotomy k k' with hlt | he | hlt
        · exact absurd h5 (l3 k hlt)
        · exact he
        · exact absurd h6 (h2 k' hlt)
      rw [this]
    · obtain ⟨h4, h5⟩ := (key k).mp h1
      exfalso; apply l1
      rw [← Coo.entries_fst hw, ← h5]
      exact List.mem_map.mpr ⟨_, List.getElem_mem _, rfl⟩
    · exact absurd ((key k').mpr ⟨l1, by rw [l2]⟩) (h1 k')
    · rw [h2, l2]
  unfold get Coo.get
  rw [hs, hv]

/-! ### Matrix-vector product -/

section ring
variable [CommRing T]

/-- `mulCore` on separate vectors. -/
theorem mulCore_eq {a : Csr T} (hw : a.Wf) {alpha beta : T} {x y : Nat} {s : Mem T}
    (hx : ∀ c ∈ a.col, c < s.len x) (hy : s.len y = a.nrows) (hxy : x ≠ y) :
    mulCore a.nrows a alpha x beta y s =
      .ok (s.setBuf y ((List.range a.nrows).map fun i => beta * val0 (s y) i +
        ∑ k ∈ Finset.Ico (a.rowPtr.getD i 0) (a.rowPtr.getD (i + 1) 0),
          alpha * val0 a.val k * val0 (s x) (a.col.getD k 0))) := by
  have hy' : (s y).length = a.nrows := hy
  unfold mulCore
  conv_lhs => rw [← s.setBuf_same y]
  rw [fill_loop (emb := fun l => s.setBuf y l) (F := fun i => beta * val0 (s y) i +
        ∑ k ∈ Finset.Ico (a.rowPtr.getD i 0) (a.rowPtr.getD (i + 1) 0),
          alpha * val0 a.val k * val0 (s x) (a.col.getD k 0)) (off := 0) (Nat.zero_le _) (s y)
        (by simpa using hy.ge)]
  · rw [Nat.zero_add, Nat.zero_add, fillR_full _ hy']
  · intro i l _ hi hl hp
    rw [hy'] at hl
    obtain ⟨h1, h2, h3⟩ := hw.ptr_le hi
    rw [Mem.setBuf_rd_self, lrd_val (show i < l.length by omega), ok_bind,
      Mem.setBuf_wr _ _ (show i < l.length by omega), ok_bind, lrd_ptr (show i < a.rowPtr.length by omega),
      ok_bind, lrd_ptr h1, ok_bind]
    rw [acc_through (h := fun v => s.setBuf y (l.set i v))
      (g := fun k => alpha * val0 a.val k * val0 (s x) (a.col.getD k 0)) h2]
    · rw [hp i (by omega), Nat.zero_add]
    · intro k v _ hk
      have hc : k < a.col.length := by rw [hw.len]; omega
      have hcx : a.col.getD k 0 < s.len x := by
        apply hx
        have : a.col.getD k 0 = a.col[k] := by simp [List.getD_eq_getElem?_getD, hc]
        rw [this]; exact List.getElem_mem _
      rw [Mem.setBuf_rd_self, lrd_val (show i < (l.set i v).length by simp; omega), ok_bind,
        lrd_val (show k < a.val.length by omega), ok_bind, lrd_ptr hc, ok_bind,
        Mem.setBuf_rd_other _ hxy, Mem.rd_ok hcx, ok_bind,
        Mem.setBuf_wr _ _ (show i < (l.set i v).length by simp; omega),
        val0_set (show i < l.length by omega), if_pos rfl, List.set_set]
      rfl

end ring

/-- Summing a function of the stored elements of a row, or of all elements of the row. -/
theorem row_sum_map {M : Type} [AddCommMonoid M] [Zero T] {a : Csr T} (hw : a.Wf) (hd : a.Distinct) {m : Nat}
    (hc : ∀ c ∈ a.col, c < m) {A : Nat → Nat → T} {i : Nat} (hi : i < a.nrows)
    (hA : ∀ j, j < m → a.get i j = .ok (A i j)) (f : T → Nat → M) (hf : ∀ j, f 0 j = 0) :
    ∑ k ∈ Finset.Ico (a.rowPtr.getD i 0) (a.rowPtr.getD (i + 1) 0), f (val0 a.val k) (a.col.getD k 0) =
      ∑ j ∈ Finset.range m, f (A i j) j := by
  obtain ⟨h1, h2, h3⟩ := hw.ptr_le hi
  have hA' : ∀ j, j < m → f (A i j) j =
      ∑ k ∈ Finset.Ico (a.rowPtr.getD i 0) (a.rowPtr.getD (i + 1) 0),
        if a.col.getD k 0 = j then f (val0 a.val k) j else 0 := by
    intro j hj
    by_cases hst : ∃ k, a.StoredAt i j k
    · obtain ⟨k, hk⟩ := hst
      have h4 := get_stored hw hd hi hk
      rw [hA j hj] at h4
      injection h4 with h4
      rw [Finset.sum_eq_single k]
      · rw [if_pos (getD_eq hk.2.2), h4, val0_of_lt (hk.lt hw)]
      · intro k' hk' hne
        rw [Finset.mem_Ico] at hk'
        rw [if_neg]
        intro he
        exact hne (hd i k' k hk'.1 hk'.2 hk.1 hk.2.1 (by rw [he, getD_eq hk.2.2]))
      · intro hk'
        exact absurd (Finset.mem_Ico.mpr ⟨hk.1, hk.2.1⟩) hk'
    · push Not at hst
      have h4 := get_unstored hw hi hst
      rw [hA j hj] at h4
      injection h4 with h4
      rw [h4, hf]
      symm
      apply Finset.sum_eq_zero
      intro k hk
      rw [Finset.mem_Ico] at hk
      rw [if_neg]
      intro he
      have hc : k < a.col.length := by rw [hw.len]; omega
      refine hst k ⟨hk.1, hk.2, ?_⟩
      rw [List.getElem?_eq_getElem hc, ← he]
      simp [List.getD_eq_getElem?_getD, hc]
  rw [Finset.sum_congr rfl fun j hj => hA' j (Finset.mem_range.mp hj), Finset.sum_comm]
  apply Finset.sum_congr rfl
  intro k hk
  rw [Finset.mem_Ico] at hk
  have hck : k < a.col.length := by rw [hw.len]; omega
  have : a.col.getD k 0 < m := by
    apply hc
    have : a.col.getD k 0 = a.col[k] := by simp [List.getD_eq_getElem?_getD, hck]
    rw [this]; exact List.getElem_mem _
  rw [Finset.sum_ite_eq, if_pos (Finset.mem_range.mpr this)]

/-- Row of the product in terms of the matrix elements. -/
theorem row_sum [CommRing T] {a : Csr T} (hw : a.Wf) (hd : a.Distinct) {m : Nat} (hc : ∀ c ∈ a.col, c < m)
    {A : Nat → Nat → T} {i : Nat} (hi : i < a.nrows) (hA : ∀ j, j < m → a.get i j = .ok (A i j))
    (x : Nat → T) :
    ∑ k ∈ Finset.Ico (a.rowPtr.getD i 0) (a.rowPtr.getD (i + 1) 0), val0 a.val k * x (a.col.getD k 0) =
      ∑ j ∈ Finset.range m, A i j * x j :=
  row_sum_map hw hd hc hi hA (fun v j => v * x j) fun _ => zero_mul _

theorem shape_eq {a : Csr T} (hw : a.Wf) (hne : a.val ≠ []) :
    ∃ c, a.shape = .ok (a.nrows, c) ∧ (∀ j ∈ a.col, j < c) ∧ ∃ j ∈ a.col, j + 1 = c := by
  have hc : a.col ≠ [] := by
    intro h; have := hw.len; rw [h] at this
    exact hne (List.length_eq_zero_iff.mp (by simpa using this.symm))
  obtain ⟨c, e, m, b⟩ := maxElem_spec hc
  refine ⟨c + 1, ?_, fun j hj => Nat.lt_succ_of_le (b j hj), c, m, rfl⟩
  unfold shape
  rw [e, ok_bind, if_neg (by have := hw.length_pos; omega)]
  rfl

theorem col_lt {a : Csr T} (hw : a.Wf) {n m : Nat} (hsh : a.shape = .ok (n, m)) : ∀ c ∈ a.col, c < m := by
  intro c hc
  have hne : a.val ≠ [] := by
    intro h
    have := hw.len; rw [h] at this
    rw [List.length_eq_zero_iff.mp this] at hc; simp at hc
  obtain ⟨c', e, h1, _⟩ := shape_eq hw hne
  rw [hsh] at e
  injection e with e
  rw [Prod.mk.injEq] at e
  rw [e.2]; exact h1 c hc

theorem shape_empty {a : Csr T} (h : a.col = []) : a.shape = .error (.ub .derefEnd) := by
  unfold shape; rw [h]; rfl

end Csr

end Lalib
