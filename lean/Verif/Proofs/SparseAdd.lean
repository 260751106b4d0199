import Verif.Proofs.SparseCsr

/-! # In-place addition of COO matrices -/

namespace Lalib

variable {T : Type}

namespace Coo

open Csr (Bnd)

/-! ## Loop rules -/

theorem addWhile_sat [Add T] {rhs : Coo T → Coo T} {cap i cEnd rEnd : Nat} {I P : AddSt T → Prop}
    {Q : Fault → Prop} (μ : AddSt T → Nat)
    (step : ∀ s, I s → s.r < rEnd →
      Sat (Sum.elim (fun s' => I s' ∧ μ s' < μ s) P) Q (addStep rhs cap i cEnd rEnd s))
    (fin : ∀ s, I s → ¬ s.r < rEnd → P s) (zero : ∀ s, I s → s.r < rEnd → 0 < μ s) :
    ∀ fuel s, I s → μ s ≤ fuel → Sat P Q (addWhile rhs cap i cEnd rEnd fuel s)
  | 0, s, h, hm => by
    by_cases hr : s.r < rEnd
    · have := zero s h hr; omega
    · simp only [addWhile, if_neg hr]; exact fin s h hr
  | fuel + 1, s, h, hm => by
    by_cases hr : s.r < rEnd
    · simp only [addWhile, if_pos hr]
      refine Sat.bind (step s h hr) fun t ht => ?_
      cases t with
      | inl s' => exact addWhile_sat μ step fin zero fuel s' ht.1 (by have := ht.2; omega)
      | inr s' => exact ht
    · simp only [addWhile, if_neg hr]; exact fin s h hr

theorem addWhile_part [Add T] {rhs : Coo T → Coo T} {cap i cEnd rEnd : Nat} {I : AddSt T → Prop}
    (step : ∀ s, I s → Sat (Sum.elim I I) (fun _ => True) (addStep rhs cap i cEnd rEnd s)) :
    ∀ fuel s, I s → Sat I (fun _ => True) (addWhile rhs cap i cEnd rEnd fuel s)
  | 0, s, h => by
    by_cases hr : s.r < rEnd
    · simp only [addWhile, if_pos hr]; trivial
    · simp only [addWhile, if_neg hr]; exact h
  | fuel + 1, s, h => by
    by_cases hr : s.r < rEnd
    · simp only [addWhile, if_pos hr]
      refine Sat.bind (step s h) fun t ht => ?_
      cases t with
      | inl s' => exact addWhile_part step fuel s' ht
      | inr s' => exact ht
    · simp only [addWhile, if_neg hr]; exact h

theorem addRows_sat [Add T] {rhs : Coo T → Coo T} {cap nA nB R : Nat} {J : Nat → AddRow T → Prop}
    {Q : Fault → Prop} (sh : ∀ i s, J i s → ∃ c, (rhs s.a).shape = .ok (R, c))
    (step : ∀ i s, i < R → J i s → Sat (J (i + 1)) Q (addRow rhs cap nA nB i s)) :
    ∀ fuel i s, i + fuel = R → J i s → Sat (J R) Q (addRows rhs cap nA nB fuel i s)
  | 0, i, s, hf, h => by
    obtain ⟨c, hc⟩ := sh i s h
    obtain rfl : i = R := by omega
    simp only [addRows, hc, ok_bind, if_neg (Nat.lt_irrefl i)]
    exact h
  | fuel + 1, i, s, hf, h => by
    obtain ⟨c, hc⟩ := sh i s h
    simp only [addRows, hc, ok_bind, if_pos (show i < R by omega)]
    exact Sat.bind (step i s (by omega) h) fun s' h' => addRows_sat sh step fuel (i + 1) s' (by omega) h'

/-! ## Positions -/

theorem getD_getElem {l : List Nat} {t : Nat} (h : t < l.length) : l.getD t 0 = l[t] := by
  simp [List.getD_eq_getElem?_getD, h]

theorem pos_getElem {a : Coo T} (hw : a.Wf) {t : Nat} (h : t < a.val.length) :
    a.pos[t]'(by rw [length_pos hw]; exact h) = (a.row.getD t 0, a.col.getD t 0) := by
  have h1 : t < a.row.length := by rw [hw.1]; exact h
  have h2 : t < a.col.length := by rw [hw.2]; exact h
  simp [pos, h1, h2]

theorem mem_pos {a : Coo T} (hw : a.Wf) {i j : Nat} :
    (i, j) ∈ a.pos ↔ ∃ t, t < a.val.length ∧ a.row.getD t 0 = i ∧ a.col.getD t 0 = j := by
  constructor
  · intro h
    obtain ⟨t, ht, e⟩ := List.getElem_of_mem h
    have ht' : t < a.val.length := by rw [← length_pos hw]; exact ht
    rw [pos_getElem hw ht', Prod.mk.injEq] at e
    exact ⟨t, ht', e.1, e.2⟩
  · rintro ⟨t, ht, h1, h2⟩
    have := pos_getElem hw ht
    rw [h1, h2] at this
    rw [← this]
    exact List.getElem_mem _

theorem mem_row {a : Coo T} (hw : a.Wf) {i : Nat} :
    i ∈ a.row ↔ ∃ t, t < a.val.length ∧ a.row.getD t 0 = i := by
  constructor
  · intro h
    obtain ⟨t, ht, e⟩ := List.getElem_of_mem h
    exact ⟨t, by rw [← hw.1]; exact ht, by rw [getD_getElem ht]; exact e⟩
  · rintro ⟨t, ht, rfl⟩
    have ht' : t < a.row.length := by rw [hw.1]; exact ht
    rw [getD_getElem ht']
    exact List.getElem_mem _

theorem bnd_row {l : List Nat} {i p pe : Nat} (hp : Bnd l i p) (hpe : Bnd l (i + 1) pe) :
    p ≤ pe ∧ ∀ t, t < l.length → (l.getD t 0 = i ↔ p ≤ t ∧ t < pe) := by
  refine ⟨hp.mono hpe (by omega), ?_⟩
  intro t ht
  constructor
  · intro h
    constructor
    · by_contra hc
      have := hp.2.1 t (by omega); omega
    · by_contra hc
      have := hpe.2.2 t (by omega) ht; omega
  · rintro ⟨h1, h2⟩
    have := hp.2.2 t h1 ht
    have := hpe.2.1 t h2
    omega

theorem strict_lt {a : Coo T} (hw : a.Wf) (hs : a.pos.Pairwise posLt) {t t' : Nat} (h : t < t')
    (h' : t' < a.val.length) :
    posLt (a.row.getD t 0, a.col.getD t 0) (a.row.getD t' 0, a.col.getD t' 0) := by
  have := List.pairwise_iff_getElem.mp hs t t' (by rw [length_pos hw]; omega)
    (by rw [length_pos hw]; omega) h
  rwa [pos_getElem hw (by omega), pos_getElem hw h'] at this

theorem col_lt {a : Coo T} (hw : a.Wf) (hs : a.pos.Pairwise posLt) {i p pe t t' : Nat}
    (hp : Bnd a.row i p) (hpe : Bnd a.row (i + 1) pe) (h1 : p ≤ t) (h2 : t < t') (h3 : t' < pe) :
    a.col.getD t 0 < a.col.getD t' 0 := by
  have hl : t' < a.val.length := by have := hpe.1; rw [hw.1] at this; omega
  have hb := (bnd_row hp hpe).2
  have r1 := (hb t (by rw [hw.1]; omega)).mpr ⟨h1, by omega⟩
  have r2 := (hb t' (by rw [hw.1]; omega)).mpr ⟨by omega, h3⟩
  rcases strict_lt hw hs h2 hl with h | ⟨_, h⟩
  · simp only at h; omega
  · exact h

/-- The elements of `B` among the first `r` which are not in `A`. -/
def ext (A B : Coo T) (r : Nat) : List (Nat × Nat) :=
  (B.pos.take r).filter (fun p => decide (p ∉ A.pos))

theorem ext_succ {A B : Coo T} {r : Nat} (h : r < B.pos.length) :
    ext A B (r + 1) = ext A B r ++ if B.pos[r] ∉ A.pos then [B.pos[r]] else [] := by
  unfold ext
  rw [List.take_succ_eq_append_getElem h, List.filter_append]
  congr 1
  by_cases hm : B.pos[r] ∈ A.pos <;> simp [hm]

theorem ext_prefix {A B : Coo T} {q r : Nat} (h : q ≤ r) : ext A B q <+: ext A B r := by
  unfold ext
  exact (List.take_prefix_take_left h).filter _

theorem zip_ext {A S : Coo T} (hA : A.Wf) {e : List (Nat × Nat)} (hr : S.row = A.row ++ e.map Prod.fst)
    (hc : S.col = A.col ++ e.map Prod.snd) : S.pos = A.pos ++ e := by
  unfold pos
  rw [hr, hc, List.zip_append (by rw [hA.1, hA.2])]
  congr 1
  clear hr hc
  induction e with
  | nil => rfl
  | cons x e ih => simp [ih]

theorem bnd_filter {B : Coo T} (hw : B.Wf) {i q : Nat} (hq : Bnd B.row i q) :
    B.pos.take q = B.pos.filter (fun p => decide (p.1 < i)) ∧
    B.pos.drop q = B.pos.filter (fun p => decide (i ≤ p.1)) := by
  have hr : ∀ t (h : t < B.pos.length), B.pos[t].1 = B.row.getD t 0 := by
    intro t h
    rw [pos_getElem hw (by rw [← length_pos hw]; exact h)]
  have hl : B.row.length = B.pos.length := by rw [length_pos hw, hw.1]
  have h1 : ∀ p ∈ B.pos.take q, p.1 < i := by
    intro p hp
    obtain ⟨t, ht, rfl⟩ := List.getElem_of_mem hp
    rw [List.getElem_take]
    simp only [List.length_take] at ht
    rw [hr t (by omega)]
    exact hq.2.1 t (by omega)
  have h2 : ∀ p ∈ B.pos.drop q, i ≤ p.1 := by
    intro p hp
    obtain ⟨t, ht, rfl⟩ := List.getElem_of_mem hp
    rw [List.getElem_drop]
    simp only [List.length_drop] at ht
    rw [hr _ (by omega)]
    exact hq.2.2 _ (by omega) (by omega)
  constructor
  · conv_rhs => rw [← List.take_append_drop q B.pos]
    rw [List.filter_append, List.filter_eq_self.mpr (by simpa using h1),
      List.filter_eq_nil_iff.mpr (by intro p hp; have := h2 p hp; simp; omega), List.append_nil]
  · conv_rhs => rw [← List.take_append_drop q B.pos]
    rw [List.filter_append, List.filter_eq_nil_iff.mpr (by intro p hp; have := h1 p hp; simp; omega),
      List.filter_eq_self.mpr (by simpa using h2), List.nil_append]

/-- `nextCol` is what the cursor reads at the start of an empty row. -/
theorem nextCol_eq {A B : Coo T} (hA : A.Wf) (hB : B.Wf) {i p q : Nat} (hp : Bnd A.row i p)
    (hpe : Bnd A.row (i + 1) p) (hq : Bnd B.row i q) :
    (A.col ++ (ext A B q).map Prod.snd)[p]? = nextCol A B i := by
  unfold nextCol
  have h1 : A.pos.filter (fun x => decide (i < x.1)) = A.pos.drop p := (bnd_filter hA hpe).2.symm
  have h2 : B.pos.filter (fun x => decide (x.1 < i ∧ x ∉ A.pos)) = ext A B q := by
    unfold ext
    rw [(bnd_filter hB hq).1, List.filter_filter]
    apply List.filter_congr
    intro x _
    rw [decide_not, Bool.decide_and, Bool.and_comm, decide_not]
  rw [h1, h2]
  have hc : A.col = A.pos.map Prod.snd := by
    unfold pos
    rw [List.map_snd_zip (by rw [hA.1, hA.2])]
  rw [hc, ← List.map_append, List.getElem?_map]
  congr 1
  rw [List.head?_eq_getElem?]
  have hl : p ≤ A.pos.length := by rw [length_pos hA, ← hA.1]; exact hp.1
  by_cases h : p < A.pos.length
  · rw [List.getElem?_append_left h, List.getElem?_append_left (by simp; omega), List.getElem?_drop,
      Nat.add_zero]
  · rw [List.getElem?_append_right (by omega), List.getElem?_append_right (by simp; omega)]
    simp; congr 1; omega

/-! ## The merge with a separate right-hand side -/

theorem sumAt_set [AddCommMonoid T] {es : List ((Nat × Nat) × T)} {k : Nat} {p : Nat × Nat} {v : T}
    (w : T) (hk : k < es.length) (he : es[k] = (p, v)) (i j : Nat) :
    sumAt (es.set k (p, v + w)) i j = sumAt es i j + if p = (i, j) then w else 0 := by
  induction es generalizing k with
  | nil => simp at hk
  | cons e es ih =>
    cases k with
    | zero =>
      simp only [List.getElem_cons_zero] at he
      subst he
      rw [List.set_cons_zero, sumAt_cons, sumAt_cons]
      simp only
      split
      · rw [add_assoc, add_assoc, add_comm w]
      · rw [add_zero]
    | succ k =>
      rw [List.set_cons_succ, sumAt_cons, sumAt_cons,
        ih (by simpa using hk) (by simpa using he), add_assoc]

/-- Invariant: the first `r` elements of `B` have been added. -/
structure Inv [AddCommMonoid T] (A B S : Coo T) (r : Nat) : Prop where
  wf : S.Wf
  row : S.row = A.row ++ (ext A B r).map Prod.fst
  col : S.col = A.col ++ (ext A B r).map Prod.snd
  sum : ∀ i j, sumAt S.entries i j = sumAt A.entries i j + sumAt (B.entries.take r) i j

section merge
variable [AddCommMonoid T]

theorem sumAt_take_succ {B : Coo T} (hB : B.Wf) {r : Nat} (h : r < B.val.length) (i j : Nat) :
    sumAt (B.entries.take (r + 1)) i j = sumAt (B.entries.take r) i j +
      if (B.row.getD r 0, B.col.getD r 0) = (i, j) then B.val[r] else 0 := by
  have hl : r < B.entries.length := by rw [length_entries hB]; exact h
  have e := entries_getElem hB h
  rw [List.take_succ_eq_append_getElem hl, sumAt_append, e]
  rw [sumAt_cons, sumAt_nil, add_zero, getD_getElem (by rw [hB.1]; exact h),
    getD_getElem (by rw [hB.2]; exact h)]

theorem Inv.pos_eq {A B S : Coo T} (hA : A.Wf) {r : Nat} (h : Inv A B S r) :
    S.pos = A.pos ++ ext A B r := zip_ext hA h.row h.col

theorem Inv.len {A B S : Coo T} (hA : A.Wf) {r : Nat} (h : Inv A B S r) :
    S.val.length = A.val.length + (ext A B r).length := by
  rw [← h.wf.1, h.row]; simp [hA.1]

theorem Inv.add_eq {A B S : Coo T} (hA : A.Wf) (hB : B.Wf) {r c : Nat} (h : Inv A B S r)
    (hr : r < B.val.length) (hc : c < A.val.length)
    (he : (A.row.getD c 0, A.col.getD c 0) = (B.row.getD r 0, B.col.getD r 0)) :
    ∃ (hc' : c < S.val.length),
    Inv A B { S with val := S.val.set c (S.val[c] + B.val[r]) } (r + 1) := by
  have hl := h.len hA
  have hc' : c < S.val.length := by omega
  refine ⟨hc', ?_⟩
  have hrp : r < B.pos.length := by rw [length_pos hB]; exact hr
  have hm : B.pos[r] ∈ A.pos := by
    rw [pos_getElem hB hr, ← he, ← pos_getElem hA hc]
    exact List.getElem_mem _
  have hext : ext A B (r + 1) = ext A B r := by rw [ext_succ hrp, if_neg (by simpa using hm), List.append_nil]
  have hw' : ({ S with val := S.val.set c (S.val[c] + B.val[r]) } : Coo T).Wf :=
    ⟨by simp [h.wf.1], by simp [h.wf.2]⟩
  refine ⟨hw', by rw [hext]; exact h.row, by rw [hext]; exact h.col, ?_⟩
  intro i j
  have hce : c < S.entries.length := by rw [length_entries h.wf]; exact hc'
  have hpc : S.entries[c].1 = (A.row.getD c 0, A.col.getD c 0) := by
    rw [entries_getElem h.wf hc', Prod.mk.injEq]
    constructor
    · have : S.row.getD c 0 = A.row.getD c 0 := by
        rw [h.row]
        simp only [List.getD_eq_getElem?_getD]
        rw [List.getElem?_append_left (by rw [hA.1]; exact hc)]
      rw [← this, getD_getElem]
    · have : S.col.getD c 0 = A.col.getD c 0 := by
        rw [h.col]
        simp only [List.getD_eq_getElem?_getD]
        rw [List.getElem?_append_left (by rw [hA.2]; exact hc)]
      rw [← this, getD_getElem]
  rw [entries_set h.wf hc' _ hpc, sumAt_set _ hce, h.sum, sumAt_take_succ hB hr, he, add_assoc]
  rw [← hpc, entries_getElem h.wf hc']

theorem Inv.add_push {A B S : Coo T} (hA : A.Wf) (hB : B.Wf) {r cap : Nat} (h : Inv A B S r)
    (hr : r < B.val.length) (hcap : A.val.length + B.val.length ≤ cap)
    (hn : (B.row.getD r 0, B.col.getD r 0) ∉ A.pos) :
    ∃ S', push cap S (B.row.getD r 0) (B.col.getD r 0) B.val[r] = .ok S' ∧ Inv A B S' (r + 1) := by
  have hl := h.len hA
  have hrp : r < B.pos.length := by rw [length_pos hB]; exact hr
  have hle : (ext A B r).length ≤ r := by
    unfold ext
    refine Nat.le_trans (List.length_filter_le _ _) ?_
    simp
  have hp := pos_getElem hB hr
  have hext : ext A B (r + 1) = ext A B r ++ [(B.row.getD r 0, B.col.getD r 0)] := by
    rw [ext_succ hrp, if_pos (by rw [hp]; exact hn), hp]
  refine ⟨_, by unfold push; rw [if_pos (by omega)], ⟨by simp [h.wf.1], by simp [h.wf.2]⟩, ?_, ?_, ?_⟩
  · simp only [hext, List.map_append, h.row, List.append_assoc]; rfl
  · simp only [hext, List.map_append, h.col, List.append_assoc]; rfl
  · intro i j
    have : (⟨S.val ++ [B.val[r]], S.row ++ [B.row.getD r 0], S.col ++ [B.col.getD r 0]⟩ : Coo T).entries =
        S.entries ++ [((B.row.getD r 0, B.col.getD r 0), B.val[r])] := by
      unfold entries triplets
      rw [List.zip_append (by rw [h.wf.1, h.wf.2]), List.zip_append (by simp [h.wf.1, h.wf.2])]
      rfl
    rw [this, sumAt_append, h.sum, sumAt_take_succ hB hr, sumAt_cons, sumAt_nil, add_zero, add_assoc]

/-- Invariant of the `while` loop in row `i`. -/
structure WInv (A B : Coo T) (p pe q qe : Nat) (s : AddSt T) : Prop where
  inv : Inv A B s.a s.r
  c_ge : p ≤ s.c
  c_lt : s.c < pe ∨ s.c = p ∧ p = pe
  r_ge : q ≤ s.r
  r_le : s.r ≤ qe
  low : s.r < qe → ∀ t, p ≤ t → t < s.c → A.col.getD t 0 < B.col.getD s.r 0

theorem addStep_spec {A B : Coo T} (hA : A.Wf) (hB : B.Wf) (sA : A.pos.Pairwise posLt)
    (sB : B.pos.Pairwise posLt) {i p pe q qe : Nat} (hp : Bnd A.row i p) (hpe : Bnd A.row (i + 1) pe)
    (hq : Bnd B.row i q) (hqe : Bnd B.row (i + 1) qe)
    (safe : p = pe → q < qe → ∃ c, nextCol A B i = some c ∧ (i, c) ∉ B.pos)
    {cap : Nat} (hcap : A.val.length + B.val.length ≤ cap)
    {s : AddSt T} (h : WInv A B p pe q qe s) (hr : s.r < qe) :
    Ok (Sum.elim (fun s' => WInv A B p pe q qe s' ∧
      (pe - s'.c) + (qe - s'.r) < (pe - s.c) + (qe - s.r)) (fun s' => Inv A B s'.a qe))
      (addStep (fun _ => B) cap i pe qe s) := by
  obtain ⟨S, c, r⟩ := s
  obtain ⟨hinv, hcge, hclt, hrge, hrle, hlow⟩ := h
  simp only at hinv hcge hclt hrge hrle hlow hr
  have hbA := bnd_row hp hpe
  have hbB := bnd_row hq hqe
  have hrM : r < B.val.length := by have := hqe.1; rw [hB.1] at this; omega
  have hlow := hlow hr
  have hrow : B.row.getD r 0 = i := (hbB.2 r (by rw [hB.1]; exact hrM)).mpr ⟨hrge, hr⟩
  have hpeN : pe ≤ A.val.length := by have := hpe.1; rwa [hA.1] at this
  -- the column read at the cursor
  have hca : ∃ ca, S.col[c]? = some ca ∧ ((c < pe ∧ ca = A.col.getD c 0) ∨
      (p = pe ∧ c = p ∧ ca ≠ B.col.getD r 0)) := by
    rcases hclt with hclt | ⟨h1, h2⟩
    · refine ⟨A.col.getD c 0, ?_, .inl ⟨hclt, rfl⟩⟩
      have hcl : c < A.col.length := by rw [hA.2]; omega
      rw [hinv.col, List.getElem?_append_left hcl, List.getElem?_eq_getElem hcl, getD_getElem hcl]
    · obtain ⟨ca, h3, h4⟩ := safe h2 (by omega)
      refine ⟨ca, ?_, .inr ⟨h2, h1, ?_⟩⟩
      · rw [← nextCol_eq hA hB hp (by rw [h2]; exact hpe) hq] at h3
        rw [hinv.col, h1]
        have hpre : (A.col ++ (ext A B q).map Prod.snd) <+: (A.col ++ (ext A B r).map Prod.snd) :=
          (List.prefix_append_right_inj _).mpr ((ext_prefix hrge).map _)
        obtain ⟨h5, h6⟩ := List.getElem?_eq_some_iff.mp h3
        rw [List.getElem?_eq_getElem (Nat.lt_of_lt_of_le h5 hpre.length_le), ← hpre.getElem h5, h6]
      · rintro rfl
        apply h4
        exact (mem_pos hB).mpr ⟨r, hrM, hrow, rfl⟩
  obtain ⟨ca, hca, hcase⟩ := hca
  have hcb : lrd B.col r = .ok (B.col.getD r 0) := by
    have : r < B.col.length := by rw [hB.2]; exact hrM
    rw [lrd_ok this, getD_getElem this]
  have hnext : r + 1 < qe → B.col.getD r 0 < B.col.getD (r + 1) 0 := fun h' =>
    col_lt hB sB hq hqe hrge (Nat.lt_succ_self _) h'
  -- the position is new if it differs from every column of the row
  have hnew : (∀ t, p ≤ t → t < pe → A.col.getD t 0 ≠ B.col.getD r 0) →
      (B.row.getD r 0, B.col.getD r 0) ∉ A.pos := by
    intro hne hm
    obtain ⟨t, h1, h2, h3⟩ := (mem_pos hA).mp hm
    rw [hrow] at h2
    obtain ⟨h4, h5⟩ := (hbA.2 t (by rw [hA.1]; exact h1)).mp h2
    exact hne t h4 h5 h3
  unfold addStep
  simp only [lrd_some hca, ok_bind, hcb, lrd_ok hrM]
  by_cases he : ca = B.col.getD r 0
  · -- equal columns
    rw [if_pos he]
    rcases hcase with ⟨h1, h2⟩ | ⟨_, _, h2⟩
    swap
    · exact absurd he h2
    have hcN : c < A.val.length := by omega
    have hrc : A.row.getD c 0 = i := (hbA.2 c (by rw [hA.1]; exact hcN)).mpr ⟨hcge, h1⟩
    obtain ⟨hcS, hI⟩ := hinv.add_eq hA hB hrM hcN (by rw [hrc, hrow, ← h2, he])
    simp only [lrd_ok hcS, ok_bind, lwr_ok hcS]
    by_cases hl : r + 1 = qe
    · rw [if_pos hl, ← hl]; exact hI
    · have hr1 : r + 1 < qe := by omega
      rw [if_neg hl, if_pos hr1]
      refine ⟨⟨hI, ?_, ?_, ?_, ?_, ?_⟩, ?_⟩
      · simp only; split <;> omega
      · simp only; split
        · left; assumption
        · left; exact h1
      · simp only; omega
      · exact Nat.le_of_lt hr1
      · intro _ t ht1 ht2
        have := hnext hr1
        simp only at ht2 ⊢
        by_cases htc : t < c
        · have := hlow t ht1 htc; omega
        · have : t = c := by split at ht2 <;> omega
          subst this; omega
      · simp only; split <;> omega
  · rw [if_neg he]
    by_cases hlt : ca < B.col.getD r 0
    · rw [if_pos hlt]
      by_cases hc1 : c + 1 < pe
      · -- advance the cursor
        rw [if_pos hc1]
        refine ⟨⟨hinv, ?_, .inl hc1, hrge, hrle, ?_⟩, ?_⟩
        · simp only; omega
        · intro _ t ht1 ht2
          simp only at ht2 ⊢
          by_cases htc : t < c
          · exact hlow t ht1 htc
          · have : t = c := by omega
            subst this
            rcases hcase with ⟨_, h2⟩ | ⟨h1, h2, _⟩
            · omega
            · omega
        · simp only; omega
      · rw [if_neg hc1]
        have hn : (B.row.getD r 0, B.col.getD r 0) ∉ A.pos := by
          apply hnew
          intro t ht1 ht2
          rcases hcase with ⟨h1, h2⟩ | ⟨h1, _, _⟩
          · by_cases htc : t < c
            · have := hlow t ht1 htc; omega
            · have : t = c := by omega
              subst this; omega
          · omega
        obtain ⟨S', hS, hI⟩ := hinv.add_push hA hB hrM hcap hn
        rw [hrow] at hS
        simp only [hS, ok_bind]
        by_cases hl : r + 1 = qe
        · rw [if_pos hl, ← hl]; exact hI
        · have hr1 : r + 1 < qe := by omega
          rw [if_neg hl]
          refine ⟨⟨hI, hcge, hclt, ?_, Nat.le_of_lt hr1, ?_⟩, ?_⟩
          · simp only; omega
          · intro _ t ht1 ht2
            have := hlow t ht1 ht2
            have := hnext hr1
            simp only; omega
          · simp only; omega
    · rw [if_neg hlt]
      have hn : (B.row.getD r 0, B.col.getD r 0) ∉ A.pos := by
        apply hnew
        intro t ht1 ht2
        rcases hcase with ⟨h1, h2⟩ | ⟨h1, _, _⟩
        · by_cases htc : t < c
          · have := hlow t ht1 htc; omega
          · rcases Nat.lt_or_eq_of_le (Nat.le_of_not_lt htc) with h3 | h3
            · have := col_lt hA sA hp hpe hcge h3 ht2; omega
            · subst h3; omega
        · omega
      obtain ⟨S', hS, hI⟩ := hinv.add_push hA hB hrM hcap hn
      rw [hrow] at hS
      simp only [hS, ok_bind]
      by_cases hl : r + 1 = qe
      · rw [if_pos hl, ← hl]; exact hI
      · have hr1 : r + 1 < qe := by omega
        rw [if_neg hl, if_pos hr1]
        refine ⟨⟨hI, hcge, hclt, ?_, Nat.le_of_lt hr1, ?_⟩, ?_⟩
        · simp only; omega
        · intro _ t ht1 ht2
          have := hlow t ht1 ht2
          have := hnext hr1
          simp only; omega
        · simp only; omega

/-- Invariant of the outer loop before row `i`. -/
structure RInv (A B : Coo T) (i : Nat) (s : AddRow T) : Prop where
  inv : Inv A B s.a s.q
  bA : Bnd A.row i s.p
  bB : Bnd B.row i s.q

theorem upperBound_bnd {l l' : List Nat} {n i p : Nat} (hn : l.length = n)
    (hl : ∀ t, t < n → l'.getD t 0 = l.getD t 0) (hle : n ≤ l'.length)
    (hs : l.Pairwise (· ≤ ·)) (hb : Bnd l i p) : ∃ pe, upperBound l' p n i = .ok pe ∧ Bnd l (i + 1) pe := by
  have hs' : ∀ s t, p ≤ s → s < t → t < n → l'.getD s 0 ≤ l'.getD t 0 := by
    intro s t _ h1 h2
    rw [hl s (by omega), hl t h2, getD_getElem (by omega), getD_getElem (by omega)]
    exact List.pairwise_iff_getElem.mp hs s t (by omega) (by omega) h1
  obtain ⟨k, k1, k2, k3, k4, k5⟩ := upperBound_spec (l := l') (lo := p) (hi := n) (i := i)
    (by have := hb.1; omega) hle hs'
  refine ⟨k, k1, by omega, ?_, ?_⟩
  · intro t ht
    by_cases h : t < p
    · have := hb.2.1 t h; omega
    · have := k4 t (by omega) ht
      rw [hl t (by omega)] at this
      omega
  · intro t h1 h2
    have := k5 t h1 (by omega)
    rw [hl t (by omega)] at this
    omega

theorem Inv.rows_prefix {A B S : Coo T} {r : Nat} (h : Inv A B S r) :
    (∀ t, t < A.row.length → S.row.getD t 0 = A.row.getD t 0) ∧ A.row.length ≤ S.row.length := by
  constructor
  · intro t ht
    rw [h.row]
    simp only [List.getD_eq_getElem?_getD]
    rw [List.getElem?_append_left ht]
  · rw [h.row]; simp

theorem addRow_spec {A B : Coo T} (hA : A.Wf) (hB : B.Wf) (sA : A.pos.Pairwise posLt)
    (sB : B.pos.Pairwise posLt) {cap : Nat} (hcap : A.val.length + B.val.length ≤ cap) {i : Nat}
    (safe : B.Occupied i → ¬ A.Occupied i → ∃ c, nextCol A B i = some c ∧ (i, c) ∉ B.pos)
    {s : AddRow T} (h : RInv A B i s) :
    Ok (RInv A B (i + 1)) (addRow (fun _ => B) cap A.row.length B.row.length i s) := by
  obtain ⟨pe, e1, hpe⟩ := upperBound_bnd (l := A.row) (l' := s.a.row) rfl h.inv.rows_prefix.1
    h.inv.rows_prefix.2 (Csr.rows_sorted hA (sorted_of_strict sA).1) h.bA
  obtain ⟨qe, e2, hqe⟩ := upperBound_bnd (l := B.row) (l' := B.row) rfl (fun _ _ => rfl)
    (Nat.le_refl _) (Csr.rows_sorted hB (sorted_of_strict sB).1) h.bB
  have hbA := bnd_row h.bA hpe
  have hbB := bnd_row h.bB hqe
  unfold addRow
  rw [e1, ok_bind, e2, ok_bind]
  have hsafe : s.p = pe → s.q < qe → ∃ c, nextCol A B i = some c ∧ (i, c) ∉ B.pos := by
    intro h1 h2
    apply safe
    · refine (mem_row hB).mpr ⟨s.q, ?_, (hbB.2 s.q ?_).mpr ⟨Nat.le_refl _, h2⟩⟩
      · have := hqe.1; rw [hB.1] at this; omega
      · have := hqe.1; omega
    · intro ho
      obtain ⟨t, h3, h4⟩ := (mem_row hA).mp ho
      have := (hbA.2 t (by rw [hA.1]; exact h3)).mp h4
      omega
  refine Sat.bind (P := fun t => Inv A B t.a qe) ?_ ?_
  · refine addWhile_sat (I := WInv A B s.p pe s.q qe) (fun t => (pe - t.c) + (qe - t.r)) ?_ ?_ ?_ _ _ ?_ ?_
    · intro t ht hr
      exact addStep_spec hA hB sA sB h.bA hpe h.bB hqe hsafe hcap ht hr
    · intro t ht hr
      have := ht.r_le
      have he : t.r = qe := by omega
      rw [← he]; exact ht.inv
    · intro t _ hr; omega
    · exact ⟨h.inv, Nat.le_refl _, (Nat.lt_or_eq_of_le hbA.1).imp_right fun h => ⟨rfl, h⟩, Nat.le_refl _, hbB.1,
        fun _ t h1 h2 => by simp only at h2; omega⟩
    · simp
  · intro t ht
    exact ⟨ht, hpe, hqe⟩

omit [AddCommMonoid T] in
theorem shape_rows {B : Coo T} (hB : B.Wf) (hne : B.val ≠ []) :
    ∃ c, B.shape = .ok (B.row.foldr max 0 + 1, c) := by
  have hr : B.row ≠ [] := by
    intro h; have := hB.1; rw [h] at this
    exact hne (List.length_eq_zero_iff.mp (by simpa using this.symm))
  have hc : B.col ≠ [] := by
    intro h; have := hB.2; rw [h] at this
    exact hne (List.length_eq_zero_iff.mp (by simpa using this.symm))
  refine ⟨B.col.foldr max 0 + 1, ?_⟩
  simp [shape, maxElem, hr, hc]

theorem Inv.init {A B : Coo T} (hA : A.Wf) : Inv A B A 0 :=
  ⟨hA, by simp [ext], by simp [ext], fun i j => by simp⟩

theorem bnd_zero (l : List Nat) : Bnd l 0 0 :=
  ⟨Nat.zero_le _, fun t h => by omega, fun t _ _ => Nat.zero_le _⟩

theorem bnd_max {l : List Nat} {q : Nat} (h : Bnd l (l.foldr max 0 + 1) q) : q = l.length := by
  by_contra hc
  have h1 := h.1
  have := h.2.2 q (Nat.le_refl _) (by omega)
  have := Csr.foldr_max_le (l := l) (t := q) (by omega)
  omega

theorem addRows_spec {A B : Coo T} (hA : A.Wf) (hB : B.Wf) (sA : A.pos.Pairwise posLt)
    (sB : B.pos.Pairwise posLt) (hne : B.val ≠ []) (safe : AddSafe A B) :
    Ok (fun s => Inv A B s.a B.val.length)
      (addRows (fun _ => B) (A.val.length + B.nnz) A.row.length B.row.length (B.row.foldr max 0 + 1) 0
        ⟨A, 0, 0⟩) := by
  refine Sat.mono (addRows_sat (R := B.row.foldr max 0 + 1) (J := RInv A B) ?_ ?_ _ 0 _ (by omega) ?_) ?_
    (fun _ h => h)
  · intro i s _; exact shape_rows hB hne
  · intro i s _ hs
    exact addRow_spec hA hB sA sB (Nat.le_refl _) (safe i) hs
  · exact ⟨Inv.init hA, bnd_zero _, bnd_zero _⟩
  · intro s hs
    have := bnd_max hs.bB
    rw [← hB.1, ← this]; exact hs.inv

theorem Inv.final {A B S : Coo T} (hB : B.Wf) (h : Inv A B S B.val.length) (i j : Nat) :
    sumAt S.entries i j = sumAt A.entries i j + sumAt B.entries i j := by
  rw [h.sum, ← length_entries hB, List.take_length]

theorem Inv.final_pos {A B S : Coo T} (hA : A.Wf) (hB : B.Wf) (h : Inv A B S B.val.length) :
    S.pos = A.pos ++ B.pos.filter (fun p => decide (p ∉ A.pos)) := by
  rw [h.pos_eq hA, ext, ← length_pos hB, List.take_length]

/-- The addition inside the safe domain. -/
theorem addAssign_spec {srt : SortFn} (hsrt : LawfulSort srt) {A B : Coo T} (hA : A.Wf) (hB : B.Wf)
    (sA : A.pos.Pairwise posLt) (sB : B.pos.Pairwise posLt) (hne : B.val ≠ []) (safe : AddSafe A B) :
    ∃ C, addAssign srt (fun _ => B) A = .ok C ∧ C.Wf ∧ C.pos.Pairwise posLt ∧
      (∀ p, p ∈ C.pos ↔ p ∈ A.pos ∨ p ∈ B.pos) ∧
      ∀ i j, C.elem i j = A.elem i j + B.elem i j := by
  obtain ⟨s, e, hI⟩ := (addRows_spec hA hB sA sB hne safe).exists
  obtain ⟨C, eC, wC, pC, oC⟩ := sort_spec hsrt hI.wf
  have hpos := hI.final_pos hA hB
  have hnA := (sorted_of_strict sA).2
  have hnB := (sorted_of_strict sB).2
  have hnS : s.a.pos.Nodup := by
    rw [hpos]
    refine List.Nodup.append hnA (hnB.filter _) ?_
    intro x hx hx'
    simp only [List.mem_filter, decide_eq_true_eq] at hx'
    exact hx'.2 hx
  have hperm : C.pos.Perm s.a.pos := by
    rw [← entries_fst wC, ← entries_fst hI.wf]; exact pC.map _
  have hnC : C.pos.Nodup := hperm.nodup_iff.mpr hnS
  refine ⟨C, ?_, wC, strict_of_sorted oC hnC, ?_, ?_⟩
  · unfold addAssign
    simp only [e, ok_bind, eC]
  · intro x
    rw [hperm.mem_iff, hpos, List.mem_append, List.mem_filter]
    simp only [decide_eq_true_eq]
    tauto
  · intro i j
    rw [elem_eq_sumAt wC hnC, elem_eq_sumAt hA hnA, elem_eq_sumAt hB hnB, sumAt_perm pC, hI.final hB]

/-! ## Outside the safe domain -/

omit [AddCommMonoid T] in
theorem lrd_sat {S : Type} (l : List S) (k : Nat) :
    Sat (fun v => l[k]? = some v) (fun _ => True) (lrd l k) := by
  unfold lrd
  split
  · next h => exact h
  · trivial

omit [AddCommMonoid T] in
theorem lwr_sat {S : Type} (l : List S) (k : Nat) (x : S) :
    Sat (fun l' => l' = l.set k x) (fun _ => True) (lwr l k x) := by
  by_cases h : k < l.length
  · rw [lwr_ok h]; rfl
  · rw [lwr_oob (by omega)]; trivial

omit [AddCommMonoid T] in
theorem push_sat (cap : Nat) (a : Coo T) (hw : a.Wf) (i j : Nat) (v : T) :
    Sat (fun a' => a'.Wf ∧ a'.pos = a.pos ++ [(i, j)] ∧ a'.col = a.col ++ [j]) (fun _ => True)
      (push cap a i j v) := by
  unfold push
  split
  · refine ⟨⟨by simp [hw.1], by simp [hw.2]⟩, ?_, rfl⟩
    simp only [pos]
    rw [List.zip_append (by rw [hw.1, hw.2])]
    rfl
  · trivial

/-- What one turn can do to the positions and the left cursor. -/
structure StepPos (i cEnd : Nat) (s t : AddSt T) : Prop where
  wf : t.a.Wf
  col : s.a.col <+: t.a.col
  cur : ¬ s.c + 1 < cEnd → t.c = s.c
  pos : t.a.pos = s.a.pos ∨ ∃ ca cb, s.a.col[s.c]? = some ca ∧ ca ≠ cb ∧ t.a.pos = s.a.pos ++ [(i, cb)]

omit [AddCommMonoid T] in
theorem addStep_pos [Add T] {rhs : Coo T → Coo T} {cap i cEnd rEnd : Nat} {s : AddSt T} (hw : s.a.Wf) :
    Sat (Sum.elim (StepPos i cEnd s) (StepPos i cEnd s)) (fun _ => True)
      (addStep rhs cap i cEnd rEnd s) := by
  unfold addStep
  refine Sat.bind (lrd_sat _ _) fun ca hca => ?_
  refine Sat.bind (lrd_sat _ _) fun cb hcb => ?_
  split
  · refine Sat.bind (lrd_sat _ _) fun va _ => ?_
    refine Sat.bind (lrd_sat _ _) fun vb _ => ?_
    refine Sat.bind (lwr_sat _ _ _) fun val hval => ?_
    have hw' : ({ s.a with val := val } : Coo T).Wf := by
      subst hval; exact ⟨by simp [hw.1], by simp [hw.2]⟩
    split
    · exact ⟨hw', List.prefix_rfl, fun _ => rfl, .inl rfl⟩
    · exact ⟨hw', List.prefix_rfl, fun h => by simp only; rw [if_neg h], .inl rfl⟩
  · next hne =>
    split
    · split
      · exact ⟨hw, List.prefix_rfl, fun h => by omega, .inl rfl⟩
      · refine Sat.bind (lrd_sat _ _) fun vb _ => ?_
        refine Sat.bind (push_sat _ _ hw _ _ _) fun a ha => ?_
        split <;>
          exact ⟨ha.1, by rw [ha.2.2]; exact List.prefix_append _ _, fun _ => rfl,
            .inr ⟨ca, cb, hca, hne, ha.2.1⟩⟩
    · refine Sat.bind (lrd_sat _ _) fun vb _ => ?_
      refine Sat.bind (push_sat _ _ hw _ _ _) fun a ha => ?_
      split <;>
        exact ⟨ha.1, by rw [ha.2.2]; exact List.prefix_append _ _, fun _ => rfl,
          .inr ⟨ca, cb, hca, hne, ha.2.1⟩⟩

omit [AddCommMonoid T] in
/-- Working on row `i'` appends nothing to another row. -/
theorem addRow_other [Add T] {rhs : Coo T → Coo T} {cap nA nB i' : Nat} {x : Nat × Nat} (hx : x.1 ≠ i')
    {s : AddRow T} (hw : s.a.Wf) (hn : x ∉ s.a.pos) :
    Sat (fun t => t.a.Wf ∧ x ∉ t.a.pos) (fun _ => True) (addRow rhs cap nA nB i' s) := by
  unfold addRow
  cases h1 : upperBound s.a.row s.p nA i' with
  | error e => trivial
  | ok pe =>
    rw [ok_bind]
    cases h2 : upperBound (rhs s.a).row s.q nB i' with
    | error e => trivial
    | ok qe =>
      rw [ok_bind]
      refine Sat.bind (P := fun t => t.a.Wf ∧ x ∉ t.a.pos)
        (addWhile_part (I := fun t => t.a.Wf ∧ x ∉ t.a.pos) ?_ _ _ ⟨hw, hn⟩) fun t ht => by exact ht
      intro t ht
      have key : ∀ t', StepPos i' pe t t' → t'.a.Wf ∧ x ∉ t'.a.pos := by
        intro t' h
        refine ⟨h.wf, ?_⟩
        rcases h.pos with h | ⟨ca, cb, _, _, h⟩
        · rw [h]; exact ht.2
        · rw [h, List.mem_append, not_or]
          refine ⟨ht.2, ?_⟩
          rw [List.mem_singleton]
          rintro rfl; exact hx rfl
      refine Sat.mono (addStep_pos ht.1) ?_ (fun _ h => h)
      rintro (t' | t') h
      · exact key t' h
      · exact key t' h

/-- In an unsafe row the element of the colliding column is never appended, or the cursor reads out of
bounds. -/
theorem addRow_unsafe {A B : Coo T} (hA : A.Wf) (hB : B.Wf) (sA : A.pos.Pairwise posLt)
    (sB : B.pos.Pairwise posLt) {cap : Nat} {i : Nat} (ho : B.Occupied i) (hn : ¬ A.Occupied i)
    (hun : ∀ c, nextCol A B i = some c → (i, c) ∈ B.pos) {s : AddRow T} (h : RInv A B i s) :
    Sat (fun t => t.a.Wf ∧ ∃ c, (i, c) ∈ B.pos ∧ (i, c) ∉ t.a.pos) (fun _ => True)
      (addRow (fun _ => B) cap A.row.length B.row.length i s) := by
  obtain ⟨pe, e1, hpe⟩ := upperBound_bnd (l := A.row) (l' := s.a.row) rfl h.inv.rows_prefix.1
    h.inv.rows_prefix.2 (Csr.rows_sorted hA (sorted_of_strict sA).1) h.bA
  obtain ⟨qe, e2, hqe⟩ := upperBound_bnd (l := B.row) (l' := B.row) rfl (fun _ _ => rfl)
    (Nat.le_refl _) (Csr.rows_sorted hB (sorted_of_strict sB).1) h.bB
  have hbA := bnd_row h.bA hpe
  have hbB := bnd_row h.bB hqe
  have hpp : s.p = pe := by
    by_contra hc
    apply hn
    refine (mem_row hA).mpr ⟨s.p, ?_, (hbA.2 s.p ?_).mpr ⟨Nat.le_refl _, ?_⟩⟩
    · have := hpe.1; have := hbA.1; rw [hA.1] at *; omega
    · have := hpe.1; have := hbA.1; omega
    · have := hbA.1; omega
  have hqq : s.q < qe := by
    obtain ⟨t, h1, h2⟩ := (mem_row hB).mp ho
    have := (hbB.2 t (by rw [hB.1]; exact h1)).mp h2
    omega
  have hnc := nextCol_eq hA hB h.bA (by rw [hpp]; exact hpe) h.bB
  rw [← h.inv.col] at hnc
  unfold addRow
  rw [e1, ok_bind, e2, ok_bind]
  cases hc : nextCol A B i with
  | none =>
    -- nothing follows: the cursor reads past the end
    rw [hc] at hnc
    have hf : pe - s.p + (qe - s.q) = (qe - s.q - 1) + 1 := by omega
    rw [hf]
    simp only [addWhile, if_pos hqq, addStep]
    rw [lrd_oob (List.getElem?_eq_none_iff.mp hnc)]
    trivial
  | some c =>
    rw [hc] at hnc
    have hm := hun c hc
    refine Sat.bind (P := fun t => t.a.Wf ∧ ∃ c, (i, c) ∈ B.pos ∧ (i, c) ∉ t.a.pos) ?_ fun t ht => by exact ht
    refine Sat.mono (addWhile_part (I := fun t => t.a.Wf ∧ t.c = s.p ∧ t.a.col[s.p]? = some c ∧
      (i, c) ∉ t.a.pos) ?_ _ _ ⟨h.inv.wf, rfl, hnc, ?_⟩) (fun t ht => ⟨ht.1, c, hm, ht.2.2.2⟩) (fun _ h => h)
    · rintro t ⟨w, h1, h2, h3⟩
      have key : ∀ t', StepPos i pe t t' → t'.a.Wf ∧ t'.c = s.p ∧ t'.a.col[s.p]? = some c ∧
          (i, c) ∉ t'.a.pos := by
        intro t' k
        refine ⟨k.wf, ?_, ?_, ?_⟩
        · rw [k.cur (by omega), h1]
        · obtain ⟨l1, l2⟩ := List.getElem?_eq_some_iff.mp h2
          rw [List.getElem?_eq_getElem (Nat.lt_of_lt_of_le l1 k.col.length_le), ← k.col.getElem l1, l2]
        · rcases k.pos with k | ⟨ca, cb, k1, k2, k⟩
          · rw [k]; exact h3
          · rw [h1, h2] at k1
            rw [k, List.mem_append, not_or]
            refine ⟨h3, ?_⟩
            rw [List.mem_singleton, Prod.mk.injEq]
            rintro ⟨_, rfl⟩
            exact k2 (by simpa using k1.symm)
      refine Sat.mono (addStep_pos w) ?_ (fun _ h => h)
      rintro (t' | t') k
      · exact key t' k
      · exact key t' k
    · show (i, c) ∉ s.a.pos
      rw [h.inv.pos_eq hA, List.mem_append, not_or]
      constructor
      · intro hm
        exact hn (List.of_mem_zip hm).1
      · intro hm
        have h4 := List.mem_of_mem_filter hm
        rw [(bnd_filter hB h.bB).1] at h4
        simp at h4

theorem addAssign_unsafe {srt : SortFn} (hsrt : LawfulSort srt) {A B : Coo T} (hA : A.Wf) (hB : B.Wf)
    (sA : A.pos.Pairwise posLt) (sB : B.pos.Pairwise posLt) (hne : B.val ≠ []) (h : ¬ AddSafe A B) :
    ∀ C, addAssign srt (fun _ => B) A = .ok C →
      C.Wf ∧ ∃ p, p ∈ B.pos ∧ p ∉ A.pos ∧ p ∉ C.pos := by
  classical
  have hex : ∃ i, B.Occupied i ∧ ¬ A.Occupied i ∧ ∀ c, nextCol A B i = some c → (i, c) ∈ B.pos := by
    unfold AddSafe at h
    push Not at h
    exact h
  have hmin : ∀ i', i' < Nat.find hex → B.Occupied i' → ¬ A.Occupied i' →
      ∃ c, nextCol A B i' = some c ∧ (i', c) ∉ B.pos := by
    intro i' hi' h1 h2
    have := Nat.find_min hex hi'
    push Not at this
    exact this h1 h2
  obtain ⟨ho, hn, hun⟩ := Nat.find_spec hex
  generalize Nat.find hex = i at ho hn hun hmin
  have hiR : i < B.row.foldr max 0 + 1 := by
    obtain ⟨t, h1, h2⟩ := (mem_row hB).mp ho
    have := Csr.foldr_max_le (l := B.row) (t := t) (by rw [hB.1]; exact h1)
    omega
  have key : Sat (fun s : AddRow T => s.a.Wf ∧ ∃ c, (i, c) ∈ B.pos ∧ (i, c) ∉ s.a.pos) (fun _ => True)
      (addRows (fun _ => B) (A.val.length + B.nnz) A.row.length B.row.length (B.row.foldr max 0 + 1) 0
        ⟨A, 0, 0⟩) := by
    refine Sat.mono (addRows_sat (R := B.row.foldr max 0 + 1) (J := fun i' s =>
      (i' ≤ i ∧ RInv A B i' s) ∨ (i < i' ∧ s.a.Wf ∧ ∃ c, (i, c) ∈ B.pos ∧ (i, c) ∉ s.a.pos))
      ?_ ?_ _ 0 _ (by omega) ?_) ?_ (fun _ h => h)
    · intro i' s _; exact shape_rows hB hne
    · rintro i' s _ (⟨h1, h2⟩ | ⟨h1, h2, c, h3, h4⟩)
      · rcases Nat.lt_or_eq_of_le h1 with h1 | rfl
        · refine Sat.mono (addRow_spec hA hB sA sB (Nat.le_refl _) (hmin i' h1) h2) ?_ (fun _ h => h.elim)
          intro t ht
          exact .inl ⟨h1, ht⟩
        · refine Sat.mono (addRow_unsafe hA hB sA sB ho hn hun h2) ?_ (fun _ h => h)
          intro t ht
          exact .inr ⟨Nat.lt_succ_self _, ht⟩
      · refine Sat.mono (addRow_other (x := (i, c)) (by simp only; omega) h2 h4) ?_ (fun _ h => h)
        intro t ht
        exact .inr ⟨by omega, ht.1, c, h3, ht.2⟩
    · exact .inl ⟨Nat.zero_le _, Inv.init hA, bnd_zero _, bnd_zero _⟩
    · rintro s (⟨h1, _⟩ | ⟨_, h2⟩)
      · omega
      · exact h2
  intro C hC
  unfold addAssign at hC
  cases hr : addRows (fun _ => B) (A.val.length + B.nnz) A.row.length B.row.length
      (B.row.foldr max 0 + 1) 0 ⟨A, 0, 0⟩ with
  | error e => simp [hr] at hC
  | ok s =>
    obtain ⟨w, c, h1, h2⟩ := key.of_ok hr
    simp only [hr, ok_bind] at hC
    obtain ⟨C', e, wC, pC, _⟩ := sort_spec hsrt w
    rw [e] at hC
    injection hC with hC
    subst hC
    refine ⟨wC, (i, c), h1, fun hm => hn (List.of_mem_zip hm).1, ?_⟩
    have hperm : C'.pos.Perm s.a.pos := by
      rw [← entries_fst wC, ← entries_fst w]; exact pC.map _
    rw [hperm.mem_iff]; exact h2

/-- A row of `B` after everything stored so far: the cursor reads past the end of the column array. -/
theorem addAssign_oob {srt : SortFn} {A B : Coo T} (hA : A.Wf) (hB : B.Wf)
    (sA : A.pos.Pairwise posLt) (sB : B.pos.Pairwise posLt) (hne : B.val ≠ []) {i : Nat}
    (hmin : ∀ i', i' < i → B.Occupied i' → ¬ A.Occupied i' →
      ∃ c, nextCol A B i' = some c ∧ (i', c) ∉ B.pos)
    (ho : B.Occupied i) (hn : ¬ A.Occupied i) (hc : nextCol A B i = none) :
    addAssign srt (fun _ => B) A = .error (.ub .oob) := by
  have hiR : i < B.row.foldr max 0 + 1 := by
    obtain ⟨t, h1, h2⟩ := (mem_row hB).mp ho
    have := Csr.foldr_max_le (l := B.row) (t := t) (by rw [hB.1]; exact h1)
    omega
  have hrow : ∀ s : AddRow T, RInv A B i s →
      addRow (fun _ => B) (A.val.length + B.nnz) A.row.length B.row.length i s = .error (.ub .oob) := by
    intro s h
    obtain ⟨pe, e1, hpe⟩ := upperBound_bnd (l := A.row) (l' := s.a.row) rfl h.inv.rows_prefix.1
      h.inv.rows_prefix.2 (Csr.rows_sorted hA (sorted_of_strict sA).1) h.bA
    obtain ⟨qe, e2, hqe⟩ := upperBound_bnd (l := B.row) (l' := B.row) rfl (fun _ _ => rfl)
      (Nat.le_refl _) (Csr.rows_sorted hB (sorted_of_strict sB).1) h.bB
    have hbA := bnd_row h.bA hpe
    have hbB := bnd_row h.bB hqe
    have hpp : s.p = pe := by
      by_contra hc
      apply hn
      refine (mem_row hA).mpr ⟨s.p, ?_, (hbA.2 s.p ?_).mpr ⟨Nat.le_refl _, ?_⟩⟩
      · have := hpe.1; have := hbA.1; rw [hA.1] at *; omega
      · have := hpe.1; have := hbA.1; omega
      · have := hbA.1; omega
    have hqq : s.q < qe := by
      obtain ⟨t, h1, h2⟩ := (mem_row hB).mp ho
      have := (hbB.2 t (by rw [hB.1]; exact h1)).mp h2
      omega
    have hnc := nextCol_eq hA hB h.bA (by rw [hpp]; exact hpe) h.bB
    rw [← h.inv.col, hc] at hnc
    have hf : pe - s.p + (qe - s.q) = (qe - s.q - 1) + 1 := by omega
    unfold addRow
    rw [e1, ok_bind, e2, ok_bind, hf]
    simp only [addWhile, if_pos hqq, addStep]
    rw [lrd_oob (List.getElem?_eq_none_iff.mp hnc)]
    rfl
  have key : Sat (fun _ : AddRow T => False) (fun e => e = .ub .oob)
      (addRows (fun _ => B) (A.val.length + B.nnz) A.row.length B.row.length (B.row.foldr max 0 + 1) 0
        ⟨A, 0, 0⟩) := by
    refine Sat.mono (addRows_sat (R := B.row.foldr max 0 + 1) (J := fun i' s =>
      i' ≤ i ∧ RInv A B i' s) ?_ ?_ _ 0 _ (by omega) ?_) ?_ (fun _ h => h)
    · intro i' s _; exact shape_rows hB hne
    · rintro i' s _ ⟨h1, h2⟩
      rcases Nat.lt_or_eq_of_le h1 with h1 | rfl
      · refine Sat.mono (addRow_spec hA hB sA sB (Nat.le_refl _) (hmin i' h1) h2) ?_ (fun _ h => h.elim)
        intro t ht
        exact ⟨h1, ht⟩
      · rw [hrow s h2]; rfl
    · exact ⟨Nat.zero_le _, Inv.init hA, bnd_zero _, bnd_zero _⟩
    · rintro s ⟨h1, _⟩; omega
  unfold addAssign
  cases hr : addRows (fun _ => B) (A.val.length + B.nnz) A.row.length B.row.length
      (B.row.foldr max 0 + 1) 0 ⟨A, 0, 0⟩ with
  | ok s => exact (key.of_ok hr).elim
  | error e =>
    have := key.of_error hr
    subst this
    simp only [hr]
    rfl

/-- Adding anything to an empty matrix is undefined. -/
theorem addAssign_empty_left {srt : SortFn} {A B : Coo T} (hA : A.Wf) (hB : B.Wf) (hAe : A.val = [])
    (sB : B.pos.Pairwise posLt) (hne : B.val ≠ []) :
    addAssign srt (fun _ => B) A = .error (.ub .oob) := by
  classical
  have hp : A.pos = [] := List.length_eq_zero_iff.mp (by rw [length_pos hA, hAe]; rfl)
  have hrA : ∀ i, ¬ A.Occupied i := by
    intro i h
    have h' : i ∈ A.row := h
    obtain ⟨t, h1, _⟩ := (mem_row hA).mp h'
    rw [hAe] at h1; simp at h1
  have hex : ∃ i, B.Occupied i := by
    obtain ⟨x, hx⟩ := List.exists_mem_of_ne_nil B.row (by
      intro h; have := hB.1; rw [h] at this
      exact hne (List.length_eq_zero_iff.mp (by simpa using this.symm)))
    exact ⟨x, hx⟩
  refine addAssign_oob hA hB (by rw [hp]; exact .nil) sB hne (i := Nat.find hex) ?_ (Nat.find_spec hex)
    (hrA _) ?_
  · intro i' hi' ho
    exact absurd ho (Nat.find_min hex hi')
  · unfold nextCol
    have : B.pos.filter (fun p => decide (p.1 < Nat.find hex ∧ p ∉ A.pos)) = [] := by
      rw [List.filter_eq_nil_iff]
      rintro ⟨i, j⟩ hm h
      simp only [decide_eq_true_eq] at h
      exact Nat.find_min hex h.1 (List.of_mem_zip hm).1
    rw [this, hp]; rfl

end merge

/-- An empty right-hand side dereferences the end of an empty range. -/
theorem addAssign_empty [Add T] (srt : SortFn) {A B : Coo T} (hB : B.Wf) (h : B.val = []) :
    addAssign srt (fun _ => B) A = .error (.ub .derefEnd) := by
  unfold addAssign
  simp only [addRows, shape_empty hB h]
  rfl

/-! ## What always holds when the addition returns -/

theorem addRow_wf [Add T] {rhs : Coo T → Coo T} {cap nA nB i : Nat} {s : AddRow T} (hw : s.a.Wf) :
    Sat (fun t => t.a.Wf) (fun _ => True) (addRow rhs cap nA nB i s) := by
  unfold addRow
  cases h1 : upperBound s.a.row s.p nA i with
  | error e => trivial
  | ok pe =>
    rw [ok_bind]
    cases h2 : upperBound (rhs s.a).row s.q nB i with
    | error e => trivial
    | ok qe =>
      rw [ok_bind]
      refine Sat.bind (P := fun t => t.a.Wf)
        (addWhile_part (I := fun t => t.a.Wf) ?_ _ _ hw) fun t ht => by exact ht
      intro t ht
      refine Sat.mono (addStep_pos ht) ?_ (fun _ h => h)
      rintro (t' | t') h
      · exact StepPos.wf h
      · exact StepPos.wf h

theorem addRows_wf [Add T] {rhs : Coo T → Coo T} {cap nA nB : Nat} :
    ∀ fuel i (s : AddRow T), s.a.Wf → Sat (fun t => t.a.Wf) (fun _ => True) (addRows rhs cap nA nB fuel i s)
  | 0, i, s, h => by
    simp only [addRows]
    cases hs : (rhs s.a).shape with
    | error e => trivial
    | ok c =>
      rw [ok_bind]
      split
      · trivial
      · exact h
  | fuel + 1, i, s, h => by
    simp only [addRows]
    cases hs : (rhs s.a).shape with
    | error e => trivial
    | ok c =>
      rw [ok_bind]
      split
      · exact Sat.bind (addRow_wf h) fun t ht => addRows_wf fuel (i + 1) t ht
      · exact h

/-- Whenever `+=` returns, the arrays are equally long and sorted. -/
theorem addAssign_wf [Add T] {srt : SortFn} (hsrt : LawfulSort srt) {rhs : Coo T → Coo T} {A C : Coo T}
    (hA : A.Wf) (h : addAssign srt rhs A = .ok C) : C.Wf ∧ C.Sorted := by
  unfold addAssign at h
  have key := addRows_wf (rhs := rhs) (cap := A.val.length + (rhs A).nnz) (nA := A.row.length)
    (nB := (rhs A).row.length) ((rhs A).row.foldr max 0 + 1) 0 ⟨A, 0, 0⟩ hA
  cases hr : addRows rhs (A.val.length + (rhs A).nnz) A.row.length (rhs A).row.length
      ((rhs A).row.foldr max 0 + 1) 0 ⟨A, 0, 0⟩ with
  | error e => simp [hr] at h
  | ok s =>
    have w := key.of_ok hr
    simp only [hr, ok_bind] at h
    obtain ⟨C', e, wC, _, oC⟩ := sort_spec hsrt w
    rw [e] at h
    injection h with h
    subst h
    exact ⟨wC, oC⟩

/-- Positions after the first `r` elements of `B` have been treated, in or outside the safe domain. -/
structure PInv (A B S : Coo T) (r : Nat) : Prop where
  wf : S.Wf
  ex : ∃ e : List (Nat × Nat), S.row = A.row ++ e.map Prod.fst ∧ S.col = A.col ++ e.map Prod.snd ∧
    e.Sublist (B.pos.take r) ∧ ∀ x ∈ e, x ∉ A.pos

theorem PInv.step_val {A B S : Coo T} {r : Nat} (h : PInv A B S r) (v : List T)
    (hv : v.length = S.val.length) : PInv A B { S with val := v } (r + 1) := by
  obtain ⟨e, h1, h2, h3, h4⟩ := h.ex
  exact ⟨⟨by simp [hv, h.wf.1], by simp [hv, h.wf.2]⟩, e, h1, h2,
    h3.trans (List.take_prefix_take_left (Nat.le_succ r)).sublist, h4⟩

theorem PInv.step_push {A B S S' : Coo T} (hB : B.Wf) {r cap : Nat} (h : PInv A B S r)
    (hr : r < B.val.length) (hn : (B.row.getD r 0, B.col.getD r 0) ∉ A.pos) {v : T}
    (hp : push cap S (B.row.getD r 0) (B.col.getD r 0) v = .ok S') : PInv A B S' (r + 1) := by
  obtain ⟨e, h1, h2, h3, h4⟩ := h.ex
  unfold push at hp
  split at hp
  · injection hp with hp
    subst hp
    refine ⟨⟨by simp [h.wf.1], by simp [h.wf.2]⟩, e ++ [(B.row.getD r 0, B.col.getD r 0)], ?_, ?_, ?_, ?_⟩
    · simp [h1]
    · simp [h2]
    · have hrp : r < B.pos.length := by rw [length_pos hB]; exact hr
      rw [List.take_succ_eq_append_getElem hrp, pos_getElem hB hr]
      exact h3.append (List.Sublist.refl _)
    · intro x hx
      rcases List.mem_append.mp hx with hx | hx
      · exact h4 x hx
      · rw [List.mem_singleton] at hx
        subst hx; exact hn
  · cases hp

/-- Invariant of the `while` loop in row `i`, in or outside the safe domain. -/
structure QInv (A B : Coo T) (p pe q qe : Nat) (s : AddSt T) : Prop where
  inv : PInv A B s.a s.r
  c_ge : p ≤ s.c
  c_lt : s.c < pe ∨ s.c = p ∧ p = pe
  r_ge : q ≤ s.r
  r_le : s.r ≤ qe
  low : s.r < qe → ∀ t, p ≤ t → t < s.c → A.col.getD t 0 < B.col.getD s.r 0

theorem addStep_part_spec [Add T] {A B : Coo T} (hA : A.Wf) (hB : B.Wf) (sA : A.pos.Pairwise posLt)
    (sB : B.pos.Pairwise posLt) {i p pe q qe : Nat} (hp : Bnd A.row i p) (hpe : Bnd A.row (i + 1) pe)
    (hq : Bnd B.row i q) (hqe : Bnd B.row (i + 1) qe) {cap : Nat}
    {s : AddSt T} (h : QInv A B p pe q qe s) (hr : s.r < qe) :
    Sat (Sum.elim (fun s' => QInv A B p pe q qe s' ∧
      (pe - s'.c) + (qe - s'.r) < (pe - s.c) + (qe - s.r)) (fun s' => PInv A B s'.a qe))
      (fun _ => True) (addStep (fun _ => B) cap i pe qe s) := by
  obtain ⟨S, c, r⟩ := s
  obtain ⟨hinv, hcge, hclt, hrge, hrle, hlow⟩ := h
  simp only at hinv hcge hclt hrge hrle hlow hr
  have hbA := bnd_row hp hpe
  have hbB := bnd_row hq hqe
  have hrM : r < B.val.length := by have := hqe.1; rw [hB.1] at this; omega
  have hlow := hlow hr
  have hrow : B.row.getD r 0 = i := (hbB.2 r (by rw [hB.1]; exact hrM)).mpr ⟨hrge, hr⟩
  have hpeN : pe ≤ A.val.length := by have := hpe.1; rwa [hA.1] at this
  have hnext : r + 1 < qe → B.col.getD r 0 < B.col.getD (r + 1) 0 := fun h' =>
    col_lt hB sB hq hqe hrge (Nat.lt_succ_self _) h'
  have hnew : (∀ t, p ≤ t → t < pe → A.col.getD t 0 ≠ B.col.getD r 0) →
      (B.row.getD r 0, B.col.getD r 0) ∉ A.pos := by
    intro hne hm
    obtain ⟨t, h1, h2, h3⟩ := (mem_pos hA).mp hm
    rw [hrow] at h2
    obtain ⟨h4, h5⟩ := (hbA.2 t (by rw [hA.1]; exact h1)).mp h2
    exact hne t h4 h5 h3
  have hcb : lrd B.col r = .ok (B.col.getD r 0) := by
    have : r < B.col.length := by rw [hB.2]; exact hrM
    rw [lrd_ok this, getD_getElem this]
  unfold addStep
  simp only
  refine Sat.bind (lrd_sat _ _) fun ca hca => ?_
  -- the column read is that of `A` unless the row is empty in `A`
  have hcase : (c < pe ∧ ca = A.col.getD c 0) ∨ (p = pe ∧ c = p) := by
    rcases hclt with hclt | ⟨h1, h2⟩
    · left
      refine ⟨hclt, ?_⟩
      obtain ⟨e, _, h2, _⟩ := hinv.ex
      have hcl : c < A.col.length := by rw [hA.2]; omega
      rw [h2, List.getElem?_append_left hcl, List.getElem?_eq_getElem hcl] at hca
      rw [getD_getElem hcl]
      simpa using hca.symm
    · exact .inr ⟨h2, h1⟩
  simp only [ok_bind, hcb, lrd_ok hrM]
  by_cases he : ca = B.col.getD r 0
  · rw [if_pos he]
    refine Sat.bind (lrd_sat _ _) fun va _ => ?_
    refine Sat.bind (lwr_sat _ _ _) fun val hval => ?_
    have hI : PInv A B { S with val := val } (r + 1) := hinv.step_val _ (by rw [hval]; simp)
    by_cases hl : r + 1 = qe
    · rw [if_pos hl, ← hl]; exact hI
    · have hr1 : r + 1 < qe := by omega
      rw [if_neg hl, if_pos hr1]
      refine ⟨⟨hI, ?_, ?_, ?_, ?_, ?_⟩, ?_⟩
      · simp only; split <;> omega
      · simp only; split
        · left; assumption
        · exact hclt
      · simp only; omega
      · exact Nat.le_of_lt hr1
      · intro _ t ht1 ht2
        have := hnext hr1
        simp only at ht2 ⊢
        by_cases htc : t < c
        · have := hlow t ht1 htc; omega
        · have : t = c ∧ c + 1 < pe := by split at ht2 <;> omega
          obtain ⟨rfl, h5⟩ := this
          rcases hcase with ⟨_, h2⟩ | ⟨h1, h2⟩ <;> omega
      · simp only; split <;> omega
  · rw [if_neg he]
    by_cases hlt : ca < B.col.getD r 0
    · rw [if_pos hlt]
      by_cases hc1 : c + 1 < pe
      · rw [if_pos hc1]
        refine ⟨⟨hinv, ?_, .inl hc1, hrge, hrle, ?_⟩, ?_⟩
        · simp only; omega
        · intro _ t ht1 ht2
          simp only at ht2 ⊢
          by_cases htc : t < c
          · exact hlow t ht1 htc
          · have : t = c := by omega
            subst this
            rcases hcase with ⟨_, h2⟩ | ⟨h1, h2⟩ <;> omega
        · simp only; omega
      · rw [if_neg hc1]
        have hn : (B.row.getD r 0, B.col.getD r 0) ∉ A.pos := by
          apply hnew
          intro t ht1 ht2
          rcases hcase with ⟨h1, h2⟩ | ⟨h1, _⟩
          · by_cases htc : t < c
            · have := hlow t ht1 htc; omega
            · have : t = c := by omega
              subst this; omega
          · omega
        cases hS : push cap S i (B.col.getD r 0) B.val[r] with
        | error e => trivial
        | ok S' =>
          have hI : PInv A B S' (r + 1) := hinv.step_push hB hrM hn (by rw [hrow]; exact hS)
          rw [ok_bind]
          by_cases hl : r + 1 = qe
          · rw [if_pos hl, ← hl]; exact hI
          · have hr1 : r + 1 < qe := by omega
            rw [if_neg hl]
            refine ⟨⟨hI, hcge, hclt, ?_, Nat.le_of_lt hr1, ?_⟩, ?_⟩
            · simp only; omega
            · intro _ t ht1 ht2
              have := hlow t ht1 ht2
              have := hnext hr1
              simp only; omega
            · simp only; omega
    · rw [if_neg hlt]
      have hn : (B.row.getD r 0, B.col.getD r 0) ∉ A.pos := by
        apply hnew
        intro t ht1 ht2
        rcases hcase with ⟨h1, h2⟩ | ⟨h1, _⟩
        · by_cases htc : t < c
          · have := hlow t ht1 htc; omega
          · rcases Nat.lt_or_eq_of_le (Nat.le_of_not_lt htc) with h3 | h3
            · have := col_lt hA sA hp hpe hcge h3 ht2; omega
            · subst h3; omega
        · omega
      cases hS : push cap S i (B.col.getD r 0) B.val[r] with
      | error e => trivial
      | ok S' =>
        have hI : PInv A B S' (r + 1) := hinv.step_push hB hrM hn (by rw [hrow]; exact hS)
        rw [ok_bind]
        by_cases hl : r + 1 = qe
        · rw [if_pos hl, ← hl]; exact hI
        · have hr1 : r + 1 < qe := by omega
          rw [if_neg hl, if_pos hr1]
          refine ⟨⟨hI, hcge, hclt, ?_, Nat.le_of_lt hr1, ?_⟩, ?_⟩
          · simp only; omega
          · intro _ t ht1 ht2
            have := hlow t ht1 ht2
            have := hnext hr1
            simp only; omega
          · simp only; omega

theorem addRow_part_spec [Add T] {A B : Coo T} (hA : A.Wf) (hB : B.Wf) (sA : A.pos.Pairwise posLt)
    (sB : B.pos.Pairwise posLt) {cap i : Nat} {s : AddRow T}
    (h : PInv A B s.a s.q ∧ Bnd A.row i s.p ∧ Bnd B.row i s.q) :
    Sat (fun s => PInv A B s.a s.q ∧ Bnd A.row (i + 1) s.p ∧ Bnd B.row (i + 1) s.q) (fun _ => True)
      (addRow (fun _ => B) cap A.row.length B.row.length i s) := by
  obtain ⟨hinv, hbp, hbq⟩ := h
  obtain ⟨e, er, _⟩ := hinv.ex
  obtain ⟨pe, e1, hpe⟩ := upperBound_bnd (l := A.row) (l' := s.a.row) rfl
    (by
      intro t ht
      rw [er]
      simp only [List.getD_eq_getElem?_getD]
      rw [List.getElem?_append_left ht])
    (by rw [er]; simp) (Csr.rows_sorted hA (sorted_of_strict sA).1) hbp
  obtain ⟨qe, e2, hqe⟩ := upperBound_bnd (l := B.row) (l' := B.row) rfl (fun _ _ => rfl)
    (Nat.le_refl _) (Csr.rows_sorted hB (sorted_of_strict sB).1) hbq
  have hbA := bnd_row hbp hpe
  have hbB := bnd_row hbq hqe
  unfold addRow
  rw [e1, ok_bind, e2, ok_bind]
  refine Sat.bind (P := fun t => PInv A B t.a qe) ?_ ?_
  · refine addWhile_sat (I := QInv A B s.p pe s.q qe) (fun t => (pe - t.c) + (qe - t.r)) ?_ ?_ ?_ _ _ ?_ ?_
    · intro t ht hr
      exact addStep_part_spec hA hB sA sB hbp hpe hbq hqe ht hr
    · intro t ht hr
      have := ht.r_le
      have he : t.r = qe := by omega
      rw [← he]; exact ht.inv
    · intro t _ hr; omega
    · exact ⟨hinv, Nat.le_refl _, (Nat.lt_or_eq_of_le hbA.1).imp_right fun h => ⟨rfl, h⟩, Nat.le_refl _,
        hbB.1, fun _ t h1 h2 => by simp only at h2; omega⟩
    · simp
  · intro t ht
    exact ⟨ht, hpe, hqe⟩

/-- Whenever `+=` returns on matrices with distinct positions, the positions are distinct and sorted, and
those of the left operand are all kept. -/
theorem addAssign_part [Add T] {srt : SortFn} (hsrt : LawfulSort srt) {A B C : Coo T} (hA : A.Wf)
    (hB : B.Wf) (sA : A.pos.Pairwise posLt) (sB : B.pos.Pairwise posLt)
    (h : addAssign srt (fun _ => B) A = .ok C) :
    C.Wf ∧ C.pos.Pairwise posLt ∧ (∀ p ∈ A.pos, p ∈ C.pos) ∧ ∀ p ∈ C.pos, p ∈ A.pos ∨ p ∈ B.pos := by
  have hne : B.val ≠ [] := by
    intro hb
    rw [addAssign_empty srt hB hb] at h
    cases h
  have key : Sat (fun s : AddRow T => ∃ i, PInv A B s.a s.q ∧ Bnd A.row i s.p ∧ Bnd B.row i s.q)
      (fun _ => True) (addRows (fun _ => B) (A.val.length + B.nnz) A.row.length B.row.length
        (B.row.foldr max 0 + 1) 0 ⟨A, 0, 0⟩) := by
    refine Sat.mono (addRows_sat (R := B.row.foldr max 0 + 1) (J := fun i s =>
      PInv A B s.a s.q ∧ Bnd A.row i s.p ∧ Bnd B.row i s.q) ?_ ?_ _ 0 _ (by omega) ?_)
      (fun s hs => ⟨_, hs⟩) (fun _ h => h)
    · intro i s _; exact shape_rows hB hne
    · intro i s _ hs
      exact addRow_part_spec hA hB sA sB hs
    · exact ⟨⟨hA, [], by simp, by simp, by simp, by simp⟩, bnd_zero _, bnd_zero _⟩
  unfold addAssign at h
  cases hr : addRows (fun _ => B) (A.val.length + B.nnz) A.row.length B.row.length
      (B.row.foldr max 0 + 1) 0 ⟨A, 0, 0⟩ with
  | error e => simp [hr] at h
  | ok s =>
    obtain ⟨_, hI, _⟩ := key.of_ok hr
    obtain ⟨e, h1, h2, h3, h4⟩ := hI.ex
    simp only [hr, ok_bind] at h
    obtain ⟨C', eC, wC, pC, oC⟩ := sort_spec hsrt hI.wf
    rw [eC] at h
    injection h with h
    subst h
    have hpos : s.a.pos = A.pos ++ e := zip_ext hA h1 h2
    have hperm : C'.pos.Perm s.a.pos := by
      rw [← entries_fst wC, ← entries_fst hI.wf]; exact pC.map _
    have hsub : e.Sublist B.pos := h3.trans (List.take_sublist _ _)
    have hnS : s.a.pos.Nodup := by
      rw [hpos]
      refine List.Nodup.append (sorted_of_strict sA).2 ((sorted_of_strict sB).2.sublist hsub) ?_
      intro x hx hx'
      exact h4 x hx' hx
    refine ⟨wC, strict_of_sorted oC (hperm.nodup_iff.mpr hnS), ?_, ?_⟩
    · intro p hp
      rw [hperm.mem_iff, hpos]
      exact List.mem_append_left _ hp
    · intro p hp
      rw [hperm.mem_iff, hpos, List.mem_append] at hp
      exact hp.imp_right fun h => hsub.subset h

/-! ## `A += A` -/

/-- The first `r` values doubled. -/
def dbl [Add T] (l : List T) (r : Nat) : List T := (l.take r).map (fun x => x + x) ++ l.drop r

theorem length_dbl [Add T] (l : List T) (r : Nat) : (dbl l r).length = l.length := by
  simp [dbl]; omega

theorem dbl_get [Add T] {l : List T} {r : Nat} (h : r < l.length) :
    (dbl l r)[r]'(by rw [length_dbl]; exact h) = l[r] := by
  simp only [dbl]
  rw [List.getElem_append_right (by simp)]
  simp [Nat.min_eq_left (Nat.le_of_lt h)]

theorem dbl_set [Add T] {l : List T} {r : Nat} (h : r < l.length) :
    (dbl l r).set r (l[r] + l[r]) = dbl l (r + 1) := by
  unfold dbl
  rw [List.set_append_right _ _ (by simp)]
  simp only [List.length_map, List.length_take, Nat.min_eq_left (Nat.le_of_lt h), Nat.sub_self]
  rw [List.drop_eq_getElem_cons h, List.set_cons_zero, List.take_succ_eq_append_getElem h, List.map_append, List.append_assoc]
  rfl

theorem dbl_all [Add T] (l : List T) : dbl l l.length = l.map (fun x => x + x) := by
  simp [dbl]

theorem addRow_self [Add T] {A : Coo T} (hA : A.Wf) (sA : A.row.Pairwise (· ≤ ·)) {cap i p : Nat}
    (hb : Bnd A.row i p) :
    ∃ pe, addRow id cap A.row.length A.row.length i ⟨⟨dbl A.val p, A.row, A.col⟩, p, p⟩ =
      .ok ⟨⟨dbl A.val pe, A.row, A.col⟩, pe, pe⟩ ∧ Bnd A.row (i + 1) pe := by
  obtain ⟨pe, e1, hpe⟩ := upperBound_bnd (l := A.row) (l' := A.row) rfl (fun _ _ => rfl)
    (Nat.le_refl _) sA hb
  have hle := (bnd_row hb hpe).1
  have hN := hpe.1
  refine ⟨pe, ?_, hpe⟩
  have hw : Ok (fun t : AddSt T => t.a = ⟨dbl A.val pe, A.row, A.col⟩)
      (addWhile id cap i pe pe ((pe - p) + (pe - p)) ⟨⟨dbl A.val p, A.row, A.col⟩, p, p⟩) := by
    refine addWhile_sat (I := fun t => t.r ≤ pe ∧ t = ⟨⟨dbl A.val t.r, A.row, A.col⟩, t.r, t.r⟩)
      (fun t => pe - t.r) ?_ ?_ ?_ _ _ ⟨hle, rfl⟩ (by simp only; omega)
    · rintro t ⟨h1, h2⟩ hr
      generalize t.r = r at h1 h2 hr
      subst h2
      have hc : r < A.col.length := by rw [hA.2, ← hA.1]; omega
      have hv : r < A.val.length := by rw [← hA.1]; omega
      have hd : r < (dbl A.val r).length := by rw [length_dbl]; exact hv
      simp only [addStep, id_eq, lrd_ok hc, ok_bind, if_true, lrd_ok hd, dbl_get hv, lwr_ok hd, dbl_set hv]
      split
      · next hl => rw [← hl]; rfl
      · next hl =>
        have : r + 1 < pe := by omega
        simp only [if_pos this]
        refine ⟨⟨Nat.le_of_lt this, rfl⟩, ?_⟩
        simp only; omega
    · rintro t ⟨h1, h2⟩ hr
      have : t.r = pe := by omega
      rw [h2]; simp only [this]
    · intro t h hr; omega
  obtain ⟨t, e, ht⟩ := hw.exists
  unfold addRow
  simp only [id_eq, e1, ok_bind, e, ht]

theorem addAssign_self [AddCommMonoid T] {srt : SortFn} (hsrt : LawfulSort srt) {A : Coo T} (hA : A.Wf)
    (sA : A.pos.Pairwise posLt) (hne : A.val ≠ []) :
    ∃ C, addAssign srt id A = .ok C ∧ C.Wf ∧ C.pos = A.pos ∧
      ∀ i j, C.elem i j = A.elem i j + A.elem i j := by
  have hrow := Csr.rows_sorted hA (sorted_of_strict sA).1
  have key : Ok (fun s : AddRow T => s.a = ⟨A.val.map (fun x => x + x), A.row, A.col⟩)
      (addRows id (A.val.length + A.nnz) A.row.length A.row.length (A.row.foldr max 0 + 1) 0
        ⟨A, 0, 0⟩) := by
    refine Sat.mono (addRows_sat (R := A.row.foldr max 0 + 1) (J := fun i s =>
      ∃ p, s = ⟨⟨dbl A.val p, A.row, A.col⟩, p, p⟩ ∧ Bnd A.row i p)
      ?_ ?_ _ 0 _ (by omega) ⟨0, by simp [dbl], bnd_zero _⟩) ?_ (fun _ h => h)
    · rintro i s ⟨p, rfl, _⟩
      obtain ⟨c, hc⟩ := shape_rows hA hne
      exact ⟨c, hc⟩
    · rintro i s _ ⟨p, rfl, hb⟩
      obtain ⟨pe, e, hpe⟩ := addRow_self (cap := A.val.length + A.nnz) hA hrow hb
      rw [e]
      exact ⟨pe, rfl, hpe⟩
    · rintro s ⟨p, rfl, hb⟩
      have := bnd_max hb
      simp only
      rw [this, hA.1, dbl_all]
  obtain ⟨s, e, hs⟩ := key.exists
  have hwS : (⟨A.val.map (fun x => x + x), A.row, A.col⟩ : Coo T).Wf := ⟨by simp [hA.1], by simp [hA.2]⟩
  obtain ⟨C, eC, wC, pC, oC⟩ := sort_spec hsrt hwS
  have hn := (sorted_of_strict sA).2
  have hperm : C.pos.Perm A.pos := by
    rw [← entries_fst wC]
    have : A.pos = (⟨A.val.map (fun x => x + x), A.row, A.col⟩ : Coo T).entries.map Prod.fst := by
      rw [entries_fst hwS]; rfl
    rw [this]; exact pC.map _
  have hnC : C.pos.Nodup := hperm.nodup_iff.mpr hn
  refine ⟨C, ?_, wC, ?_, ?_⟩
  · unfold addAssign
    simp only [id_eq]
    rw [e, ok_bind, hs, eC]
  · refine List.Perm.eq_of_pairwise (le := posLt) ?_ (strict_of_sorted oC hnC) sA hperm
    intro a b _ _ h1 h2
    exfalso
    rcases h1 with h1 | ⟨h1, h1'⟩ <;> rcases h2 with h2 | ⟨h2, h2'⟩ <;> omega
  · intro i j
    have h1 : C.elem i j = (⟨A.val.map (fun x => x + x), A.row, A.col⟩ : Coo T).elem i j := by
      rw [elem_eq_sumAt wC hnC, elem_eq_sumAt hwS hn, sumAt_perm pC]
    rw [h1]
    unfold elem
    have := entries_map A (fun x => x + x)
    rw [this, lookup_map (fun x => x + x)]
    cases h : A.entries.lookup (i, j) <;> simp

end Coo

end Lalib
