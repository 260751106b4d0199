import Verif.Model.Ilu
import Verif.Spec.Ilu
import Verif.Proofs.LinAlg
import Verif.Proofs.Sweep
import Verif.Props.Sparse
import Verif.Props.Dense

/-! # Lemmas about the incomplete LU factorisation -/

namespace Lalib

variable {T M : Type}

/-- One entry replaced. -/
def updAt (V : Nat → Nat → T) (i j : Nat) (v : T) (r c : Nat) : T := if r = i ∧ c = j then v else V r c

/-- `R` relates the objects of a matrix class to the `n x m` matrices they stand for, and the member
functions respect it.  Only non-zero entries need be assignable. -/
structure Rep [Zero T] (ops : MatOps M T) (n m : Nat) (R : M → (Nat → Nat → T) → Prop) : Prop where
  shape : ∀ a V, R a V → ops.shape a = .ok (n, m)
  get : ∀ a V i j, R a V → i < n → j < m → ops.get a i j = .ok (V i j)
  set : ∀ a V i j v, R a V → i < n → j < m → V i j ≠ 0 → ∃ a', ops.set a i j v = .ok a' ∧ R a' (updAt V i j v)

/-- The same without `shape()`. -/
structure Acc [Zero T] (ops : MatOps M T) (n m : Nat) (R : M → (Nat → Nat → T) → Prop) : Prop where
  get : ∀ a V i j, R a V → i < n → j < m → ops.get a i j = .ok (V i j)
  set : ∀ a V i j v, R a V → i < n → j < m → V i j ≠ 0 → ∃ a', ops.set a i j v = .ok a' ∧ R a' (updAt V i j v)

theorem Rep.acc [Zero T] {ops : MatOps M T} {n m : Nat} {R : M → (Nat → Nat → T) → Prop} (h : Rep ops n m R) :
    Acc ops n m R := ⟨h.get, h.set⟩

/-! ## The three classes -/

def DRep [Zero T] (n m : Nat) (a : DMat T) (V : Nat → Nat → T) : Prop :=
  a.n = n ∧ a.m = m ∧ a.elems.length = n * m ∧ ∀ i j, i < n → j < m → entry m a.elems i j = V i j

theorem dRep [Zero T] (n m : Nat) : Rep (T := T) dOps n m (DRep n m) := by
  refine ⟨?_, ?_, ?_⟩
  · rintro a V ⟨rfl, rfl, _, _⟩; rfl
  · rintro a V i j ⟨rfl, rfl, hl, h⟩ hi hj
    show lrd a.elems (i * a.m + j) = _
    rw [lrd_val (by rw [hl]; exact cell_lt hi hj)]
    exact congrArg _ (h i j hi hj)
  · rintro a V i j v ⟨rfl, rfl, hl, h⟩ hi hj _
    have hlt : i * a.m + j < a.elems.length := by rw [hl]; exact cell_lt hi hj
    refine ⟨{ a with elems := a.elems.set (i * a.m + j) v }, ?_, rfl, rfl, by simp [hl], ?_⟩
    · show DMat.set a i j v = _
      unfold DMat.set
      rw [lwr_ok hlt]; rfl
    · intro r c hr hc
      show val0 _ _ = _
      rw [val0_set hlt]
      unfold updAt
      by_cases he : r = i ∧ c = j
      · rw [if_pos he, if_pos (by rw [he.1, he.2])]
      · rw [if_neg he, if_neg fun h' => he ((cell_inj hc hj).mp h')]
        exact h r c hr hc

def CooRep [Zero T] (n m : Nat) (a : Coo T) (V : Nat → Nat → T) : Prop :=
  a.Wf ∧ a.shape = .ok (n, m) ∧ ∀ i j, i < n → j < m → a.elem i j = V i j

theorem Coo.mem_of_elem [Zero T] {a : Coo T} (hw : a.Wf) {i j : Nat} (h : a.elem i j ≠ 0) : (i, j) ∈ a.pos := by
  by_contra hc
  apply h
  unfold Coo.elem
  have : a.entries.lookup (i, j) = none := by
    rw [List.lookup_eq_none_iff]
    intro p hp
    rw [bne_iff_ne]
    intro he
    apply hc
    rw [he, ← Coo.entries_fst hw]
    exact List.mem_map_of_mem hp
  rw [this]; rfl

theorem cooRep [Zero T] (n m : Nat) : Rep (T := T) cooOps n m (CooRep n m) := by
  refine ⟨fun a V h => h.2.1, ?_, ?_⟩
  · intro a V i j h hi hj
    show a.get i j = _
    rw [Coo.get_eq h.1, h.2.2 i j hi hj]
  · intro a V i j v h hi hj hne
    rcases Coo.set_spec h.1 i j v with ⟨_, a', e, w, hp, h1, h2⟩ | ⟨hc, _⟩
    · refine ⟨a', e, w, ?_, ?_⟩
      · rw [← h.2.1]
        have hr := congrArg (List.map Prod.fst) hp
        have hcl := congrArg (List.map Prod.snd) hp
        unfold Coo.pos at hr hcl
        rw [List.map_fst_zip (by rw [w.1, w.2]), List.map_fst_zip (by rw [h.1.1, h.1.2])] at hr
        rw [List.map_snd_zip (by rw [w.1, w.2]), List.map_snd_zip (by rw [h.1.1, h.1.2])] at hcl
        unfold Coo.shape
        rw [hr, hcl]
      · intro r c hr hc
        unfold updAt
        by_cases he : r = i ∧ c = j
        · rw [if_pos he, he.1, he.2, h1]
        · rw [if_neg he, h2 r c (by simpa using he), h.2.2 r c hr hc]
    · exact absurd (Coo.mem_of_elem h.1 (by rw [h.2.2 i j hi hj]; exact hne)) hc

def CsrRep [Zero T] (n m : Nat) (a : Csr T) (V : Nat → Nat → T) : Prop :=
  a.Wf ∧ a.Distinct ∧ a.nrows = n ∧ a.shape = .ok (n, m) ∧ ∀ i j, i < n → j < m → a.get i j = .ok (V i j)

theorem csrRep [Zero T] (n m : Nat) : Rep (T := T) csrOps n m (CsrRep n m) := by
  refine ⟨fun a V h => h.2.2.2.1, fun a V i j h hi hj => h.2.2.2.2 i j hi hj, ?_⟩
  rintro a V i j v ⟨hw, hd, hn, hs, hg⟩ hi hj hne
  have hst : ∃ k, a.StoredAt i j k := by
    by_contra hc
    push Not at hc
    have := Csr.get_unstored hw (by omega) hc
    rw [hg i j hi hj] at this
    injection this with this
    exact hne this
  obtain ⟨a', e, w, d, hp, hcl, h1, h2⟩ := (Props.C29_update a hw hd i j (by omega) v).1 hst
  refine ⟨a', e, w, d, by unfold Csr.nrows; rw [hp]; exact hn, ?_, ?_⟩
  · rw [← hs]; unfold Csr.shape; rw [hp, hcl]
  · intro r c hr hc
    unfold updAt
    by_cases he : r = i ∧ c = j
    · rw [if_pos he, he.1, he.2, h1]
    · rw [if_neg he, h2 r c (by omega) (by simpa using he), hg r c hr hc]

/-! ## Factorisations in terms of single entries -/

section
variable [Field T]

/-- The equation of entry `(r, c)`. -/
def Good (A F : Nat → Nat → T) (r c : Nat) : Prop :=
  (A r c = 0 → F r c = 0) ∧
  (c < r → A r c ≠ 0 → F c c ≠ 0 ∧ ∑ k ∈ Finset.range c, F r k * F k c + F r c * F c c = A r c) ∧
  (r ≤ c → A r c ≠ 0 → ∑ k ∈ Finset.range r, F r k * F k c + F r c = A r c)

/-- Row-major order. -/
def before (r c i j : Nat) : Prop := r < i ∨ (r = i ∧ c < j)

theorem Good.congr {A F G : Nat → Nat → T} {r c : Nat} (h : ∀ r' c', before r' c' r (c + 1) → F r' c' = G r' c')
    (hF : Good A F r c) : Good A G r c := by
  obtain ⟨h1, h2, h3⟩ := hF
  have e0 : F r c = G r c := h r c (.inr ⟨rfl, by omega⟩)
  refine ⟨fun h0 => by rw [← e0]; exact h1 h0, ?_, ?_⟩
  · intro hc h0
    obtain ⟨p, q⟩ := h2 hc h0
    have e1 : F c c = G c c := h c c (.inl hc)
    rw [← e1]
    refine ⟨p, ?_⟩
    rw [← e0, ← q]
    congr 1
    refine Finset.sum_congr rfl fun k hk => ?_
    have hk := Finset.mem_range.mp hk
    rw [h r k (.inr ⟨rfl, by omega⟩), h k c (.inl (by omega))]
  · intro hc h0
    rw [← e0, ← h3 hc h0]
    congr 1
    refine Finset.sum_congr rfl fun k hk => ?_
    have hk := Finset.mem_range.mp hk
    rw [h r k (.inr ⟨rfl, by omega⟩), h k c (.inl (by omega))]

theorem luProd_low (F : Nat → Nat → T) {n r c : Nat} (hc : c < r) (hr : r < n) :
    luProd n F r c = ∑ k ∈ Finset.range c, F r k * F k c + F r c * F c c := by
  unfold luProd
  rw [← Finset.sum_subset (Finset.range_subset_range.mpr (show c + 1 ≤ n by omega)), Finset.sum_range_succ]
  · congr 1
    · refine Finset.sum_congr rfl fun k hk => ?_
      have hk := Finset.mem_range.mp hk
      rw [unitLow, if_pos (by omega), upper, if_pos (by omega)]
    · rw [unitLow, if_pos hc, upper, if_pos (Nat.le_refl _)]
  · intro k _ hk
    have hk : ¬ k < c + 1 := by simpa using hk
    rw [upper, if_neg (by omega), mul_zero]

theorem luProd_up (F : Nat → Nat → T) {n r c : Nat} (hc : r ≤ c) (hr : r < n) :
    luProd n F r c = ∑ k ∈ Finset.range r, F r k * F k c + F r c := by
  unfold luProd
  rw [← Finset.sum_subset (Finset.range_subset_range.mpr (show r + 1 ≤ n by omega)), Finset.sum_range_succ]
  · congr 1
    · refine Finset.sum_congr rfl fun k hk => ?_
      have hk := Finset.mem_range.mp hk
      rw [unitLow, if_pos (by omega), upper, if_pos (by omega)]
    · rw [unitLow, if_neg (by omega), if_pos rfl, upper, if_pos hc, one_mul]
  · intro k _ hk
    have hk : ¬ k < r + 1 := by simpa using hk
    rw [unitLow, if_neg (by omega), if_neg (by omega), zero_mul]

theorem isIlu_iff {A F : Nat → Nat → T} {n : Nat} : IsIlu n A F ↔ ∀ r c, r < n → c < n → Good A F r c := by
  constructor
  · intro h r c hr hc
    refine ⟨h.zero r c hr hc, ?_, ?_⟩
    · intro hcr h0
      exact ⟨h.piv r c hcr hr h0, by rw [← luProd_low F hcr hr]; exact h.prod r c hr hc h0⟩
    · intro hrc h0
      rw [← luProd_up F hrc hr]; exact h.prod r c hr hc h0
  · intro h
    refine ⟨fun i j hi hj => (h i j hi hj).1, ?_, fun i j hj hi h0 => ((h i j hi (by omega)).2.1 hj h0).1⟩
    intro i j hi hj h0
    rcases Nat.lt_or_ge j i with hji | hij
    · rw [luProd_low F hji hi]; exact ((h i j hi hj).2.1 hji h0).2
    · rw [luProd_up F hij hi]; exact (h i j hi hj).2.2 hij h0

/-- Two factorisations agree as far as both satisfy the equations. -/
theorem Good.unique {A F G : Nat → Nat → T} {n i j : Nat}
    (hF : ∀ r c, r < n → c < n → before r c i j → Good A F r c)
    (hG : ∀ r c, r < n → c < n → Good A G r c) :
    ∀ r c, r < n → c < n → before r c i j → F r c = G r c := by
  intro r
  induction r using Nat.strong_induction_on with
  | _ r ihr =>
    intro c
    induction c using Nat.strong_induction_on with
    | _ c ihc =>
      intro hr hc hb
      have hrow : ∀ k, k < c → F r k = G r k := fun k hk => ihc k hk hr (by omega) (by
        rcases hb with h | ⟨h1, h2⟩
        · exact .inl h
        · exact .inr ⟨h1, by omega⟩)
      have habove : ∀ k c', k < r → c' < n → F k c' = G k c' := fun k c' hk hc' => ihr k hk c' (by omega) hc' (by
        rcases hb with h | ⟨h1, h2⟩
        · exact .inl (by omega)
        · exact .inl (by omega))
      obtain ⟨f1, f2, f3⟩ := hF r c hr hc hb
      obtain ⟨g1, g2, g3⟩ := hG r c hr hc
      by_cases h0 : A r c = 0
      · rw [f1 h0, g1 h0]
      rcases Nat.lt_or_ge c r with hcr | hrc
      · obtain ⟨p, q⟩ := f2 hcr h0
        obtain ⟨p', q'⟩ := g2 hcr h0
        have hs : ∑ k ∈ Finset.range c, F r k * F k c = ∑ k ∈ Finset.range c, G r k * G k c :=
          Finset.sum_congr rfl fun k hk => by
            have hk := Finset.mem_range.mp hk
            rw [hrow k hk, habove k c (by omega) hc]
        rw [hs, habove c c hcr hc, ← q'] at q
        exact mul_right_cancel₀ p' (add_left_cancel q)
      · have q := f3 hrc h0
        have q' := g3 hrc h0
        have hs : ∑ k ∈ Finset.range r, F r k * F k c = ∑ k ∈ Finset.range r, G r k * G k c :=
          Finset.sum_congr rfl fun k hk => by
            have hk := Finset.mem_range.mp hk
            rw [hrow k (by omega), habove k c (by omega) hc]
        rw [hs, ← q'] at q
        exact add_left_cancel q

theorem IsIlu.unique {A F G : Nat → Nat → T} {n : Nat} (hF : IsIlu n A F) (hG : IsIlu n A G) :
    ∀ r c, r < n → c < n → F r c = G r c := fun r c hr hc =>
  Good.unique (i := n) (j := 0) (fun r c hr hc _ => isIlu_iff.mp hF r c hr hc) (isIlu_iff.mp hG) r c hr hc
    (.inl hr)

/-- Without fill-in the factorisation is complete. -/
theorem IsIlu.exact {A F : Nat → Nat → T} {n : Nat} (h : IsIlu n A F) (hf : NoFill n A) :
    ∀ i j, i < n → j < n → luProd n F i j = A i j := by
  intro i j hi hj
  by_cases h0 : A i j = 0
  · rw [h0]
    have hterm : ∀ k, k < i → k < j → F i k * F k j = 0 := by
      intro k hki hkj
      by_cases h1 : A i k = 0
      · rw [h.zero i k hi (by omega) h1, zero_mul]
      · by_cases h2 : A k j = 0
        · rw [h.zero k j (by omega) hj h2, mul_zero]
        · exact absurd h0 (hf i j k hi hj hki hkj h1 h2)
    rcases Nat.lt_or_ge j i with hji | hij
    · rw [luProd_low F hji hi, h.zero i j hi hj h0, zero_mul, add_zero]
      exact Finset.sum_eq_zero fun k hk => by
        have hk := Finset.mem_range.mp hk
        exact hterm k (by omega) hk
    · rw [luProd_up F hij hi, h.zero i j hi hj h0, add_zero]
      exact Finset.sum_eq_zero fun k hk => by
        have hk := Finset.mem_range.mp hk
        exact hterm k hk (by omega)
  · exact h.prod i j hi hj h0

theorem minor_lu {A F : Nat → Nat → T} {k : Nat} (h : ∀ i j, i < k → j < k → luProd k F i j = A i j) :
    minor A k = ∏ i ∈ Finset.range k, F i i := by
  rw [minor_LU (L := unitLow F) (U := upper F)
    (fun i t _ _ h => by rw [unitLow, if_neg (by omega), if_neg (by omega)])
    (fun t j _ _ h => by rw [upper, if_neg (by omega)]) (fun i j hi hj => (h i j hi hj).symm)]
  simp [unitLow, upper]

end

namespace Ilu

variable [Field T] [DecidableEq T]

omit [DecidableEq T] in
theorem reduce_eq {ops : MatOps M T} {n m : Nat} {R : M → (Nat → Nat → T) → Prop} (hR : Acc ops n m R) {a : M}
    {V : Nat → Nat → T} (ha : R a V) {i j c : Nat} (hi : i < n) (hj : j < m) (hc : c ≤ n) (hcm : c ≤ m) (v : T) :
    reduce ops a i j c v = .ok (v - ∑ k ∈ Finset.range c, V i k * V k j) := by
  unfold reduce
  rw [scalar_acc_loop (g := fun k => -(V i k * V k j)) (Nat.zero_le _)]
  · rw [Finset.sum_neg_distrib, ← sub_eq_add_neg, Finset.range_eq_Ico]
  · intro k s _ hk
    rw [hR.get a V i k ha hi (by omega), ok_bind, hR.get a V k j ha (by omega) hj, ok_bind, sub_eq_add_neg]

/-- What holds while the factorisation is at `(i, j)`. -/
structure Inv (R : M → (Nat → Nat → T) → Prop) (n m : Nat) (A : Nat → Nat → T) (i j : Nat) (a : M)
    (V : Nat → Nat → T) : Prop where
  rep : R a V
  done : ∀ r c, r < n → c < m → before r c i j → Good A V r c
  todo : ∀ r c, r < n → c < m → ¬ before r c i j → V r c = A r c

omit [DecidableEq T] in
/-- Writing the right value at `(i, j)` moves on. -/
theorem Inv.step {R : M → (Nat → Nat → T) → Prop} {n m : Nat} {A : Nat → Nat → T} {i j : Nat} {a a' : M}
    {V : Nat → Nat → T} (h : Inv R n m A i j a V) {v : T} (ha : R a' (updAt V i j v))
    (hg : Good A (updAt V i j v) i j) : Inv R n m A i (j + 1) a' (updAt V i j v) := by
  refine ⟨ha, ?_, ?_⟩
  · intro r c hr hc hb
    by_cases he : r = i ∧ c = j
    · obtain ⟨rfl, rfl⟩ := he; exact hg
    · have hb' : before r c i j := by unfold before at hb ⊢; omega
      refine (h.done r c hr hc hb').congr fun r' c' h' => ?_
      rw [updAt, if_neg]
      unfold before at h' hb'
      omega
  · intro r c hr hc hb
    rw [updAt, if_neg (by unfold before at hb; omega)]
    exact h.todo r c hr hc fun h' => hb (by unfold before at h' ⊢; omega)

omit [DecidableEq T] in
theorem Inv.skip {R : M → (Nat → Nat → T) → Prop} {n m : Nat} {A : Nat → Nat → T} {i j : Nat} {a : M}
    {V : Nat → Nat → T} (h : Inv R n m A i j a V) (hi : i < n) (hj : j < m) (h0 : V i j = 0) : Inv R n m A i (j + 1) a V := by
  have hA : A i j = 0 := by rw [← h.todo i j hi hj (by unfold before; omega), h0]
  have hV : updAt V i j 0 = V := by
    funext r c
    unfold updAt
    split_ifs with he
    · rw [he.1, he.2, h0]
    · rfl
  have := h.step (a' := a) (v := 0) (by rw [hV]; exact h.rep) ⟨fun _ => by simp [updAt],
    fun _ hc => absurd hA hc, fun _ hc => absurd hA hc⟩
  rwa [hV] at this

omit [Field T] [DecidableEq T] in
theorem updAt_before {V : Nat → Nat → T} {i j : Nat} {v : T} {r c : Nat} (h : before r c i j) :
    updAt V i j v r c = V r c := by
  rw [updAt, if_neg]
  unfold before at h
  omega

/-- Where the construction stops. -/
def Stuck (R : M → (Nat → Nat → T) → Prop) (n m : Nat) (A : Nat → Nat → T) (a : M) : Prop :=
  ∃ i j V, j < i ∧ i < n ∧ Inv R n m A i j a V ∧ A i j ≠ 0 ∧ V j j = 0

variable {ops : MatOps M T} {n m : Nat} {R : M → (Nat → Nat → T) → Prop} {A : Nat → Nat → T}

theorem lowCell_spec (hR : Acc ops n m R) (hnm : n ≤ m) {i j : Nat} (hj : j < i) (hi : i < n) {a : M}
    {V : Nat → Nat → T} (h : Inv R n m A i j a V) :
    Ok (Sum.elim (fun a' => ∃ V', Inv R n m A i (j + 1) a' V') (Stuck R n m A)) (lowCell ops i j a) := by
  have hAV : V i j = A i j := h.todo i j hi (by omega) (by unfold before; omega)
  unfold lowCell
  rw [hR.get a V i j h.rep hi (by omega), ok_bind]
  by_cases h0 : V i j = 0
  · rw [if_neg (by simpa using h0)]
    exact ⟨V, h.skip (by omega) (by omega) h0⟩
  · rw [if_pos (show ¬ IsZ (V i j) from h0), hR.get a V j j h.rep (by omega) (by omega), ok_bind]
    by_cases hd : V j j = 0
    · rw [if_isZ hd]
      exact ⟨i, j, V, hj, hi, h, by rw [← hAV]; exact h0, hd⟩
    · rw [if_not_isZ hd, reduce_eq hR h.rep hi (by omega) (by omega) (by omega), ok_bind, divC_ok hd, ok_bind]
      obtain ⟨a', e, ha'⟩ := hR.set a V i j ((V i j - ∑ k ∈ Finset.range j, V i k * V k j) / V j j) h.rep hi
        (by omega) h0
      rw [e, ok_bind]
      refine ⟨_, h.step ha' ⟨fun hc => absurd (hAV.trans hc) h0, fun _ _ => ?_, fun hc => by omega⟩⟩
      rw [updAt_before (r := j) (.inl hj)]
      refine ⟨hd, ?_⟩
      have : ∀ v, ∑ k ∈ Finset.range j, updAt V i j v i k * updAt V i j v k j =
          ∑ k ∈ Finset.range j, V i k * V k j := fun v => Finset.sum_congr rfl fun k hk => by
        have hk := Finset.mem_range.mp hk
        rw [updAt_before (.inr ⟨rfl, hk⟩), updAt_before (.inl (by omega))]
      rw [this, updAt, if_pos ⟨rfl, rfl⟩, ← hAV]
      field_simp
      ring

theorem upCell_spec (hR : Acc ops n m R) {i j : Nat} (hi : i < n) (hij : i ≤ j) (hj : j < m) {a : M}
    {V : Nat → Nat → T} (h : Inv R n m A i j a V) :
    Ok (fun a' => ∃ V', Inv R n m A i (j + 1) a' V') (upCell ops i j a) := by
  have hAV : V i j = A i j := h.todo i j (by omega) hj (by unfold before; omega)
  unfold upCell
  rw [hR.get a V i j h.rep (by omega) hj, ok_bind]
  by_cases h0 : V i j = 0
  · rw [if_neg (by simpa using h0)]
    exact ⟨V, h.skip (by omega) (by omega) h0⟩
  · rw [if_pos (show ¬ IsZ (V i j) from h0), reduce_eq hR h.rep (by omega) hj (by omega) (by omega), ok_bind]
    obtain ⟨a', e, ha'⟩ := hR.set a V i j (V i j - ∑ k ∈ Finset.range i, V i k * V k j) h.rep (by omega) hj h0
    rw [e]
    refine ⟨_, h.step ha' ⟨fun hc => absurd (hAV.trans hc) h0, fun hc => by omega, fun _ _ => ?_⟩⟩
    have : ∀ v, ∑ k ∈ Finset.range i, updAt V i j v i k * updAt V i j v k j =
        ∑ k ∈ Finset.range i, V i k * V k j := fun v => Finset.sum_congr rfl fun k hk => by
      have hk := Finset.mem_range.mp hk
      rw [updAt_before (.inr ⟨rfl, by omega⟩), updAt_before (.inl hk)]
    rw [this, updAt, if_pos ⟨rfl, rfl⟩, ← hAV]
    ring

omit [DecidableEq T] in
theorem Inv.next_row {i : Nat} {a : M} {V : Nat → Nat → T} (h : Inv R n m A i m a V) : Inv R n m A (i + 1) 0 a V := by
  refine ⟨h.rep, fun r c hr hc hb => h.done r c hr hc ?_, fun r c hr hc hb => h.todo r c hr hc fun h' => hb ?_⟩
  · unfold before at hb ⊢; omega
  · unfold before at h' ⊢; omega

/-- `c` is the bound of the loop over the columns. -/
theorem row_spec (hR : Acc ops n m R) (hnm : n ≤ m) {c : Nat} (hc : c ≤ m)
    (hz : ∀ r j, r < n → c ≤ j → j < m → A r j = 0) {i : Nat} (hi : i < n) {a : M} {V : Nat → Nat → T}
    (h : Inv R n m A i 0 a V) :
    Ok (Sum.elim (fun a' => ∃ V', Inv R n m A i m a' V') (Stuck R n m A)) (row ops c i a) := by
  unfold row
  have h1 : Ok (Sum.elim (fun a' => ∃ V', Inv R n m A i i a' V') (Stuck R n m A))
      (forRet 0 i (lowCell ops i) a) :=
    forRet_sat (I := fun j a' => ∃ V', Inv R n m A i j a' V') (Nat.zero_le _) ⟨V, h⟩
      fun j a' _ hj ⟨V', h'⟩ => lowCell_spec hR hnm hj hi h'
  refine Sat.bind h1 ?_
  rintro (a' | a') h'
  · have hskip : ∀ d j a' V', c ≤ j → j + d = m → Inv R n m A i j a' V' → Inv R n m A i m a' V' := by
      intro d
      induction d with
      | zero =>
        intro j a' V' _ hm h
        obtain rfl : j = m := by omega
        exact h
      | succ d ih =>
        intro j a' V' hcj hm h
        refine ih (j + 1) a' V' (by omega) (by omega) (h.skip hi (by omega) ?_)
        rw [h.todo i j hi (by omega) (by unfold before; omega)]
        exact hz i j hi hcj (by omega)
    by_cases hic : i ≤ c
    · refine Sat.bind (forRange_sat (I := fun j a' => ∃ V', Inv R n m A i j a' V') hic h'
        fun j a' hij hj ⟨V', h'⟩ => upCell_spec hR hi hij (by omega) h') fun a'' h'' => ?_
      obtain ⟨V'', h''⟩ := h''
      exact ⟨V'', hskip (m - c) c a'' V'' (Nat.le_refl _) (by omega) h''⟩
    · simp only []
      rw [forRange_of_le (by omega), ok_bind]
      obtain ⟨V', h'⟩ := h'
      exact ⟨V', hskip (m - i) i a' V' (by omega) (by omega) h'⟩
  · exact h'

theorem decomp_spec (hR : Acc ops n m R) (hnm : n ≤ m) {c : Nat} (hc : c ≤ m)
    (hz : ∀ r j, r < n → c ≤ j → j < m → A r j = 0) {a : M} (ha : R a A) (hsh : ops.shape a = .ok (n, c)) :
    ∃ r, decomp ops a = .ok r ∧
      ((r.1 = true ∧ ∃ F, R r.2 F ∧ IsIlu n A F) ∨ (r.1 = false ∧ Stuck R n m A r.2)) := by
  have h : Ok (Sum.elim (fun a' => ∃ V', Inv R n m A n 0 a' V') (Stuck R n m A)) (forRet 0 n (row ops c) a) :=
    forRet_sat (I := fun i a' => ∃ V', Inv R n m A i 0 a' V') (Nat.zero_le _)
      ⟨A, ha, fun r c _ _ hb => by unfold before at hb; omega, fun _ _ _ _ _ => rfl⟩
      fun i a' _ hi ⟨V', h'⟩ => Sat.mono (row_spec hR hnm hc hz hi h') (fun b hb => by
        rcases b with b | b
        · obtain ⟨V'', h''⟩ := hb
          exact ⟨V'', h''.next_row⟩
        · exact hb) (fun _ h => h)
  obtain ⟨b, e, hb⟩ := Ok.exists h
  unfold decomp
  rw [hsh, ok_bind]
  simp only [e, ok_bind]
  rcases b with b | b
  · obtain ⟨V, hV⟩ := hb
    exact ⟨_, rfl, .inl ⟨rfl, V, hV.rep, isIlu_iff.mpr fun r c hr hc => hV.done r c hr (by omega) (.inl hr)⟩⟩
  · exact ⟨_, rfl, .inr ⟨rfl, hb⟩⟩

omit [DecidableEq T] in
theorem Stuck.no_ilu {a : M} (hnm : n ≤ m) (h : Stuck R n m A a) : ¬ ∃ F, IsIlu n A F := by
  rintro ⟨F, hF⟩
  obtain ⟨i, j, V, hj, hi, hI, h0, hd⟩ := h
  have := Good.unique (fun r c hr hc => hI.done r c hr (by omega)) (isIlu_iff.mp hF) j j (by omega) (by omega) (.inl hj)
  exact hF.piv i j hj hi h0 (by rw [← this, hd])

/-- The constructor: it succeeds exactly when there is a factorisation, which is then what it stores. -/
theorem new_acc (hR : Acc ops n m R) (hnm : n ≤ m) {c : Nat} (hc : c ≤ m)
    (hz : ∀ r j, r < n → c ≤ j → j < m → A r j = 0) {a : M} (ha : R a A) (hsh : ops.shape a = .ok (n, c)) :
    (∃ F a', new ops a = .ok a' ∧ R a' F ∧ IsIlu n A F) ∨
    (new ops a = .error (.throw .runtimeError) ∧ ∃ a', Stuck R n m A a') := by
  obtain ⟨⟨b, a'⟩, e, ⟨h, F, hF, hI⟩ | ⟨h, hS⟩⟩ := decomp_spec hR hnm hc hz ha hsh
  · left
    simp only at h hF
    subst h
    exact ⟨F, a', by simp [new, e], hF, hI⟩
  · right
    simp only at h
    subst h
    exact ⟨by simp [new, e], a', hS⟩

theorem new_spec (hR : Rep ops n m R) (hnm : n ≤ m) {a : M} (ha : R a A) :
    (∃ F a', new ops a = .ok a' ∧ R a' F ∧ IsIlu n A F) ∨
    (new ops a = .error (.throw .runtimeError) ∧ ∃ a', Stuck R n m A a') :=
  new_acc hR.acc hnm (Nat.le_refl m) (fun _ _ _ h1 h2 => absurd h2 (by omega)) ha (hR.shape a A ha)

omit [DecidableEq T] in
/-- If no fill-in can occur, a stop means that a leading minor vanishes. -/
theorem Stuck.minor {a : M} (hnm : n ≤ m) (h : Stuck R n m A a) (hf : NoFill n A) : ∃ j, j + 1 < n ∧ minor A (j + 1) = 0 := by
  obtain ⟨i, j, V, hj, hi, hI, h0, hd⟩ := h
  refine ⟨j, by omega, ?_⟩
  have hV : IsIlu (j + 1) A V := isIlu_iff.mpr fun r c hr hc => hI.done r c (by omega) (by omega) (.inl (by omega))
  rw [minor_lu (hV.exact fun i' j' k h1 h2 => hf i' j' k (by omega) (by omega))]
  exact Finset.prod_eq_zero (Finset.mem_range.mpr (Nat.lt_succ_self j)) hd

/-! ## Solving -/

omit [DecidableEq T] in
theorem solve_fwd {a : M} {F : Nat → Nat → T}
    (hg : ∀ i j, i < n → j < n → ops.get a i j = .ok (F i j)) {rhs : List T}
    (hl : rhs.length = n) :
    ∃ y, forRange 0 n (fwdRow ops a rhs) (List.replicate n 0) = .ok y ∧ y.length = n ∧
      ∀ i, i < n → ∑ k ∈ Finset.range n, unitLow F i k * val0 y k = val0 rhs i := by
  obtain ⟨y, e, hy, hv, _⟩ := sweep_up (emb := fun l : List T => l) (f := fwdRow ops a rhs) (pos := fun i => i)
    (n := n) (G := fun i X => val0 rhs i - ∑ k ∈ Finset.range i, F i k * X k) (List.replicate n 0)
    (fun t ht => by simpa using ht) (fun _ _ _ _ h => h)
    (fun t X Y ht h => by
      have : ∑ k ∈ Finset.range t, F t k * X k = ∑ k ∈ Finset.range t, F t k * Y k :=
        Finset.sum_congr rfl fun k hk => by rw [h k (Finset.mem_range.mp hk)]
      simp only [this])
    (fun t l ht hlen _ => by
      have hlen : l.length = n := by simpa using hlen
      unfold fwdRow
      rw [lrd_val (by omega), ok_bind, scalar_acc_loop (g := fun k => -(F t k * val0 l k)) (Nat.zero_le _),
        ok_bind, Finset.sum_neg_distrib, ← sub_eq_add_neg, ← Finset.range_eq_Ico, lwr_ok (by omega)]
      intro k v _ hk
      rw [hg t k ht (by omega), ok_bind, lrd_val (by omega), ok_bind, sub_eq_add_neg])
  refine ⟨y, e, by simpa using hy, fun i hi => ?_⟩
  rw [← Finset.sum_subset (Finset.range_subset_range.mpr (show i + 1 ≤ n by omega)), Finset.sum_range_succ]
  · have : ∑ k ∈ Finset.range i, unitLow F i k * val0 y k = ∑ k ∈ Finset.range i, F i k * val0 y k :=
      Finset.sum_congr rfl fun k hk => by rw [unitLow, if_pos (Finset.mem_range.mp hk)]
    rw [this, unitLow, if_neg (by omega), if_pos rfl, one_mul]
    have := hv i hi
    rw [this]; ring
  · intro k _ hk
    have hk : ¬ k < i + 1 := by simpa using hk
    rw [unitLow, if_neg (by omega), if_neg (by omega), zero_mul]

theorem solve_bwd_row {a : M} {F : Nat → Nat → T}
    (hg : ∀ i j, i < n → j < n → ops.get a i j = .ok (F i j)) {y l : List T}
    (hy : y.length = n) (hl : l.length = n) {t : Nat} (ht : t < n) :
    bwdRow ops a n y t l = (do
      let q ← divC (val0 y t - ∑ k ∈ Finset.Ico (t + 1) n, F t k * val0 l k) (F t t)
      .ok (l.set t q)) := by
  unfold bwdRow
  rw [lrd_val (by omega), ok_bind, scalar_acc_loop (g := fun k => -(F t k * val0 l k)) (by omega), ok_bind,
    hg t t ht ht, ok_bind, Finset.sum_neg_distrib, ← sub_eq_add_neg]
  · rw [divC_eq]
    split_ifs
    · rfl
    · rw [ok_bind, lwr_ok (by omega)]; rfl
  · intro k v h1 hk
    rw [hg t k ht (by omega), ok_bind, lrd_val (by omega), ok_bind, sub_eq_add_neg]

theorem solve_bwd {a : M} {F : Nat → Nat → T}
    (hg : ∀ i j, i < n → j < n → ops.get a i j = .ok (F i j)) {y : List T}
    (hy : y.length = n) (hd : ∀ i, i < n → F i i ≠ 0) :
    ∃ x, forDown (bwdRow ops a n y) n (List.replicate n 0) = .ok x ∧ x.length = n ∧
      ∀ i, i < n → ∑ k ∈ Finset.range n, upper F i k * val0 x k = val0 y i := by
  obtain ⟨x, e, hx, hv, _⟩ := sweep_down (emb := fun l : List T => l) (f := bwdRow ops a n y)
    (pos := fun i => i) (n := n)
    (G := fun i X => (val0 y i - ∑ k ∈ Finset.Ico (i + 1) n, F i k * X k) / F i i) (List.replicate n 0)
    (fun t ht => by simpa using ht) (fun _ _ _ _ h => h)
    (fun t X Y ht h => by
      have : ∑ k ∈ Finset.Ico (t + 1) n, F t k * X k = ∑ k ∈ Finset.Ico (t + 1) n, F t k * Y k :=
        Finset.sum_congr rfl fun k hk => by
          have := Finset.mem_Ico.mp hk
          rw [h k (by omega) (by omega)]
      simp only [this])
    (fun t l ht hlen _ => by
      have hlen : l.length = n := by simpa using hlen
      rw [solve_bwd_row hg hy hlen ht, divC_ok (hd t ht)]; rfl)
  refine ⟨x, e, by simpa using hx, fun i hi => ?_⟩
  rw [Finset.range_eq_Ico, ← Finset.sum_Ico_consecutive _ (Nat.zero_le i) (by omega : i ≤ n),
    Finset.sum_eq_zero, zero_add, Finset.sum_eq_sum_Ico_succ_bot hi]
  · have : ∑ k ∈ Finset.Ico (i + 1) n, upper F i k * val0 x k = ∑ k ∈ Finset.Ico (i + 1) n, F i k * val0 x k :=
      Finset.sum_congr rfl fun k hk => by
        have := Finset.mem_Ico.mp hk
        rw [upper, if_pos (by omega)]
    rw [this, upper, if_pos (Nat.le_refl _)]
    have h := hv i hi
    have hdi := hd i hi
    rw [h]
    field_simp
    ring
  · intro k hk
    have := Finset.mem_Ico.mp hk
    rw [upper, if_neg (by omega), zero_mul]

theorem solve_ok {a : M} {F : Nat → Nat → T}
    (hg : ∀ i j, i < n → j < n → ops.get a i j = .ok (F i j)) (hd : ∀ i, i < n → F i i ≠ 0)
    {b : List T} (hb : b.length = n) :
    ∃ x, solve ops a b = .ok x ∧ x.length = n ∧ Solves n (luProd n F) (val0 x) (val0 b) := by
  obtain ⟨y, ey, hy, hfy⟩ := solve_fwd hg hb
  obtain ⟨x, ex, hx, hfx⟩ := solve_bwd hg hy hd
  refine ⟨x, ?_, hx, ?_⟩
  · unfold solve
    rw [hb, ey, ok_bind, ex]; rfl
  · intro i hi
    rw [← hfy i hi]
    unfold mulVec luProd
    simp only [Finset.sum_mul]
    rw [Finset.sum_comm]
    refine Finset.sum_congr rfl fun k hk => ?_
    rw [← hfx k (Finset.mem_range.mp hk), Finset.mul_sum]
    exact Finset.sum_congr rfl fun j _ => by ring

theorem solve_zero {a : M} {F : Nat → Nat → T}
    (hg : ∀ i j, i < n → j < n → ops.get a i j = .ok (F i j)) (hd : ∃ i, i < n ∧ F i i = 0)
    {b : List T} (hb : b.length = n) : solve ops a b = .error .nonFinite := by
  obtain ⟨y, ey, hy, _⟩ := solve_fwd hg hb
  have : Sat (fun x : List T => x.length = n ∧ ∀ i, 0 ≤ i → i < n → F i i ≠ 0) (fun e => e = .nonFinite)
      (forDown (bwdRow ops a n y) n (List.replicate n 0)) := by
    refine forDown_sat (I := fun i (x : List T) => x.length = n ∧ ∀ k, i ≤ k → k < n → F k k ≠ 0) n _
      ⟨by simp, fun k h1 h2 => by omega⟩ ?_
    rintro i x hi ⟨hx, hk⟩
    rw [solve_bwd_row hg hy hx hi]
    by_cases h0 : F i i = 0
    · rw [h0, divC_zero]; exact rfl
    · rw [divC_ok h0]
      refine ⟨by simpa using hx, fun k h1 h2 => ?_⟩
      by_cases hki : k = i
      · subst hki; exact h0
      · exact hk k (by omega) h2
  unfold solve
  rw [hb, ey, ok_bind]
  cases e : forDown (bwdRow ops a n y) n (List.replicate n 0) with
  | ok x =>
    rw [e] at this
    obtain ⟨i, hi, h0⟩ := hd
    exact absurd h0 (this.2 i (Nat.zero_le _) hi)
  | error f =>
    rw [e] at this
    obtain rfl : f = .nonFinite := this
    rfl

end Ilu

end Lalib
