import Verif.Model.VecOps
import Mathlib.Algebra.Field.Basic

/-! # Lemmas on the element-wise kernels -/

namespace Lalib

variable {T : Type}

theorem elem1_eq_elem2 (f : T → T) (v vr : Nat) :
    elem1 f v vr = elem2 (fun a _ => f a) v v vr := by
  funext i m
  unfold elem1 elem2
  cases m.rd v i <;> rfl

/-- Effect of the element-wise statement executed for the indices in `ord`, in that order. -/
theorem elem2_order (f : T → T → T) {v1 v2 vr : Nat} {m : Mem T} {ord : List Nat} (hnd : ord.Nodup)
    (h1 : ∀ i ∈ ord, i < m.len v1) (h2 : ∀ i ∈ ord, i < m.len v2) (hr : ∀ i ∈ ord, i < m.len vr) :
    ∃ m', forOrder (elem2 f v1 v2 vr) ord m = .ok m' ∧ (∀ q, q ≠ vr → m' q = m q) ∧
      (∀ q, m'.len q = m.len q) ∧
      ∀ j, (m' vr)[j]? = if j ∈ ord then (do some (f (← (m v1)[j]?) (← (m v2)[j]?))) else (m vr)[j]? := by
  apply Ok.exists
  refine forOrder_sat (all := ord) (I := fun done m' => (∀ q, q ≠ vr → m' q = m q) ∧
      (∀ q, m'.len q = m.len q) ∧
      ∀ j, (m' vr)[j]? = if j ∈ done then (do some (f (← (m v1)[j]?) (← (m v2)[j]?)))
        else (m vr)[j]?) [] ord m rfl (by simp) ?_
  rintro done i rest m' he ⟨ho, hl, hv⟩
  have hi : i ∈ ord := by simp [he]
  have hid : i ∉ done := by
    rw [he] at hnd
    have := (List.nodup_append.mp hnd).2.2
    intro h
    exact this i h i (by simp) rfl
  have key : ∀ v, i < m.len v → (m' v)[i]? = (m v)[i]? := by
    intro v _
    by_cases hq : v = vr
    · subst hq; rw [hv]; simp [hid]
    · rw [ho v hq]
  obtain ⟨a, ha⟩ : ∃ a, (m v1)[i]? = some a := ⟨_, List.getElem?_eq_getElem (h1 i hi)⟩
  obtain ⟨b, hb⟩ : ∃ b, (m v2)[i]? = some b := ⟨_, List.getElem?_eq_getElem (h2 i hi)⟩
  have ra : m'.rd v1 i = .ok a := lrd_some (by rw [key v1 (h1 i hi), ha])
  have rb : m'.rd v2 i = .ok b := lrd_some (by rw [key v2 (h2 i hi), hb])
  have hw : i < m'.len vr := by rw [hl]; exact hr i hi
  simp only [elem2, ra, rb, ok_bind, Mem.wr_ok hw, sat_ok]
  refine ⟨fun q hq => by rw [Mem.upd_other _ hq, ho q hq], fun q => by rw [Mem.len_upd, hl], fun j => ?_⟩
  rw [Mem.upd_same_buf, List.getElem?_set]
  by_cases hj : i = j
  · subst hj
    simp [hw, ha, hb]
  · have : ¬ j = i := fun h => hj h.symm
    simp only [hj, if_false, List.mem_append, List.mem_singleton, this, or_false]
    exact hv j

/-- The buffer which an element-wise loop over `n` elements leaves in the result. -/
def zipPrefix (f : T → T → T) (n : Nat) (a b r : List T) : List T :=
  List.zipWith f (a.take n) (b.take n) ++ r.drop n

theorem zipPrefix_full (f : T → T → T) {n : Nat} {a b r : List T} (ha : a.length = n)
    (hb : b.length = n) (hr : r.length = n) : zipPrefix f n a b r = List.zipWith f a b := by
  simp [zipPrefix, ← ha, List.take_of_length_le (show b.length ≤ a.length by omega),
    List.drop_eq_nil_of_le (show r.length ≤ a.length by omega)]

theorem elem2_perm (f : T → T → T) {v1 v2 vr n : Nat} {m : Mem T} {ord : List Nat}
    (hp : ord.Perm (List.range n)) (h1 : n ≤ m.len v1) (h2 : n ≤ m.len v2) (hr : n ≤ m.len vr) :
    forOrder (elem2 f v1 v2 vr) ord m = .ok (m.setBuf vr (zipPrefix f n (m v1) (m v2) (m vr))) := by
  have hmem : ∀ i, i ∈ ord ↔ i < n := fun i => by rw [hp.mem_iff, List.mem_range]
  obtain ⟨m', hm', ho, hl, hv⟩ := elem2_order f (v1 := v1) (v2 := v2) (vr := vr) (m := m)
    (hp.nodup_iff.mpr List.nodup_range)
    (fun i h => by have := (hmem i).1 h; omega) (fun i h => by have := (hmem i).1 h; omega)
    (fun i h => by have := (hmem i).1 h; omega)
  rw [hm']
  congr 1
  funext q
  by_cases hq : q = vr
  · subst hq
    rw [Mem.setBuf_self]
    apply List.ext_getElem?
    intro j
    rw [hv j]
    have e1 : (m v1).length = m.len v1 := rfl
    have e2 : (m v2).length = m.len v2 := rfl
    by_cases hj : j < n
    · have hlt : j < (List.zipWith f ((m v1).take n) ((m v2).take n)).length := by
        simp; omega
      have d1 : j < (m v1).length := by omega
      have d2 : j < (m v2).length := by omega
      simp only [hmem, hj, if_true]
      rw [zipPrefix, List.getElem?_append_left hlt]
      simp [d1, d2, hj]
    · have hle : (List.zipWith f ((m v1).take n) ((m v2).take n)).length ≤ j := by
        simp; omega
      rw [zipPrefix, List.getElem?_append_right hle]
      simp only [hmem, hj, if_false, List.getElem?_drop]
      congr 1
      simp
      omega
  · rw [ho q hq, Mem.setBuf_other _ hq]

theorem elem2_range (f : T → T → T) {v1 v2 vr n : Nat} {m : Mem T}
    (h1 : n ≤ m.len v1) (h2 : n ≤ m.len v2) (hr : n ≤ m.len vr) :
    forRange 0 n (elem2 f v1 v2 vr) m = .ok (m.setBuf vr (zipPrefix f n (m v1) (m v2) (m vr))) := by
  rw [forRange_eq_forOrder]
  exact elem2_perm f (List.Perm.refl _) h1 h2 hr

theorem elem1_range (f : T → T) {v vr n : Nat} {m : Mem T} (h1 : m.len v = n) (hr : m.len vr = n) :
    forRange 0 n (elem1 f v vr) m = .ok (m.setBuf vr ((m v).map f)) := by
  rw [elem1_eq_elem2, elem2_range _ (by omega) (by omega) (by omega),
    zipPrefix_full _ h1 h1 hr]
  simp [List.zipWith_self]

theorem elem1_perm (f : T → T) {v vr n : Nat} {m : Mem T} {ord : List Nat}
    (hp : ord.Perm (List.range n)) (h1 : m.len v = n) (hr : m.len vr = n) :
    forOrder (elem1 f v vr) ord m = .ok (m.setBuf vr ((m v).map f)) := by
  rw [elem1_eq_elem2, elem2_perm _ hp (by omega) (by omega) (by omega),
    zipPrefix_full _ h1 h1 hr]
  simp [List.zipWith_self]

/-- One iteration of an element-wise loop keeps the lengths of all buffers or leaves one of its buffers. -/
theorem elem2_step (f : T → T → T) (v1 v2 vr : Nat) (len : Nat → Nat) (i : Nat) (m : Mem T) (h : ∀ q, m.len q = len q) :
    Sat (fun m' : Mem T => ∀ q, m'.len q = len q) (fun e => e = .ub .oob) (elem2 f v1 v2 vr i m) := by
  unfold elem2
  by_cases c1 : i < (m v1).length
  · rw [Mem.rd, lrd_ok c1, ok_bind]
    by_cases c2 : i < (m v2).length
    · rw [Mem.rd, lrd_ok c2, ok_bind]
      by_cases c3 : i < m.len vr
      · rw [Mem.wr_ok c3]
        intro q; rw [Mem.len_upd]; exact h q
      · rw [Mem.wr_oob (by omega)]; exact rfl
    · rw [Mem.rd_oob (by show (m v2).length ≤ i; omega)]; exact rfl
  · rw [Mem.rd_oob (by show (m v1).length ≤ i; omega)]; exact rfl

/-- An element-wise loop which leaves one of its buffers is undefined behaviour, in any order of the iterations. -/
theorem elem2_order_oob (f : T → T → T) {v1 v2 vr n : Nat} {m : Mem T} {ord : List Nat}
    (hp : ord.Perm (List.range n)) (h : m.len v1 < n ∨ m.len v2 < n ∨ m.len vr < n) :
    forOrder (elem2 f v1 v2 vr) ord m = .error (.ub .oob) := by
  refine forOrder_fails (I := fun m' : Mem T => ∀ q, m'.len q = m.len q) (j := n - 1)
    (fun i s hs => elem2_step f v1 v2 vr _ i s hs) ?_ ord m (hp.mem_iff.mpr (List.mem_range.mpr (by omega)))
    (fun _ => rfl)
  intro s hs
  unfold elem2
  by_cases c1 : n - 1 < (s v1).length
  · rw [Mem.rd, lrd_ok c1, ok_bind]
    by_cases c2 : n - 1 < (s v2).length
    · have h1 := hs v1
      have h2 := hs v2
      have h3 := hs vr
      rw [Mem.rd, lrd_ok c2, ok_bind, Mem.wr_oob (by rw [Mem.len] at h1 h2; omega)]
    · rw [Mem.rd_oob (by show (s v2).length ≤ _; omega)]; rfl
  · rw [Mem.rd_oob (by show (s v1).length ≤ _; omega)]; rfl

/-- The same for the loop in index order. -/
theorem elem2_oob (f : T → T → T) {v1 v2 vr n : Nat} {m : Mem T}
    (h : m.len v1 < n ∨ m.len v2 < n ∨ m.len vr < n) :
    forRange 0 n (elem2 f v1 v2 vr) m = .error (.ub .oob) := by
  rw [forRange_eq_forOrder]
  exact elem2_order_oob f (List.Perm.refl _) h

theorem addCore_eq [Add T] {ord : List Nat} {m : Mem T} {v1 v2 vr n : Nat}
    (hp : ord.Perm (List.range n)) (h1 : n ≤ m.len v1) (h2 : n ≤ m.len v2) (hr : n ≤ m.len vr) :
    addCore ord m v1 v2 vr n = .ok (m.setBuf vr (zipPrefix (· + ·) n (m v1) (m v2) (m vr))) := by
  unfold addCore addCoreSimd addCoreParallel
  split
  · exact elem2_range _ h1 h2 hr
  · exact elem2_perm _ hp h1 h2 hr

theorem subCore_eq [Sub T] {ord : List Nat} {m : Mem T} {v1 v2 vr n : Nat}
    (hp : ord.Perm (List.range n)) (h1 : n ≤ m.len v1) (h2 : n ≤ m.len v2) (hr : n ≤ m.len vr) :
    subCore ord m v1 v2 vr n = .ok (m.setBuf vr (zipPrefix (· - ·) n (m v1) (m v2) (m vr))) := by
  unfold subCore subCoreSimd subCoreParallel
  split
  · exact elem2_range _ h1 h2 hr
  · exact elem2_perm _ hp h1 h2 hr

@[simp] theorem checkSize_self (n : Nat) : checkSize n n = .ok () := by simp [checkSize]

theorem checkSize_ne {a b : Nat} (h : a ≠ b) :
    checkSize a b = .error (.throw (.sizeMismatched a b)) := by
  have : (a != b) = true := by simpa using h
  rw [checkSize, this, throwIf_true]

theorem addDD_eq [Add T] {ord : List Nat} {m : Mem T} {v1 v2 vr : Nat}
    (hp : ord.Perm (List.range (m.len v1))) (h2 : m.len v2 = m.len v1) (hr : m.len vr = m.len v1) :
    addDD ord m v1 v2 vr = .ok (m.setBuf vr (List.zipWith (· + ·) (m v1) (m v2))) := by
  unfold addDD
  rw [h2, checkSize_self, ok_bind, addCore_eq hp (le_refl _) (by omega) (by omega),
    zipPrefix_full _ rfl h2 hr]

theorem subDD_eq [Sub T] {ord : List Nat} {m : Mem T} {v1 v2 vr : Nat}
    (hp : ord.Perm (List.range (m.len v1))) (h2 : m.len v2 = m.len v1) (hr : m.len vr = m.len v1) :
    subDD ord m v1 v2 vr = .ok (m.setBuf vr (List.zipWith (· - ·) (m v1) (m v2))) := by
  unfold subDD
  rw [h2, checkSize_self, ok_bind, subCore_eq hp (le_refl _) (by omega) (by omega),
    zipPrefix_full _ rfl h2 hr]

theorem addOpAt_eq [Add T] {ord : List Nat} {m : Mem T} {v1 v2 r : Nat}
    (hp : ord.Perm (List.range (m.len v1))) (h : m.len v2 = m.len v1) (h1 : v1 ≠ r) (h2 : v2 ≠ r) :
    addOpAt ord m v1 v2 r = .ok (m.setBuf r (List.zipWith (· + ·) (m v1) (m v2))) := by
  have e1 : m.setBuf r (m v1) v1 = m v1 := Mem.setBuf_other _ h1 _
  have e2 : m.setBuf r (m v1) v2 = m v2 := Mem.setBuf_other _ h2 _
  have e3 : m.setBuf r (m v1) r = m v1 := Mem.setBuf_self _ _ _
  unfold addOpAt
  rw [addDD_eq (by simpa only [Mem.len, e1] using hp) (by simpa only [Mem.len, e1, e2] using h)
    (by simp only [Mem.len, e1, e3]), e1, e2, Mem.setBuf_setBuf]

theorem addOp_eq [Add T] {ord : List Nat} {x y : List T}
    (hp : ord.Perm (List.range x.length)) (h : y.length = x.length) :
    addOp ord x y = .ok (List.zipWith (· + ·) x y) := by
  unfold addOp
  rw [addOpAt_eq (by exact hp) (by exact h) (by decide) (by decide)]
  simp [Mem.ofList]

theorem subOpAt_eq [Sub T] {ord : List Nat} {m : Mem T} {v1 v2 r : Nat}
    (hp : ord.Perm (List.range (m.len v1))) (h : m.len v2 = m.len v1) (h1 : v1 ≠ r) (h2 : v2 ≠ r) :
    subOpAt ord m v1 v2 r = .ok (m.setBuf r (List.zipWith (· - ·) (m v1) (m v2))) := by
  have e1 : m.setBuf r (m v1) v1 = m v1 := Mem.setBuf_other _ h1 _
  have e2 : m.setBuf r (m v1) v2 = m v2 := Mem.setBuf_other _ h2 _
  have e3 : m.setBuf r (m v1) r = m v1 := Mem.setBuf_self _ _ _
  unfold subOpAt
  rw [subDD_eq (by simpa only [Mem.len, e1] using hp) (by simpa only [Mem.len, e1, e2] using h)
    (by simp only [Mem.len, e1, e3]), e1, e2, Mem.setBuf_setBuf]

theorem subOp_eq [Sub T] {ord : List Nat} {x y : List T}
    (hp : ord.Perm (List.range x.length)) (h : y.length = x.length) :
    subOp ord x y = .ok (List.zipWith (· - ·) x y) := by
  unfold subOp
  rw [subOpAt_eq (by exact hp) (by exact h) (by decide) (by decide)]
  simp [Mem.ofList]

theorem negD_eq [Neg T] {m : Mem T} {v vr : Nat} (h : m.len vr = m.len v) :
    negD m v vr = .ok (m.setBuf vr ((m v).map (fun a => -a))) := by
  unfold negD negCoreSimd
  rw [h, checkSize_self, ok_bind, elem1_range _ rfl h]; rfl

theorem negOpAt_eq [Neg T] [Zero T] {m : Mem T} {v r : Nat} (h : v ≠ r) :
    negOpAt m v r = .ok (m.setBuf r ((m v).map (fun a => -a))) := by
  unfold negOpAt
  rw [negD_eq (by simp [Mem.len, Mem.setBuf_other _ h]), Mem.setBuf_other _ h, Mem.setBuf_setBuf]

theorem negOp_eq [Neg T] [Zero T] (x : List T) : negOp x = .ok (x.map (fun a => -a)) := by
  unfold negOp
  rw [negOpAt_eq (by decide)]
  simp [Mem.ofList]

theorem axpyCore_eq [Add T] [Mul T] {alpha : T} {m : Mem T} {x y n : Nat} (hx : m.len x = n)
    (hy : m.len y = n) :
    axpyCore alpha m x y n = .ok (m.setBuf y (List.zipWith (fun a b => alpha * a + b) (m x) (m y))) := by
  unfold axpyCore
  rw [elem2_range _ (by omega) (by omega) (by omega), zipPrefix_full _ hx hy hy]

theorem axpyD_eq [Add T] [Mul T] {alpha : T} {m : Mem T} {x y : Nat} (h : m.len y = m.len x) :
    axpyD alpha m x y =
      .ok (m.setBuf y (List.zipWith (fun a b => alpha * a + b) (m x) (m y))) := by
  unfold axpyD
  rw [h, checkSize_self, ok_bind, axpyCore_eq rfl h]; rfl

theorem scalCore_eq [Mul T] {alpha : T} {m : Mem T} {x n : Nat} (h : m.len x = n) :
    scalCore alpha m x n = .ok (m.setBuf x ((m x).map (fun a => alpha * a))) := by
  unfold scalCore
  exact elem1_range _ h h

theorem smulOpAt_eq [Mul T] (alpha : T) (m : Mem T) (x r : Nat) :
    smulOpAt alpha m x r = .ok (m.setBuf r ((m x).map (fun a => alpha * a))) := by
  unfold smulOpAt
  rw [scalCore_eq (by simp [Mem.len]), Mem.setBuf_self, Mem.setBuf_setBuf, noexcept_ok]

theorem smulOp_eq [Mul T] (alpha : T) (x : List T) :
    smulOp alpha x = .ok (x.map (fun a => alpha * a)) := by
  unfold smulOp
  rw [smulOpAt_eq]
  simp [Mem.ofList]

theorem mulsOp_eq [Mul T] (alpha : T) (x : List T) :
    mulsOp x alpha = .ok (x.map (fun a => alpha * a)) := by
  unfold mulsOp
  rw [scalCore_eq (by simp [Mem.len])]
  simp

theorem divOpAt_eq [Field T] [DecidableEq T] {m : Mem T} {x r : Nat} {alpha : T} (h : alpha ≠ 0) :
    divOpAt m x alpha r = .ok (m.setBuf r ((m x).map (fun a => a / alpha))) := by
  unfold divOpAt reciprocal
  rw [divC_ok h, ok_bind, scalCore_eq (by simp [Mem.len]), Mem.setBuf_self, Mem.setBuf_setBuf,
    noexcept_ok]
  simp [div_eq_mul_inv, mul_comm]

/-- A dot product over `n` elements of a shorter vector is undefined behaviour. -/
theorem dotCore_oob [Add T] [Mul T] {m : Mem T} {x y n : Nat} (h : m.len x < n ∨ m.len y < n) :
    dotCore m x y n = .error (.ub .oob) := by
  have rd : ∀ p i, (∃ v, m.rd p i = .ok v) ∨ m.rd p i = .error (.ub .oob) := fun p i => by
    by_cases c : i < (m p).length
    · exact .inl ⟨_, lrd_ok c⟩
    · exact .inr (Mem.rd_oob (by show (m p).length ≤ i; omega))
  unfold dotCore
  rcases rd x 0 with ⟨a, ea⟩ | ea
  · rcases rd y 0 with ⟨b, eb⟩ | eb
    · rw [ea, eb, ok_bind, ok_bind]
      have h0 : 1 ≤ n - 1 := by
        by_contra hc
        rcases h with h | h
        · rw [Mem.rd_oob (by omega)] at ea; cases ea
        · rw [Mem.rd_oob (by omega)] at eb; cases eb
      refine forRange_fails (I := fun _ => True) (j := n - 1) ?_ ?_ h0 (by omega) trivial
      · intro i r _
        rcases rd x i with ⟨a, ea⟩ | ea
        · rcases rd y i with ⟨b, eb⟩ | eb
          · rw [ea, eb]; exact trivial
          · rw [ea, eb]; exact rfl
        · rw [ea]; exact rfl
      · intro r _
        rcases rd x (n - 1) with ⟨a, ea⟩ | ea
        · rcases h with h | h
          · rw [Mem.rd_oob (by omega)] at ea; cases ea
          · rw [ea, ok_bind, Mem.rd_oob (by omega)]; rfl
        · rw [ea]; rfl
    · rw [ea, eb]; rfl
  · rw [ea]; rfl

section ring
variable [CommRing T]

theorem dotCore_eq {m : Mem T} {x y n : Nat} (h0 : 0 < n) (hx : n ≤ m.len x) (hy : n ≤ m.len y) :
    dotCore m x y n = .ok (∑ i ∈ Finset.range n, m.val x i * m.val y i) := by
  unfold dotCore
  rw [Mem.rd_ok (by omega), ok_bind, Mem.rd_ok (by omega), ok_bind,
    scalar_acc_loop (g := fun i => m.val x i * m.val y i) (by omega)]
  · rw [Finset.range_eq_Ico, Finset.sum_eq_sum_Ico_succ_bot h0]
  · intro k v h1 h2
    rw [Mem.rd_ok (by omega), ok_bind, Mem.rd_ok (by omega), ok_bind]

theorem RedTree.eval_eq {m : Mem T} {x y : Nat} :
    ∀ (t : RedTree), (∀ i ∈ t.leaves, i < m.len x ∧ i < m.len y) →
      t.eval m x y = .ok ((t.leaves.map fun i => m.val x i * m.val y i).sum)
  | .zero, _ => rfl
  | .leaf i, h => by
    have := h i (by simp [leaves])
    simp [eval, leaves, Mem.rd_ok this.1, Mem.rd_ok this.2]
  | .node l r, h => by
    simp only [eval, leaves]
    rw [l.eval_eq (fun i hi => h i (by simp [leaves, hi])), ok_bind,
      r.eval_eq (fun i hi => h i (by simp [leaves, hi])), ok_bind]
    simp

end ring

end Lalib
