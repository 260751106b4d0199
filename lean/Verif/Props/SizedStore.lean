import Verif.Proofs.SizedStore
import Verif.Props.DenseStore
import Verif.Props.Views

/-! # Property C106: programs over vectors and matrices of fixed size, and references into them -/

namespace Lalib.Props

open Lalib Matrix

variable {T : Type}

/-! ## Specification -/

/-- What a statement has to do to the objects, given what it does to the variables. -/
def SzFollows (r : Res (Mem T)) : Res (SzVars T) → Prop
  | .ok a => ∃ s, r = .ok s ∧ a.ShownBy s
  | .error f => r = .error f

/-! ## Helpers -/

theorem sz_lawful [CommRing T] (nd : Bool) (ord : Nat → List Nat) : (szLang (T := T) nd ord).Lawful where
  self := fun _ _ _ => Mem.setBuf_self _ _ _
  other := fun _ _ _ _ h => Mem.setBuf_other _ h _

theorem getD_val0 [Zero T] (l : List T) (k : Nat) : l.getD k 0 = val0 l k := by
  simp [val0, List.getD_eq_getElem?_getD]

/-! ## C106 -/

/-- One statement does to the objects what it does to the vectors and matrices, exceptions and program ends
included. -/
theorem C106_step [CommRing T] (nd : Bool) (ord : Nat → List Nat) (ho : ∀ n, (ord n).Perm (List.range n)) (st : SzStmt T)
    (s : Mem T) (a : SzVars T) (h : a.ShownBy s) (hv : st.Valid nd a) : SzFollows (st.act nd ord s) (st.step a) := by
  have add : ∀ {n p q r : Nat} (f : T → T → T), s.len p = n → s.len q = n → s.len r = n →
      s.setBuf r (zipPrefix f n (s p) (s q) (s r)) = s.setBuf r (List.zipWith f (s p) (s q)) := by
    intro n p q r f h1 h2 h3
    rw [zipPrefix_full f h1 h2 h3]
  cases st with
  | vecNew N x l =>
    simp only [SzStmt.act, SzStmt.step]
    by_cases hl : l.length = N
    · rw [dif_pos hl, (C10_sized_vec N l).2 hl, ok_bind]
      exact h.copyVec (VVal.shown_of hl fun i hi => rfl)
    · rw [dif_neg hl, (C10_sized_vec N l).1 hl]
      rfl
  | vecUninit N x => exact h.copyVec (VVal.shown_of (by simp) fun i hi => by simp)
  | vecFilled N x v => exact h.copyVec (VVal.shown_of (by simp [sizedVecFilled]) fun i hi => by simp [sizedVecFilled])
  | vecCopy N x y => exact h.copyVec (h.vval N y)
  | vecSet N x i v => exact h.setElem hv v
  | vecAddTo N y z x =>
    simp only [SzStmt.act, SzStmt.step]
    unfold addSS
    rw [addCore_eq (ho N) (h.vlen N y).ge (h.vlen N z).ge (h.vlen N x).ge, Lalib.noexcept_ok,
      add _ (h.vlen N y) (h.vlen N z) (h.vlen N x)]
    exact ⟨_, rfl, h.setVec ((h.vval N y).zip (h.vval N z) rfl)⟩
  | vecSubTo N y z x =>
    simp only [SzStmt.act, SzStmt.step]
    unfold subSS
    rw [subCore_eq (ho N) (h.vlen N y).ge (h.vlen N z).ge (h.vlen N x).ge, Lalib.noexcept_ok,
      add _ (h.vlen N y) (h.vlen N z) (h.vlen N x)]
    exact ⟨_, rfl, h.setVec ((h.vval N y).zip (h.vval N z) rfl)⟩
  | vecNegTo N y x =>
    simp only [SzStmt.act, SzStmt.step]
    unfold negS negCoreSimd
    rw [elem1_range _ (h.vlen N y) (h.vlen N x), Lalib.noexcept_ok]
    exact ⟨_, rfl, h.setVec ((h.vval N y).map)⟩
  | axpy N alpha y x =>
    simp only [SzStmt.act, SzStmt.step]
    unfold axpyS
    rw [axpyCore_eq (h.vlen N y) (h.vlen N x), Lalib.noexcept_ok]
    exact ⟨_, rfl, h.setVec ((h.vval N y).zip (h.vval N x) rfl)⟩
  | vecScale N alpha x =>
    simp only [SzStmt.act, SzStmt.step]
    unfold scaleV
    rw [scalCore_eq rfl, Lalib.noexcept_ok]
    exact ⟨_, rfl, h.setVec ((h.vval N x).map)⟩
  | vecAdd N x y z =>
    simp only [SzStmt.act, SzStmt.step]
    rw [addOpAt_eq (by rw [h.vlen]; exact ho N) (by rw [h.vlen, h.vlen]) (svBuf_ne N y) (svBuf_ne N z), ok_bind]
    exact h.tmpVec ((h.vval N y).zip (h.vval N z) rfl)
  | vecSub N x y z =>
    simp only [SzStmt.act, SzStmt.step]
    rw [subOpAt_eq (by rw [h.vlen]; exact ho N) (by rw [h.vlen, h.vlen]) (svBuf_ne N y) (svBuf_ne N z), ok_bind]
    exact h.tmpVec ((h.vval N y).zip (h.vval N z) rfl)
  | vecNeg N x y =>
    simp only [SzStmt.act, SzStmt.step]
    rw [negOpAt_eq (svBuf_ne N y), ok_bind]
    exact h.tmpVec ((h.vval N y).map)
  | vecSmul N x alpha y =>
    simp only [SzStmt.act, SzStmt.step]
    rw [smulOpAt_eq, ok_bind]
    exact h.tmpVec ((h.vval N y).map)
  | dotTo K x i N y z =>
    simp only [SzStmt.act, SzStmt.step]
    unfold dotSS
    rw [dotCore_eq hv.2 (h.vlen N y).ge (h.vlen N z).ge, Lalib.noexcept_ok, ok_bind]
    have := (h.vval N y).dot (h.vval N z) rfl
    rw [(h.vval N y).len] at this
    have e : ∑ i ∈ Finset.range N, s.val (svBuf N y) i * s.val (svBuf N z) i = a.vec (N, y) ⬝ᵥ a.vec (N, z) := this
    rw [e]
    exact h.setElem hv.1 _
  | dynNew d l => exact ⟨_, rfl, h.setDyn⟩
  | dynSet d i v =>
    simp only [SzStmt.act, SzStmt.step]
    rw [Mem.wr_ok (by rw [h.dlen]; exact hv), Mem.upd_eq_setBuf, h.dyn]
    exact ⟨_, rfl, h.setDyn⟩
  | addSizedDyn N y d x =>
    simp only [SzStmt.act, SzStmt.step]
    unfold addSD
    rw [h.vlen, h.dlen]
    by_cases hl : (a.dyn d).length = N
    · rw [dif_pos hl, hl, checkSize_self, ok_bind, addCore_eq (ho N) (h.vlen N y).ge (by rw [h.dlen, hl]) (h.vlen N x).ge,
        add _ (h.vlen N y) (by rw [h.dlen, hl]) (h.vlen N x)]
      exact ⟨_, rfl, h.setVec ((h.vval N y).zip (h.dval d) hl)⟩
    · rw [dif_neg hl, checkSize_ne (Ne.symm hl)]
      rfl
  | addDynSized N d y x =>
    simp only [SzStmt.act, SzStmt.step]
    unfold addSD
    rw [h.vlen, h.dlen]
    by_cases hl : (a.dyn d).length = N
    · rw [dif_pos hl, hl, checkSize_self, ok_bind, addCore_eq (ho N) (by rw [h.dlen, hl]) (h.vlen N y).ge (h.vlen N x).ge,
        add _ (by rw [h.dlen, hl]) (h.vlen N y) (h.vlen N x)]
      refine ⟨_, rfl, h.setVec ?_⟩
      subst hl
      exact (h.dval d).zip (h.vval _ y) rfl
    · rw [dif_neg hl, checkSize_ne hl]
      rfl
  | subDynSized N d y x =>
    simp only [SzStmt.act, SzStmt.step]
    unfold subSD
    rw [h.vlen, h.dlen]
    by_cases hl : (a.dyn d).length = N
    · rw [dif_pos hl, hl, checkSize_self, ok_bind, subCore_eq (ho N) (by rw [h.dlen, hl]) (h.vlen N y).ge (h.vlen N x).ge,
        add _ (by rw [h.dlen, hl]) (h.vlen N y) (h.vlen N x)]
      refine ⟨_, rfl, h.setVec ?_⟩
      subst hl
      exact (h.dval d).zip (h.vval _ y) rfl
    · rw [dif_neg hl, checkSize_ne hl]
      rfl
  | dotSizedDyn K x i N y d =>
    simp only [SzStmt.act, SzStmt.step]
    unfold sizedDotDyn
    rw [dotCore_eq hv.2.1 (h.vlen N y).ge (by rw [h.dlen]; exact hv.2.2), Lalib.noexcept_ok, ok_bind, Finset.sum_range]
    have e : (fun k : Fin N => s.val (svBuf N y) k * s.val (dvBuf d) k) =
        fun k : Fin N => a.vec (N, y) k * (a.dyn d).getD k 0 := by
      funext k
      rw [getD_val0, ← h.dyn]
      exact congrArg (· * _) ((h.vval N y).val0 k)
    rw [e]
    exact h.setElem hv.1 _
  | dotDynSized K x i d N y =>
    simp only [SzStmt.act, SzStmt.step]
    unfold dynDot
    rw [h.vlen, h.dlen]
    by_cases hl : (a.dyn d).length = N
    · rw [if_pos hl, hl, checkSize_self, ok_bind, dotCore_eq hv.2 (by rw [h.dlen, hl]) (h.vlen N y).ge, ok_bind,
        Finset.sum_range]
      have e : (fun k : Fin N => s.val (dvBuf d) k * s.val (svBuf N y) k) =
          fun k : Fin N => (a.dyn d).getD k 0 * a.vec (N, y) k := by
        funext k
        rw [getD_val0, ← h.dyn]
        exact congrArg (_ * ·) ((h.vval N y).val0 k)
      rw [e]
      exact h.setElem hv.1 _
    · rw [if_neg hl, checkSize_ne hl]
      rfl
  | matNew N M x l =>
    simp only [SzStmt.act, SzStmt.step]
    by_cases hl : l.length = N * M
    · have e : DMat.newSized N M l = .ok ⟨N, M, l⟩ := by simp [DMat.newSized, hl]
      rw [if_pos hl, e, ok_bind]
      refine h.copyMat ⟨rfl, hl, fun i j => ?_⟩
      have : i.val * M + j.val < l.length := by rw [hl]; exact cell_lt i.isLt j.isLt
      simp [this]
    · rw [if_neg hl, (C10_sized_mat N M l).1 hl]
      rfl
  | matUninit N M x =>
    refine h.copyMat ⟨rfl, by simp [DMat.uninit], fun i j => ?_⟩
    simp [DMat.uninit, cell_lt i.isLt j.isLt]
  | matFilled N M x v =>
    simp only [SzStmt.act, SzStmt.step]
    rw [filled_eq, ok_bind]
    refine h.copyMat ⟨rfl, by simp, fun i j => ?_⟩
    simp [cell_lt i.isLt j.isLt]
  | matDiagOf x l =>
    simp only [SzStmt.act, SzStmt.step]
    rw [diag_eq, ok_bind]
    refine h.copyMat (MVal.shown_matOf (fun i j => if i = j then val0 l i else 0) _ fun i j => ?_)
    by_cases hij : i = j
    · subst hij; simp [val0]
    · simp [hij, Fin.val_inj]
  | matDiag N x v =>
    simp only [SzStmt.act, SzStmt.step]
    rw [diagConst_eq, ok_bind]
    refine h.copyMat (MVal.shown_matOf (fun i j => if i = j then v else 0) _ fun i j => ?_)
    simp [Matrix.diagonal_apply, Fin.ext_iff]
  | matIdentity N x =>
    simp only [SzStmt.act, SzStmt.step]
    unfold DMat.identity
    rw [diagConst_eq, ok_bind]
    refine h.copyMat (MVal.shown_matOf (fun i j => if i = j then 1 else 0) _ fun i j => ?_)
    simp [Matrix.one_apply, Fin.ext_iff]
  | matCopy N M x y => exact h.copyMat (h.mval N M y)
  | matSet N M x i j v =>
    simp only [SzStmt.act, SzStmt.step]
    rw [Mem.wr_ok (by rw [Mem.len, (h.mval N M x).len]; exact cell_lt hv.1 hv.2), Mem.upd_eq_setBuf]
    exact ⟨_, rfl, h.setMat ((h.mval N M x).set hv.1 hv.2 v)⟩
  | matAddTo N M b c x =>
    obtain ⟨⟨s', _, _, e, hs⟩, _⟩ := C14_add_sub nd (ord (N * M)) (smRef N M b) (smRef N M c) (smRef N M x) s (h.wf N M b)
      (h.wf N M c) (h.wf N M x) ⟨rfl, rfl⟩ ⟨rfl, rfl⟩ (ho _)
    simp only [SzStmt.act, SzStmt.step]
    rw [e, hs.eq]
    exact ⟨_, rfl, h.setMat ((h.mval N M b).zip (h.mval N M c) ⟨rfl, rfl⟩)⟩
  | matSubTo N M b c x =>
    obtain ⟨_, ⟨s', _, _, e, hs⟩⟩ := C14_add_sub nd (ord (N * M)) (smRef N M b) (smRef N M c) (smRef N M x) s (h.wf N M b)
      (h.wf N M c) (h.wf N M x) ⟨rfl, rfl⟩ ⟨rfl, rfl⟩ (ho _)
    simp only [SzStmt.act, SzStmt.step]
    rw [e, hs.eq]
    exact ⟨_, rfl, h.setMat ((h.mval N M b).zip (h.mval N M c) ⟨rfl, rfl⟩)⟩
  | matScale N M alpha x =>
    simp only [SzStmt.act, SzStmt.step]
    rw [matScale_eq (h.wf N M x)]
    exact ⟨_, rfl, h.setMat ((h.mval N M x).map)⟩
  | matAdd N M x b c =>
    simp only [SzStmt.act, SzStmt.step]
    erw [matAddAt_eq (h.wf N M b) (h.wf N M c) ⟨rfl, rfl⟩ (ho _) (smBuf_ne N M b) (smBuf_ne N M c), ok_bind]
    exact h.tmpMat ((h.mval N M b).zip (h.mval N M c) ⟨rfl, rfl⟩)
  | matSub N M x b c =>
    simp only [SzStmt.act, SzStmt.step]
    erw [matSubAt_eq (h.wf N M b) (h.wf N M c) ⟨rfl, rfl⟩ (ho _) (smBuf_ne N M b) (smBuf_ne N M c), ok_bind]
    exact h.tmpMat ((h.mval N M b).zip (h.mval N M c) ⟨rfl, rfl⟩)
  | matSmul N M x alpha b =>
    simp only [SzStmt.act, SzStmt.step]
    rw [matSmulAt_eq (h.wf N M b), ok_bind]
    exact h.tmpMat ((h.mval N M b).map)
  | matNeg N M x b =>
    simp only [SzStmt.act, SzStmt.step]
    rw [matNegAt_eq (h.wf N M b), ok_bind]
    exact h.tmpMat ((h.mval N M b).map)
  | gemv N M alpha b v beta w =>
    obtain ⟨s', _, _, e, hs⟩ := C12_mul nd alpha beta (smRef N M b) (svBuf M v) (svBuf N w) s (h.wf N M b) (h.vlen M v)
      (h.vlen N w) (svBuf_smBuf N w N M b).symm
    simp only [SzStmt.act, SzStmt.step]
    rw [e, hs.eq]
    refine ⟨_, rfl, h.setVec (VVal.shown_of (by simp [smRef]) fun i hi => ?_)⟩
    have hi' : i < N := by simpa [smRef] using hi
    simp only [List.getElem_map, List.getElem_range]
    have e1 := row_dot (h.mval N M b) (h.vval M v) rfl ⟨i, hi'⟩
    have e2 := (h.vval N w).val0 ⟨i, hi'⟩
    show alpha * ∑ k ∈ Finset.range M, entry M (s (smBuf N M b)) i k * val0 (s (svBuf M v)) k
      + beta * val0 (s (svBuf N w)) i = _
    erw [e1, e2]
    rfl
  | gemvDyn N M alpha b d beta w =>
    simp only [SzStmt.act, SzStmt.step]
    by_cases hl : (a.dyn d).length = M
    · obtain ⟨s', _, e, _, hs⟩ := C12_mul nd alpha beta (smRef N M b) (dvBuf d) (svBuf N w) s (h.wf N M b)
        (by rw [h.dlen, hl]; rfl) (h.vlen N w) (svBuf_smBuf N w N M b).symm
      rw [dif_pos hl, e, hs.eq]
      refine ⟨_, rfl, h.setVec (VVal.shown_of (by simp [smRef]) fun i hi => ?_)⟩
      have hi' : i < N := by simpa [smRef] using hi
      simp only [List.getElem_map, List.getElem_range]
      have e1 := row_dot (h.mval N M b) (h.dval d) hl ⟨i, hi'⟩
      have e2 := (h.vval N w).val0 ⟨i, hi'⟩
      show alpha * ∑ k ∈ Finset.range M, entry M (s (smBuf N M b)) i k * val0 (s (dvBuf d)) k
        + beta * val0 (s (svBuf N w)) i = _
      erw [e1, e2]
      rfl
    · rw [dif_neg hl]
      have : nd = false := by
        cases nd with
        | false => rfl
        | true => exact absurd (hv rfl) hl
      subst this
      unfold gemvSD
      rw [h.dlen, show (smRef N M b).m = M from rfl, cassert_ne (Ne.symm hl)]
      rfl
  | matVec N M w b v =>
    simp only [SzStmt.act, SzStmt.step]
    rw [matVecAt_eq (h.wf N M b) (h.vlen M v) (smBuf_ne N M b) (svBuf_ne M v), ok_bind]
    refine h.tmpVec (VVal.shown_of (by simp [smRef]) fun i hi => ?_)
    have hi' : i < N := by simpa [smRef] using hi
    simp only [List.getElem_map, List.getElem_range]
    exact row_dot (h.mval N M b) (h.vval M v) rfl ⟨i, hi'⟩
  | gemm N L M alpha b c beta x =>
    obtain ⟨s', _, e, _, _, _, _, _, hs⟩ := C13_mul nd alpha beta (smRef N L b) (smRef L M c) (smRef N M x) s (h.wf N L b)
      (h.wf L M c) (h.wf N M x) rfl rfl rfl
    simp only [SzStmt.act, SzStmt.step]
    rw [e, hs.eq]
    refine ⟨_, rfl, h.setMat (MVal.shown_matOf _ _ fun i j => ?_)⟩
    have e1 := row_col (h.mval N L b) (h.mval L M c) rfl i j
    have e2 := (h.mval N M x).entry i j
    show alpha * ∑ k ∈ Finset.range L, entry L (s (smBuf N L b)) i k * entry M (s (smBuf L M c)) k j
      + beta * entry M (s (smBuf N M x)) i j = _
    erw [e1, e2]
    rfl
  | matMul N L M x b c =>
    simp only [SzStmt.act, SzStmt.step]
    rw [matMulAt_eq (h.wf N L b) (h.wf L M c) rfl (smBuf_ne N L b) (smBuf_ne L M c), ok_bind]
    exact h.tmpMat (MVal.shown_matOf _ _ fun i j => row_col (h.mval N L b) (h.mval L M c) rfl i j)

/-- A program does to the objects what it does to the vectors and matrices: the same final values, the same exception
of every statement, or the same end of the program — whatever the orders in which its parallel loops run, and also
where an operand is the result. -/
theorem C106_program [CommRing T] (nd : Bool) (ord : Nat → Nat → List Nat) (ho : ∀ k n, (ord k n).Perm (List.range n))
    (p : List (SzStmt T)) (s : Mem T) (a : SzVars T) (h : a.ShownBy s) (hv : SzStmt.ValidAll nd p a) :
    match SzStmt.stepAll p a with
    | .ok (a', o) => ∃ s', SzStmt.runAll nd ord p s = .ok (s', o) ∧ a'.ShownBy s'
    | .error f => SzStmt.runAll nd ord p s = .error f := by
  induction p generalizing s a ord with
  | nil => exact ⟨s, rfl, h⟩
  | cons st p ih =>
    have h1 := C106_step nd (ord 0) (ho 0) st s a h hv.1
    have hv2 := hv.2
    unfold SzStmt.runAll SzStmt.stepAll
    cases e : st.step a with
    | ok a' =>
      rw [e] at h1 hv2
      obtain ⟨s', e', h'⟩ := h1
      have := ih (fun k => ord (k + 1)) (fun k => ho (k + 1)) s' a' h' hv2
      rw [e']
      dsimp only
      cases e2 : SzStmt.stepAll p a' with
      | ok r =>
        rw [e2] at this
        obtain ⟨s2, e3, h3⟩ := this
        rw [e3]
        exact ⟨s2, rfl, h3⟩
      | error f => rw [e2] at this; dsimp only at this; rw [this]; rfl
    | error f =>
      rw [e] at h1 hv2
      have h1 : st.act nd (ord 0) s = .error f := h1
      rw [h1]
      cases f with
      | throw x =>
        have := ih (fun k => ord (k + 1)) (fun k => ho (k + 1)) s a h hv2
        dsimp only
        cases e2 : SzStmt.stepAll p a with
        | ok r =>
          rw [e2] at this
          obtain ⟨s2, e3, h3⟩ := this
          rw [e3]
          exact ⟨s2, rfl, h3⟩
        | error f => rw [e2] at this; dsimp only at this; rw [this]; rfl
      | _ => rfl

/-- A reference, pointer or iterator to an element of a `SizedVec` or `SizedMat` stays one to that element: no
statement whatever — copies, moves, constructions, results of operators, stores through other references, statements that
throw — invalidates it. -/
theorem C106_ref [CommRing T] (nd : Bool) (ord : Nat → List Nat) (s s' : VState (Mem T)) (hs : Reachable (szLang nd ord) s)
    (r p k : Nat) (hp : ∃ N M x, p = svBuf N x ∨ p = smBuf N M x) (i : VStmt (SzStmt T) T)
    (hi : Binds (szLang nd ord) s r p k i) (is : List (VStmt (SzStmt T) T)) (hq : NotRebound r is)
    (hr : VStmt.run (szLang nd ord) (i :: is) s = .ok s') : RefersTo (szLang nd ord) s' r p k := by
  have h0 : p ≠ 0 := by
    obtain ⟨N, M, x, rfl | rfl⟩ := hp
    · exact svBuf_ne N x
    · exact smBuf_ne N M x
  have hd : ∀ d, p ≠ dvBuf d := by
    obtain ⟨N, M, x, rfl | rfl⟩ := hp
    · exact svBuf_dvBuf N x
    · exact smBuf_dvBuf N M x
  have key : ∀ (st : SzStmt T) (c : Bool), (∀ u ∈ (szLang nd ord).upd st c, p ∉ u.hits) ∧
      ∀ s s', (szLang nd ord).act st s = .ok s' → ((szLang nd ord).val s p).length ≤ ((szLang nd ord).val s' p).length := by
    intro st c
    refine ⟨?_, fun s s' e => Nat.le_of_eq (SzStmt.act_len nd ord st e h0 fun d _ _ => hd d).symm⟩
    cases st with
    | dynNew d l =>
      intro u hu
      simp only [szLang, SzStmt.upd, List.mem_singleton] at hu
      subst hu
      simpa [Upd.hits] using hd d
    | _ => intro u hu; cases hu
  have leaves : ∀ j ∈ is, j.Leaves (szLang nd ord) r p := by
    intro j hj
    have := hq j hj
    cases j with
    | plain st c => exact key st c
    | given q f c => exact fun v => key (f v) c
    | store => trivial
    | _ => exact this
  obtain ⟨h1, h2⟩ := bound_run _ (sz_lawful nd ord) hs.wf hi leaves hr
  exact refersTo _ (sz_lawful nd ord) h1 h2

/-- The same for a `DynVec` among them, until it is replaced. -/
theorem C106_ref_dyn [CommRing T] (nd : Bool) (ord : Nat → List Nat) (s s' : VState (Mem T))
    (hs : Reachable (szLang nd ord) s) (r d k : Nat) (i : VStmt (SzStmt T) T)
    (hi : Binds (szLang nd ord) s r (dvBuf d) k i) (is : List (VStmt (SzStmt T) T))
    (hq : Quiet (fun st => match st with | .dynNew e _ => [dvBuf e] | _ => []) r (dvBuf d) is)
    (hr : VStmt.run (szLang nd ord) (i :: is) s = .ok s') : RefersTo (szLang nd ord) s' r (dvBuf d) k := by
  have key : ∀ (st : SzStmt T) (c : Bool), dvBuf d ∉ (match st with | .dynNew e _ => [dvBuf e] | _ => []) →
      (∀ u ∈ (szLang nd ord).upd st c, dvBuf d ∉ u.hits) ∧ ∀ s s', (szLang nd ord).act st s = .ok s' →
        ((szLang nd ord).val s (dvBuf d)).length ≤ ((szLang nd ord).val s' (dvBuf d)).length := by
    intro st c hn
    refine ⟨?_, fun s s' e => Nat.le_of_eq (SzStmt.act_len nd ord st e (dvBuf_ne d) fun d' l hst he => ?_).symm⟩
    · cases st with
      | dynNew d' l =>
        intro u hu
        simp only [szLang, SzStmt.upd, List.mem_singleton] at hu
        subst hu
        exact hn
      | _ => intro u hu; cases hu
    · subst hst
      exact hn (by simp [he])
  have leaves : ∀ j ∈ is, j.Leaves (szLang nd ord) r (dvBuf d) := by
    intro j hj
    have := hq j hj
    cases j with
    | plain st c => exact key st c this
    | given q f c => exact fun v => key (f v) c (this v)
    | store => trivial
    | _ => exact this
  obtain ⟨h1, h2⟩ := bound_run _ (sz_lawful nd ord) hs.wf hi leaves hr
  exact refersTo _ (sz_lawful nd ord) h1 h2

theorem vrun_append {St S : Type} {L : Lang St S T} {is js : List (VStmt St T)} {s t : VState S}
    (h : VStmt.run L is s = .ok t) : VStmt.run L (is ++ js) s = VStmt.run L js t := by
  induction is generalizing s with
  | nil => injection h with h; rw [h]; rfl
  | cons i is ih =>
    simp only [VStmt.run] at h
    simp only [List.cons_append, VStmt.run]
    cases e : i.exec L s with
    | ok s1 => rw [e] at h; exact ih h
    | error f =>
      rw [e] at h
      cases f with
      | throw x => exact ih h
      | _ => cases h

/-- A program without references, run in a state with references: the final variables. -/
theorem sz_run_plain [CommRing T] (nd : Bool) (ord : Nat → List Nat) (ho : ∀ n, (ord n).Perm (List.range n))
    (p : List (SzStmt T)) (s : VState (Mem T)) (a a' : SzVars T) (o : List (Option Exn)) (h : a.ShownBy s.st)
    (hv : SzStmt.ValidAll nd p a) (e : SzStmt.stepAll p a = .ok (a', o)) :
    ∃ s', VStmt.run (szLang nd ord) (p.map fun st => VStmt.plain st false) s = .ok s' ∧ a'.ShownBy s'.st := by
  induction p generalizing s a o with
  | nil =>
    injection e with e
    injection e with e1 e2
    subst e1
    exact ⟨s, rfl, h⟩
  | cons st p ih =>
    have h1 := C106_step nd ord ho st s.st a h hv.1
    have hv2 := hv.2
    simp only [SzStmt.stepAll] at e
    simp only [List.map_cons, VStmt.run, VStmt.exec, VStmt.obj]
    cases e1 : st.step a with
    | ok b =>
      rw [e1] at h1 hv2 e
      obtain ⟨t, et, ht⟩ := h1
      dsimp only at e
      cases e2 : SzStmt.stepAll p b with
      | error f => rw [e2] at e; cases e
      | ok q =>
        obtain ⟨b', o'⟩ := q
        rw [e2] at e
        injection e with e
        injection e with e3 e4
        subst e3
        have : (szLang nd ord).act st s.st = .ok t := et
        rw [this, Lalib.ok_bind]
        exact ih _ b o' ht hv2 e2
    | error f =>
      rw [e1] at h1 hv2 e
      have h1 : (szLang nd ord).act st s.st = .error f := h1
      rw [h1]
      cases f with
      | throw x =>
        dsimp only at e
        cases e2 : SzStmt.stepAll p a with
        | error f => rw [e2] at e; cases e
        | ok q =>
          obtain ⟨b', o'⟩ := q
          rw [e2] at e
          injection e with e
          injection e with e3 e4
          subst e3
          exact ih s a o' h hv2 e2
      | _ => cases e

/-- What is read through a reference, taken before a program, to a component of a vector: that component of its final
value. -/
theorem C106_vec_value [CommRing T] (nd : Bool) (ord : Nat → List Nat) (ho : ∀ n, (ord n).Perm (List.range n))
    (p : List (SzStmt T)) (s : VState (Mem T)) (hs : Reachable (szLang nd ord) s) (a a' : SzVars T) (o : List (Option Exn))
    (h : a.ShownBy s.st) (hv : SzStmt.ValidAll nd p a) (e : SzStmt.stepAll p a = .ok (a', o)) (r N x : Nat) (k : Fin N) :
    ∃ s', VStmt.run (szLang nd ord) (.elem r (svBuf N x) k :: p.map fun st => .plain st false) s = .ok s' ∧
      s'.load (szLang nd ord) r = .ok (a'.vec (N, x) k) := by
  have hk : k.val < ((szLang nd ord).val s.st (svBuf N x)).length := by
    show k.val < s.st.len (svBuf N x)
    rw [h.vlen]; exact k.isLt
  obtain ⟨s', e1, h1⟩ := sz_run_plain nd ord ho p (s.bind r (s.sto.own (svBuf N x)) k) a a' o h hv e
  have er : VStmt.run (szLang nd ord) (.elem r (svBuf N x) k :: p.map fun st => .plain st false) s = .ok s' := by
    simp only [VStmt.run, VStmt.exec, if_pos hk]
    exact e1
  refine ⟨s', er, ?_⟩
  obtain ⟨h2, h3, _⟩ := C106_ref nd ord s s' hs r (svBuf N x) k ⟨N, 0, x, .inl rfl⟩ _ (.inl rfl) _
    (by intro i hi; obtain ⟨st, _, rfl⟩ := List.mem_map.mp hi; trivial) er
  rw [h3]
  exact congrArg _ ((h1.vval N x).get k h2)

/-- The same for a matrix. -/
theorem C106_mat_value [CommRing T] (nd : Bool) (ord : Nat → List Nat) (ho : ∀ n, (ord n).Perm (List.range n))
    (p : List (SzStmt T)) (s : VState (Mem T)) (hs : Reachable (szLang nd ord) s) (a a' : SzVars T) (o : List (Option Exn))
    (h : a.ShownBy s.st) (hv : SzStmt.ValidAll nd p a) (e : SzStmt.stepAll p a = .ok (a', o)) (r N M x : Nat) (i : Fin N)
    (j : Fin M) :
    ∃ s', VStmt.run (szLang nd ord) (.elem r (smBuf N M x) (i * M + j) :: p.map fun st => .plain st false) s = .ok s' ∧
      s'.load (szLang nd ord) r = .ok (a'.mat (N, M, x) i j) := by
  have hk : i.val * M + j.val < ((szLang nd ord).val s.st (smBuf N M x)).length := by
    show _ < (s.st (smBuf N M x)).length
    rw [(h.mat N M x).1]; exact cell_lt i.isLt j.isLt
  obtain ⟨s', e1, h1⟩ := sz_run_plain nd ord ho p (s.bind r (s.sto.own (smBuf N M x)) (i * M + j)) a a' o h hv e
  have er : VStmt.run (szLang nd ord) (.elem r (smBuf N M x) (i * M + j) :: p.map fun st => .plain st false) s = .ok s' := by
    simp only [VStmt.run, VStmt.exec, if_pos hk]
    exact e1
  refine ⟨s', er, ?_⟩
  obtain ⟨h2, h3, _⟩ := C106_ref nd ord s s' hs r (smBuf N M x) (i * M + j) ⟨N, M, x, .inr rfl⟩ _ (.inl rfl) _
    (by intro i hi; obtain ⟨st, _, rfl⟩ := List.mem_map.mp hi; trivial) er
  rw [h3]
  have := (h1.mat N M x).2 i j
  have h4 : (s'.st (smBuf N M x))[i.val * M + j.val]? = some ((s'.st (smBuf N M x))[i.val * M + j.val]'h2) :=
    List.getElem?_eq_getElem h2
  rw [h4] at this
  injection this with this
  exact congrArg _ this

/-! ## Examples -/

/-- There are objects for the statements to act on. -/
example : ∃ a : SzVars Int, a.ShownBy (szZero Int) := ⟨_, szZero_shown⟩

/-- `SizedVecTests.CopyConstTest`, `CopyAssignTest`: the copy has the elements, and is not tied to the source. -/
example : (SzStmt.runAll false (fun _ n => List.range n)
      [.vecNew 3 0 [0, 1, 2], .vecNew 3 1 [2, 1, 0], .vecCopy 3 1 0, .vecSet 3 0 0 (7 : Int)] (szZero Int)).map
      (fun r => (r.1 (svBuf 3 0), r.1 (svBuf 3 1), r.2)) =
    .ok ([7, 1, 2], [0, 1, 2], [none, none, none, none]) := by
  obtain ⟨s, e, h⟩ := C106_program false (fun _ n => List.range n) (fun _ _ => .refl _)
    [.vecNew 3 0 [0, 1, 2], .vecNew 3 1 [2, 1, 0], .vecCopy 3 1 0, .vecSet 3 0 0 (7 : Int)] _ _ szZero_shown
    (by simp [SzStmt.ValidAll, SzStmt.Valid, SzStmt.step])
  rw [e]
  simp only [Except.map, h.vec]
  rfl

/-- A list of the wrong length is rejected and leaves the variable as it was; the sum of a `DynVec` of the wrong size
too. -/
example : (SzStmt.runAll false (fun _ n => List.range n)
      [.vecFilled 2 0 5, .vecNew 2 0 [1, 2, 3], .dynNew 0 [1, 2, 3], .addDynSized 2 0 0 0, .dynNew 0 [1, 2],
        .addDynSized 2 0 0 (0 : Nat)] (szZero Int)).map (fun r => (r.1 (svBuf 2 0), r.2)) =
    .ok ([6, 7], [none, some .runtimeError, none, some (.sizeMismatched 3 2), none, none]) := by
  obtain ⟨s, e, h⟩ := C106_program false (fun _ n => List.range n) (fun _ _ => .refl _)
    [.vecFilled 2 0 5, .vecNew 2 0 [1, 2, 3], .dynNew 0 [1, 2, 3], .addDynSized 2 0 0 0, .dynNew 0 [1, 2],
        .addDynSized 2 0 0 (0 : Nat)] _ _ (szZero_shown (T := Int))
    (by simp [SzStmt.ValidAll, SzStmt.Valid, SzStmt.step])
  rw [e]
  simp only [Except.map, h.vec]
  rfl

/-- `SizedMatTests.CopyConstTest`, `CopyAssignTest`, then `a = a * b` for `b` a copy of `a`. -/
example : (SzStmt.runAll true (fun _ n => (List.range n).reverse)
      [.matNew 2 2 0 [1, 2, 3, 4], .matUninit 2 2 1, .matCopy 2 2 1 0, .matMul 2 2 2 0 0 1] (szZero Int)).map
      (fun r => ((r.1 (smBuf 2 2 0))[1]?, (r.1 (smBuf 2 2 1))[1]?)) = .ok (some 10, some 2) := by
  obtain ⟨s, e, h⟩ := C106_program true (fun _ n => (List.range n).reverse) (fun _ n => (List.reverse_perm _))
    [.matNew 2 2 0 [1, 2, 3, 4], .matUninit 2 2 1, .matCopy 2 2 1 0, .matMul 2 2 2 0 0 1] _ _ (szZero_shown (T := Int))
    (by simp [SzStmt.ValidAll, SzStmt.Valid, SzStmt.step])
  rw [e]
  simp only [Except.map]
  have h0 := (h.mat 2 2 0).2 0 1
  have h1 := (h.mat 2 2 1).2 0 1
  rw [show (0 : Fin 2).val * 2 + (1 : Fin 2).val = 1 from rfl] at h0 h1
  rw [h0, h1]
  rfl

/-- `auto& r = x[1]; x = y + x; ` — `r` reads the new element; for a `DynVec` it would dangle (C78). -/
example : ((VStmt.run (szLang false fun n => List.range n) [.plain (.vecFilled 2 0 3) false, .plain (.vecFilled 2 1 4) false,
      .elem 0 (svBuf 2 0) 1, .plain (.vecAdd 2 0 1 0) false] (VState.start (szZero Int))) >>= fun s =>
      s.load (szLang false fun n => List.range n) 0) = .ok 7 := by
  have hz := szZero_shown (T := Int)
  obtain ⟨s1, e1, h1⟩ := sz_run_plain false (fun n => List.range n) (fun _ => .refl _)
    [.vecFilled 2 0 3, .vecFilled 2 1 4] (VState.start (szZero Int)) _ _ [none, none] hz
    (by simp [SzStmt.ValidAll, SzStmt.Valid, SzStmt.step]) rfl
  obtain ⟨s2, e2, h2⟩ := C106_vec_value false (fun n => List.range n) (fun _ => .refl _) [.vecAdd 2 0 1 0] s1
    ⟨_, _, e1⟩ _ _ [none] h1 (by simp [SzStmt.ValidAll, SzStmt.Valid, SzStmt.step]) rfl 0 2 0 1
  have : VStmt.run (szLang false fun n => List.range n) [.plain (.vecFilled 2 0 3) false, .plain (.vecFilled 2 1 4) false,
      .elem 0 (svBuf 2 0) 1, .plain (.vecAdd 2 0 1 0) false] (VState.start (szZero Int)) = .ok s2 := by
    rw [← e2]
    exact vrun_append (L := szLang false fun n => List.range n) (is := [.plain (.vecFilled 2 0 3) false,
      .plain (.vecFilled 2 1 4) false]) (js := [.elem 0 (svBuf 2 0) 1, .plain (.vecAdd 2 0 1 0) false]) e1
  rw [this, Lalib.ok_bind, h2]
  rfl

end Lalib.Props
