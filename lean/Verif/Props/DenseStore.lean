import Verif.Proofs.DenseStore
import Verif.Proofs.Keeps
import Verif.Props.Vec
import Verif.Props.Dense

/-! # Property C72: programs over several vectors and dense matrices -/

namespace Lalib.Props

open Lalib Matrix DnStore

variable {T : Type}

/-! ## Helpers -/

/-- What a statement has to do to the objects `s`, given what it does to the variables. -/
def Follows (r : Res (DnStore T)) : VOut T → Prop
  | .done a => ∃ s, r = .ok s ∧ s.Shows a
  | .throws e => r = .error (.throw e)
  | .stops f => r = .error f

theorem shows_tmpVec {s : DnStore T} {a : VStore T} (h : s.Shows a) {x : Nat} {o : Option (VVal T)} (l : List T)
    (ho : ∀ v, o = some v → v.Shown l) : (vecTmp x s.dim (s.mem.setBuf 0 l)).Shows (a.setVec x o) := by
  refine h.setVec (l := l) ?_ ?_ ho
  · rw [Mem.setBuf_other _ (vbuf_ne x), Mem.setBuf_self, Mem.setBuf_self]
  · intro q h0 h1
    rw [Mem.setBuf_other _ h0, Mem.setBuf_other _ h1, Mem.setBuf_other _ h0]

theorem shows_tmpMat {s : DnStore T} {a : VStore T} (h : s.Shows a) {x : Nat} {o : Option (MVal T)} {d : Nat × Nat}
    (l : List T) (ho : ∀ v, o = some v → v.Shown d l) :
    (matTmp x d s.dim (s.mem.setBuf 0 l)).Shows (a.setMat x o) := by
  refine h.setMat (l := l) ?_ ?_ ho
  · rw [Mem.setBuf_other _ (mbuf_ne x), Mem.setBuf_self, Mem.setBuf_self]
  · intro q h0 h1
    rw [Mem.setBuf_other _ h0, Mem.setBuf_other _ h1, Mem.setBuf_other _ h0]

theorem shows_vecBuf {s : DnStore T} {a : VStore T} (h : s.Shows a) {x : Nat} {o : Option (VVal T)} (l : List T)
    (ho : ∀ v, o = some v → v.Shown l) : DnStore.Shows ⟨s.mem.setBuf (vbuf x) l, s.dim⟩ (a.setVec x o) :=
  h.setVec (Mem.setBuf_self _ _ _) (fun _ _ h1 => Mem.setBuf_other _ h1 _) ho

theorem shows_matBuf {s : DnStore T} {a : VStore T} (h : s.Shows a) {x : Nat} {o : Option (MVal T)} {d : Nat × Nat}
    (l : List T) (ho : ∀ v, o = some v → v.Shown d l) :
    DnStore.Shows ⟨s.mem.setBuf (mbuf x) l, setDim s.dim x d⟩ (a.setMat x o) :=
  h.setMat (Mem.setBuf_self _ _ _) (fun _ _ h1 => Mem.setBuf_other _ h1 _) ho

theorem shows_matBuf' {s : DnStore T} {a : VStore T} (h : s.Shows a) {x : Nat} {o : Option (MVal T)}
    (l : List T) (ho : ∀ v, o = some v → v.Shown (s.dim x) l) :
    DnStore.Shows ⟨s.mem.setBuf (mbuf x) l, s.dim⟩ (a.setMat x o) :=
  h.setMat' (Mem.setBuf_self _ _ _) (fun _ _ h1 => Mem.setBuf_other _ h1 _) ho

theorem vec_len {s : DnStore T} {a : VStore T} (h : s.Shows a) {x : Nat} {u : VVal T} (hu : a.vec x = some u) :
    s.mem.len (vbuf x) = u.n := (h.vec x u hu).len

theorem mat_wf {s : DnStore T} {a : VStore T} (h : s.Shows a) {x : Nat} {u : MVal T} (hu : a.mat x = some u) :
    (s.mref x).Wf s.mem := by
  have := h.mat x u hu
  unfold MatRef.Wf mref
  rw [this.dim]
  exact this.len

theorem mat_dim {s : DnStore T} {a : VStore T} (h : s.Shows a) {x : Nat} {u : MVal T} (hu : a.mat x = some u) :
    s.dim x = (u.n, u.m) := (h.mat x u hu).dim

theorem mat_n {s : DnStore T} {a : VStore T} (h : s.Shows a) {x : Nat} {u : MVal T} (hu : a.mat x = some u) :
    (s.mref x).n = u.n := by unfold mref; rw [mat_dim h hu]

theorem mat_m {s : DnStore T} {a : VStore T} (h : s.Shows a) {x : Nat} {u : MVal T} (hu : a.mat x = some u) :
    (s.mref x).m = u.m := by unfold mref; rw [mat_dim h hu]

section sums
variable [CommRing T]

/-- A row of a matrix times a vector. -/
theorem row_dot {p : MVal T} {d : Nat × Nat} {l : List T} (hp : p.Shown d l) {u : VVal T} {l' : List T} (hu : u.Shown l')
    (h : u.n = p.m) (i : Fin p.n) :
    ∑ k ∈ Finset.range p.m, entry p.m l i k * val0 l' k = (p.a *ᵥ u.as _ h) i := by
  rw [Finset.sum_range]
  apply Finset.sum_congr rfl
  intro k _
  rw [hp.entry i k]
  have := hu.val0 (k.cast h.symm)
  simp only [Fin.val_cast] at this
  rw [this]
  rfl

/-- A row of a matrix times a column of another. -/
theorem row_col {p q : MVal T} {d d' : Nat × Nat} {l l' : List T} (hp : p.Shown d l) (hq : q.Shown d' l')
    (h : q.n = p.m) (i : Fin p.n) (j : Fin q.m) :
    ∑ k ∈ Finset.range p.m, entry p.m l i k * entry q.m l' k j = (p.a * q.as _ _ ⟨h, rfl⟩) i j := by
  rw [Finset.sum_range, Matrix.mul_apply]
  apply Finset.sum_congr rfl
  intro k _
  rw [hp.entry i k]
  have := hq.entry (k.cast h.symm) j
  simp only [Fin.val_cast] at this
  rw [this]
  rfl

end sums

/-! ## C72 -/

/-- One statement does to the objects what it does to the vectors and matrices, exceptions and program ends
included. -/
theorem C72_step [CommRing T] (nd : Bool) (ord : Nat → List Nat) (ho : ∀ n, (ord n).Perm (List.range n)) (st : DnStmt T)
    (s : DnStore T) (a : VStore T) (h : s.Shows a) (hv : st.Valid nd a) : Follows (st.act nd ord s) (st.step a) := by
  cases st with
  | vecNew x l =>
    refine ⟨_, rfl, shows_tmpVec h l ?_⟩
    rintro v ⟨rfl⟩
    exact VVal.shown_of rfl fun i hi => rfl
  | vecFilled x n v =>
    refine ⟨_, rfl, shows_tmpVec h _ ?_⟩
    rintro v ⟨rfl⟩
    exact VVal.shown_of (by simp [dynVecFilled]) fun i hi => by simp [dynVecFilled]
  | vecCopy x y => exact ⟨_, rfl, shows_vecBuf h _ fun v hv => h.vec y v hv⟩
  | vecMove x y left =>
    refine ⟨_, rfl, shows_vecBuf (s := ⟨s.mem.setBuf (vbuf x) (s.mem (vbuf y)), s.dim⟩)
      (shows_vecBuf h _ fun v hv => h.vec y v hv) left ?_⟩
    intro v hv; cases hv
  | vecSet x i v =>
    obtain ⟨u, hu, hi⟩ := hv
    simp only [DnStmt.act, DnStmt.step, hu, Option.map_some]
    rw [Mem.wr_ok (by rw [vec_len h hu]; exact hi), ok_bind, Mem.upd_eq_setBuf]
    refine ⟨_, rfl, shows_vecBuf h _ ?_⟩
    rintro w ⟨rfl⟩
    exact (h.vec x u hu).set i v
  | vecAddTo y z x =>
    obtain ⟨u, v, r, hu, hv, hr, hle⟩ := hv
    simp only [DnStmt.act, DnStmt.step, hu, hv, hr]
    by_cases hn : v.n = u.n
    · rw [dif_pos hn]
      obtain ⟨m', e, hs⟩ := C03_add_partial (ord (s.mem.len (vbuf y))) s.mem (vbuf y) (vbuf z) (vbuf x)
        (by rw [vec_len h hu, vec_len h hv, hn]) (by rw [vec_len h hu, vec_len h hr]; exact hle hn.symm) (ho _)
      rw [e, ok_bind, hs.eq]
      refine ⟨_, rfl, shows_vecBuf h _ ?_⟩
      rintro w ⟨rfl⟩
      exact (h.vec y u hu).into (h.vec z v hv) (h.vec x r hr) hn (hle hn.symm)
    · rw [dif_neg hn, (C02_add _ _ _ _ _ (by rw [vec_len h hu, vec_len h hv]; exact Ne.symm hn)).1, vec_len h hu,
        vec_len h hv]
      rfl
  | vecSubTo y z x =>
    obtain ⟨u, v, r, hu, hv, hr, hle⟩ := hv
    simp only [DnStmt.act, DnStmt.step, hu, hv, hr]
    by_cases hn : v.n = u.n
    · rw [dif_pos hn]
      obtain ⟨m', e, hs⟩ := C03_sub_partial (ord (s.mem.len (vbuf y))) s.mem (vbuf y) (vbuf z) (vbuf x)
        (by rw [vec_len h hu, vec_len h hv, hn]) (by rw [vec_len h hu, vec_len h hr]; exact hle hn.symm) (ho _)
      rw [e, ok_bind, hs.eq]
      refine ⟨_, rfl, shows_vecBuf h _ ?_⟩
      rintro w ⟨rfl⟩
      exact (h.vec y u hu).into (h.vec z v hv) (h.vec x r hr) hn (hle hn.symm)
    · rw [dif_neg hn, (C02_sub _ _ _ _ _ (by rw [vec_len h hu, vec_len h hv]; exact Ne.symm hn)).1, vec_len h hu,
        vec_len h hv]
      rfl
  | vecNegTo y x =>
    obtain ⟨u, r, hu, hr⟩ := hv
    simp only [DnStmt.act, DnStmt.step, hu, hr]
    by_cases hn : u.n = r.n
    · rw [if_pos hn, negD_eq (by rw [vec_len h hu, vec_len h hr, hn]), ok_bind]
      refine ⟨_, rfl, shows_vecBuf h _ ?_⟩
      rintro w ⟨rfl⟩
      exact (h.vec y u hu).map
    · rw [if_neg hn, (C02_noexcept_terminate 0 s.mem (vbuf y) (vbuf x) (by rw [vec_len h hu, vec_len h hr]; exact hn)).1]
      rfl
  | axpy alpha y x =>
    obtain ⟨u, r, hu, hr⟩ := hv
    simp only [DnStmt.act, DnStmt.step, hu, hr]
    by_cases hn : r.n = u.n
    · rw [dif_pos hn, axpyD_eq (by rw [vec_len h hu, vec_len h hr, hn]), ok_bind]
      refine ⟨_, rfl, shows_vecBuf h _ ?_⟩
      rintro w ⟨rfl⟩
      exact (h.vec y u hu).zip (h.vec x r hr) hn
    · rw [dif_neg hn, (C02_noexcept_terminate alpha s.mem (vbuf y) (vbuf x)
        (by rw [vec_len h hu, vec_len h hr]; exact Ne.symm hn)).2.1]
      rfl
  | vecScale alpha x =>
    obtain ⟨u, hu⟩ := hv
    simp only [DnStmt.act, DnStmt.step, hu, Option.map_some]
    unfold scaleV
    rw [scalCore_eq rfl, noexcept_ok, ok_bind]
    refine ⟨_, rfl, shows_vecBuf h _ ?_⟩
    rintro w ⟨rfl⟩
    exact (h.vec x u hu).map
  | vecAdd x y z =>
    obtain ⟨u, v, hu, hv⟩ := hv
    simp only [DnStmt.act, DnStmt.step, hu, hv]
    by_cases hn : v.n = u.n
    · rw [dif_pos hn, addOpAt_eq (ho _) (by rw [vec_len h hu, vec_len h hv, hn]) (vbuf_ne y) (vbuf_ne z), ok_bind]
      refine ⟨_, rfl, shows_tmpVec h _ ?_⟩
      rintro w ⟨rfl⟩
      exact (h.vec y u hu).zip (h.vec z v hv) hn
    · rw [dif_neg hn]
      unfold addOpAt
      have e1 : (s.mem.setBuf 0 (s.mem (vbuf y))).len (vbuf y) = u.n := by
        rw [Mem.len, Mem.setBuf_other _ (vbuf_ne y)]; exact vec_len h hu
      have e2 : (s.mem.setBuf 0 (s.mem (vbuf y))).len (vbuf z) = v.n := by
        rw [Mem.len, Mem.setBuf_other _ (vbuf_ne z)]; exact vec_len h hv
      rw [(C02_add _ _ _ _ _ (by rw [e1, e2]; exact Ne.symm hn)).1, e1, e2]
      rfl
  | vecSub x y z =>
    obtain ⟨u, v, hu, hv⟩ := hv
    simp only [DnStmt.act, DnStmt.step, hu, hv]
    by_cases hn : v.n = u.n
    · rw [dif_pos hn, subOpAt_eq (ho _) (by rw [vec_len h hu, vec_len h hv, hn]) (vbuf_ne y) (vbuf_ne z), ok_bind]
      refine ⟨_, rfl, shows_tmpVec h _ ?_⟩
      rintro w ⟨rfl⟩
      exact (h.vec y u hu).zip (h.vec z v hv) hn
    · rw [dif_neg hn]
      unfold subOpAt
      have e1 : (s.mem.setBuf 0 (s.mem (vbuf y))).len (vbuf y) = u.n := by
        rw [Mem.len, Mem.setBuf_other _ (vbuf_ne y)]; exact vec_len h hu
      have e2 : (s.mem.setBuf 0 (s.mem (vbuf y))).len (vbuf z) = v.n := by
        rw [Mem.len, Mem.setBuf_other _ (vbuf_ne z)]; exact vec_len h hv
      rw [(C02_sub _ _ _ _ _ (by rw [e1, e2]; exact Ne.symm hn)).1, e1, e2]
      rfl
  | vecNeg x y =>
    obtain ⟨u, hu⟩ := hv
    simp only [DnStmt.act, DnStmt.step, hu, Option.map_some]
    rw [negOpAt_eq (vbuf_ne y), ok_bind]
    refine ⟨_, rfl, shows_tmpVec h _ ?_⟩
    rintro w ⟨rfl⟩
    exact (h.vec y u hu).map
  | vecSmul x alpha y =>
    obtain ⟨u, hu⟩ := hv
    simp only [DnStmt.act, DnStmt.step, hu, Option.map_some]
    rw [smulOpAt_eq, ok_bind]
    refine ⟨_, rfl, shows_tmpVec h _ ?_⟩
    rintro w ⟨rfl⟩
    exact (h.vec y u hu).map
  | dotMember x i y z =>
    obtain ⟨u, v, r, hu, hv, hr, hi⟩ := hv
    simp only [DnStmt.act, DnStmt.step, hu, hv, hr, Option.map_some]
    by_cases hn : v.n = u.n
    · have e : dynDot s.mem (vbuf y) (vbuf z) = .ok (u.x ⬝ᵥ v.as _ hn) := by
        unfold dynDot
        rw [vec_len h hu, vec_len h hv, hn, checkSize_self, ok_bind, dotCore_eq (hi hn.symm).1
          (by rw [vec_len h hu]) (by rw [vec_len h hv, hn])]
        have := (h.vec y u hu).dot (h.vec z v hv) hn
        rw [(h.vec y u hu).len] at this
        rw [← this]; rfl
      rw [dif_pos hn, e, ok_bind, Mem.wr_ok (by rw [vec_len h hr]; exact (hi hn.symm).2), ok_bind, Mem.upd_eq_setBuf]
      refine ⟨_, rfl, shows_vecBuf h _ ?_⟩
      rintro w ⟨rfl⟩
      exact (h.vec x r hr).set i _
    · rw [dif_neg hn, C02_member_dot _ _ _ (by rw [vec_len h hu, vec_len h hv]; exact Ne.symm hn), vec_len h hu,
        vec_len h hv]
      rfl
  | dotFree x i y z =>
    obtain ⟨u, v, r, hu, hv, hr, hi⟩ := hv
    simp only [DnStmt.act, DnStmt.step, hu, hv, hr, Option.map_some]
    by_cases hn : v.n = u.n
    · have e : dotDD s.mem (vbuf y) (vbuf z) = .ok (u.x ⬝ᵥ v.as _ hn) := by
        unfold dotDD
        rw [vec_len h hu, vec_len h hv, hn, checkSize_self, ok_bind, dotCore_eq (hi hn.symm).1
          (by rw [vec_len h hu]) (by rw [vec_len h hv, hn])]
        have := (h.vec y u hu).dot (h.vec z v hv) hn
        rw [(h.vec y u hu).len] at this
        rw [← this]; rfl
      rw [dif_pos hn, e, ok_bind, Mem.wr_ok (by rw [vec_len h hr]; exact (hi hn.symm).2), ok_bind, Mem.upd_eq_setBuf]
      refine ⟨_, rfl, shows_vecBuf h _ ?_⟩
      rintro w ⟨rfl⟩
      exact (h.vec x r hr).set i _
    · rw [dif_neg hn, (C02_noexcept_terminate 0 _ _ _ (by rw [vec_len h hu, vec_len h hv]; exact Ne.symm hn)).2.2]
      rfl
  | matNew x n m arr =>
    refine ⟨_, rfl, shows_tmpMat h arr ?_⟩
    rintro v ⟨rfl⟩
    refine ⟨rfl, hv, fun i j => ?_⟩
    have : i.val * m + j.val < arr.length := by rw [show arr.length = n * m from hv]; exact cell_lt i.isLt j.isLt
    simp [this]
  | matFilled x v n m =>
    simp only [DnStmt.act, DnStmt.step]
    rw [filled_eq, ok_bind]
    refine ⟨_, rfl, shows_tmpMat h _ ?_⟩
    rintro w ⟨rfl⟩
    refine ⟨rfl, by simp, fun i j => ?_⟩
    simp [cell_lt i.isLt j.isLt]
  | matDiag x v n =>
    simp only [DnStmt.act, DnStmt.step]
    rw [diagConst_eq, ok_bind]
    refine ⟨_, rfl, shows_tmpMat h _ ?_⟩
    rintro w ⟨rfl⟩
    refine MVal.shown_matOf (fun i j => if i = j then v else 0) _ fun i j => ?_
    simp [Matrix.diagonal_apply, Fin.ext_iff]
  | matIdentity x n =>
    simp only [DnStmt.act, DnStmt.step]
    unfold DMat.identity
    rw [diagConst_eq, ok_bind]
    refine ⟨_, rfl, shows_tmpMat h _ ?_⟩
    rintro w ⟨rfl⟩
    refine MVal.shown_matOf (fun i j => if i = j then 1 else 0) _ fun i j => ?_
    simp [Matrix.one_apply, Fin.ext_iff]
  | matCopy x y => exact ⟨_, rfl, shows_matBuf h _ fun v hv => h.mat y v hv⟩
  | matMove x y => exact ⟨_, rfl, shows_matBuf h _ fun v hv => h.mat y v hv⟩
  | matSet x i j v =>
    obtain ⟨u, hu, hi, hj⟩ := hv
    have hx := h.mat x u hu
    simp only [DnStmt.act, DnStmt.step, hu, Option.map_some]
    rw [mat_dim h hu, Mem.wr_ok (by rw [Mem.len, hx.len]; exact cell_lt hi hj), ok_bind, Mem.upd_eq_setBuf]
    refine ⟨_, rfl, shows_matBuf' h _ ?_⟩
    rintro w ⟨rfl⟩
    rw [mat_dim h hu]
    exact hx.set hi hj v
  | matAddTo b c x =>
    obtain ⟨p, q, r, hp, hq, hr, hnd⟩ := hv
    simp only [DnStmt.act, DnStmt.step, hp, hq, hr]
    by_cases hn : (q.n = p.n ∧ q.m = p.m) ∧ r.n = p.n ∧ r.m = p.m
    · rw [dif_pos hn]
      erw [matAddDD_eq (mat_wf h hp) (mat_wf h hq) (mat_wf h hr)
        (by rw [mat_n h hp, mat_n h hq, mat_m h hp, mat_m h hq]; exact ⟨hn.1.1.symm, hn.1.2.symm⟩)
        (by rw [mat_n h hp, mat_n h hr, mat_m h hp, mat_m h hr]; exact ⟨hn.2.1.symm, hn.2.2.symm⟩) (ho _), ok_bind]
      refine ⟨_, rfl, shows_matBuf' h _ ?_⟩
      rintro w ⟨rfl⟩
      rw [mat_dim h hr, hn.2.1, hn.2.2]
      exact (h.mat b p hp).zip (h.mat c q hq) hn.1
    · rw [dif_neg hn]
      have : nd = false := by
        cases nd with
        | false => rfl
        | true => exact absurd (hnd rfl) hn
      subst this
      rw [(C14_mismatch_debug _ _ _ _ _ ?_).1]
      · rfl
      · rw [mat_n h hp, mat_n h hq, mat_m h hp, mat_m h hq, mat_n h hr, mat_m h hr]
        simp only [ne_eq, Prod.mk.injEq]
        by_contra hc
        rw [not_or, not_not, not_not] at hc
        exact hn ⟨⟨hc.1.1.symm, hc.1.2.symm⟩, hc.2.1.symm, hc.2.2.symm⟩
  | matSubTo b c x =>
    obtain ⟨p, q, r, hp, hq, hr, hnd⟩ := hv
    simp only [DnStmt.act, DnStmt.step, hp, hq, hr]
    by_cases hn : (q.n = p.n ∧ q.m = p.m) ∧ r.n = p.n ∧ r.m = p.m
    · rw [dif_pos hn]
      erw [matSubDD_eq (mat_wf h hp) (mat_wf h hq) (mat_wf h hr)
        (by rw [mat_n h hp, mat_n h hq, mat_m h hp, mat_m h hq]; exact ⟨hn.1.1.symm, hn.1.2.symm⟩)
        (by rw [mat_n h hp, mat_n h hr, mat_m h hp, mat_m h hr]; exact ⟨hn.2.1.symm, hn.2.2.symm⟩) (ho _), ok_bind]
      refine ⟨_, rfl, shows_matBuf' h _ ?_⟩
      rintro w ⟨rfl⟩
      rw [mat_dim h hr, hn.2.1, hn.2.2]
      exact (h.mat b p hp).zip (h.mat c q hq) hn.1
    · rw [dif_neg hn]
      have : nd = false := by
        cases nd with
        | false => rfl
        | true => exact absurd (hnd rfl) hn
      subst this
      rw [(C14_mismatch_debug _ _ _ _ _ ?_).2]
      · rfl
      · rw [mat_n h hp, mat_n h hq, mat_m h hp, mat_m h hq, mat_n h hr, mat_m h hr]
        simp only [ne_eq, Prod.mk.injEq]
        by_contra hc
        rw [not_or, not_not, not_not] at hc
        exact hn ⟨⟨hc.1.1.symm, hc.1.2.symm⟩, hc.2.1.symm, hc.2.2.symm⟩
  | matScale alpha x =>
    obtain ⟨p, hp⟩ := hv
    simp only [DnStmt.act, DnStmt.step, hp, Option.map_some]
    rw [matScale_eq (mat_wf h hp), ok_bind]
    refine ⟨_, rfl, shows_matBuf' h _ ?_⟩
    rintro w ⟨rfl⟩
    rw [mat_dim h hp]
    exact (h.mat x p hp).map
  | matAdd x b c =>
    obtain ⟨p, q, hp, hq, hnd⟩ := hv
    simp only [DnStmt.act, DnStmt.step, hp, hq]
    by_cases hn : q.n = p.n ∧ q.m = p.m
    · rw [dif_pos hn]
      erw [matAddAt_eq (mat_wf h hp) (mat_wf h hq)
        (by rw [mat_n h hp, mat_n h hq, mat_m h hp, mat_m h hq]; exact ⟨hn.1.symm, hn.2.symm⟩) (ho _) (mbuf_ne b)
        (mbuf_ne c), ok_bind]
      refine ⟨_, rfl, shows_tmpMat h _ ?_⟩
      rintro w ⟨rfl⟩
      rw [mat_dim h hp]
      exact (h.mat b p hp).zip (h.mat c q hq) hn
    · rw [dif_neg hn]
      have : nd = false := by
        cases nd with
        | false => rfl
        | true => exact absurd (hnd rfl) hn
      subst this
      unfold matAddAt
      rw [(C14_mismatch_debug _ _ _ _ _ ?_).1]
      · rfl
      · left
        rw [mat_n h hp, mat_n h hq, mat_m h hp, mat_m h hq]
        simp only [ne_eq, Prod.mk.injEq]
        rintro ⟨h1, h2⟩
        exact hn ⟨h1.symm, h2.symm⟩
  | matSub x b c =>
    obtain ⟨p, q, hp, hq, hnd⟩ := hv
    simp only [DnStmt.act, DnStmt.step, hp, hq]
    by_cases hn : q.n = p.n ∧ q.m = p.m
    · rw [dif_pos hn]
      erw [matSubAt_eq (mat_wf h hp) (mat_wf h hq)
        (by rw [mat_n h hp, mat_n h hq, mat_m h hp, mat_m h hq]; exact ⟨hn.1.symm, hn.2.symm⟩) (ho _) (mbuf_ne b)
        (mbuf_ne c), ok_bind]
      refine ⟨_, rfl, shows_tmpMat h _ ?_⟩
      rintro w ⟨rfl⟩
      rw [mat_dim h hp]
      exact (h.mat b p hp).zip (h.mat c q hq) hn
    · rw [dif_neg hn]
      have : nd = false := by
        cases nd with
        | false => rfl
        | true => exact absurd (hnd rfl) hn
      subst this
      unfold matSubAt
      rw [(C14_mismatch_debug _ _ _ _ _ ?_).2]
      · rfl
      · left
        rw [mat_n h hp, mat_n h hq, mat_m h hp, mat_m h hq]
        simp only [ne_eq, Prod.mk.injEq]
        rintro ⟨h1, h2⟩
        exact hn ⟨h1.symm, h2.symm⟩
  | matSmul x alpha b =>
    obtain ⟨p, hp⟩ := hv
    simp only [DnStmt.act, DnStmt.step, hp, Option.map_some]
    rw [matSmulAt_eq (mat_wf h hp), ok_bind]
    refine ⟨_, rfl, shows_tmpMat h _ ?_⟩
    rintro w ⟨rfl⟩
    rw [mat_dim h hp]
    exact (h.mat b p hp).map
  | matNeg x b =>
    obtain ⟨p, hp⟩ := hv
    simp only [DnStmt.act, DnStmt.step, hp, Option.map_some]
    rw [matNegAt_eq (mat_wf h hp), ok_bind]
    refine ⟨_, rfl, shows_tmpMat h _ ?_⟩
    rintro w ⟨rfl⟩
    rw [mat_dim h hp]
    exact (h.mat b p hp).map
  | gemv alpha b v beta w =>
    obtain ⟨p, u, r, hp, hu, hr, hnd⟩ := hv
    simp only [DnStmt.act, DnStmt.step, hp, hu, hr]
    by_cases hn : u.n = p.m ∧ r.n = p.n
    · obtain ⟨s', e, _, _, hs⟩ := C12_mul nd alpha beta (s.mref b) (vbuf v) (vbuf w) s.mem (mat_wf h hp)
        (by rw [vec_len h hu, mat_m h hp]; exact hn.1) (by rw [vec_len h hr, mat_n h hp]; exact hn.2) (mbuf_ne_vbuf b w)
      rw [dif_pos hn, e, ok_bind, hs.eq]
      refine ⟨_, rfl, shows_vecBuf h _ ?_⟩
      rintro t ⟨rfl⟩
      refine VVal.shown_of (by simp [mat_n h hp]) fun i hi => ?_
      have hi' : i < p.n := by simpa [mat_n h hp] using hi
      simp only [List.getElem_map, List.getElem_range, mat_m h hp]
      have e1 := row_dot (h.mat b p hp) (h.vec v u hu) hn.1 ⟨i, hi'⟩
      have := (h.vec w r hr).val0 (Fin.cast hn.2.symm ⟨i, hi'⟩)
      simp only [Fin.val_cast] at this
      show alpha * ∑ k ∈ Finset.range p.m, entry p.m (s.mem (mbuf b)) i k * val0 (s.mem (vbuf v)) k
        + beta * val0 (s.mem (vbuf w)) i = _
      rw [this, e1]
      rfl
    · rw [dif_neg hn]
      have : nd = false := by
        cases nd with
        | false => rfl
        | true => exact absurd (hnd rfl) hn
      subst this
      rw [C12_mismatch_debug _ _ _ _ _ _ ?_]
      · rfl
      · rw [mat_m h hp, mat_n h hp, vec_len h hu, vec_len h hr]
        by_contra hc
        rw [not_or, not_not, not_not] at hc
        exact hn ⟨hc.1.symm, hc.2.symm⟩
  | matVec w b v =>
    obtain ⟨p, u, hp, hu, hnd⟩ := hv
    simp only [DnStmt.act, DnStmt.step, hp, hu]
    by_cases hn : u.n = p.m
    · rw [dif_pos hn, matVecAt_eq (mat_wf h hp) (by rw [vec_len h hu, mat_m h hp]; exact hn) (mbuf_ne b) (vbuf_ne v),
        ok_bind]
      refine ⟨_, rfl, shows_tmpVec h _ ?_⟩
      rintro t ⟨rfl⟩
      refine VVal.shown_of (by simp [mat_n h hp]) fun i hi => ?_
      have hi' : i < p.n := by simpa [mat_n h hp] using hi
      simp only [List.getElem_map, List.getElem_range, mat_m h hp]
      exact row_dot (h.mat b p hp) (h.vec v u hu) hn ⟨i, hi'⟩
    · rw [dif_neg hn]
      have : nd = false := by
        cases nd with
        | false => rfl
        | true => exact absurd (hnd rfl) hn
      subst this
      unfold matVecAt
      rw [mat_m h hp, vec_len h hu, cassert_ne (Ne.symm hn)]
      rfl
  | gemm alpha b c beta x =>
    obtain ⟨p, q, r, hp, hq, hr, hnd⟩ := hv
    simp only [DnStmt.act, DnStmt.step, hp, hq, hr]
    by_cases hn : q.n = p.m ∧ r.n = p.n ∧ r.m = q.m
    · obtain ⟨s', e, _, _, _, _, _, _, hs⟩ := C13_mul nd alpha beta (s.mref b) (s.mref c) (s.mref x) s.mem (mat_wf h hp)
        (mat_wf h hq) (mat_wf h hr) (by rw [mat_n h hp, mat_n h hr, hn.2.1]) (by rw [mat_m h hq, mat_m h hr, hn.2.2])
        (by rw [mat_m h hp, mat_n h hq, hn.1])
      rw [dif_pos hn, e, ok_bind, hs.eq]
      refine ⟨_, rfl, shows_matBuf' h _ ?_⟩
      rintro t ⟨rfl⟩
      rw [mat_dim h hr, mat_n h hr, mat_m h hr, mat_m h hp, hn.2.1, hn.2.2]
      refine MVal.shown_matOf _ _ fun i j => ?_
      have e1 := row_col (h.mat b p hp) (h.mat c q hq) hn.1 i j
      have := (h.mat x r hr).entry (Fin.cast hn.2.1.symm i) (Fin.cast hn.2.2.symm j)
      simp only [Fin.val_cast, hn.2.2] at this
      show alpha * ∑ k ∈ Finset.range p.m, entry p.m (s.mem (mbuf b)) i k * entry q.m (s.mem (mbuf c)) k j
        + beta * entry q.m (s.mem (mbuf x)) i j = _
      rw [this, e1]
      rfl
    · rw [dif_neg hn]
      have : nd = false := by
        cases nd with
        | false => rfl
        | true => exact absurd (hnd rfl) hn
      subst this
      rw [C13_mismatch_debug _ _ _ _ _ _ ?_]
      · rfl
      · rw [mat_n h hp, mat_n h hr, mat_m h hq, mat_m h hr, mat_m h hp, mat_n h hq]
        by_contra hc
        rw [not_or, not_or, not_not, not_not, not_not] at hc
        exact hn ⟨hc.2.2.symm, hc.1.symm, hc.2.1.symm⟩
  | matMul x b c =>
    obtain ⟨p, q, hp, hq, hnd⟩ := hv
    simp only [DnStmt.act, DnStmt.step, hp, hq]
    by_cases hn : q.n = p.m
    · rw [dif_pos hn, matMulAt_eq (mat_wf h hp) (mat_wf h hq) (by rw [mat_m h hp, mat_n h hq, hn]) (mbuf_ne b) (mbuf_ne c),
        ok_bind]
      refine ⟨_, rfl, shows_tmpMat h _ ?_⟩
      rintro t ⟨rfl⟩
      rw [mat_dim h hp, mat_dim h hq, mat_n h hp, mat_m h hq, mat_m h hp]
      refine MVal.shown_matOf _ _ fun i j => ?_
      exact row_col (h.mat b p hp) (h.mat c q hq) hn i j
    · rw [dif_neg hn]
      have : nd = false := by
        cases nd with
        | false => rfl
        | true => exact absurd (hnd rfl) hn
      subst this
      unfold matMulAt
      rw [C13_mismatch_debug _ _ _ _ _ _ ?_]
      · rfl
      · rw [mat_m h hp, mat_n h hq]
        exact Or.inr (Or.inr (Ne.symm hn))

theorem kept_ok {σ : Type} {f : σ → Res σ} {s s' : σ} (h : f s = .ok s') : Kept.run [f] s = ⟨.ok (), s'⟩ := by
  simp only [Kept.run, h]

theorem kept_error {σ : Type} {f : σ → Res σ} {s : σ} {e : Fault} (h : f s = .error e) : Kept.run [f] s = ⟨.error e, s⟩ := by
  simp only [Kept.run, h]

/-- A program does to the objects what it does to the vectors and matrices: the same final values, the same exception
of every statement, or the same end of the program — whatever the orders in which its parallel loops run. -/
theorem C72_program [CommRing T] (nd : Bool) (ord : Nat → Nat → List Nat) (ho : ∀ k n, (ord k n).Perm (List.range n))
    (p : List (DnStmt T)) (s : DnStore T) (a : VStore T) (h : s.Shows a) (hv : DnStmt.ValidAll nd p a) :
    match DnStmt.stepAll p a with
    | .ok (a', o) => ∃ s', DnStmt.runAll nd ord p s = .ok (s', o) ∧ s'.Shows a'
    | .error f => DnStmt.runAll nd ord p s = .error f := by
  induction p generalizing s a ord with
  | nil => exact ⟨s, rfl, h⟩
  | cons st p ih =>
    have h1 := C72_step nd (ord 0) (ho 0) st s a h hv.1
    have hv2 := hv.2
    unfold DnStmt.runAll DnStmt.stepAll
    cases e : st.step a with
    | done a' =>
      rw [e] at h1 hv2
      obtain ⟨s', e', h'⟩ := h1
      have := ih (fun k => ord (k + 1)) (fun k => ho (k + 1)) s' a' h' hv2
      rw [kept_ok e']
      dsimp only
      cases e2 : DnStmt.stepAll p a' with
      | ok r =>
        rw [e2] at this
        obtain ⟨s2, e3, h3⟩ := this
        rw [e3]
        exact ⟨s2, rfl, h3⟩
      | error f => rw [e2] at this; dsimp only at this; rw [this]; rfl
    | throws x =>
      rw [e] at h1 hv2
      have h1 : st.act nd (ord 0) s = .error (.throw x) := h1
      have := ih (fun k => ord (k + 1)) (fun k => ho (k + 1)) s a h hv2
      rw [kept_error h1]
      dsimp only
      cases e2 : DnStmt.stepAll p a with
      | ok r =>
        rw [e2] at this
        obtain ⟨s2, e3, h3⟩ := this
        rw [e3]
        exact ⟨s2, rfl, h3⟩
      | error f => rw [e2] at this; dsimp only at this; rw [this]; rfl
    | stops f =>
      rw [e] at h1
      have h1 : st.act nd (ord 0) s = .error f := h1
      have hf : ∀ x, f ≠ .throw x := by
        intro x hx
        subst hx
        cases st <;> simp only [DnStmt.step] at e <;> (try split at e) <;> (try split at e) <;> cases e
      rw [kept_error h1]
      cases f with
      | throw x => exact absurd rfl (hf x)
      | _ => rfl

/-- Whatever the objects hold and whatever a statement's outcome, it changes only the objects it is directed at
(`std::move` of a vector also changes its source). -/
theorem C72_frame [CommRing T] (nd : Bool) (ord : Nat → List Nat) (st : DnStmt T) (s : DnStore T) (q : Nat) :
    (q ∉ st.vecTargets → (Kept.run [st.act nd ord] s).obj.mem (vbuf q) = s.mem (vbuf q)) ∧
    (q ∉ st.matTargets → (Kept.run [st.act nd ord] s).obj.mem (mbuf q) = s.mem (mbuf q) ∧
      (Kept.run [st.act nd ord] s).obj.dim q = s.dim q) := by
  cases e : st.act nd ord s with
  | error f => rw [kept_error e]; exact ⟨fun _ => rfl, fun _ => ⟨rfl, rfl⟩⟩
  | ok s' =>
    rw [kept_ok e]
    show (_ → s'.mem (vbuf q) = s.mem (vbuf q)) ∧ (_ → s'.mem (mbuf q) = s.mem (mbuf q) ∧ s'.dim q = s.dim q)
    -- a vector result
    have vec : ∀ (x : Nat) (r : Res (Mem T)), Keeps (vbuf x) s.mem r →
        (r >>= fun m => .ok { s with mem := m }) = .ok s' → (q ∉ [x] → s'.mem (vbuf q) = s.mem (vbuf q)) ∧
          (s'.mem (mbuf q) = s.mem (mbuf q) ∧ s'.dim q = s.dim q) := by
      intro x r hk hr
      cases r with
      | error f => cases hr
      | ok m =>
        injection hr with hr
        rw [← hr]
        exact ⟨fun hq => hk m rfl _ fun h => hq (by rw [vbuf_inj.mp h]; simp),
          hk m rfl _ (mbuf_ne_vbuf q x), rfl⟩
    -- a matrix result
    have mat : ∀ (x : Nat) (r : Res (Mem T)), Keeps (mbuf x) s.mem r →
        (r >>= fun m => .ok { s with mem := m }) = .ok s' → s'.mem (vbuf q) = s.mem (vbuf q) ∧
          (q ∉ [x] → s'.mem (mbuf q) = s.mem (mbuf q) ∧ s'.dim q = s.dim q) := by
      intro x r hk hr
      cases r with
      | error f => cases hr
      | ok m =>
        injection hr with hr
        rw [← hr]
        exact ⟨hk m rfl _ (vbuf_ne_mbuf q x),
          fun hq => ⟨hk m rfl _ fun h => hq (by rw [mbuf_inj.mp h]; simp), rfl⟩⟩
    -- a new vector
    have vtmp : ∀ (x : Nat) (r : Res (Mem T)), Keeps 0 s.mem r →
        (r >>= fun m => .ok (vecTmp x s.dim m)) = .ok s' → (q ∉ [x] → s'.mem (vbuf q) = s.mem (vbuf q)) ∧
          (s'.mem (mbuf q) = s.mem (mbuf q) ∧ s'.dim q = s.dim q) := by
      intro x r hk hr
      cases r with
      | error f => cases hr
      | ok m =>
        injection hr with hr
        rw [← hr]
        refine ⟨fun hq => ?_, ?_, rfl⟩
        · show ((m.setBuf (vbuf x) (m 0)).setBuf 0 []) (vbuf q) = _
          rw [Mem.setBuf_other _ (vbuf_ne q), Mem.setBuf_other _ fun h => hq (by rw [vbuf_inj.mp h]; simp)]
          exact hk m rfl _ (vbuf_ne q)
        · show ((m.setBuf (vbuf x) (m 0)).setBuf 0 []) (mbuf q) = _
          rw [Mem.setBuf_other _ (mbuf_ne q), Mem.setBuf_other _ (mbuf_ne_vbuf q x)]
          exact hk m rfl _ (mbuf_ne q)
    -- a new matrix
    have mtmp : ∀ (x : Nat) (d : Nat × Nat) (r : Res (Mem T)), Keeps 0 s.mem r →
        (r >>= fun m => .ok (matTmp x d s.dim m)) = .ok s' → s'.mem (vbuf q) = s.mem (vbuf q) ∧
          (q ∉ [x] → s'.mem (mbuf q) = s.mem (mbuf q) ∧ s'.dim q = s.dim q) := by
      intro x d r hk hr
      cases r with
      | error f => cases hr
      | ok m =>
        injection hr with hr
        rw [← hr]
        refine ⟨?_, fun hq => ⟨?_, ?_⟩⟩
        · show ((m.setBuf (mbuf x) (m 0)).setBuf 0 []) (vbuf q) = _
          rw [Mem.setBuf_other _ (vbuf_ne q), Mem.setBuf_other _ (vbuf_ne_mbuf q x)]
          exact hk m rfl _ (vbuf_ne q)
        · show ((m.setBuf (mbuf x) (m 0)).setBuf 0 []) (mbuf q) = _
          rw [Mem.setBuf_other _ (mbuf_ne q), Mem.setBuf_other _ fun h => hq (by rw [mbuf_inj.mp h]; simp)]
          exact hk m rfl _ (mbuf_ne q)
        · show setDim s.dim x d q = _
          unfold setDim
          rw [if_neg fun h => hq (by rw [h]; simp)]
    have new : ∀ l : List T, Keeps 0 s.mem (.ok (s.mem.setBuf 0 l)) := by
      intro l m' h q hq
      injection h with h
      rw [← h, Mem.setBuf_other _ hq]
    have put : ∀ (x : Nat) (l : List T), Keeps (vbuf x) s.mem (.ok (s.mem.setBuf (vbuf x) l)) := by
      intro x l m' h q hq
      injection h with h
      rw [← h, Mem.setBuf_other _ hq]
    cases st with
    | vecNew x l => exact (vtmp x _ (new l) e).imp id fun h _ => h
    | vecFilled x n v => exact (vtmp x _ (new _) e).imp id fun h _ => h
    | vecCopy x y => exact (vec x _ (put x _) e).imp id fun h _ => h
    | vecMove x y left =>
      injection e with e
      rw [← e]
      refine ⟨fun hq => ?_, fun _ => ⟨?_, rfl⟩⟩
      · simp only [DnStmt.vecTargets, List.mem_cons, List.not_mem_nil, or_false, not_or] at hq
        show ((s.mem.setBuf (vbuf x) (s.mem (vbuf y))).setBuf (vbuf y) left) (vbuf q) = _
        rw [Mem.setBuf_other _ fun h => hq.2 (vbuf_inj.mp h), Mem.setBuf_other _ fun h => hq.1 (vbuf_inj.mp h)]
      · show ((s.mem.setBuf (vbuf x) (s.mem (vbuf y))).setBuf (vbuf y) left) (mbuf q) = _
        rw [Mem.setBuf_other _ (mbuf_ne_vbuf q y), Mem.setBuf_other _ (mbuf_ne_vbuf q x)]
    | vecSet x i v => exact (vec x _ (Keeps.wr _ _ _ _) e).imp id fun h _ => h
    | vecAddTo y z x => exact (vec x _ (Keeps.addDD _ _ _ _ _) e).imp id fun h _ => h
    | vecSubTo y z x => exact (vec x _ (Keeps.subDD _ _ _ _ _) e).imp id fun h _ => h
    | vecNegTo y x => exact (vec x _ (Keeps.negD _ _ _) e).imp id fun h _ => h
    | axpy alpha y x => exact (vec x _ (Keeps.axpyD _ _ _ _) e).imp id fun h _ => h
    | vecScale alpha x => exact (vec x _ (Keeps.noexcept (Keeps.scalCore _ _ _ _)) e).imp id fun h _ => h
    | vecAdd x y z => exact (vtmp x _ (Keeps.fresh (Keeps.addDD _ _ _ _ _)) e).imp id fun h _ => h
    | vecSub x y z => exact (vtmp x _ (Keeps.fresh (Keeps.subDD _ _ _ _ _)) e).imp id fun h _ => h
    | vecNeg x y => exact (vtmp x _ (Keeps.fresh (Keeps.negD _ _ _)) e).imp id fun h _ => h
    | vecSmul x alpha y =>
      exact (vtmp x _ (Keeps.fresh (Keeps.noexcept (Keeps.scalCore _ _ _ _))) e).imp id fun h _ => h
    | dotMember x i y z =>
      refine (vec x (dynDot s.mem (vbuf y) (vbuf z) >>= fun v => s.mem.wr (vbuf x) i v)
        (Keeps.val fun _ => Keeps.wr _ _ _ _) ?_).imp id fun h _ => h
      rw [← e, bind_assoc]
      rfl
    | dotFree x i y z =>
      refine (vec x (dotDD s.mem (vbuf y) (vbuf z) >>= fun v => s.mem.wr (vbuf x) i v)
        (Keeps.val fun _ => Keeps.wr _ _ _ _) ?_).imp id fun h _ => h
      rw [← e, bind_assoc]
      rfl
    | matNew x n m arr => exact (mtmp x _ _ (new _) e).imp (fun h _ => h) id
    | matFilled x v n m =>
      simp only [DnStmt.act, filled_eq, ok_bind] at e
      exact (mtmp x _ _ (new _) e).imp (fun h _ => h) id
    | matDiag x v n =>
      simp only [DnStmt.act, diagConst_eq, ok_bind] at e
      exact (mtmp x _ _ (new _) e).imp (fun h _ => h) id
    | matIdentity x n =>
      simp only [DnStmt.act, DMat.identity, diagConst_eq, ok_bind] at e
      exact (mtmp x _ _ (new _) e).imp (fun h _ => h) id
    | matCopy x y | matMove x y =>
      injection e with e
      rw [← e]
      refine ⟨fun _ => Mem.setBuf_other _ (vbuf_ne_mbuf q x) _, fun hq => ?_⟩
      have hq : q ≠ x := fun h => hq (by rw [h]; simp [DnStmt.matTargets])
      exact ⟨Mem.setBuf_other _ (fun h => hq (mbuf_inj.mp h)) _, if_neg hq⟩
    | matSet x i j v => exact (mat x _ (Keeps.wr _ _ _ _) e).imp (fun h _ => h) id
    | matAddTo a b x => exact (mat x _ (Keeps.matAddDD _ _ _ _ (s.mref x) _) e).imp (fun h _ => h) id
    | matSubTo a b x => exact (mat x _ (Keeps.matSubDD _ _ _ _ (s.mref x) _) e).imp (fun h _ => h) id
    | matScale alpha x => exact (mat x _ (Keeps.matScale _ (s.mref x) _) e).imp (fun h _ => h) id
    | matAdd x a b =>
      exact (mtmp x _ _ (Keeps.fresh (Keeps.noexcept (Keeps.matAddDD _ _ _ _ ⟨0, _, _⟩ _))) e).imp (fun h _ => h) id
    | matSub x a b =>
      exact (mtmp x _ _ (Keeps.fresh (Keeps.noexcept (Keeps.matSubDD _ _ _ _ ⟨0, _, _⟩ _))) e).imp (fun h _ => h) id
    | matSmul x alpha a =>
      exact (mtmp x _ _ (Keeps.fresh (Keeps.noexcept (Keeps.matScale _ ⟨0, _, _⟩ _))) e).imp (fun h _ => h) id
    | matNeg x a =>
      exact (mtmp x _ _ (Keeps.fresh (Keeps.noexcept (Keeps.matScale _ ⟨0, _, _⟩ _))) e).imp (fun h _ => h) id
    | gemv alpha a v beta w => exact (vec w _ (Keeps.gemvDD _ _ _ _ _ _ _) e).imp id fun h _ => h
    | matVec w a v =>
      exact (vtmp w _ (Keeps.noexcept (Keeps.val fun _ => Keeps.fresh (Keeps.gemvCore _ _ _ _ _ _ _ _))) e).imp id
        fun h _ => h
    | gemm alpha a b beta c => exact (mat c _ (Keeps.gemmDDD _ _ _ _ _ (s.mref c) _) e).imp (fun h _ => h) id
    | matMul x a b =>
      exact (mtmp x _ _ (Keeps.fresh (Keeps.noexcept (Keeps.gemmDDD _ _ _ _ _ ⟨0, _, _⟩ _))) e).imp (fun h _ => h) id

/-- Objects that no statement of a program is directed at keep their contents. -/
theorem C72_program_frame [CommRing T] (nd : Bool) (ord : Nat → Nat → List Nat) (p : List (DnStmt T)) (s s' : DnStore T)
    (o : List (Option Exn)) (h : DnStmt.runAll nd ord p s = .ok (s', o)) (q : Nat) :
    ((∀ st ∈ p, q ∉ st.vecTargets) → s'.mem (vbuf q) = s.mem (vbuf q)) ∧
    ((∀ st ∈ p, q ∉ st.matTargets) → s'.mem (mbuf q) = s.mem (mbuf q) ∧ s'.dim q = s.dim q) := by
  induction p generalizing s o ord with
  | nil =>
    injection h with h
    rw [Prod.mk.injEq] at h
    rw [h.1]
    exact ⟨fun _ => rfl, fun _ => ⟨rfl, rfl⟩⟩
  | cons st p ih =>
    have hf := C72_frame nd (ord 0) st s q
    unfold DnStmt.runAll at h
    cases e : DnStmt.runAll nd (fun k => ord (k + 1)) p (Kept.run [st.act nd (ord 0)] s).obj with
    | error f => rw [e] at h; split at h <;> cases h
    | ok r =>
      have : r.1 = s' := by
        rw [e] at h
        split at h
        · injection h with h; exact (Prod.mk.inj h).1
        · injection h with h; exact (Prod.mk.inj h).1
        · cases h
      subst this
      obtain ⟨i1, i2⟩ := ih _ _ r.2 e
      refine ⟨fun hq => ?_, fun hq => ?_⟩
      · rw [i1 fun st' h' => hq st' (by simp [h']), hf.1 (hq st (by simp))]
      · obtain ⟨j1, j2⟩ := i2 fun st' h' => hq st' (by simp [h'])
        obtain ⟨k1, k2⟩ := hf.2 (hq st (by simp))
        rw [j1, j2, k1, k2]
        exact ⟨rfl, rfl⟩

/-- A statement that fails changes nothing at all. -/
theorem C72_failure [CommRing T] (nd : Bool) (ord : Nat → List Nat) (st : DnStmt T) (s : DnStore T)
    (h : (Kept.run [st.act nd ord] s).res ≠ .ok ()) : (Kept.run [st.act nd ord] s).obj = s := by
  cases e : st.act nd ord s with
  | error f => rw [kept_error e]
  | ok s' => rw [kept_ok e] at h; exact absurd rfl h

/-- The represented vector or matrix determines the object. -/
theorem C72_unique (v : VVal T) (w : MVal T) (l l' : List T) (d d' : Nat × Nat) :
    (v.Shown l → v.Shown l' → l = l') ∧ (w.Shown d l → w.Shown d' l' → d = d' ∧ l = l') := by
  refine ⟨fun h h' => h.trans h'.symm, fun h h' => ⟨h.1.trans h'.1.symm, ?_⟩⟩
  refine List.ext_getElem (h.2.1.trans h'.2.1.symm) fun k h1 h2 => ?_
  have hk : k < w.n * w.m := by rw [← h.2.1]; exact h1
  have hm : 0 < w.m := Nat.pos_of_ne_zero fun h0 => by rw [h0] at hk; omega
  have hi : k / w.m < w.n := Nat.div_lt_of_lt_mul (by rwa [Nat.mul_comm])
  have e1 := h.2.2 ⟨k / w.m, hi⟩ ⟨k % w.m, Nat.mod_lt _ hm⟩
  have e2 := h'.2.2 ⟨k / w.m, hi⟩ ⟨k % w.m, Nat.mod_lt _ hm⟩
  simp only [Nat.div_add_mod'] at e1 e2
  rw [List.getElem?_eq_getElem h1] at e1
  rw [List.getElem?_eq_getElem h2] at e2
  rw [← Option.some_inj, e1, e2]

/-- The number of elements and every element that a caller can read are those of the vector. -/
theorem C72_observe (s : DnStore T) (a : VStore T) (h : s.Shows a) :
    (∀ x v, a.vec x = some v → s.mem.len (vbuf x) = v.n ∧ ∀ i : Fin v.n, s.mem.rd (vbuf x) i = .ok (v.x i)) ∧
    (∀ x v, a.mat x = some v → s.dim x = (v.n, v.m) ∧
      ∀ (i : Fin v.n) (j : Fin v.m), s.mem.rd (mbuf x) (i * v.m + j) = .ok (v.a i j)) := by
  refine ⟨fun x v hv => ⟨(h.vec x v hv).len, fun i => ?_⟩, fun x v hv => ⟨(h.mat x v hv).1, fun i j => ?_⟩⟩
  · rw [Mem.rd_eq]
    exact lrd_some (by rw [h.vec x v hv]; simp)
  · rw [Mem.rd_eq]
    exact lrd_some ((h.mat x v hv).2.2 i j)

-- `u = {1, 2}; v = {10, 20, 30}; add(u, u, v); w = u + v (throws); A = {{1, 2}, {3, 4}}; mul(1, A, u, 1, u);
-- mul(2, A, A, -1, A); B = std::move(A); u[0] = u.dot(u)`: `v` keeps its third element, `w` is not assigned,
-- `u` and `A` are overwritten although they are operands, and `A` is still the matrix after `std::move`
example : (DnStmt.runAll false (fun _ => List.range) [.vecNew 0 [1, 2], .vecNew 1 [10, 20, 30], .vecAddTo 0 0 1,
      .vecAdd 2 0 1, .matNew 0 2 2 [1, 2, 3, 4], .gemv 1 0 0 1 0, .gemm 2 0 0 (-1) 0, .matMove 1 0, .dotMember 0 0 0 0]
      ⟨fun _ => [], fun _ => (0, 0)⟩).map (fun r => (r.1.mem 1, r.1.mem 3, r.1.mem 5, r.1.mem 2, r.1.mem 4, r.2)) =
    .ok (([205, 13] : List Int), [2, 4, 30], [], [13, 18, 27, 40], [13, 18, 27, 40],
      [none, none, none, some (.sizeMismatched 2 3), none, none, none, none, none]) := rfl

-- the same program is valid
example : DnStmt.ValidAll false [.vecNew 0 [1, 2], .vecNew 1 [10, 20, 30], .vecAddTo 0 0 1,
      .vecAdd 2 0 1, .matNew 0 2 2 [1, 2, 3, 4], .gemv 1 0 0 1 0, .gemm 2 0 0 (-1) 0, .matMove 1 0, .dotMember 0 0 0 0]
      (⟨fun _ => none, fun _ => none⟩ : VStore Int) :=
  ⟨trivial, trivial, ⟨_, _, _, rfl, rfl, rfl, fun _ => by decide⟩, ⟨_, _, rfl, rfl⟩, rfl,
    ⟨_, _, _, rfl, rfl, rfl, fun h => by cases h⟩, ⟨_, _, _, rfl, rfl, rfl, fun h => by cases h⟩, ⟨_, rfl⟩,
    ⟨_, _, _, rfl, rfl, rfl, fun _ => by decide⟩, trivial⟩

-- `dot(u, v)` of two lengths ends the program, the mismatch of shapes ends it only without `NDEBUG`
example : (DnStmt.runAll false (fun _ => List.range) [.vecNew 0 [1, 2], .vecNew 1 [10, 20, 30], .dotFree 0 0 0 1]
      (⟨fun _ => [], fun _ => (0, 0)⟩ : DnStore Int)).map (fun r => r.2) = .error .terminate := by decide +kernel

example : (DnStmt.runAll false (fun _ => List.range) [.matIdentity 0 2, .matIdentity 1 3, .matMul 0 0 1]
      (⟨fun _ => [], fun _ => (0, 0)⟩ : DnStore Int)).map (fun r => r.2) = .error .assertFail := by decide +kernel

end Lalib.Props
