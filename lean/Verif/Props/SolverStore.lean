import Verif.Proofs.SolverStore
import Verif.Props.DenseStore
import Verif.Props.Tdma
import Verif.Props.GmresShapes

/-! # Property C82: programs with solver objects -/

namespace Lalib.Props

open Lalib Matrix DnStore SvStore

variable {T : Type}

section
variable [Field T] [LinearOrder T] [IsStrictOrderedRing T] [Sqrt T] [LawfulSqrt T]

/-! ## Helpers -/

/-- The object is what the constructor makes of the matrix. -/
def Built (nd : Bool) : Solver T → SVal T → Prop
  | .chol md n l, v => ∃ (A : Matrix (Fin n) (Fin n) T) (l0 : List T), v = .chol md n A ∧ (⟨n, n, A⟩ : MVal T).Shown (n, n) l0 ∧
      A.IsSymm ∧ (if md then LeadRegular A ∧ Chol.modNew .square n l0 = .ok l else PosForm A ∧ Chol.new .square n l0 = .ok l)
  | .tri a, v => v = .tri a.d.length (triMat a.dl a.d a.du) ∧ TriWf a a.d.length ∧ 2 ≤ a.d.length
  | .ilu a, v => ∃ (n m : Nat) (h : n ≤ m) (A : Matrix (Fin n) (Fin m) T) (L U : Matrix (Fin n) (Fin n) T) (l0 : List T),
      v = .ilu n (L * U) ∧ (⟨n, m, A⟩ : MVal T).Shown (n, m) l0 ∧ IluOf (leadSq A h) L U ∧ Ilu.new dOps ⟨n, m, l0⟩ = .ok a
  | .gmres g, v => ∃ (n : Nat) (A L U : Matrix (Fin n) (Fin n) T) (l0 : List T) (tol : T), v = .gmres n A (L * U) tol ∧
      (⟨n, n, A⟩ : MVal T).Shown (n, n) l0 ∧ IluOf A L U ∧ Gmres.new (dGOps nd) ⟨n, n, l0⟩ tol = .ok g

/-- Every variable that holds something is represented by its object. -/
structure SvShows (nd : Bool) (q : SvStore T) (a : SState T) : Prop where
  dn : q.dn.Shows a.var
  slv : ∀ s v, a.slv s = some v → ∃ o, q.slv s = some o ∧ Built nd o v

/-- What a statement has to do to the objects, given what it does to the variables. -/
def SvFollows (nd : Bool) (r : Res (SvStore T)) : SOut T → Prop
  | .done a => ∃ s, r = .ok s ∧ SvShows nd s a
  | .throws e => r = .error (.throw e)
  | .stops f => r = .error f

omit [IsStrictOrderedRing T] [LawfulSqrt T] in
theorem SvShows.setSlv {nd : Bool} {q : SvStore T} {a : SState T} (h : SvShows nd q a) {s : Nat} {o : Solver T} {v : SVal T}
    (hb : Built nd o v) : SvShows nd { q with slv := SvStore.setSlv q.slv s o } (a.setSlv s v) := by
  refine ⟨h.dn, fun t w hw => ?_⟩
  have hw : (if t = s then some v else a.slv t) = some w := hw
  show ∃ o', (if t = s then some o else q.slv t) = some o' ∧ _
  by_cases ht : t = s
  · rw [if_pos ht] at hw ⊢
    injection hw with hw
    exact ⟨o, rfl, hw ▸ hb⟩
  · rw [if_neg ht] at hw ⊢
    exact h.slv t w hw

omit [IsStrictOrderedRing T] [LawfulSqrt T] in
theorem SvShows.withDn {nd : Bool} {q : SvStore T} {a : SState T} (h : SvShows nd q a) {d : DnStore T} {v : VStore T}
    (hd : d.Shows v) : SvShows nd { q with dn := d } { a with var := v } := ⟨hd, h.slv⟩

/-- The parts of a factorisation object that the solving functions rely on. -/
theorem built_chol {nd : Bool} {o : Solver T} {md : Bool} {n : Nat} {A : Matrix (Fin n) (Fin n) T}
    (h : Built nd o (.chol md n A)) : ∃ l, o = .chol md n l ∧ A.det ≠ 0 ∧
      (∀ (nd : Bool) (m : Mem T) (b r : Nat), m.len b = n → r ≠ b → ∃ x, x.length = n ∧
        Solves n (ext A) (val0 x) (val0 (m b)) ∧
        Chol.solveMutVec nd md .square n l b m = .ok (m.setBuf b x) ∧
        Chol.solveVecAt nd md .square n l b r m = .ok (m.setBuf r x)) ∧
      (∀ (nd : Bool) (m : Mem T) (b : MatRef) (r : Nat), b.Wf m → b.n = n → r ≠ b.buf → ∃ x, x.length = n * b.m ∧
        (∀ k, k < b.m → Solves n (ext A) (fun i => entry b.m x i k) (fun i => entry b.m (m b.buf) i k)) ∧
        Chol.solveMutMat nd md .square n l b m = .ok (m.setBuf b.buf x) ∧
        Chol.solveMatAt nd md .square n l b r m = .ok (m.setBuf r x)) := by
  cases o with
  | chol md' n' l =>
    obtain ⟨A', l0, e, h1, h2, h3⟩ := h
    injection e with e1 e2 e3
    subst e1 e2
    have e3 := eq_of_heq e3
    subst e3
    refine ⟨l, rfl, ?_⟩
    have hl := lower_ext h1
    have hs := symm_ext.mpr h2
    cases md with
    | false =>
      rw [if_neg (by decide)] at h3
      have hp := posDef_ext.mpr h3.1
      refine ⟨(regular_ext.mp hp.regular).det, fun nd m b r hb hr => ?_, fun nd m b r hb hn hr => ?_⟩
      · exact C37_vec nd .square n l0 l (ext A) hl hs hp h3.2 m b r hb hr
      · exact C37_mat nd .square n l0 l (ext A) hl hs hp h3.2 m b r hb hn hr
    | true =>
      rw [if_pos rfl] at h3
      refine ⟨h3.1.det, fun nd m b r hb hr => ?_, fun nd m b r hb hn hr => ?_⟩
      · exact C39_vec nd .square n l0 l (ext A) hl hs h3.2 m b r hb hr
      · exact C39_mat nd .square n l0 l (ext A) hl hs h3.2 m b r hb hn hr
  | tri a => have := h.1; cases this
  | ilu a => obtain ⟨_, _, _, _, _, _, _, e, _⟩ := h; cases e
  | gmres g => obtain ⟨_, _, _, _, _, _, e, _⟩ := h; cases e

omit [IsStrictOrderedRing T] [LawfulSqrt T] in
theorem mat_shown {nd : Bool} {q : SvStore T} {a : SState T} (h : SvShows nd q a) {x n m : Nat}
    {A : Matrix (Fin n) (Fin m) T} (hA : a.Mat x A) :
    q.dn.dim x = (n, m) ∧ (⟨n, m, A⟩ : MVal T).Shown (n, m) (q.dn.mem (mbuf x)) := by
  have := h.dn.mat x _ hA
  have e := this.dim
  rw [e] at this
  exact ⟨e, this⟩

omit [IsStrictOrderedRing T] [Sqrt T] [LawfulSqrt T] in
/-- The incomplete factorisation of a matrix with as many columns as rows or more is that of its leading square block. -/
theorem ilu_wide {n m : Nat} (hnm : n ≤ m) {A : Matrix (Fin n) (Fin m) T} {l0 : List T}
    (hA : (⟨n, m, A⟩ : MVal T).Shown (n, m) l0) :
    (∃ a' F, Ilu.new dOps ⟨n, m, l0⟩ = .ok a' ∧ (∀ i j, i < n → j < n → dOps.get a' i j = .ok (F i j)) ∧
      IsIlu n (ext (leadSq A hnm)) F) ∨
    Ilu.new dOps ⟨n, m, l0⟩ = .error (.throw .runtimeError) ∧ ¬ ∃ F, IsIlu n (ext (leadSq A hnm)) F := by
  have hc : ∀ i j, i < n → j < n → (fun i j => if h : i < n ∧ j < m then A ⟨i, h.1⟩ ⟨j, h.2⟩ else 0) i j =
      ext (leadSq A hnm) i j := by
    intro i j hi hj
    rw [ext_lt _ hi hj]
    exact dif_pos ⟨hi, by omega⟩
  rcases C76_ilu_wide .dense n m hnm ⟨n, m, l0⟩ (fun i j => if h : i < n ∧ j < m then A ⟨i, h.1⟩ ⟨j, h.2⟩ else 0) hA.len
    ⟨rfl, fun i j hi hj => by
      dsimp only
      rw [dif_pos ⟨hi, hj⟩]
      exact lrd_some (hA.2.2 ⟨i, hi⟩ ⟨j, hj⟩)⟩ with ⟨a', F, e, -, hsh, hF⟩ | ⟨e, hF⟩
  · exact .inl ⟨a', F, e, fun i j hi hj => hsh.2 i j hi (by omega), isIlu_congr hc hF⟩
  · exact .inr ⟨e, fun ⟨F, h⟩ => hF ⟨F, isIlu_congr (fun i j hi hj => (hc i j hi hj).symm) h⟩⟩

/-! ## C82 -/

/-- One statement does to the objects what it does to vectors, matrices and systems. -/
theorem C82_step (rt : Nat → Nat) (hrt : SqrtExact rt) (nd : Bool) (ord : Nat → List Nat)
    (ho : ∀ n, (ord n).Perm (List.range n)) (st : SvStmt T) (q : SvStore T) (a : SState T) (h : SvShows nd q a)
    (hv : st.Valid nd a) : ∃ o, st.Does a o ∧ SvFollows nd (st.act rt nd ord q) o := by
  have ndf : ∀ {p : Prop}, (nd = true → p) → ¬ p → nd = false := fun {p} h1 h2 => by
    cases nd with
    | false => rfl
    | true => exact absurd (h1 rfl) h2
  cases st with
  | dense st =>
    refine ⟨_, rfl, ?_⟩
    have := C72_step nd ord ho st q.dn a.var h.dn hv
    simp only [SvStmt.act]
    cases e : st.step a.var with
    | done v =>
      rw [e] at this
      obtain ⟨s, e1, e2⟩ := this
      rw [e1]
      exact ⟨_, rfl, h.withDn e2⟩
    | throws x =>
      rw [e] at this
      have this : st.act nd ord q.dn = .error (.throw x) := this
      rw [this]; rfl
    | stops f =>
      rw [e] at this
      have this : st.act nd ord q.dn = .error f := this
      rw [this]; rfl
  | cholNew s x =>
    obtain ⟨n, A, hA, hs, h0⟩ := hv
    obtain ⟨hd, hA'⟩ := mat_shown h hA
    have hl := lower_ext hA'
    simp only [SvStmt.act]
    rw [hd]
    by_cases hp : PosForm A
    · obtain ⟨L, hL, _⟩ := C35_factor .square n _ (ext A) hl (symm_ext.mpr hs) (posDef_ext.mpr hp)
      refine ⟨_, ⟨n, A, hA, Or.inl ⟨hp, rfl⟩⟩, ?_⟩
      show SvFollows nd (Chol.new .square n (q.dn.mem (mbuf x)) >>= _) _
      rw [hL]
      exact ⟨_, rfl, h.setSlv ⟨A, _, rfl, hA', hs, by rw [if_neg (by decide)]; exact ⟨hp, hL⟩⟩⟩
    · refine ⟨_, ⟨n, A, hA, Or.inr ⟨hp, rfl⟩⟩, ?_⟩
      show SvFollows nd (Chol.new .square n (q.dn.mem (mbuf x)) >>= _) _
      have hn : 0 < n := Nat.pos_of_ne_zero fun h => hp fun x hx => by subst h; exact absurd (Subsingleton.elim _ _) hx
      rw [C36_rejects_partial .square n _ (ext A) hl (symm_ext.mpr hs) (by rw [ext_lt A hn hn]; exact h0 _ rfl)
        (fun h => hp (posDef_ext.mp h))]
      rfl
  | modCholNew s x =>
    obtain ⟨n, A, hA, hs⟩ := hv
    obtain ⟨hd, hA'⟩ := mat_shown h hA
    have hl := lower_ext hA'
    simp only [SvStmt.act]
    rw [hd]
    by_cases hp : LeadRegular A
    · obtain ⟨L, hL, _⟩ := C38_factor .square n _ (ext A) hl (symm_ext.mpr hs) (regular_ext.mpr hp)
      refine ⟨_, ⟨n, A, hA, Or.inl ⟨hp, rfl⟩⟩, ?_⟩
      show SvFollows nd (Chol.modNew .square n (q.dn.mem (mbuf x)) >>= _) _
      rw [hL]
      exact ⟨_, rfl, h.setSlv ⟨A, _, rfl, hA', hs, by rw [if_pos rfl]; exact ⟨hp, hL⟩⟩⟩
    · refine ⟨_, ⟨n, A, hA, Or.inr ⟨hp, rfl⟩⟩, ?_⟩
      show SvFollows nd (Chol.modNew .square n (q.dn.mem (mbuf x)) >>= _) _
      rw [(C38_throws .square n _ (ext A) hl (symm_ext.mpr hs)).mpr fun h => hp (regular_ext.mp h)]
      rfl
  | triNew s dl d du =>
    exact ⟨_, rfl, _, rfl, h.setSlv ⟨rfl, ⟨rfl, hv.1, hv.2.1, hv.2.2.2⟩, hv.2.2.1⟩⟩
  | iluNew s x =>
    obtain ⟨n, m, A, hnm, hA⟩ := hv
    obtain ⟨hd, hA'⟩ := mat_shown h hA
    simp only [SvStmt.act, SvStore.dmat]
    rw [hd]
    show ∃ o, _ ∧ SvFollows nd (Ilu.new dOps ⟨n, m, q.dn.mem (mbuf x)⟩ >>= _) _
    rcases ilu_wide hnm hA' with ⟨a', F, e, -, hF⟩ | ⟨e, hF⟩
    · refine ⟨_, ⟨n, m, hnm, A, hA, Or.inl ⟨_, _, ilu_of hF, rfl⟩⟩, ?_⟩
      rw [e]
      exact ⟨_, rfl, h.setSlv ⟨n, m, hnm, A, _, _, _, rfl, hA', ilu_of hF, e⟩⟩
    · refine ⟨_, ⟨n, m, hnm, A, hA, Or.inr ⟨fun hp => hF (exists_ilu.mpr hp), rfl⟩⟩, ?_⟩
      rw [e]
      rfl
  | gmresNew s x tol =>
    obtain ⟨n, A, hA⟩ := hv
    obtain ⟨hd, hA'⟩ := mat_shown h hA
    have hsh := shows_ext hA'
    have hok : (⟨n, n, q.dn.mem (mbuf x)⟩ : DMat T).elems.length = n * n := hA'.len
    simp only [SvStmt.act, SvStore.dmat]
    rw [hd]
    show ∃ o, _ ∧ SvFollows nd (Gmres.new (dGOps nd) ⟨n, n, q.dn.mem (mbuf x)⟩ tol >>= _) _
    have e0 : Gmres.new (dGOps nd) ⟨n, n, q.dn.mem (mbuf x)⟩ tol =
      Ilu.new dOps ⟨n, n, q.dn.mem (mbuf x)⟩ >>= fun lu => .ok ⟨⟨n, n, q.dn.mem (mbuf x)⟩, lu, tol⟩ := rfl
    by_cases hp : ∃ L U, IluOf A L U
    · rcases C40_factor .dense n ⟨n, n, q.dn.mem (mbuf x)⟩ (ext A) hok hsh with ⟨a', F, e, -, -, -⟩ | e
      · obtain ⟨L, U, hLU⟩ := hp
        refine ⟨_, ⟨n, A, hA, Or.inl ⟨L, U, hLU, rfl⟩⟩, ?_⟩
        rw [e] at e0
        rw [e0]
        exact ⟨_, rfl, h.setSlv ⟨n, A, L, U, _, tol, rfl, hA', hLU, e0⟩⟩
      · exact absurd (exists_ilu.mpr hp) ((C41_iff .dense n _ (ext A) hok hsh).mp e)
    · refine ⟨_, ⟨n, A, hA, Or.inr ⟨hp, rfl⟩⟩, ?_⟩
      rw [e0, (C41_iff .dense n _ (ext A) hok hsh).mpr fun h => hp (exists_ilu.mp h)]
      rfl
  | cholSolveMut s v =>
    obtain ⟨md, n, A, m, b, hs, hb, hn⟩ := hv
    obtain ⟨o, eo, hbt⟩ := h.slv s _ hs
    obtain ⟨l, rfl, hdet, hvec, -⟩ := built_chol hbt
    have hb' := h.dn.vec v _ hb
    have hlen : q.dn.mem.len (vbuf v) = m := hb'.len
    simp only [SvStmt.act, SvStmt.withSlv, eo]
    by_cases hm : m = n
    · subst hm
      obtain ⟨x, hx, hsol, e, -⟩ := hvec nd q.dn.mem (vbuf v) 0 hlen (vbuf_ne v).symm
      refine ⟨_, ⟨md, m, A, m, b, hs, hb, by rw [dif_pos rfl]⟩, ?_⟩
      rw [e]
      refine ⟨_, rfl, h.withDn (shows_vecBuf h.dn x ?_)⟩
      rintro w ⟨rfl⟩
      exact shown_solve (sqM_ext A) hdet hb' hx hsol
    · refine ⟨_, ⟨md, n, A, m, b, hs, hb, by rw [dif_neg hm]⟩, ?_⟩
      have : nd = false := ndf hn hm
      subst this
      unfold Chol.solveMutVec
      rw [hlen]
      have : (n == m) = false := beq_eq_false_iff_ne.mpr (Ne.symm hm)
      rw [this]
      rfl
  | cholSolve w s v =>
    obtain ⟨md, n, A, m, b, hs, hb, hn⟩ := hv
    obtain ⟨o, eo, hbt⟩ := h.slv s _ hs
    obtain ⟨l, rfl, hdet, hvec, -⟩ := built_chol hbt
    have hb' := h.dn.vec v _ hb
    have hlen : q.dn.mem.len (vbuf v) = m := hb'.len
    simp only [SvStmt.act, SvStmt.withSlv, eo]
    by_cases hm : m = n
    · subst hm
      obtain ⟨x, hx, hsol, -, e⟩ := hvec nd q.dn.mem (vbuf v) 0 hlen (vbuf_ne v).symm
      refine ⟨_, ⟨md, m, A, m, b, hs, hb, by rw [dif_pos rfl]⟩, ?_⟩
      rw [e]
      refine ⟨_, rfl, h.withDn (shows_tmpVec h.dn x ?_)⟩
      rintro w ⟨rfl⟩
      exact shown_solve (sqM_ext A) hdet hb' hx hsol
    · refine ⟨_, ⟨md, n, A, m, b, hs, hb, by rw [dif_neg hm]⟩, ?_⟩
      have : nd = false := ndf hn hm
      subst this
      unfold Chol.solveVecAt
      rw [hlen]
      have : (n == m) = false := beq_eq_false_iff_ne.mpr (Ne.symm hm)
      rw [this]
      rfl
  | cholSolveMutMat s x =>
    obtain ⟨md, n, A, m, k, B, hs, hb, hn⟩ := hv
    obtain ⟨o, eo, hbt⟩ := h.slv s _ hs
    obtain ⟨l, rfl, hdet, -, hmat⟩ := built_chol hbt
    have hb' := h.dn.mat x _ hb
    have hbn : (q.dn.mref x).n = m := mat_n h.dn hb
    have hbm : (q.dn.mref x).m = k := mat_m h.dn hb
    have hbw := mat_wf h.dn hb
    simp only [SvStmt.act, SvStmt.withSlv, eo]
    by_cases hm : m = n
    · subst hm
      obtain ⟨y, hy, hsol, e, -⟩ := hmat nd q.dn.mem (q.dn.mref x) 0 hbw hbn (mbuf_ne x).symm
      rw [hbm] at hy hsol
      refine ⟨_, ⟨md, m, A, m, k, B, hs, hb, by rw [dif_pos rfl]⟩, ?_⟩
      rw [e]
      refine ⟨_, rfl, h.withDn (shows_matBuf' h.dn y ?_)⟩
      rintro w ⟨rfl⟩
      rw [mat_dim h.dn hb]
      exact shown_solveMat (sqM_ext A) hdet hb' hy hsol
    · refine ⟨_, ⟨md, n, A, m, k, B, hs, hb, by rw [dif_neg hm]⟩, ?_⟩
      have : nd = false := ndf hn hm
      subst this
      unfold Chol.solveMutMat
      rw [hbn]
      have : (n == m) = false := beq_eq_false_iff_ne.mpr (Ne.symm hm)
      rw [this]
      rfl
  | cholSolveMat w s x =>
    obtain ⟨md, n, A, m, k, B, hs, hb, hn⟩ := hv
    obtain ⟨o, eo, hbt⟩ := h.slv s _ hs
    obtain ⟨l, rfl, hdet, -, hmat⟩ := built_chol hbt
    have hb' := h.dn.mat x _ hb
    have hbn : (q.dn.mref x).n = m := mat_n h.dn hb
    have hbm : (q.dn.mref x).m = k := mat_m h.dn hb
    have hbw := mat_wf h.dn hb
    simp only [SvStmt.act, SvStmt.withSlv, eo]
    by_cases hm : m = n
    · subst hm
      obtain ⟨y, hy, hsol, -, e⟩ := hmat nd q.dn.mem (q.dn.mref x) 0 hbw hbn (mbuf_ne x).symm
      rw [hbm] at hy hsol
      refine ⟨_, ⟨md, m, A, m, k, B, hs, hb, by rw [dif_pos rfl]⟩, ?_⟩
      rw [e]
      refine ⟨_, rfl, h.withDn (shows_tmpMat h.dn y ?_)⟩
      rintro w ⟨rfl⟩
      rw [mat_dim h.dn hb]
      exact shown_solveMat (sqM_ext A) hdet hb' hy hsol
    · refine ⟨_, ⟨md, n, A, m, k, B, hs, hb, by rw [dif_neg hm]⟩, ?_⟩
      have : nd = false := ndf hn hm
      subst this
      unfold Chol.solveMatAt
      rw [hbn]
      have : (n == m) = false := beq_eq_false_iff_ne.mpr (Ne.symm hm)
      rw [this]
      rfl
  | triSolve s v w =>
    obtain ⟨n, A, m, m', b, c, hs, hb, hc, hr, hn, hm'⟩ := hv
    obtain ⟨o, eo, hbt⟩ := h.slv s _ hs
    cases o with
    | tri t =>
      obtain ⟨e, hw, h2⟩ := hbt
      injection e with e1 e2
      subst e1
      have e2 := eq_of_heq e2
      subst e2
      have hb' := h.dn.vec v _ hb
      have hlen : q.dn.mem.len (vbuf v) = m := hb'.len
      have hlc : q.dn.mem.len (vbuf w) = m' := (h.dn.vec w _ hc).len
      simp only [SvStmt.act, SvStmt.withSlv, eo]
      by_cases hm : m = t.d.length
      · subst hm
        obtain ⟨l, mm, e, hst, hl, hsol⟩ := C34_vec_partial nd t t.d.length hw h2 (vbuf v) (vbuf w) q.dn.mem hlen
          (by rw [hlc, hm']) ((triFull_regular t.dl t.d t.du).mpr hr)
        refine ⟨_, ⟨_, _, _, b, hs, hb, by rw [dif_pos rfl]⟩, ?_⟩
        rw [e, hst.eq]
        refine ⟨_, rfl, h.withDn (shows_vecBuf h.dn l ?_)⟩
        rintro w ⟨rfl⟩
        exact shown_solve (triFull_mat t.dl t.d t.du) hr.det hb' hl hsol
      · refine ⟨_, ⟨_, _, _, b, hs, hb, by rw [dif_neg hm]⟩, ?_⟩
        have : nd = false := ndf hn hm
        subst this
        unfold Tdma.solveVec
        rw [hlen]
        have : (t.shape.1 == m) = false := beq_eq_false_iff_ne.mpr (Ne.symm hm)
        rw [this]
        rfl
    | chol md n l => obtain ⟨_, _, e, _⟩ := hbt; cases e
    | ilu a => obtain ⟨_, _, _, _, _, _, _, e, _⟩ := hbt; cases e
    | gmres g => obtain ⟨_, _, _, _, _, _, e, _⟩ := hbt; cases e
  | triSolveMat s x w =>
    obtain ⟨n, A, m, k, m', k', B, C, hs, hb, hc, hr, hn⟩ := hv
    obtain ⟨o, eo, hbt⟩ := h.slv s _ hs
    cases o with
    | tri t =>
      obtain ⟨e, hw, h2⟩ := hbt
      injection e with e1 e2
      subst e1
      have e2 := eq_of_heq e2
      subst e2
      have hb' := h.dn.mat x _ hb
      have hbn : (q.dn.mref x).n = m := mat_n h.dn hb
      have hbm : (q.dn.mref x).m = k := mat_m h.dn hb
      have hcn : (q.dn.mref w).n = m' := mat_n h.dn hc
      have hcm : (q.dn.mref w).m = k' := mat_m h.dn hc
      simp only [SvStmt.act, SvStmt.withSlv, eo]
      by_cases hm : m = t.d.length ∧ m' = t.d.length ∧ k' = k
      · obtain ⟨rfl, rfl, rfl⟩ := hm
        obtain ⟨l, mm, e, hst, hl, hsol⟩ := C34_mat_partial nd t t.d.length hw h2 (q.dn.mref x) (q.dn.mref w) q.dn.mem
          (mat_wf h.dn hb) (mat_wf h.dn hc) hbn hcn (by rw [hcm, hbm]) ((triFull_regular t.dl t.d t.du).mpr hr)
        rw [hbm] at hl hsol
        refine ⟨_, ⟨_, _, _, _, _, _, B, C, hs, hb, hc, by rw [dif_pos ⟨rfl, rfl, rfl⟩]⟩, ?_⟩
        rw [e, hst.eq]
        refine ⟨_, rfl, h.withDn (shows_matBuf' h.dn l ?_)⟩
        rintro w ⟨rfl⟩
        rw [mat_dim h.dn hc]
        exact shown_solveMat (triFull_mat t.dl t.d t.du) hr.det hb' hl hsol
      · refine ⟨_, ⟨_, _, _, _, _, _, B, C, hs, hb, hc, by rw [dif_neg hm]⟩, ?_⟩
        have : nd = false := ndf hn hm
        subst this
        unfold Tdma.solveMat
        rw [hbn, hbm, hcn, hcm]
        by_cases h1 : m = t.d.length
        · have h3 : (m == m' && k == k') = false := by
            rw [Bool.and_eq_false_iff, beq_eq_false_iff_ne, beq_eq_false_iff_ne]
            by_contra h4
            rw [not_or, not_not, not_not] at h4
            exact hm ⟨h1, by rw [← h4.1, h1], h4.2.symm⟩
          have : (t.shape.1 == m) = true := beq_iff_eq.mpr h1.symm
          rw [this, h3]
          rfl
        · have : (t.shape.1 == m) = false := beq_eq_false_iff_ne.mpr (Ne.symm h1)
          rw [this]
          rfl
    | chol md n l => obtain ⟨_, _, e, _⟩ := hbt; cases e
    | ilu a => obtain ⟨_, _, _, _, _, _, _, e, _⟩ := hbt; cases e
    | gmres g => obtain ⟨_, _, _, _, _, _, e, _⟩ := hbt; cases e
  | iluSolve w s v =>
    obtain ⟨n, P, b, hs, hb, hdet⟩ := hv
    obtain ⟨o, eo, hbt⟩ := h.slv s _ hs
    cases o with
    | ilu t =>
      obtain ⟨n', m, hnm, A, L, U, l0, e, hA, hLU, hnew⟩ := hbt
      injection e with e1 e2
      subst e1
      have e2 := eq_of_heq e2
      subst e2
      simp only [SvStmt.act, SvStmt.withSlv, eo]
      have hb' := h.dn.vec v _ hb
      rcases ilu_wide hnm hA with ⟨a', F, e, hsh, hF⟩ | ⟨e, -⟩
      · rw [hnew] at e
        injection e with e
        subst e
        have hP : Gmres.sqM n (luProd n F) = L * U := by
          have hu := C40_unique n _ F (joined L U) hF (isIlu_joined hLU)
          have h1 : Gmres.sqM n (luProd n F) = Gmres.sqM n (luProd n (joined L U)) := by
            rw [luProd_mul, luProd_mul]
            congr 1
            · funext i j
              show unitLow F i j = unitLow (joined L U) i j
              unfold unitLow
              rw [hu i j i.isLt j.isLt]
            · funext i j
              show upper F i j = upper (joined L U) i j
              unfold upper
              rw [hu i j i.isLt j.isLt]
          rw [h1, luProd_mul, (sqM_joined hLU).1, (sqM_joined hLU).2]
        obtain ⟨x, ex, hx, hsol⟩ := Ilu.solve_ok hsh (det_luProd.mp (by rw [hP]; exact hdet)) hb'.len
        refine ⟨_, ⟨n, L * U, b, hs, hb, rfl⟩, ?_⟩
        rw [ex]
        refine ⟨_, rfl, h.withDn (shows_tmpVec h.dn x ?_)⟩
        rintro w ⟨rfl⟩
        exact shown_solve hP hdet hb' hx hsol
      · rw [hnew] at e; cases e
    | chol md n l => obtain ⟨_, _, e, _⟩ := hbt; cases e
    | tri t => have := hbt.1; cases this
    | gmres g => obtain ⟨_, _, _, _, _, _, e, _⟩ := hbt; cases e
  | gmresSolve w s v =>
    obtain ⟨n, A, P, tol, b, hs, hb, hA0, hP0, ht, hb0⟩ := hv
    obtain ⟨o, eo, hbt⟩ := h.slv s _ hs
    cases o with
    | gmres g =>
      obtain ⟨n', A', L, U, l0, tol', e, hA, hLU, hnew⟩ := hbt
      injection e with e1 e2 e3 e4
      subst e1 e4
      have e2 := eq_of_heq e2
      subst e2
      have e3 := eq_of_heq e3
      subst e3
      simp only [SvStmt.act, SvStmt.withSlv, eo]
      have hb' := h.dn.vec v _ hb
      have hP : Gmres.sqM n (luProd n (joined L U)) = L * U := by
        rw [luProd_mul, (sqM_joined hLU).1, (sqM_joined hLU).2]
      obtain ⟨g', eg, hsolve⟩ := C45_solve .dense nd rt hrt n ⟨n, n, l0⟩ (ext A) (joined L U) hA.len (shows_ext hA)
        (isIlu_joined hLU) (det_luProd.mp (by rw [hP]; exact hP0)) (by rw [minor_ext_self]; exact hA0) tol ht
      rw [hnew] at eg
      injection eg with eg
      subst eg
      obtain ⟨x, z, ex, hx, hres, hz⟩ := hsolve _ hb'.len (Lalib.vec_ne.mp (by rw [hb'.vec]; exact hb0))
      unfold PResid at hres
      rw [Gmres.solves_iff, hP, Gmres.vec_resid, sqM_ext, hb'.vec] at hres
      refine ⟨_, ⟨n, A, L * U, tol, b, Gmres.vec n (val0 x), Gmres.vec n z, hs, hb, hres, ?_, rfl⟩, ?_⟩
      · refine lt_of_eq_of_lt ?_ hz
        unfold normSq
        rw [Finset.sum_range]
        exact Finset.sum_congr rfl fun i _ => by rw [pow_two]; rfl
      · rw [ex]
        refine ⟨_, rfl, h.withDn (shows_tmpVec h.dn x ?_)⟩
        rintro w ⟨rfl⟩
        exact VVal.shown_vec hx
    | chol md n l => obtain ⟨_, _, e, _⟩ := hbt; cases e
    | tri t => have := hbt.1; cases this
    | ilu a => obtain ⟨_, _, _, _, _, _, _, e, _⟩ := hbt; cases e

/-- A program does to the objects what it may do to vectors, matrices and systems: same final values, same exceptions,
same end — for all orders in which its parallel loops run. -/
theorem C82_program (rt : Nat → Nat) (hrt : SqrtExact rt) (nd : Bool) (ord : Nat → Nat → List Nat)
    (ho : ∀ k n, (ord k n).Perm (List.range n)) (p : List (SvStmt T)) (q : SvStore T) (a : SState T) (h : SvShows nd q a)
    (hv : SvStmt.ValidAll nd p a) :
    ∃ r, SvStmt.DoesAll p a r ∧
      match r with
      | .ok (a', o) => ∃ q', SvStmt.runAll rt nd ord p q = .ok (q', o) ∧ SvShows nd q' a'
      | .error f => SvStmt.runAll rt nd ord p q = .error f := by
  induction p generalizing q a ord with
  | nil => exact ⟨_, .nil a, q, rfl, h⟩
  | cons st p ih =>
    obtain ⟨o, hd, hf⟩ := C82_step rt hrt nd (ord 0) (ho 0) st q a h hv.1
    unfold SvStmt.runAll
    cases o with
    | done a' =>
      obtain ⟨q', e, h'⟩ := hf
      obtain ⟨r, hr, hm⟩ := ih (fun k => ord (k + 1)) (fun k => ho (k + 1)) q' a' h' (hv.2.1 a' hd)
      refine ⟨_, .done hd hr, ?_⟩
      rw [e]
      cases r with
      | ok r =>
        obtain ⟨q2, e2, h2⟩ := hm
        refine ⟨q2, ?_, h2⟩
        dsimp only
        rw [e2]; rfl
      | error f =>
        have hm : SvStmt.runAll rt nd (fun k => ord (k + 1)) p q' = .error f := hm
        show (SvStmt.runAll rt nd (fun k => ord (k + 1)) p q' >>= _) = _
        rw [hm]; rfl
    | throws x =>
      have e : st.act rt nd (ord 0) q = .error (.throw x) := hf
      obtain ⟨r, hr, hm⟩ := ih (fun k => ord (k + 1)) (fun k => ho (k + 1)) q a h (hv.2.2 x hd)
      refine ⟨_, .throws hd hr, ?_⟩
      rw [e]
      cases r with
      | ok r =>
        obtain ⟨q2, e2, h2⟩ := hm
        refine ⟨q2, ?_, h2⟩
        dsimp only
        rw [e2]; rfl
      | error f =>
        have hm : SvStmt.runAll rt nd (fun k => ord (k + 1)) p q = .error f := hm
        show (SvStmt.runAll rt nd (fun k => ord (k + 1)) p q >>= _) = _
        rw [hm]; rfl
    | stops f =>
      have e : st.act rt nd (ord 0) q = .error f := hf
      refine ⟨_, .stops hd, ?_⟩
      rw [e]
      cases f with
      | throw x =>
        exfalso
        cases st <;> simp only [SvStmt.Does] at hd
        case dense st =>
          cases e2 : st.step a.var with
          | done _ => rw [e2] at hd; cases hd
          | throws _ => rw [e2] at hd; cases hd
          | stops g =>
            rw [e2] at hd
            injection hd with hd
            subst hd
            cases st <;> simp only [DnStmt.step] at e2 <;> (try split at e2) <;> (try split at e2) <;> cases e2
        case triNew => cases hd
        case cholNew => obtain ⟨_, _, _, ⟨_, h⟩ | ⟨_, h⟩⟩ := hd <;> cases h
        case modCholNew => obtain ⟨_, _, _, ⟨_, h⟩ | ⟨_, h⟩⟩ := hd <;> cases h
        case iluNew => obtain ⟨_, _, _, _, _, ⟨_, _, _, h⟩ | ⟨_, h⟩⟩ := hd <;> cases h
        case gmresNew => obtain ⟨_, _, _, ⟨_, _, _, h⟩ | ⟨_, h⟩⟩ := hd <;> cases h
        case iluSolve => obtain ⟨_, _, _, _, _, h⟩ := hd; cases h
        case gmresSolve => obtain ⟨_, _, _, _, _, _, _, _, _, _, _, h⟩ := hd; cases h
        case cholSolveMut => obtain ⟨_, _, _, _, _, _, _, h⟩ := hd; split at h <;> cases h
        case cholSolve => obtain ⟨_, _, _, _, _, _, _, h⟩ := hd; split at h <;> cases h
        case cholSolveMutMat => obtain ⟨_, _, _, _, _, _, _, _, h⟩ := hd; split at h <;> cases h
        case cholSolveMat => obtain ⟨_, _, _, _, _, _, _, _, h⟩ := hd; split at h <;> cases h
        case triSolve => obtain ⟨_, _, _, _, _, _, h⟩ := hd; split at h <;> cases h
        case triSolveMat => obtain ⟨_, _, _, _, _, _, _, _, _, _, _, h⟩ := hd; split at h <;> cases h
      | _ => rfl

omit [IsStrictOrderedRing T] [LawfulSqrt T] in
/-- Without any hypothesis on what the objects hold: a statement that returns has changed only what it is directed at.
Making a solver changes no matrix, solving changes no solver. -/
theorem C82_frame (rt : Nat → Nat) (nd : Bool) (ord : Nat → List Nat) (st : SvStmt T) (q q' : SvStore T)
    (h : st.act rt nd ord q = .ok q') (y : Nat) :
    (y ∉ st.vecTargets → q'.dn.mem (vbuf y) = q.dn.mem (vbuf y)) ∧
    (y ∉ st.matTargets → q'.dn.mem (mbuf y) = q.dn.mem (mbuf y) ∧ q'.dn.dim y = q.dn.dim y) ∧
    (y ∉ st.slvTargets → q'.slv y = q.slv y) := by
  -- a constructor
  have mk : ∀ {α : Type} (x : Res α) (s : Nat) (f : α → Solver T),
      (x >>= fun v => .ok { q with slv := SvStore.setSlv q.slv s (f v) }) = .ok q' →
      q'.dn = q.dn ∧ (y ∉ [s] → q'.slv y = q.slv y) := by
    intro α x s f e
    cases x with
    | error e' => cases e
    | ok v =>
      injection e with e
      rw [← e]
      exact ⟨rfl, fun hy => if_neg fun h => hy (by rw [h]; simp)⟩
  -- a result vector
  have vec : ∀ (x : Nat) (r : Res (Mem T)), Keeps (vbuf x) q.dn.mem r →
      (r >>= fun m => .ok { q with dn := { q.dn with mem := m } }) = .ok q' →
      (y ∉ [x] → q'.dn.mem (vbuf y) = q.dn.mem (vbuf y)) ∧
      (q'.dn.mem (mbuf y) = q.dn.mem (mbuf y) ∧ q'.dn.dim y = q.dn.dim y) ∧ q'.slv y = q.slv y := by
    intro x r hk e
    cases r with
    | error f => cases e
    | ok m =>
      injection e with e
      rw [← e]
      exact ⟨fun hy => hk m rfl _ fun h => hy (by rw [vbuf_inj.mp h]; simp), ⟨hk m rfl _ (mbuf_ne_vbuf y x), rfl⟩, rfl⟩
  have mat : ∀ (x : Nat) (r : Res (Mem T)), Keeps (mbuf x) q.dn.mem r →
      (r >>= fun m => .ok { q with dn := { q.dn with mem := m } }) = .ok q' →
      q'.dn.mem (vbuf y) = q.dn.mem (vbuf y) ∧
      (y ∉ [x] → q'.dn.mem (mbuf y) = q.dn.mem (mbuf y) ∧ q'.dn.dim y = q.dn.dim y) ∧ q'.slv y = q.slv y := by
    intro x r hk e
    cases r with
    | error f => cases e
    | ok m =>
      injection e with e
      rw [← e]
      exact ⟨hk m rfl _ (vbuf_ne_mbuf y x), fun hy => ⟨hk m rfl _ fun h => hy (by rw [mbuf_inj.mp h]; simp), rfl⟩, rfl⟩
  have vtmp : ∀ (x : Nat) (r : Res (Mem T)), Keeps 0 q.dn.mem r →
      (r >>= fun m => .ok { q with dn := vecTmp x q.dn.dim m }) = .ok q' →
      (y ∉ [x] → q'.dn.mem (vbuf y) = q.dn.mem (vbuf y)) ∧
      (q'.dn.mem (mbuf y) = q.dn.mem (mbuf y) ∧ q'.dn.dim y = q.dn.dim y) ∧ q'.slv y = q.slv y := by
    intro x r hk e
    cases r with
    | error f => cases e
    | ok m =>
      injection e with e
      rw [← e]
      refine ⟨fun hy => ?_, ⟨?_, rfl⟩, rfl⟩
      · show ((m.setBuf (vbuf x) (m 0)).setBuf 0 []) (vbuf y) = _
        rw [Mem.setBuf_other _ (vbuf_ne y), Mem.setBuf_other _ fun h => hy (by rw [vbuf_inj.mp h]; simp)]
        exact hk m rfl _ (vbuf_ne y)
      · show ((m.setBuf (vbuf x) (m 0)).setBuf 0 []) (mbuf y) = _
        rw [Mem.setBuf_other _ (mbuf_ne y), Mem.setBuf_other _ (mbuf_ne_vbuf y x)]
        exact hk m rfl _ (mbuf_ne y)
  have mtmp : ∀ (x : Nat) (d : Nat × Nat) (r : Res (Mem T)), Keeps 0 q.dn.mem r →
      (r >>= fun m => .ok { q with dn := matTmp x d q.dn.dim m }) = .ok q' →
      q'.dn.mem (vbuf y) = q.dn.mem (vbuf y) ∧
      (y ∉ [x] → q'.dn.mem (mbuf y) = q.dn.mem (mbuf y) ∧ q'.dn.dim y = q.dn.dim y) ∧ q'.slv y = q.slv y := by
    intro x d r hk e
    cases r with
    | error f => cases e
    | ok m =>
      injection e with e
      rw [← e]
      refine ⟨?_, fun hy => ⟨?_, ?_⟩, rfl⟩
      · show ((m.setBuf (mbuf x) (m 0)).setBuf 0 []) (vbuf y) = _
        rw [Mem.setBuf_other _ (vbuf_ne y), Mem.setBuf_other _ (vbuf_ne_mbuf y x)]
        exact hk m rfl _ (vbuf_ne y)
      · show ((m.setBuf (mbuf x) (m 0)).setBuf 0 []) (mbuf y) = _
        rw [Mem.setBuf_other _ (mbuf_ne y), Mem.setBuf_other _ fun h => hy (by rw [mbuf_inj.mp h]; simp)]
        exact hk m rfl _ (mbuf_ne y)
      · show setDim q.dn.dim x d y = _
        unfold setDim
        rw [if_neg fun h => hy (by rw [h]; simp)]
  have val : ∀ (x : Nat) (r : Res (List T)),
      (r >>= fun l => .ok { q with dn := vecTmp x q.dn.dim (q.dn.mem.setBuf 0 l) }) = .ok q' →
      (y ∉ [x] → q'.dn.mem (vbuf y) = q.dn.mem (vbuf y)) ∧
      (q'.dn.mem (mbuf y) = q.dn.mem (mbuf y) ∧ q'.dn.dim y = q.dn.dim y) ∧ q'.slv y = q.slv y := by
    intro x r e
    cases r with
    | error f => cases e
    | ok l =>
      refine vtmp x (.ok (q.dn.mem.setBuf 0 l)) ?_ e
      intro m' h w hw
      injection h with h
      rw [← h, Mem.setBuf_other _ hw]
  cases st with
  | dense st =>
    simp only [SvStmt.act] at h
    cases e : st.act nd ord q.dn with
    | error f => rw [e] at h; cases h
    | ok d =>
      rw [e] at h
      injection h with h
      rw [← h]
      have := C72_frame nd ord st q.dn y
      rw [kept_ok e] at this
      exact ⟨this.1, this.2, fun _ => rfl⟩
  | cholNew s x =>
    obtain ⟨h1, h2⟩ := mk _ s (fun l => .chol false _ l) h
    rw [h1]; exact ⟨fun _ => rfl, fun _ => ⟨rfl, rfl⟩, h2⟩
  | modCholNew s x =>
    obtain ⟨h1, h2⟩ := mk _ s (fun l => .chol true _ l) h
    rw [h1]; exact ⟨fun _ => rfl, fun _ => ⟨rfl, rfl⟩, h2⟩
  | triNew s dl d du =>
    obtain ⟨h1, h2⟩ := mk (TriDiag.new dl d du) s (fun l => .tri l) h
    rw [h1]; exact ⟨fun _ => rfl, fun _ => ⟨rfl, rfl⟩, h2⟩
  | iluNew s x =>
    obtain ⟨h1, h2⟩ := mk _ s (fun l => .ilu l) h
    rw [h1]; exact ⟨fun _ => rfl, fun _ => ⟨rfl, rfl⟩, h2⟩
  | gmresNew s x tol =>
    obtain ⟨h1, h2⟩ := mk _ s (fun l => .gmres l) h
    rw [h1]; exact ⟨fun _ => rfl, fun _ => ⟨rfl, rfl⟩, h2⟩
  | _ =>
    simp only [SvStmt.act, SvStmt.withSlv] at h
    split at h
    · split at h
      · first
          | exact (vec _ _ (Keeps.val fun _ => Keeps.cholKernel _ _ _ _ _ _ _ _) h).imp id fun h => h.imp (fun h _ => h) fun h _ => h
          | exact (mat _ _ (Keeps.val fun _ => Keeps.cholKernel _ _ _ _ _ _ _ _) h).imp (fun h _ => h) fun h => h.imp id fun h _ => h
          | exact (vtmp _ _ (Keeps.val fun _ => Keeps.fresh (Keeps.cholKernel _ _ _ _ _ _ _ _)) h).imp id
              fun h => h.imp (fun h _ => h) fun h _ => h
          | exact (mtmp _ _ _ (Keeps.val fun _ => Keeps.fresh (Keeps.cholKernel _ _ _ _ _ _ _ _)) h).imp (fun h _ => h)
              fun h => h.imp id fun h _ => h
          | exact (vec _ _ (Keeps.noexcept (Keeps.val fun _ => Keeps.tdma _ _ _ _ _ _)) h).imp id
              fun h => h.imp (fun h _ => h) fun h _ => h
          | exact (mat _ _ (Keeps.noexcept (Keeps.val fun _ => Keeps.val fun _ => Keeps.tdma _ _ _ _ _ _)) h).imp (fun h _ => h)
              fun h => h.imp id fun h _ => h
          | exact (val _ _ h).imp id fun h => h.imp (fun h _ => h) fun h _ => h
      · cases h
    · cases h

omit [IsStrictOrderedRing T] [LawfulSqrt T] in
/-- Objects that no statement of a program is directed at are as before. -/
theorem C82_program_frame (rt : Nat → Nat) (nd : Bool) (ord : Nat → Nat → List Nat) (p : List (SvStmt T)) (q q' : SvStore T)
    (o : List (Option Exn)) (h : SvStmt.runAll rt nd ord p q = .ok (q', o)) (y : Nat) :
    ((∀ st ∈ p, y ∉ st.vecTargets) → q'.dn.mem (vbuf y) = q.dn.mem (vbuf y)) ∧
    ((∀ st ∈ p, y ∉ st.matTargets) → q'.dn.mem (mbuf y) = q.dn.mem (mbuf y) ∧ q'.dn.dim y = q.dn.dim y) ∧
    ((∀ st ∈ p, y ∉ st.slvTargets) → q'.slv y = q.slv y) := by
  induction p generalizing q o ord with
  | nil =>
    injection h with h
    rw [Prod.mk.injEq] at h
    rw [h.1]
    exact ⟨fun _ => rfl, fun _ => ⟨rfl, rfl⟩, fun _ => rfl⟩
  | cons st p ih =>
    unfold SvStmt.runAll at h
    cases e : st.act rt nd (ord 0) q with
    | ok q1 =>
      rw [e] at h
      dsimp only at h
      cases e2 : SvStmt.runAll rt nd (fun k => ord (k + 1)) p q1 with
      | error f => rw [e2] at h; cases h
      | ok r =>
        rw [e2] at h
        injection h with h
        have h := (Prod.mk.inj h).1
        subst h
        obtain ⟨i1, i2, i3⟩ := ih (fun k => ord (k + 1)) q1 r.2 e2
        obtain ⟨f1, f2, f3⟩ := C82_frame rt nd (ord 0) st q q1 e y
        refine ⟨fun hq => ?_, fun hq => ?_, fun hq => ?_⟩
        · rw [i1 fun st' h' => hq st' (by simp [h']), f1 (hq st (by simp))]
        · obtain ⟨j1, j2⟩ := i2 fun st' h' => hq st' (by simp [h'])
          obtain ⟨k1, k2⟩ := f2 (hq st (by simp))
          rw [j1, j2, k1, k2]
          exact ⟨rfl, rfl⟩
        · rw [i3 fun st' h' => hq st' (by simp [h']), f3 (hq st (by simp))]
    | error f =>
      rw [e] at h
      cases f with
      | throw x =>
        dsimp only at h
        cases e2 : SvStmt.runAll rt nd (fun k => ord (k + 1)) p q with
        | error f => rw [e2] at h; cases h
        | ok r =>
          rw [e2] at h
          injection h with h
          have h := (Prod.mk.inj h).1
          subst h
          obtain ⟨i1, i2, i3⟩ := ih (fun k => ord (k + 1)) q r.2 e2
          exact ⟨fun hq => i1 fun st' h' => hq st' (by simp [h']), fun hq => i2 fun st' h' => hq st' (by simp [h']),
            fun hq => i3 fun st' h' => hq st' (by simp [h'])⟩
      | _ => cases h

/-- Factorise, run any program that does not make the factorisation anew — it may change or reuse the matrix and every
other object — and solve: the result belongs to the matrix as it was and the right-hand side as it is. -/
theorem C82_reuse (rt : Nat → Nat) (nd : Bool) (ord : Nat → Nat → List Nat) (n : Nat) (A : Matrix (Fin n) (Fin n) T)
    (hs : A.IsSymm) (s x : Nat) (q : SvStore T) (hA : (⟨n, n, A⟩ : MVal T).Shown (q.dn.dim x) (q.dn.mem (mbuf x)))
    (p : List (SvStmt T)) (hp : ∀ st ∈ p, s ∉ st.slvTargets) (md : Bool) (q' : SvStore T) (o : List (Option Exn))
    (hA' : if md then LeadRegular A else PosForm A)
    (hrun : SvStmt.runAll rt nd ord ((if md then .modCholNew s x else .cholNew s x) :: p) q = .ok (q', o))
    (w v : Nat) (b : Fin n → T) (hb : (⟨n, b⟩ : VVal T).Shown (q'.dn.mem (vbuf v))) (ord' : Nat → List Nat) :
    ∃ q'', (SvStmt.cholSolve w s v).act rt nd ord' q' = .ok q'' ∧
      (⟨n, A⁻¹ *ᵥ b⟩ : VVal T).Shown (q''.dn.mem (vbuf w)) ∧ A *ᵥ (A⁻¹ *ᵥ b) = b := by
  have hd := hA.dim
  rw [hd] at hA
  have hl := lower_ext hA
  have hbt : ∃ l, Built nd (.chol md n l) (.chol md n A) ∧
      SvStmt.act rt nd (ord 0) (if md then .modCholNew s x else .cholNew s x) q =
        .ok { q with slv := SvStore.setSlv q.slv s (.chol md n l) } := by
    cases md with
    | false =>
      rw [if_neg (by decide)] at hA' ⊢
      obtain ⟨L, hL, _⟩ := C35_factor .square n _ (ext A) hl (symm_ext.mpr hs) (posDef_ext.mpr hA')
      refine ⟨L, ⟨A, _, rfl, hA, hs, by rw [if_neg (by decide)]; exact ⟨hA', hL⟩⟩, ?_⟩
      simp only [SvStmt.act]
      rw [hd]
      show (Chol.new .square n (q.dn.mem (mbuf x)) >>= _) = _
      rw [hL]; rfl
    | true =>
      rw [if_pos rfl] at hA' ⊢
      obtain ⟨L, hL, _⟩ := C38_factor .square n _ (ext A) hl (symm_ext.mpr hs) (regular_ext.mpr hA')
      refine ⟨L, ⟨A, _, rfl, hA, hs, by rw [if_pos rfl]; exact ⟨hA', hL⟩⟩, ?_⟩
      simp only [SvStmt.act]
      rw [hd]
      show (Chol.modNew .square n (q.dn.mem (mbuf x)) >>= _) = _
      rw [hL]; rfl
  obtain ⟨l, hbl, e⟩ := hbt
  obtain ⟨l', hl', hdet, hvec, -⟩ := built_chol hbl
  injection hl' with _ _ hl'
  subst hl'
  have hslv : q'.slv s = some (.chol md n l) := by
    unfold SvStmt.runAll at hrun
    rw [e] at hrun
    dsimp only at hrun
    cases e2 : SvStmt.runAll rt nd (fun k => ord (k + 1)) p { q with slv := SvStore.setSlv q.slv s (.chol md n l) } with
    | error f => rw [e2] at hrun; cases hrun
    | ok r =>
      rw [e2] at hrun
      injection hrun with hrun
      have hrun := (Prod.mk.inj hrun).1
      subst hrun
      rw [(C82_program_frame rt nd _ p _ r.1 r.2 e2 s).2.2 hp]
      exact if_pos rfl
  obtain ⟨z, hz, hsol, -, e3⟩ := hvec nd q'.dn.mem (vbuf v) 0 hb.len (vbuf_ne v).symm
  simp only [SvStmt.act, SvStmt.withSlv, hslv]
  rw [e3]
  refine ⟨_, rfl, ?_, ?_⟩
  · show (⟨n, A⁻¹ *ᵥ b⟩ : VVal T).Shown ((((q'.dn.mem.setBuf 0 z).setBuf (vbuf w) _).setBuf 0 []) (vbuf w))
    rw [Mem.setBuf_other _ (vbuf_ne w), Mem.setBuf_self, Mem.setBuf_self]
    exact shown_solve (sqM_ext A) hdet hb hz hsol
  · rw [mulVec_mulVec, mul_nonsing_inv _ (isUnit_iff_ne_zero.mpr hdet), one_mulVec]

omit [IsStrictOrderedRing T] [LawfulSqrt T] in
/-- Programs that start without objects. -/
theorem C82_start (nd : Bool) : SvShows nd (⟨⟨fun _ => [], fun _ => (0, 0)⟩, fun _ => none⟩ : SvStore T)
    ⟨⟨fun _ => none, fun _ => none⟩, fun _ => none⟩ :=
  ⟨⟨fun _ _ h => (nomatch h), fun _ _ h => (nomatch h)⟩, fun _ _ h => (nomatch h)⟩

-- the condition on programs
example (nd : Bool) (n : Nat) (A : Matrix (Fin n) (Fin n) T) (hs : A.IsSymm) (hp : PosForm A) (b : Fin n → T) :
    SvStmt.ValidAll nd [.cholNew 0 0, .cholSolve 1 0 0] ⟨⟨fun _ => some ⟨n, b⟩, fun _ => some ⟨n, n, A⟩⟩, fun _ => none⟩ := by
  refine ⟨⟨n, A, rfl, hs, fun i _ => ?_⟩, fun a' h => ?_, fun e h => ?_⟩
  · have h := hp (Pi.single i 1) fun h => one_ne_zero (α := T) (by rw [← Pi.single_eq_same (M := fun _ => T) i 1, h]; rfl)
    simpa using h
  · obtain ⟨n', A', h0, h⟩ := h
    cases h0
    obtain ⟨-, h⟩ | ⟨h, -⟩ := h
    · injection h with h
      rw [h]
      exact ⟨⟨false, n, A, n, b, rfl, rfl, fun _ => rfl⟩, fun _ _ => trivial, fun _ _ => trivial⟩
    · exact absurd hp h
  · obtain ⟨n', A', h0, h⟩ := h
    cases h0
    obtain ⟨-, h⟩ | ⟨h, -⟩ := h
    · cases h
    · exact absurd hp h

end

-- `A = {{4, 2}, {2, 5}}; DynCholeskyFactorization c(std::move(A)); DynModCholeskyFactorization d(std::move(A));
-- Ilu i(std::move(A)); Gmres g(std::move(A), 1/100); scale(0, A); b = {8, 12}; u = c.solve_linear(b); v = i.solve(b);
-- d.solve_linear_mut(b);`: all of them find `(1, 2)`
example : (SvStmt.runAll Nat.sqrt false (fun _ => List.range) [.dense (.matNew 0 2 2 [4, 2, 2, 5]), .cholNew 0 0, .modCholNew 1 0,
      .iluNew 2 0, .gmresNew 3 0 (1 / 100), .dense (.matScale 0 0), .dense (.vecNew 0 [8, 12]), .cholSolve 1 0 0,
      .iluSolve 2 2 0, .cholSolveMut 1 0]
      (⟨⟨fun _ => [], fun _ => (0, 0)⟩, fun _ => none⟩ : SvStore ℚ)).map
        (fun r => ([r.1.dn.mem 2, r.1.dn.mem 1, r.1.dn.mem 3, r.1.dn.mem 5], r.2)) =
    .ok ([[0, 0, 0, 0], [1, 2], [1, 2], [1, 2]], List.replicate 10 none) := by
  decide +kernel

-- a matrix with a third column: the system of the first two is solved
example : (SvStmt.runAll Nat.sqrt false (fun _ => List.range) [.dense (.matNew 0 2 3 [4, 2, 9, 2, 5, 9]), .iluNew 0 0,
      .dense (.vecNew 0 [8, 12]), .iluSolve 0 0 0]
      (⟨⟨fun _ => [], fun _ => (0, 0)⟩, fun _ => none⟩ : SvStore ℚ)).map (fun r => (r.1.dn.mem 1, r.2)) =
    .ok ([1, 2], [none, none, none, none]) := by
  decide +kernel

-- a matrix that is not positive definite: the constructor throws, the old factorisation stays
example : (SvStmt.runAll Nat.sqrt true (fun _ => List.range) [.dense (.matNew 0 2 2 [4, 2, 2, 5]), .cholNew 0 0,
      .dense (.matSet 0 1 1 1), .cholNew 0 0, .dense (.vecNew 0 [8, 12]), .cholSolve 1 0 0, .triNew 1 [1] [2, 1] [1],
      .triSolve 1 1 0]
      (⟨⟨fun _ => [], fun _ => (0, 0)⟩, fun _ => none⟩ : SvStore ℚ)).map
        (fun r => (r.1.dn.mem 1, r.1.dn.mem 3, r.2)) =
    .ok ([-1, 3], [1, 2], [none, none, none, some .runtimeError, none, none, none, none]) := by
  decide +kernel

end Lalib.Props
