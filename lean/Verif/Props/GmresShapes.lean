import Verif.Proofs.GmresShapes
import Verif.Props.Shapes
import Verif.Props.Gmres
import Verif.Props.IeeeGmres

/-! # Property C76: incomplete factorisation and GMRES with sizes that do not fit together -/

namespace Lalib.Props

open Lalib

variable {T M : Type}

/-! ## More columns than rows -/

section

theorem storage_rect [Zero T] {ops : MatOps M T} {ok : M → Prop} (hst : Storage ops ok) (n m : Nat) :
    ∃ R, Rep ops n m R ∧ (∀ a A, ok a → ShowsRect ops n m a A → R a A) ∧
      ∀ a A, R a A → ok a ∧ ShowsRect ops n m a A := by
  have shows_of : ∀ {M : Type} {ops : MatOps M T} {R}, Rep ops n m R → ∀ a A, R a A → ShowsRect ops n m a A :=
    fun hR a A h => ⟨hR.shape a A h, fun i j hi hj => hR.get a A i j h hi hj⟩
  cases hst with
  | dense =>
    refine ⟨DRep n m, dRep n m, ?_, fun a A h => ⟨by show a.elems.length = a.n * a.m; rw [h.2.2.1, h.1, h.2.1],
      shows_of (dRep n m) a A h⟩⟩
    intro a A hok h
    have h1 := h.1
    injection h1 with h1
    injection h1 with h1 h2
    refine ⟨h1, h2, by rw [hok, h1, h2], fun i j hi hj => ?_⟩
    have hg : lrd a.elems (i * a.m + j) = .ok (A i j) := h.2 i j hi hj
    rw [lrd_val (by rw [hok, h1, h2]; exact cell_lt hi hj), h2] at hg
    injection hg
  | coo =>
    refine ⟨CooRep n m, cooRep n m, ?_, fun a A h => ⟨h.1, shows_of (cooRep n m) a A h⟩⟩
    intro a A hok h
    refine ⟨hok, h.1, fun i j hi hj => ?_⟩
    have hg : a.get i j = .ok (A i j) := h.2 i j hi hj
    rw [Coo.get_eq hok] at hg
    injection hg
  | csr =>
    refine ⟨CsrRep n m, csrRep n m, ?_, fun a A h => ⟨⟨h.1, h.2.1⟩, shows_of (csrRep n m) a A h⟩⟩
    intro a A hok h
    exact ⟨hok.1, hok.2, (Csr.stored_last hok.1 h.1).1, h.1, h.2⟩

variable [Field T] [DecidableEq T] {ops : MatOps M T} {ok : M → Prop}

/-- A matrix with more columns than rows is accepted or rejected by its leading square block: the object holds the
incomplete factorisation of that block. -/
theorem C76_ilu_wide (hst : Storage ops ok) (n m : Nat) (hnm : n ≤ m) (a : M) (A : Nat → Nat → T) (hok : ok a)
    (hA : ShowsRect ops n m a A) :
    (∃ a' F, Ilu.new ops a = .ok a' ∧ ok a' ∧ ShowsRect ops n m a' F ∧ IsIlu n A F) ∨
      (Ilu.new ops a = .error (.throw .runtimeError) ∧ ¬ ∃ F, IsIlu n A F) := by
  obtain ⟨R, hR, h1, h2⟩ := storage_rect hst n m
  rcases Ilu.new_spec hR hnm (h1 a A hok hA) with ⟨F, a', e, ha', hF⟩ | ⟨e, _, hS⟩
  · exact .inl ⟨a', F, e, (h2 a' F ha').1, (h2 a' F ha').2, hF⟩
  · exact .inr ⟨e, hS.no_ilu hnm⟩

/-- `solve` then solves the system of the leading block without a word about the other columns. -/
theorem C76_ilu_wide_solve (hst : Storage ops ok) (n m : Nat) (hnm : n ≤ m) (a : M) (A : Nat → Nat → T) (hok : ok a)
    (hA : ShowsRect ops n m a A) (hf : NoFill n A) (hr : Regular A n) :
    ∃ a', Ilu.new ops a = .ok a' ∧ ∀ b : List T, b.length = n →
      ∃ x, Ilu.solve ops a' b = .ok x ∧ x.length = n ∧ Solves n A (val0 x) (val0 b) := by
  obtain ⟨R, hR, h1, h2⟩ := storage_rect hst n m
  rcases Ilu.new_spec hR hnm (h1 a A hok hA) with ⟨F, a', e, ha', hF⟩ | ⟨e, _, hS⟩
  · have hd : ∀ i, i < n → F i i ≠ 0 := by
      have := hr.det
      rw [minor_lu (hF.exact hf)] at this
      exact fun i hi => Finset.prod_ne_zero_iff.mp this i (Finset.mem_range.mpr hi)
    refine ⟨a', e, fun b hb => ?_⟩
    obtain ⟨x, ex, hx, hs⟩ := Ilu.solve_ok (n := n) (F := F)
      (fun i j hi hj => hR.get a' F i j ha' hi (by omega)) hd hb
    refine ⟨x, ex, hx, fun i hi => ?_⟩
    rw [← hs i hi]
    unfold mulVec
    exact Finset.sum_congr rfl fun j hj => by rw [hF.exact hf i j hi (Finset.mem_range.mp hj)]
  · obtain ⟨j, hj, h0⟩ := hS.minor hnm hf
    exact absurd h0 (hr j (by omega))

/-! ## More rows than columns -/

omit [Field T] [DecidableEq T] in
theorem csr_get_ok [Zero T] {n m : Nat} {a : Csr T} (hw : a.Wf) (hs : a.shape = .ok (n, m)) {i : Nat} (j : Nat) (hi : i < n) :
    ∃ v, a.get i j = .ok v := by
  obtain ⟨hn, -⟩ := Csr.stored_last hw hs
  unfold Csr.get
  rcases Csr.search_spec hw (by omega : i < a.nrows) j with ⟨k', h1, h2, h3⟩ | ⟨_, h1⟩
  · rw [h3, ok_bind]
    have := (hw.ptr_le (by omega : i < a.nrows)).2.2
    exact ⟨_, lrd_val (by have := h1.2.1; omega)⟩
  · rw [h1]; exact ⟨_, rfl⟩

/-- Compressed rows: the missing columns count as zeros, so `solve` divides by zero for a right-hand side that reaches the
first of them. -/
theorem C76_ilu_tall_csr (n m : Nat) (hmn : m < n) (a : Csr T) (hok : a.Wf ∧ a.Distinct) (hs : a.shape = .ok (n, m)) :
    (∃ a', Ilu.new csrOps a = .ok a' ∧ ∀ b : List T, m < b.length → b.length ≤ n →
      Ilu.solve csrOps a' b = .error .nonFinite) ∨
    Ilu.new csrOps a = .error (.throw .runtimeError) := by
  classical
  let V : Nat → Nat → T := fun i j => if h : i < n then (csr_get_ok hok.1 hs j h).choose else 0
  have hV : CsrAll n m a V := ⟨hok, hs, fun i j hi => by
    rw [(csr_get_ok hok.1 hs j hi).choose_spec]
    show _ = Except.ok (V i j)
    simp only [V, dif_pos hi]⟩
  rcases Ilu.new_acc (csrAcc n m n) (Nat.le_refl n) (c := m) (by omega)
    (fun r j hr hj _ => by
      have h1 := hV.2.2 r j hr
      rw [Csr.get_beyond hok.1 hs hr hj] at h1
      injection h1 with h1
      exact h1.symm) hV hs with ⟨F, a', e, ha', -⟩ | ⟨e, -⟩
  · refine .inl ⟨a', e, fun b h1 h2 => ?_⟩
    refine Ilu.solve_zero (n := b.length) (F := F) (fun i j hi _ => ha'.2.2 i j (by omega)) ⟨m, h1, ?_⟩ rfl
    have h3 := ha'.2.2 m m hmn
    rw [Csr.get_beyond ha'.1.1 ha'.2.1 hmn (Nat.le_refl m)] at h3
    injection h3 with h3
    exact h3.symm
  · exact .inr e

/-- The same, coordinates. -/
theorem C76_ilu_tall_coo (n m : Nat) (hmn : m < n) (a : Coo T) (hok : a.Wf) (hs : a.shape = .ok (n, m)) :
    (∃ a', Ilu.new cooOps a = .ok a' ∧ ∀ b : List T, m < b.length →
      Ilu.solve cooOps a' b = .error .nonFinite) ∨
    Ilu.new cooOps a = .error (.throw .runtimeError) := by
  have hV : CooAll n m a a.elem := ⟨hok, hs, fun _ _ => rfl⟩
  rcases Ilu.new_acc (cooAcc n m n) (Nat.le_refl n) (c := m) (by omega)
    (fun r j _ hj _ => Coo.elem_beyond hok hs r hj) hV hs with ⟨F, a', e, ha', -⟩ | ⟨e, -⟩
  · refine .inl ⟨a', e, fun b h1 => ?_⟩
    refine Ilu.solve_zero (n := b.length) (F := F)
      (fun i j _ _ => by show a'.get i j = _; rw [Coo.get_eq ha'.1, ha'.2.2 i j]) ⟨m, h1, ?_⟩ rfl
    rw [← ha'.2.2 m m, Coo.elem_beyond ha'.1 ha'.2.1 m (Nat.le_refl m)]
  · exact .inr e

end

section generic
variable [Zero T] [One T] [Add T] [Sub T] [Mul T] [Neg T] [CDiv T] [CZero T] [CSqrt T] [LT T] [DecidableLT T]
variable {Q : Fault → Prop}

omit [One T] [Add T] [Neg T] [CZero T] [CSqrt T] [LT T] [DecidableLT T] in
/-- Dense: the last diagonal element is not there. -/
theorem dense_solve_never (hQ : Q (.ub .oob)) (hn : ∀ e, ¬ Q (.throw e)) {n m : Nat} {a : DMat T}
    (h : a.n = n ∧ a.m = m ∧ a.elems.length = n * m) {b : List T} (hb : n < b.length ∨ n = b.length ∧ m < n) :
    Never Q (Ilu.solve dOps a b) := by
  obtain ⟨k, hk⟩ : ∃ k, b.length = k + 1 := ⟨b.length - 1, by omega⟩
  refine Ilu.solve_never' hQ hn (fun i j => Ilu.get_sat hQ a i j) b k hk ?_
  show Never Q (lrd a.elems (k * a.m + k))
  rw [lrd_oob]
  · exact hQ
  · rw [h.2.1, h.2.2]
    rcases hb with hb | ⟨hb, hd⟩
    · exact (Nat.mul_le_mul_right m (by omega)).trans (Nat.le_add_right _ _)
    · calc n * m ≤ (k + 1) * m := Nat.mul_le_mul_right m (by omega)
        _ = k * m + m := by ring
        _ ≤ k * m + k := by omega

omit [Zero T] [One T] [Add T] [Neg T] [CSqrt T] [LT T] [DecidableLT T] in
theorem gmres_mat {M : Type} {ops : GOps M T} {a : M} {tol : T} {g : Gmres M T} (hg : Gmres.new ops a tol = .ok g) :
    g.mat = a ∧ Ilu.new ops.toMatOps a = .ok g.lu := by
  unfold Gmres.new at hg
  cases h : Ilu.new ops.toMatOps a with
  | error e => rw [h] at hg; cases hg
  | ok lu =>
    rw [h, ok_bind] at hg
    injection hg with hg
    subst hg
    exact ⟨rfl, rfl⟩

theorem gmres_dense_never (hQ : Q (.ub .oob)) (hn : ∀ e, ¬ Q (.throw e)) (hA : Arith T Q) (rt : Nat → Nat)
    (hrt : SqrtExact rt) (nd : Bool) (ha : nd = false → Q .assertFail) (n m : Nat) (h0 : 0 < n) (a : DMat T)
    (h : a.n = n ∧ a.m = m ∧ a.elems.length = n * m) (tol : T) (g : Gmres (DMat T) T)
    (hg : Gmres.new (dGOps nd) a tol = .ok g) (b : List T) (hb : ¬ (m = n ∧ b.length = n)) :
    Never Q (Gmres.solve rt nd (dGOps nd) g b) := by
  obtain ⟨e1, e2⟩ := gmres_mat hg
  have hlu := Ilu.new_keeps (Ilu.keeps_dense n m) h e2
  refine Gmres.solve_never hQ hn hA rt hrt nd n m (by rw [e1]; show Except.ok (a.n, a.m) = _; rw [h.1, h.2.1]) h0
    (fun i j => Ilu.get_sat hQ g.lu i j) b ?_
  by_cases h1 : n < b.length
  · exact .inl (dense_solve_never hQ hn hlu (.inl h1))
  right
  intro x hx
  rw [e1]
  show Never Q (matVec nd a x >>= Ilu.solve dOps g.lu)
  by_cases h2 : m < n
  · exact Sat.bind (matVec_sat hQ hn nd ha a x) fun y hy => dense_solve_never hQ hn hlu (by rw [hy, h.1]; omega)
  · exact Never.bind (matVec_never hQ hn nd ha a (by omega) x (by omega) fun _ => by omega)

theorem gmres_csr_never (hQ : Q (.ub .oob)) (hn : ∀ e, ¬ Q (.throw e)) (hA : Arith T Q) (rt : Nat → Nat)
    (hrt : SqrtExact rt) (nd : Bool) (ha : nd = false → Q .assertFail) (n m : Nat) (a : Csr T)
    (hok : a.Wf ∧ a.Distinct) (hs : a.shape = .ok (n, m)) (tol : T) (g : Gmres (Csr T) T)
    (hg : Gmres.new (csrGOps nd) a tol = .ok g) (b : List T)
    (hb : n < b.length ∨ (b.length ≠ m ∧ (nd = true → b.length < m)) ∨
      ∀ y : List T, y.length = n → Never Q (Ilu.solve csrOps g.lu y)) :
    Never Q (Gmres.solve rt nd (csrGOps nd) g b) := by
  obtain ⟨e1, e2⟩ := gmres_mat hg
  obtain ⟨⟨hw, -⟩, hsl⟩ := Ilu.new_keeps (Ilu.keeps_csr n m) ⟨hok, hs⟩ e2
  obtain ⟨hr, -⟩ := Csr.stored_last hw hsl
  have h0 : 0 < n := by obtain ⟨_, i, _, hi, _⟩ := Csr.stored_last hok.1 hs; omega
  have hout : ∀ i j, n ≤ i → g.lu.get i j = .error (.ub .oob) := by
    intro i j hi
    unfold Csr.get Csr.search
    have h2 : g.lu.rowPtr.length ≤ i + 1 := by unfold Csr.nrows at hr; omega
    by_cases h1 : i < g.lu.rowPtr.length
    · rw [lrd_ok h1, ok_bind, lrd_oob h2]; rfl
    · rw [lrd_oob (by omega)]; rfl
  have hgs : ∀ i j, Sat (fun _ => True) Q (csrOps.get g.lu i j) := by
    intro i j
    show Sat _ _ (g.lu.get i j)
    by_cases hi : i < n
    · obtain ⟨v, hv⟩ := csr_get_ok hw hsl j hi
      rw [hv]; trivial
    · rw [hout i j (by omega)]; exact hQ
  refine Gmres.solve_never hQ hn hA rt hrt nd n m (by rw [e1]; exact hs) h0 hgs b ?_
  rcases hb with hb | hb | hb
  · left
    refine Ilu.solve_never' hQ hn hgs b (b.length - 1) (by omega) ?_
    show Never Q (g.lu.get _ _)
    rw [hout _ _ (by omega)]
    exact hQ
  · right
    intro x hx
    rw [e1]
    exact Never.bind (Csr.mulVec_never hQ hn nd ha hok.1 hs x (by rw [hx]; exact hb.1) fun h => by
      rw [hx]; exact hb.2 h)
  · right
    intro x _
    rw [e1]
    exact Sat.bind (Csr.mulVec_sat hQ hn nd ha hok.1 hs x) fun y hy => hb y hy

end generic

/-! ## GMRES, exact arithmetic -/

section
variable [Field T] [LinearOrder T] [Sqrt T]

/-- The ways a run ends that returns nothing. -/
def Failed (nd : Bool) (e : Fault) : Prop :=
  e = .ub .oob ∨ e = .nonFinite ∨ nd = false ∧ e = .assertFail

theorem arith_exact {Q : Fault → Prop} (h : Q .nonFinite) : Arith T Q := by
  refine ⟨fun a b => ?_, fun a => ?_, .inl h⟩
  · rw [divC_eq]; split_ifs
    · exact h
    · trivial
  · rw [sqrtC_eq]; split_ifs
    · exact h
    · trivial

/-- At least two rows more than columns, dense: no object is made. -/
theorem C76_ilu_tall_dense (n m : Nat) (hnm : m + 1 < n) (a : DMat T)
    (h : a.n = n ∧ a.m = m ∧ a.elems.length = n * m) :
    ∃ e, Ilu.new dOps a = .error e ∧ (e = .ub .oob ∨ e = .nonFinite ∨ e = .throw .runtimeError) :=
  (Ilu.new_narrow (Q := fun e => e = .ub .oob ∨ e = .nonFinite ∨ e = .throw .runtimeError) (.inl rfl)
    (arith_exact (.inr (.inl rfl))) (.inr (.inr rfl)) hnm a h).exists

omit [Sqrt T] in
/-- Dense, more rows than columns: `solve` reads past the end of the storage. -/
theorem C76_ilu_tall_dense_solve (n m : Nat) (hnm : m < n) (a lu : DMat T)
    (h : a.n = n ∧ a.m = m ∧ a.elems.length = n * m) (hlu : Ilu.new dOps a = .ok lu) (b : List T) (hb : n ≤ b.length) :
    Ilu.solve dOps lu b = .error (.ub .oob) := by
  have h' := Ilu.new_keeps (Ilu.keeps_dense n m) h hlu
  exact never_oob (Q := fun e => e = .ub .oob)
    (dense_solve_never (Q := fun e => e = .ub .oob) rfl (fun _ h => nomatch h) h' (b := b) (by omega)) fun _ h => h

/-- Dense matrix: unless the matrix is square and the right-hand side has its size, no vector comes back. -/
theorem C76_gmres_dense (rt : Nat → Nat) (hrt : SqrtExact rt) (nd : Bool) (n m : Nat) (h0 : 0 < n) (a : DMat T)
    (h : a.n = n ∧ a.m = m ∧ a.elems.length = n * m) (tol : T) (g : Gmres (DMat T) T)
    (hg : Gmres.new (dGOps nd) a tol = .ok g) (b : List T) (hb : ¬ (m = n ∧ b.length = n)) :
    ∃ e, Gmres.solve rt nd (dGOps nd) g b = .error e ∧ Failed nd e :=
  (gmres_dense_never (Q := Failed nd) (.inl rfl) (fun _ h => by rcases h with h | h | ⟨_, h⟩ <;> cases h)
    (arith_exact (.inr (.inl rfl))) rt hrt nd (fun h => .inr (.inr ⟨h, rfl⟩)) n m h0 a h tol g hg b hb).exists

/-- Compressed rows: the same. -/
theorem C76_gmres_csr (rt : Nat → Nat) (hrt : SqrtExact rt) (nd : Bool) (n m : Nat) (a : Csr T)
    (hok : a.Wf ∧ a.Distinct) (hs : a.shape = .ok (n, m)) (tol : T) (g : Gmres (Csr T) T)
    (hg : Gmres.new (csrGOps nd) a tol = .ok g) (b : List T) (hb : ¬ (m = n ∧ b.length = n)) :
    ∃ e, Gmres.solve rt nd (csrGOps nd) g b = .error e ∧ Failed nd e := by
  refine (gmres_csr_never (Q := Failed nd) (.inl rfl) (fun _ h => by rcases h with h | h | ⟨_, h⟩ <;> cases h)
    (arith_exact (.inr (.inl rfl))) rt hrt nd (fun h => .inr (.inr ⟨h, rfl⟩)) n m a hok hs tol g hg b ?_).exists
  by_cases h1 : n < b.length
  · exact .inl h1
  by_cases h2 : m < n
  · rcases C76_ilu_tall_csr n m h2 a hok hs with ⟨a', e, h⟩ | e
    · refine .inr (.inr fun y hy => ?_)
      have e2 : Ilu.new csrOps a = .ok g.lu := (gmres_mat hg).2
      rw [e] at e2
      injection e2 with e2
      rw [← e2, h y (by omega) (by omega)]
      exact .inr (.inl rfl)
    · have e2 : Ilu.new csrOps a = .ok g.lu := (gmres_mat hg).2
      rw [e] at e2
      cases e2
  · exact .inr (.inl ⟨by omega, fun _ => by omega⟩)

end

/-! ## IEEE arithmetic -/

section
variable {F : Fmt}

theorem arith_ieee {Q : Fault → Prop} : Arith (Fp F) Q :=
  ⟨fun _ _ => trivial, fun _ => trivial, .inr fun b => ⟨1 / b, rfl⟩⟩

/-- With infinities and NaN the only way out is the assertion or the read past the end. -/
theorem C76_gmres_dense_ieee (rt : Nat → Nat) (hrt : SqrtExact rt) (nd : Bool) (n m : Nat) (h0 : 0 < n)
    (a : DMat (Fp F)) (h : a.n = n ∧ a.m = m ∧ a.elems.length = n * m) (tol : Fp F) (g : Gmres (DMat (Fp F)) (Fp F))
    (hg : Gmres.new (dGOps nd) a tol = .ok g) (b : List (Fp F)) (hb : ¬ (m = n ∧ b.length = n)) :
    Gmres.solve rt nd (dGOps nd) g b = .error (.ub .oob) ∨
      nd = false ∧ Gmres.solve rt nd (dGOps nd) g b = .error .assertFail := by
  obtain ⟨e, h1, h2⟩ := (gmres_dense_never (Q := fun e => e = .ub .oob ∨ nd = false ∧ e = .assertFail) (.inl rfl)
    (fun _ h => by rcases h with h | ⟨_, h⟩ <;> cases h)
    arith_ieee rt hrt nd (fun h => .inr ⟨h, rfl⟩) n m h0 a h tol g hg b hb).exists
  rcases h2 with rfl | ⟨h2, rfl⟩
  · exact .inl h1
  · exact .inr ⟨h2, h1⟩

/-- Compressed rows: a right-hand side with more elements than the matrix has rows or fewer than it has columns. -/
theorem C76_gmres_csr_ieee (rt : Nat → Nat) (hrt : SqrtExact rt) (nd : Bool) (n m : Nat) (a : Csr (Fp F))
    (hok : a.Wf ∧ a.Distinct) (hs : a.shape = .ok (n, m)) (tol : Fp F) (g : Gmres (Csr (Fp F)) (Fp F))
    (hg : Gmres.new (csrGOps nd) a tol = .ok g) (b : List (Fp F)) (hb : n < b.length ∨ b.length < m) :
    Gmres.solve rt nd (csrGOps nd) g b = .error (.ub .oob) ∨
      nd = false ∧ Gmres.solve rt nd (csrGOps nd) g b = .error .assertFail := by
  obtain ⟨e, h1, h2⟩ := (gmres_csr_never (Q := fun e => e = .ub .oob ∨ nd = false ∧ e = .assertFail) (.inl rfl)
    (fun _ h => by rcases h with h | ⟨_, h⟩ <;> cases h)
    arith_ieee rt hrt nd (fun h => .inr ⟨h, rfl⟩) n m a hok hs tol g hg b
    (hb.imp id fun h => .inl ⟨by omega, fun _ => h⟩)).exists
  rcases h2 with rfl | ⟨h2, rfl⟩
  · exact .inl h1
  · exact .inr ⟨h2, h1⟩

end

/-! ## Non-vacuity -/

/-- A `2 x 3` matrix: the third column is ignored. -/
example : (Ilu.new dOps (⟨2, 3, [2, 1, 7, 4, 5, 9]⟩ : DMat ℚ) >>= fun a => Ilu.solve dOps a [1, 5]) = .ok [0, 1] := by
  decide +kernel

/-- A `3 x 1` dense matrix: not even an object. -/
example : Ilu.new dOps (⟨3, 1, [2, 0, 0]⟩ : DMat ℚ) = .error (.ub .oob) := by decide +kernel

/-- A `2 x 1` dense matrix: an object that cannot be used ... -/
example : (Ilu.new dOps (⟨2, 1, [2, 4]⟩ : DMat ℚ) >>= fun a => Ilu.solve dOps a [1, 5]) = .error (.ub .oob) := by
  decide +kernel

/-- ... while the sparse one divides by zero. -/
example : (Ilu.new csrOps (⟨[2, 4], [0, 1, 2], [0, 0]⟩ : Csr ℚ) >>= fun a => Ilu.solve csrOps a [1, 5]) =
    .error .nonFinite := by decide +kernel

example : (Ilu.new cooOps (⟨[2, 4], [0, 1], [0, 0]⟩ : Coo ℚ) >>= fun a => Ilu.solve cooOps a [1, 5]) =
    .error .nonFinite := by decide +kernel

/-- GMRES with the wide matrix makes an object and then fails for every right-hand side. -/
example : (do
    let g ← Gmres.new (dGOps true) (⟨2, 3, [2, 1, 7, 4, 5, 9]⟩ : DMat ℚ) (1 / 1000)
    Gmres.solve Nat.sqrt true (dGOps true) g [1, 5]) = .error (.ub .oob) := by decide +kernel

example : (do
    let g ← Gmres.new (dGOps false) (⟨2, 3, [2, 1, 7, 4, 5, 9]⟩ : DMat ℚ) (1 / 1000)
    Gmres.solve Nat.sqrt false (dGOps false) g [1, 5]) = .error .assertFail := by decide +kernel

example : (do
    let g ← Gmres.new (csrGOps true) (⟨[2, 4], [0, 1, 2], [0, 0]⟩ : Csr ℚ) (1 / 1000)
    Gmres.solve Nat.sqrt true (csrGOps true) g [3]) = .error .nonFinite := by decide +kernel

end Lalib.Props
