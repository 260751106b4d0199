import Verif.Proofs.Lapack
import Verif.Proofs.LapackChol
import Verif.Props.Tdma
import Verif.Props.Cholesky

/-! # Properties C52 and C53: the LAPACK backend

`Lapack.solveVec` returns the solver's own matrix besides the memory, because `?gtsv` overwrites it. -/

namespace Lalib.Props

open Lalib

variable {T : Type} [Field T] [LinearOrder T] [IsStrictOrderedRing T]

/-! ## C52: using a solver object again

Full claim: every call of `solve_linear` on a `TriDiag` object solves the system of the matrix it was
constructed with.  With the LAPACK backend that holds of the first call only. -/

/-- First call, vector right-hand side: every non-singular matrix, every size from one on.  `b` and `x` may be
the same vector, and `x` may have any length before. -/
theorem C52_first_partial (nd : Bool) (a : TriDiag T) (n : Nat) (hn : 1 ≤ n) (hw : TriWf a n) (b x : Nat) (m : Mem T)
    (hb : m.len b = n) (hdet : minor (triFull a) n ≠ 0) :
    ∃ a' l, Lapack.solveVec nd a b x m = .ok (a', m.setBuf x l) ∧ l.length = n ∧ TriWf a' n ∧
      Solves n (triFull a) (val0 l) (val0 (m b)) := by
  obtain ⟨info, a', l, e, hw', hl, hi, hsol⟩ := Lapack.gtsv_spec (nrhs := 1) hn hw
    (b := m b) (show (m b).length = n * 1 by rw [Nat.mul_one]; exact hb)
  have h0 := hi.mpr hdet
  refine ⟨a', l, ?_, by rw [hl]; exact hb, hw', ?_⟩
  · unfold Lapack.solveVec
    have : a.shape.1 = n := hw.1
    rw [this, hb]
    simp only [beq_self_eq_true, cassert_true, ok_bind, Mem.setBuf_self, e, noexcept_ok, Mem.setBuf_setBuf]
  · have := hsol h0 0 (by omega)
    simpa using this

/-- First call, matrix right-hand side: every column. -/
theorem C52_first_mat_partial (nd : Bool) (a : TriDiag T) (n : Nat) (hn : 1 ≤ n) (hw : TriWf a n) (b x : MatRef)
    (m : Mem T) (hbw : b.Wf m) (hbn : b.n = n) (hxn : x.n = n) (hxm : x.m = b.m)
    (hdet : minor (triFull a) n ≠ 0) :
    ∃ a' l, Lapack.solveMat nd a b x m = .ok (a', m.setBuf x.buf l) ∧ l.length = n * b.m ∧ TriWf a' n ∧
      ∀ k, k < b.m → Solves n (triFull a) (fun i => entry b.m l i k) (fun i => entry b.m (m b.buf) i k) := by
  have hb : (m b.buf).length = n * b.m := by rw [← hbn]; exact hbw
  obtain ⟨info, a', l, e, hw', hl, hi, hsol⟩ := Lapack.gtsv_spec (nrhs := b.m) hn hw hb
  have h0 := hi.mpr hdet
  refine ⟨a', l, ?_, by rw [hl]; exact hb, hw', hsol h0⟩
  unfold Lapack.solveMat
  have : a.shape.1 = n := hw.1
  rw [this, hbn, hxn, hxm]
  simp only [beq_self_eq_true, cassert_true, ok_bind, Bool.and_self, Mem.setBuf_self, e, noexcept_ok,
    Mem.setBuf_setBuf]

/-- After a call the object no longer holds its matrix, unless the first off-diagonal pair has a zero. -/
theorem C52_overwritten (nd : Bool) (a a' : TriDiag T) (n : Nat) (hn : 2 ≤ n) (hw : TriWf a n) (b x : Nat)
    (m m' : Mem T) (hb : m.len b = n) (hdet : minor (triFull a) n ≠ 0) (hl : val0 a.dl 0 ≠ 0)
    (hu : val0 a.du 0 ≠ 0) (he : Lapack.solveVec nd a b x m = .ok (a', m')) :
    ∃ i j, i < n ∧ j < n ∧ triFull a' i j ≠ triFull a i j := by
  obtain ⟨info, a₁, l, e, hw', _, hi, _⟩ := Lapack.gtsv_spec (nrhs := 1) (by omega) hw
    (b := m b) (show (m b).length = n * 1 by rw [Nat.mul_one]; exact hb)
  have h0 := hi.mpr hdet
  subst h0
  unfold Lapack.solveVec at he
  have : a.shape.1 = n := hw.1
  rw [this, hb] at he
  simp only [beq_self_eq_true, cassert_true, ok_bind, Mem.setBuf_self, e, noexcept_ok] at he
  injection he with he
  obtain ⟨rfl, _⟩ := Prod.mk.inj he
  exact Lapack.gtsv_changes hn hw e hl hu

/-- Hence a second call goes wrong: whatever the first right-hand side was, if what is left in the object is
non-singular there is a right-hand side for which the second call does not solve the system. -/
theorem C52_second_false (nd : Bool) (a a' : TriDiag T) (n : Nat) (hn : 2 ≤ n) (hw : TriWf a n) (b x : Nat)
    (m m' : Mem T) (hb : m.len b = n) (hdet : minor (triFull a) n ≠ 0) (hl : val0 a.dl 0 ≠ 0)
    (hu : val0 a.du 0 ≠ 0) (he : Lapack.solveVec nd a b x m = .ok (a', m'))
    (hdet' : minor (triFull a') n ≠ 0) :
    ∃ c l a'', c.length = n ∧ Lapack.solveVec nd a' b x (m'.setBuf b c) = .ok (a'', (m'.setBuf b c).setBuf x l) ∧
      ¬ Solves n (triFull a) (val0 l) (val0 c) := by
  obtain ⟨i, j, hi, hj, hij⟩ := C52_overwritten nd a a' n hn hw b x m m' hb hdet hl hu he
  obtain ⟨a₁, l₁, e₁, _, hw', _⟩ := C52_first_partial nd a n (by omega) hw b x m hb hdet
  rw [he] at e₁
  injection e₁ with e₁
  obtain ⟨rfl, _⟩ := Prod.mk.inj e₁
  -- the column of the old matrix in which the two differ
  let c := (List.range n).map fun r => triFull a r j
  have hc : c.length = n := by simp [c]
  obtain ⟨a'', l, e, _, _, hs⟩ := C52_first_partial nd a' n (by omega) hw' b x (m'.setBuf b c)
    (by rw [Mem.len_eq, Mem.setBuf_self, hc]) hdet'
  rw [Mem.setBuf_self] at hs
  refine ⟨c, l, a'', hc, e, fun hs' => hij ?_⟩
  have unit : ∀ A : Nat → Nat → T, ∀ r, mulVec n A (fun k => if k = j then 1 else 0) r = A r j := by
    intro A r
    unfold mulVec
    rw [Finset.sum_eq_single j (fun k _ hk => by simp [hk]) (fun h => absurd (Finset.mem_range.mpr hj) h)]
    simp
  have hv : ∀ r, r < n → val0 c r = triFull a r j := fun r hr => Lapack.val0_map hr _
  have hu : Solves n (triFull a) (fun k => if k = j then 1 else 0) (val0 c) := fun r hr => by
    rw [unit, hv r hr]
  have hx := solves_unique hdet hs' hu
  have h1 := hs i hi
  have h2 : mulVec n (triFull a') (val0 l) i = mulVec n (triFull a') (fun k => if k = j then 1 else 0) i :=
    Finset.sum_congr rfl fun k hk => by rw [hx k (Finset.mem_range.mp hk)]
  rw [h2, unit, hv i hi] at h1
  exact h1

/-- A singular system is not reported: the call returns whatever the elimination has left. -/
theorem C52_singular_silent (nd : Bool) (a : TriDiag T) (n : Nat) (hn : 1 ≤ n) (hw : TriWf a n) (b x : Nat)
    (m : Mem T) (hb : m.len b = n) : ∃ a' l, Lapack.solveVec nd a b x m = .ok (a', m.setBuf x l) := by
  obtain ⟨info, a', l, e, _⟩ := Lapack.gtsv_spec (nrhs := 1) hn hw
    (b := m b) (show (m b).length = n * 1 by rw [Nat.mul_one]; exact hb)
  refine ⟨a', l, ?_⟩
  unfold Lapack.solveVec
  have : a.shape.1 = n := hw.1
  rw [this, hb]
  simp only [beq_self_eq_true, cassert_true, ok_bind, Mem.setBuf_self, e, noexcept_ok, Mem.setBuf_setBuf]

-- `[[2, 1], [1, 2]]`: right the first time, wrong the second time (`[3, 3]` has the solution `[1, 1]`)
example : (Lapack.solveVec false (⟨[1], [2, 2], [1]⟩ : TriDiag ℚ) 0 1 (Mem.ofList [[3, 3]])).map
    (fun r => (r.1, r.2 1)) = .ok (⟨[1], [2, 3/2], [1]⟩, [1, 1]) := by decide +kernel
example : (Lapack.solveVec false (⟨[1], [2, 3/2], [1]⟩ : TriDiag ℚ) 0 1 (Mem.ofList [[3, 3]])).map
    (fun r => r.2 1) = .ok [3/4, 3/2] := by decide +kernel
-- with a row interchange, and in place
example : (Lapack.solveVec false (⟨[2, 1], [0, 1, 1], [3, 1]⟩ : TriDiag ℚ) 0 0 (Mem.ofList [[6, 7, 5]])).map
    (fun r => (r.1, r.2 0)) = .ok (⟨[1, 1], [2, 3, 1], [1, 0]⟩, [1, 2, 3]) := by decide +kernel
-- a singular system, no report
example : (Lapack.solveVec false (⟨[1], [1, 1], [1]⟩ : TriDiag ℚ) 0 0 (Mem.ofList [[1, 2]])).map
    (fun r => r.2 0) = .ok [1, 1] := by decide +kernel

/-! ## C53: the backends agree

Full claim: the results do not depend on whether `LALIB_LAPACK_BACKEND` is defined. -/

/-- Tri-diagonal systems: agreement where all leading minors are non-zero and `n ≥ 2`. -/
theorem C53_tri_partial (nd : Bool) (a : TriDiag T) (n : Nat) (hn : 2 ≤ n) (hw : TriWf a n) (b x : Nat) (m : Mem T)
    (hb : m.len b = n) (hx : m.len x = n) (hr : Regular (triFull a) n) :
    ∃ m', Tdma.solveVec nd a b x m = .ok m' ∧ (Lapack.solveVec nd a b x m).map (·.2) = .ok m' := by
  obtain ⟨l, m', e, hst, hl, hs⟩ := C34_vec_partial nd a n hw hn b x m hb hx hr
  obtain ⟨a', l', e', hl', _, hs'⟩ := C52_first_partial nd a n (by omega) hw b x m hb hr.det
  have : l = l' := list_ext_val0 (by omega) fun i hi => solves_unique hr.det hs hs' i (by omega)
  refine ⟨m', e, ?_⟩
  rw [e', ← this]
  refine congrArg Except.ok (funext fun k => ?_)
  show m.setBuf x l k = m' k
  by_cases hk : k = x
  · rw [hk, Mem.setBuf_self]; exact hst.1.symm
  · rw [Mem.setBuf_other _ hk]; exact (hst.2 k hk).symm

/-- They differ on a non-singular system with a zero minor, and on every `1 x 1` system. -/
theorem C53_tri_false (nd : Bool) (a : TriDiag T) (n : Nat) (hn : 1 ≤ n) (hw : TriWf a n) (b x : Nat) (m : Mem T)
    (hb : m.len b = n) (hx : m.len x = n) (hdet : minor (triFull a) n ≠ 0)
    (hr : n = 1 ∨ ¬ Regular (triFull a) n) :
    (∃ e, Tdma.solveVec nd a b x m = .error e) ∧
      ∃ l, (Lapack.solveVec nd a b x m).map (·.2) = .ok (m.setBuf x l) ∧ Solves n (triFull a) (val0 l) (val0 (m b)) := by
  constructor
  · by_cases h1 : n = 1
    · subst h1
      exact ⟨_, C34_one_false nd a hw b x m hb⟩
    · exact ⟨_, C34_singular nd a n hw (by omega) b x m hb hx (hr.resolve_left h1)⟩
  · obtain ⟨a', l', e', _, _, hs'⟩ := C52_first_partial nd a n hn hw b x m hb hdet
    exact ⟨l', by rw [e']; rfl, hs'⟩

section chol
variable [Sqrt T] [LawfulSqrt T] {potrf : Lapack.Potrf T} {potrs : Lapack.Potrs T}

omit [LinearOrder T] [IsStrictOrderedRing T] [Sqrt T] [LawfulSqrt T] in
theorem lowerOf {n : Nat} {l : List T} {A : Nat → Nat → T} (hl : Lower .square n l A) (hs : Symm n A) :
    LowerOf n l A := ⟨hl.1, hl.2, hs⟩

/-- Cholesky: on positive definite matrices both constructors store the same data. -/
theorem C53_chol_new_partial (hp : LawfulPotrf potrf) (n : Nat) (l : List T) (A : Nat → Nat → T)
    (hl : Lower .square n l A) (hs : Symm n A) (hpd : PosDef n A) :
    Lapack.cholNew potrf n l = Chol.new .square n l ∧ ∃ L, Chol.new .square n l = .ok L := by
  obtain ⟨L, e, hlen, hc⟩ := C35_factor .square n l A hl hs hpd
  obtain ⟨L₂, e₂, hup⟩ := C35_upper n l A hl hs hpd
  rw [e] at e₂
  injection e₂ with e₂
  subst e₂
  obtain ⟨L', e', hlen', hc', hup'⟩ := hp.accept n l A (lowerOf hl hs) hpd
  have : L = L' := by
    refine list_ext_val0 (by omega) fun p hp => ?_
    have hlen2 : l.length = n * n := hl.1
    have hn : 0 < n := by
      rcases Nat.eq_zero_or_pos n with rfl | h
      · rw [hlen, hlen2] at hp; simp at hp
      · exact h
    have hpn : p < n * n := by omega
    have hr : p / n < n := Nat.div_lt_of_lt_mul hpn
    have hcn : p % n < n := Nat.mod_lt _ hn
    have hpe : p = p / n * n + p % n := (Nat.div_add_mod' p n).symm
    rw [hpe]
    rcases Nat.lt_or_ge (p / n) (p % n) with h | h
    · exact (hup _ _ h hcn).trans (hup' _ _ h hcn).symm
    · exact hc.unique hc' _ _ h hr
  refine ⟨?_, L, e⟩
  rw [e, Lapack.cholNew, e', ← this]
  rfl

omit [IsStrictOrderedRing T] [Sqrt T] [LawfulSqrt T] in
/-- A matrix which is not positive definite is always rejected with LAPACK ... -/
theorem C53_chol_rejects (hp : LawfulPotrf potrf) (n : Nat) (l : List T) (A : Nat → Nat → T)
    (hl : Lower .square n l A) (hs : Symm n A) (hpd : ¬ PosDef n A) :
    Lapack.cholNew potrf n l = .error (.throw .runtimeError) := by
  obtain ⟨info, L, e, h⟩ := hp.reject n l A (lowerOf hl hs) hpd
  unfold Lapack.cholNew
  rw [e, ok_bind, throwIf_ne h]
  rfl

/-- ... but accepted by the internal backend if the first diagonal entry is not positive. -/
theorem C53_chol_false (hp : LawfulPotrf potrf) (n : Nat) (hn : 1 ≤ n) (l : List T) (A : Nat → Nat → T)
    (hl : Lower .square n l A) (hs : Symm n A) (h0 : A 0 0 ≤ 0) :
    Lapack.cholNew potrf n l = .error (.throw .runtimeError) ∧ Chol.new .square n l = .ok l :=
  have h := C36_false .square n hn l A hl h0
  ⟨C53_chol_rejects hp n l A hl hs h.2, h.1⟩

/-- Solving after a successful factorisation: same result, in place and not. -/
theorem C53_chol_vec (hq : LawfulPotrs potrs) (nd : Bool) (n : Nat) (l L : List T) (A : Nat → Nat → T)
    (hl : Lower .square n l A) (hs : Symm n A) (hpd : PosDef n A) (hL : Chol.new .square n l = .ok L)
    (m : Mem T) (b r : Nat) (hb : m.len b = n) (hr : r ≠ b) :
    Lapack.cholMutVec potrs nd n L b m = Chol.solveMutVec nd false .square n L b m ∧
      Lapack.cholVecAt potrs nd n L b r m = Chol.solveVecAt nd false .square n L b r m := by
  obtain ⟨L', e, hlen, hc⟩ := C35_factor .square n l A hl hs hpd
  rw [hL] at e
  injection e with e
  subst e
  obtain ⟨x, hx, hsol, e1, e2⟩ := C37_vec nd .square n l L A hl hs hpd hL m b r hb hr
  have hb1 : (m b).length = n * 1 := by rw [Nat.mul_one]; exact hb
  obtain ⟨y, e3, hy, hsol'⟩ := hq.solve n 1 L A (m b) (by rw [hlen]; exact hl.1) hc hb1
  have hs0 : Solves n A (val0 y) (val0 (m b)) := by
    have := hsol' 0 (by omega)
    simpa [entry] using this
  have : x = y := list_ext_val0 (by omega) fun i hi =>
    solves_unique hpd.regular.det hsol hs0 i (by omega)
  subst this
  have hbr : (m.setBuf r (m b)).len b = n := by
    rw [Mem.len_eq, Mem.setBuf_other _ (Ne.symm hr)]; exact hb
  rw [e1, e2]
  constructor
  · simp only [Lapack.cholMutVec, hb, beq_self_eq_true, cassert_true, ok_bind, e3]
  · simp only [Lapack.cholVecAt, hb, hbr, beq_self_eq_true, cassert_true, ok_bind, Mem.setBuf_self, e3,
      Mem.setBuf_setBuf]

theorem C53_chol_mat (hq : LawfulPotrs potrs) (nd : Bool) (n : Nat) (l L : List T) (A : Nat → Nat → T)
    (hl : Lower .square n l A) (hs : Symm n A) (hpd : PosDef n A) (hL : Chol.new .square n l = .ok L)
    (m : Mem T) (b : MatRef) (r : Nat) (hb : b.Wf m) (hn : b.n = n) (hr : r ≠ b.buf) :
    Lapack.cholMutMat potrs nd n L b m = Chol.solveMutMat nd false .square n L b m ∧
      Lapack.cholMatAt potrs nd n L b r m = Chol.solveMatAt nd false .square n L b r m := by
  obtain ⟨L', e, hlen, hc⟩ := C35_factor .square n l A hl hs hpd
  rw [hL] at e
  injection e with e
  subst e
  obtain ⟨x, hx, hsol, e1, e2⟩ := C37_mat nd .square n l L A hl hs hpd hL m b r hb hn hr
  have hb1 : (m b.buf).length = n * b.m := by rw [← hn]; exact hb
  obtain ⟨y, e3, hy, hsol'⟩ := hq.solve n b.m L A (m b.buf) (by rw [hlen]; exact hl.1) hc hb1
  have : x = y := by
    refine list_ext_val0 (by omega) fun p hp => ?_
    have hpn : p < n * b.m := by omega
    have hm : 0 < b.m := Nat.pos_of_ne_zero fun h => by rw [h] at hpn; simp at hpn
    have hpe : p = p / b.m * b.m + p % b.m := (Nat.div_add_mod' p b.m).symm
    rw [hpe]
    exact solves_unique hpd.regular.det (hsol _ (Nat.mod_lt _ hm)) (hsol' _ (Nat.mod_lt _ hm)) (p / b.m)
      (Nat.div_lt_of_lt_mul (by rw [Nat.mul_comm]; exact hpn))
  subst this
  rw [e1, e2]
  constructor
  · simp only [Lapack.cholMutMat, hn, beq_self_eq_true, cassert_true, ok_bind, e3]
  · simp only [Lapack.cholMatAt, hn, beq_self_eq_true, cassert_true, ok_bind, Mem.setBuf_self, e3,
      Mem.setBuf_setBuf]

/-- The contracts are not empty. -/
theorem C53_contracts : LawfulPotrf (Lapack.potrfRef : Lapack.Potrf T) ∧
    LawfulPotrs (Lapack.potrsRef : Lapack.Potrs T) :=
  ⟨Lapack.potrfRef_lawful, Lapack.potrsRef_lawful⟩

end chol

-- the two constructors on `[[-1]]`, and on `[[4, 2], [2, 5]]`
example : Lapack.cholNew Lapack.potrfRef 1 [(-1 : ℚ)] = .error (.throw .runtimeError) ∧
    Chol.new .square 1 [(-1 : ℚ)] = .ok [-1] := by decide +kernel
example : Lapack.cholNew Lapack.potrfRef 2 [4, 7, 2, (5 : ℚ)] = .ok [2, 7, 1, 2] := by decide +kernel
-- the non-singular matrix `[[0, 1], [1, 0]]`
example : Tdma.solveVec true (⟨[1], [0, 0], [1]⟩ : TriDiag ℚ) 0 0 (Mem.ofList [[1, 2]]) = .error .nonFinite ∧
    (Lapack.solveVec true (⟨[1], [0, 0], [1]⟩ : TriDiag ℚ) 0 0 (Mem.ofList [[1, 2]])).map (fun r => r.2 0) =
      .ok [2, 1] := ⟨rfl, by decide +kernel⟩

end Lalib.Props
