import Verif.Props.GmresSteps
import Verif.Props.Cholesky
import Verif.Props.Lapack

/-! # Property C105: the solvers agree with each other and with the product

In exact arithmetic. -/

namespace Lalib.Props

open Lalib Finset

variable {T M : Type}

private theorem same_list [Field T] {n : Nat} {A : Nat → Nat → T} (h : minor A n ≠ 0) {x y : List T} (hx : x.length = n)
    (hy : y.length = n) {b : Nat → T} (sx : Solves n A (val0 x) b) (sy : Solves n A (val0 y) b) : x = y :=
  list_ext_val0 (by omega) fun i hi => solves_unique h sx sy i (by omega)

private theorem posDef_diag [Field T] [LinearOrder T] [IsStrictOrderedRing T] {n : Nat} {A : Nat → Nat → T} (h : PosDef n A) {i : Nat}
    (hi : i < n) : 0 < A i i := by
  have := h (fun k => if k = i then 1 else 0) ⟨i, hi, by simp⟩
  simpa [hi] using this

section
variable [Field T] [LinearOrder T] [IsStrictOrderedRing T] [Sqrt T] [LawfulSqrt T]
variable {ops : Bool → GOps M T} {ok : M → Prop}

/-- Positive definite, no fill-in: Cholesky and modified Cholesky in both storages, incomplete LU and GMRES with any tolerance
return one and the same vector, and its product with the matrix is the right-hand side. -/
theorem C105_agree (hst : GStorage ops ok) (nd : Bool) (rt : Nat → Nat) (hrt : SqrtExact rt) (n : Nat) (a : M) (A : Nat → Nat → T)
    (hok : ok a) (hA : Shows (ops nd).toMatOps n a A) (hs : Symm n A) (hp : PosDef n A) (hf : NoFill n A) (tol : T) (ht : 0 < tol)
    (l p : List T) (hl : Lower .square n l A) (hq : Lower .triangle n p A) (m : Mem T) (b r : Nat) (hb : m.len b = n) (hr : r ≠ b)
    (hne : ∃ i, i < n ∧ val0 (m b) i ≠ 0) :
    ∃ x L P L' P' f g, x.length = n ∧ Solves n A (val0 x) (val0 (m b)) ∧
      (Chol.new .square n l = .ok L ∧ Chol.solveVecAt nd false .square n L b r m = .ok (m.setBuf r x)) ∧
      (Chol.new .triangle n p = .ok P ∧ Chol.solveVecAt nd false .triangle n P b r m = .ok (m.setBuf r x)) ∧
      (Chol.modNew .square n l = .ok L' ∧ Chol.solveVecAt nd true .square n L' b r m = .ok (m.setBuf r x)) ∧
      (Chol.modNew .triangle n p = .ok P' ∧ Chol.solveVecAt nd true .triangle n P' b r m = .ok (m.setBuf r x)) ∧
      (Ilu.new (ops nd).toMatOps a = .ok f ∧ Ilu.solve (ops nd).toMatOps f (m b) = .ok x) ∧
      (Gmres.new (ops nd) a tol = .ok g ∧ Gmres.solve rt nd (ops nd) g (m b) = .ok x) ∧ (ops nd).mul a x = .ok (m b) := by
  have hd := hp.regular.det
  obtain ⟨L, eL, -⟩ := C35_factor .square n l A hl hs hp
  obtain ⟨P, eP, -⟩ := C35_factor .triangle n p A hq hs hp
  obtain ⟨L', eL', -⟩ := C38_factor .square n l A hl hs hp.regular
  obtain ⟨P', eP', -⟩ := C38_factor .triangle n p A hq hs hp.regular
  obtain ⟨f, F, ef, -, -, hfs⟩ := C43_noFill (hst.storage nd) n a A hok hA hf hp.regular
  obtain ⟨g, eg, hg⟩ := C97_no_fill hst nd rt hrt n a A hok hA hf hp.regular tol ht
  obtain ⟨x, hx, sx, -, e1⟩ := C37_vec nd .square n l L A hl hs hp eL m b r hb hr
  obtain ⟨x2, hx2, sx2, -, e2⟩ := C37_vec nd .triangle n p P A hq hs hp eP m b r hb hr
  obtain ⟨x3, hx3, sx3, -, e3⟩ := C39_vec nd .square n l L' A hl hs eL' m b r hb hr
  obtain ⟨x4, hx4, sx4, -, e4⟩ := C39_vec nd .triangle n p P' A hq hs eP' m b r hb hr
  obtain ⟨x5, e5, hx5, sx5⟩ := hfs (m b) hb
  obtain ⟨x6, e6, hx6, sx6⟩ := hg (m b) hb hne
  obtain ⟨y, ey, hy, vy⟩ := hst.mul nd hok hA hx
  obtain rfl := same_list hd hx2 hx sx2 sx
  obtain rfl := same_list hd hx3 hx2 sx3 sx2
  obtain rfl := same_list hd hx4 hx3 sx4 sx3
  obtain rfl := same_list hd hx5 hx4 sx5 sx4
  obtain rfl := same_list hd hx6 hx5 sx6 sx5
  have hyb : y = m b := list_ext_val0 (by rw [hy]; exact hb.symm) fun i hi => by
    rw [vy i (by omega)]; exact sx i (by omega)
  exact ⟨x6, L, P, L', P', f, g, hx6, sx6, ⟨eL, e1⟩, ⟨eP, e2⟩, ⟨eL', e3⟩, ⟨eP', e4⟩, ⟨ef, e5⟩, ⟨eg, e6⟩, by rw [ey, hyb]⟩

/-- ... and for tri-diagonal matrices the tri-diagonal solver returns that vector too, with either backend. -/
theorem C105_tri (hst : GStorage ops ok) (nd : Bool) (rt : Nat → Nat) (hrt : SqrtExact rt) (n : Nat) (hn : 2 ≤ n) (a : M)
    (t : TriDiag T) (hw : TriWf t n) (hok : ok a) (hA : Shows (ops nd).toMatOps n a (triFull t)) (hs : Symm n (triFull t))
    (hp : PosDef n (triFull t)) (tol : T) (ht : 0 < tol) (l p : List T) (hl : Lower .square n l (triFull t))
    (hq : Lower .triangle n p (triFull t)) (m : Mem T) (b r : Nat) (hb : m.len b = n) (hrl : m.len r = n) (hr : r ≠ b)
    (hne : ∃ i, i < n ∧ val0 (m b) i ≠ 0) :
    ∃ x L P L' P' f g, x.length = n ∧ Solves n (triFull t) (val0 x) (val0 (m b)) ∧
      Tdma.solveVec nd t b r m = .ok (m.setBuf r x) ∧ (Lapack.solveVec nd t b r m).map (·.2) = .ok (m.setBuf r x) ∧
      (Chol.new .square n l = .ok L ∧ Chol.solveVecAt nd false .square n L b r m = .ok (m.setBuf r x)) ∧
      (Chol.new .triangle n p = .ok P ∧ Chol.solveVecAt nd false .triangle n P b r m = .ok (m.setBuf r x)) ∧
      (Chol.modNew .square n l = .ok L' ∧ Chol.solveVecAt nd true .square n L' b r m = .ok (m.setBuf r x)) ∧
      (Chol.modNew .triangle n p = .ok P' ∧ Chol.solveVecAt nd true .triangle n P' b r m = .ok (m.setBuf r x)) ∧
      (Ilu.new (ops nd).toMatOps a = .ok f ∧ Ilu.solve (ops nd).toMatOps f (m b) = .ok x) ∧
      (Gmres.new (ops nd) a tol = .ok g ∧ Gmres.solve rt nd (ops nd) g (m b) = .ok x) ∧ (ops nd).mul a x = .ok (m b) := by
  have hf : NoFill n (triFull t) := C43_triDiag n _ (fun i j hi hj h => by
      unfold triFull
      rw [if_neg (by omega), if_neg (by omega), if_neg (by omega)]) fun i hi => (posDef_diag hp hi).ne'
  obtain ⟨x, L, P, L', P', f, g, hx, sx, h⟩ := C105_agree hst nd rt hrt n a (triFull t) hok hA hs hp hf tol ht l p hl hq m b r hb hr hne
  obtain ⟨y, m', ey, hst', hy, sy⟩ := C34_vec_partial nd t n hw hn b r m hb hrl hp.regular
  obtain ⟨m'', em, el⟩ := C53_tri_partial nd t n hn hw b r m hb hrl hp.regular
  obtain rfl := same_list hp.regular.det hy hx sy sx
  have e : m' = m.setBuf r y := hst'.eq
  rw [ey] at em
  obtain rfl : m' = m'' := Except.ok.inj em
  exact ⟨y, L, P, L', P', f, g, hx, sx, by rw [ey, e], by rw [el, e], h⟩

/-- `solve(a * x)` is `x` for GMRES. -/
theorem C105_gmres_trip (hst : GStorage ops ok) (nd : Bool) (rt : Nat → Nat) (hrt : SqrtExact rt) (n : Nat) (a : M)
    (A : Nat → Nat → T) (hok : ok a) (hA : Shows (ops nd).toMatOps n a A) (hf : NoFill n A) (hr : Regular A n) (tol : T) (ht : 0 < tol) :
    ∃ g, Gmres.new (ops nd) a tol = .ok g ∧ ∀ x : List T, x.length = n → (∃ i, i < n ∧ val0 x i ≠ 0) →
      ((ops nd).mul a x >>= Gmres.solve rt nd (ops nd) g) = .ok x := by
  obtain ⟨g, eg, hg⟩ := C97_no_fill hst nd rt hrt n a A hok hA hf hr tol ht
  refine ⟨g, eg, fun x hx hne => ?_⟩
  obtain ⟨y, ey, hy, vy⟩ := hst.mul nd hok hA hx
  obtain ⟨x', e, hx', sx'⟩ := hg y hy (by
    by_contra hc
    push Not at hc
    obtain ⟨i, hi, h0⟩ := hne
    refine h0 (solves_unique hr.det (x := val0 x) (y := fun _ => 0) (b := fun _ => 0) (fun j hj => ?_) (fun j hj => ?_) i hi)
    · rw [← vy j hj, hc j hj]
    · simp [mulVec])
  rw [ey, Lalib.ok_bind, e]
  congr 1
  exact same_list hr.det hx' hx sx' fun i hi => (vy i hi).symm

/-- `solve(a * x)` is `x` and `a * solve(b)` is `b` for Cholesky, with or without fill-in. -/
theorem C105_chol_trip (hst : GStorage ops ok) (nd : Bool) (n : Nat) (a : M) (A : Nat → Nat → T) (hok : ok a)
    (hA : Shows (ops nd).toMatOps n a A) (hs : Symm n A) (hp : PosDef n A) (mt : MemType) (l : List T) (hl : Lower mt n l A) :
    ∃ L, Chol.new mt n l = .ok L ∧ ∀ x : List T, x.length = n →
      (∃ y, (ops nd).mul a x = .ok y ∧ ∀ (m : Mem T) (b r : Nat), m b = y → r ≠ b →
        Chol.solveVecAt nd false mt n L b r m = .ok (m.setBuf r x)) ∧
      ∃ z, (∀ (m : Mem T) (b r : Nat), m b = x → r ≠ b → Chol.solveVecAt nd false mt n L b r m = .ok (m.setBuf r z)) ∧
        (ops nd).mul a z = .ok x := by
  have hr : Regular A n := hp.regular
  obtain ⟨L, eL, -⟩ := C35_factor mt n l A hl hs hp
  refine ⟨L, eL, fun x hx => ⟨?_, ?_⟩⟩
  · obtain ⟨y, ey, hy, vy⟩ := hst.mul nd hok hA hx
    refine ⟨y, ey, fun m b r hb hrb => ?_⟩
    obtain ⟨x', hx', sx', -, e⟩ := C37_vec nd mt n l L A hl hs hp eL m b r (by rw [Mem.len, hb, hy]) hrb
    rw [e, same_list hr.det hx' hx sx' fun i hi => by rw [hb]; exact (vy i hi).symm]
  · obtain ⟨z, hz, sz, -⟩ := C37_vec nd mt n l L A hl hs hp eL (Mem.ofList [x]) 0 1 hx (by omega)
    have sz : Solves n A (val0 z) (val0 x) := sz
    refine ⟨z, fun m b r hb hrb => ?_, ?_⟩
    · obtain ⟨x', hx', sx', -, e⟩ := C37_vec nd mt n l L A hl hs hp eL m b r (by rw [Mem.len, hb, hx]) hrb
      rw [hb] at sx'
      rw [e, same_list hr.det hx' hz sx' sz]
    · obtain ⟨y, ey, hy, vy⟩ := hst.mul nd hok hA hz
      rw [ey]
      congr 1
      exact list_ext_val0 (by omega) fun i hi => by rw [vy i (by omega)]; exact sz i (by omega)

end

section
variable [Field T] [DecidableEq T] {ops : Bool → GOps M T} {ok : M → Prop}

/-- `solve(a * x)` is `x` for incomplete LU without fill-in, and `a * solve(b)` is `b`. -/
theorem C105_ilu_trip (hst : GStorage ops ok) (nd : Bool) (n : Nat) (a : M) (A : Nat → Nat → T) (hok : ok a)
    (hA : Shows (ops nd).toMatOps n a A) (hf : NoFill n A) (hr : Regular A n) :
    ∃ f, Ilu.new (ops nd).toMatOps a = .ok f ∧ ∀ x : List T, x.length = n →
      ((ops nd).mul a x >>= Ilu.solve (ops nd).toMatOps f) = .ok x ∧
      (Ilu.solve (ops nd).toMatOps f x >>= (ops nd).mul a) = .ok x := by
  obtain ⟨f, F, ef, -, -, hfs⟩ := C43_noFill (hst.storage nd) n a A hok hA hf hr
  refine ⟨f, ef, fun x hx => ⟨?_, ?_⟩⟩
  · obtain ⟨y, ey, hy, vy⟩ := hst.mul nd hok hA hx
    obtain ⟨x', e, hx', sx'⟩ := hfs y hy
    rw [ey, Lalib.ok_bind, e]
    congr 1
    exact same_list hr.det hx' hx sx' fun i hi => (vy i hi).symm
  · obtain ⟨y, ey, hy, sy⟩ := hfs x hx
    obtain ⟨z, ez, hz, vz⟩ := hst.mul nd hok hA hy
    rw [ey, Lalib.ok_bind, ez]
    congr 1
    exact list_ext_val0 (by omega) fun i hi => by rw [vz i (by omega)]; exact sy i (by omega)

/-- ... for modified Cholesky. -/
theorem C105_mod_trip (hst : GStorage ops ok) (nd : Bool) (n : Nat) (a : M) (A : Nat → Nat → T) (hok : ok a)
    (hA : Shows (ops nd).toMatOps n a A) (hs : Symm n A) (hr : Regular A n) (mt : MemType) (l : List T) (hl : Lower mt n l A) :
    ∃ L, Chol.modNew mt n l = .ok L ∧ ∀ x : List T, x.length = n →
      (∃ y, (ops nd).mul a x = .ok y ∧ ∀ (m : Mem T) (b r : Nat), m b = y → r ≠ b →
        Chol.solveVecAt nd true mt n L b r m = .ok (m.setBuf r x)) ∧
      ∃ z, (∀ (m : Mem T) (b r : Nat), m b = x → r ≠ b → Chol.solveVecAt nd true mt n L b r m = .ok (m.setBuf r z)) ∧
        (ops nd).mul a z = .ok x := by
  have hr : Regular A n := hr
  obtain ⟨L, eL, -⟩ := C38_factor mt n l A hl hs hr
  refine ⟨L, eL, fun x hx => ⟨?_, ?_⟩⟩
  · obtain ⟨y, ey, hy, vy⟩ := hst.mul nd hok hA hx
    refine ⟨y, ey, fun m b r hb hrb => ?_⟩
    obtain ⟨x', hx', sx', -, e⟩ := C39_vec nd mt n l L A hl hs eL m b r (by rw [Mem.len, hb, hy]) hrb
    rw [e, same_list hr.det hx' hx sx' fun i hi => by rw [hb]; exact (vy i hi).symm]
  · obtain ⟨z, hz, sz, -⟩ := C39_vec nd mt n l L A hl hs eL (Mem.ofList [x]) 0 1 hx (by omega)
    have sz : Solves n A (val0 z) (val0 x) := sz
    refine ⟨z, fun m b r hb hrb => ?_, ?_⟩
    · obtain ⟨x', hx', sx', -, e⟩ := C39_vec nd mt n l L A hl hs eL m b r (by rw [Mem.len, hb, hx]) hrb
      rw [hb] at sx'
      rw [e, same_list hr.det hx' hz sx' sz]
    · obtain ⟨y, ey, hy, vy⟩ := hst.mul nd hok hA hz
      rw [ey]
      congr 1
      exact list_ext_val0 (by omega) fun i hi => by rw [vy i (by omega)]; exact sz i (by omega)

end

/-! ## A concrete case -/

/-- `[[2, -1], [-1, 2]]`. -/
noncomputable def rtA : TriDiag ℝ := ⟨[-1], [2, 2], [-1]⟩

/-- All hypotheses of the agreement hold for it, with the right-hand side (1, 0). -/
example : TriWf rtA 2 ∧ Shows (dGOps false).toMatOps 2 (⟨2, 2, [2, -1, -1, 2]⟩ : DMat ℝ) (triFull rtA) ∧ Symm 2 (triFull rtA) ∧
    PosDef 2 (triFull rtA) ∧ Lower .square 2 [2, -1, -1, 2] (triFull rtA) ∧ Lower .triangle 2 [2, -1, 2] (triFull rtA) ∧
    ∃ i, i < 2 ∧ val0 (Mem.ofList [[(1 : ℝ), 0], [0, 0]] 0) i ≠ 0 := by
  have two : ∀ {P : Nat → Nat → Prop}, P 0 0 → P 0 1 → P 1 0 → P 1 1 → ∀ i j, i < 2 → j < 2 → P i j := by
    intro P h1 h2 h3 h4 i j hi hj
    have e1 : i = 0 ∨ i = 1 := by omega
    have e2 : j = 0 ∨ j = 1 := by omega
    rcases e1 with rfl | rfl <;> rcases e2 with rfl | rfl <;> assumption
  refine ⟨⟨rfl, rfl, rfl, by norm_num⟩, ⟨rfl, two rfl rfl rfl rfl⟩, two rfl rfl rfl rfl, fun x hx => ?_,
    ⟨rfl, fun i j hj hi => two (P := fun i j => held .square 2 [2, -1, -1, 2] i j = triFull rtA i j) rfl rfl rfl rfl i j hi (by omega)⟩,
    ⟨rfl, fun i j hj hi => ?_⟩, 0, by omega, one_ne_zero⟩
  · obtain ⟨i, hi, h0⟩ := hx
    have h1 : 0 < x 0 ^ 2 + x 1 ^ 2 := by
      have : i = 0 ∨ i = 1 := by omega
      rcases this with rfl | rfl
      · have := pow_pos (abs_pos.mpr h0) 2; rw [sq_abs] at this; nlinarith [sq_nonneg (x 1)]
      · have := pow_pos (abs_pos.mpr h0) 2; rw [sq_abs] at this; nlinarith [sq_nonneg (x 0)]
    norm_num [sum_range_succ, triFull, rtA, val0]
    nlinarith [sq_nonneg (x 0 - x 1)]
  · have : (i = 0 ∧ j = 0) ∨ (i = 1 ∧ j = 0) ∨ (i = 1 ∧ j = 1) := by omega
    rcases this with ⟨rfl, rfl⟩ | ⟨rfl, rfl⟩ | ⟨rfl, rfl⟩ <;> rfl

/-- Runs with rational numbers (all roots are rational): the matrix `[[4, 2], [2, 5]]` and (1, 2) there and back. -/
example : (do
    let y ← (dGOps false).mul (⟨2, 2, [4, 2, 2, 5]⟩ : DMat ℚ) [1, 2]
    let L ← Chol.new .square 2 [4, 2, 2, 5]
    let m ← Chol.solveVecAt false false .square 2 L 0 1 (Mem.ofList [y])
    .ok (y, m 1)) = (.ok ([8, 12], [1, 2]) : Res (List ℚ × List ℚ)) := by decide +kernel

end Lalib.Props
