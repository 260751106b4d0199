import Verif.Props.RoundTrip
import Verif.Props.Struct
import Verif.Proofs.Inverse

/-! # Property C110: superposition, and the inverse matrix from the solvers

In exact arithmetic. -/

namespace Lalib.Props

open Lalib Finset

variable {T M : Type}

private theorem same_list [Field T] {n : Nat} {A : Nat → Nat → T} (h : minor A n ≠ 0) {x y : List T} (hx : x.length = n)
    (hy : y.length = n) {b : Nat → T} (sx : Solves n A (val0 x) b) (sy : Solves n A (val0 y) b) : x = y :=
  list_ext_val0 (by omega) fun i hi => solves_unique h sx sy i (by omega)

private theorem comb_of [Field T] {n : Nat} {A : Nat → Nat → T} (h : minor A n ≠ 0) {s t : T} {b d c x y z : List T}
    (hz : z.length = n) (hc : IsComb n s t b d c) (sx : Solves n A (val0 x) (val0 b)) (sy : Solves n A (val0 y) (val0 d))
    (sz : Solves n A (val0 z) (val0 c)) : IsComb n s t x y z :=
  ⟨hz, fun i hi => solves_unique h (fun j hj => by rw [sz j hj, hc.2 j hj]) (solves_comb s t sx sy) i hi⟩

private theorem ident_cols [Field T] {n : Nat} {l : List T} (h : DMat.identity n = .ok ⟨n, n, l⟩) {k : Nat} (hk : k < n) {i : Nat}
    (hi : i < n) : entry n l i k = if i = k then 1 else 0 := by
  unfold DMat.identity at h
  rw [diagConst_eq] at h
  injection h with h
  injection h with _ _ h
  rw [← h, entry_matOf _ hi hk]

private theorem solves_congr [Field T] {n : Nat} {A : Nat → Nat → T} {x b c : Nat → T} (h : Solves n A x b) (e : ∀ i, i < n → b i = c i) :
    Solves n A x c := fun i hi => (h i hi).trans (e i hi)

private theorem unit_val [Field T] {n k i : Nat} (hi : i < n) : val0 (unitVec n k : List T) i = if i = k then 1 else 0 := by
  unfold unitVec
  rw [val0_map_range, if_pos hi]

/-! ## Superposition -/

section
variable [Field T] [DecidableEq T]

/-- Cholesky (`md = false`) and modified Cholesky (`md = true`), any stored factor without zeros on its diagonal, whatever it was
computed from, in both storages: solving is linear in the right-hand side. -/
theorem C110_linear_chol (nd md : Bool) (mt : MemType) (n : Nat) (L : List T) (hL : L.length = storeLen mt n)
    (hd : ∀ i, i < n → held mt n L i i ≠ 0) (m : Mem T) (b d c r : Nat) (hb : m.len b = n) (hdl : m.len d = n) (s t : T)
    (hc : IsComb n s t (m b) (m d) (m c)) (hrb : r ≠ b) (hrd : r ≠ d) (hrc : r ≠ c) :
    ∃ x y z, IsComb n s t x y z ∧ x.length = n ∧ y.length = n ∧
      Chol.solveVecAt nd md mt n L b r m = .ok (m.setBuf r x) ∧ Chol.solveMutVec nd md mt n L b m = .ok (m.setBuf b x) ∧
      Chol.solveVecAt nd md mt n L d r m = .ok (m.setBuf r y) ∧ Chol.solveMutVec nd md mt n L d m = .ok (m.setBuf d y) ∧
      Chol.solveVecAt nd md mt n L c r m = .ok (m.setBuf r z) ∧ Chol.solveMutVec nd md mt n L c m = .ok (m.setBuf c z) := by
  rw [held_eq] at hd
  have hm : minor (fun i j => ∑ k ∈ Finset.range n, low (Chol.fwdCoef md (cIndex mt n) L) i k *
      low (fun i j => val0 L (cIndex mt n i j)) j k) n ≠ 0 := by
    rw [minor_LU (L := low (Chol.fwdCoef md (cIndex mt n) L)) (U := fun k j => low (fun i j => val0 L (cIndex mt n i j)) j k)
      (fun i t _ _ h => by unfold low; rw [if_neg (by omega)]) (fun t j _ _ h => by unfold low; rw [if_neg (by omega)])
      (fun i j _ _ => rfl)]
    refine mul_ne_zero (prod_ne_zero_iff.mpr fun i hi => ?_) (prod_ne_zero_iff.mpr fun i hi => ?_)
    · have := hd i (mem_range.mp hi)
      unfold low Chol.fwdCoef
      rw [if_pos le_rfl]
      cases md
      · exact this
      · simp only [if_true]; rw [div_self this]; exact one_ne_zero
    · unfold low
      rw [if_pos le_rfl]
      exact hd i (mem_range.mp hi)
  have h := (Chol.solve_spec nd md mt n L _ hL hd (fun i j _ _ => rfl) hm m).1
  obtain ⟨x, hx, sx, e1, e2⟩ := h b r hb hrb
  obtain ⟨y, hy, sy, e3, e4⟩ := h d r hdl hrd
  obtain ⟨z, hz, sz, e5, e6⟩ := h c r hc.1 hrc
  exact ⟨x, y, z, comb_of hm hz hc sx sy sz, hx, hy, e2, e1, e4, e3, e6, e5⟩

/-- The tri-diagonal solver. -/
theorem C110_linear_tdma (nd : Bool) (a : TriDiag T) (n : Nat) (hw : TriWf a n) (hn : 2 ≤ n) (hr : Regular (triFull a) n) (m : Mem T)
    (b d c r : Nat) (hb : m.len b = n) (hdl : m.len d = n) (hrl : m.len r = n) (s t : T) (hc : IsComb n s t (m b) (m d) (m c)) :
    ∃ x y z, IsComb n s t x y z ∧ x.length = n ∧ y.length = n ∧ Tdma.solveVec nd a b r m = .ok (m.setBuf r x) ∧
      Tdma.solveVec nd a d r m = .ok (m.setBuf r y) ∧ Tdma.solveVec nd a c r m = .ok (m.setBuf r z) := by
  obtain ⟨x, _, e1, h1, hx, sx⟩ := C34_vec_partial nd a n hw hn b r m hb hrl hr
  obtain ⟨y, _, e2, h2, hy, sy⟩ := C34_vec_partial nd a n hw hn d r m hdl hrl hr
  obtain ⟨z, _, e3, h3, hz, sz⟩ := C34_vec_partial nd a n hw hn c r m hc.1 hrl hr
  exact ⟨x, y, z, comb_of hr.det hz hc sx sy sz, hx, hy, h1.eq ▸ e1, h2.eq ▸ e2, h3.eq ▸ e3⟩

/-- Incomplete LU, whatever the fill-in: the preconditioner is a linear operator. -/
theorem C110_linear_ilu {ops : MatOps M T} {ok : M → Prop} (hst : Storage ops ok) (n : Nat) (f : M) (F : Nat → Nat → T) (hok : ok f)
    (hF : Shows ops n f F) (hd : ∀ i, i < n → F i i ≠ 0) (b d c : List T) (hb : b.length = n) (hdl : d.length = n) (s t : T)
    (hc : IsComb n s t b d c) :
    ∃ x y z, IsComb n s t x y z ∧ x.length = n ∧ y.length = n ∧ Ilu.solve ops f b = .ok x ∧ Ilu.solve ops f d = .ok y ∧
      Ilu.solve ops f c = .ok z := by
  obtain ⟨x, e1, hx, sx⟩ := C42_solve hst n f F hok hF hd b hb
  obtain ⟨y, e2, hy, sy⟩ := C42_solve hst n f F hok hF hd d hdl
  obtain ⟨z, e3, hz, sz⟩ := C42_solve hst n f F hok hF hd c hc.1
  have hm : minor (luProd n F) n ≠ 0 := by
    rw [minor_lu (F := F) fun _ _ _ _ => rfl]
    exact prod_ne_zero_iff.mpr fun i hi => hd i (mem_range.mp hi)
  exact ⟨x, y, z, comb_of hm hz hc sx sy sz, hx, hy, e1, e2, e3⟩

/-- Back substitution. -/
theorem C110_linear_backSub (a : UTri T) (R : Nat → Nat → T) (hR : ∀ i j, i < a.n → j < a.n → a.get i j = .ok (R i j))
    (hd : ∀ i, i < a.n → R i i ≠ 0) (b d c : List T) (hb : b.length = a.n) (hdl : d.length = a.n) (s t : T)
    (hc : IsComb a.n s t b d c) :
    ∃ x y z, IsComb a.n s t x y z ∧ x.length = a.n ∧ y.length = a.n ∧ a.backSub b = .ok x ∧ a.backSub d = .ok y ∧
      a.backSub c = .ok z := by
  obtain ⟨x, e1, hx, sx, -⟩ := C22_solves a R b hb hR hd
  obtain ⟨y, e2, hy, sy, -⟩ := C22_solves a R d hdl hR hd
  obtain ⟨z, e3, hz, -, uz⟩ := C22_solves a R c hc.1 hR hd
  have h := solves_comb (A := R) (n := a.n) s t sx sy
  have e := uz ((List.range a.n).map fun i => s * val0 x i + t * val0 y i) (by simp) fun i hi => by
    rw [hc.2 i hi]
    refine Eq.trans ?_ (h i hi)
    unfold mulVec
    exact sum_congr rfl fun j hj => by rw [val0_map_range, if_pos (mem_range.mp hj)]
  exact ⟨x, y, z, ⟨hz, fun i hi => by rw [← e, val0_map_range, if_pos hi]⟩, hx, hy, e1, e2, e3⟩

end

/-! ## The inverse -/

/-- Cholesky, both storages: the right-hand side `identity(n)` gives the inverse, in place and not.  Both products with the matrix are
the identity, the inverse is symmetric and positive definite, and multiplying by it is the same as solving. -/
theorem C110_inverse_chol [Field T] [LinearOrder T] [IsStrictOrderedRing T] [Sqrt T] [LawfulSqrt T] (nd : Bool) (mt : MemType) (n : Nat)
    (l L : List T) (A : Nat → Nat → T) (hl : Lower mt n l A) (hs : Symm n A) (hp : PosDef n A) (hL : Chol.new mt n l = .ok L)
    (a : List T) (ha : a.length = n * n) (haA : ∀ i j, i < n → j < n → entry n a i j = A i j) (m : Mem T) (b : MatRef) (r : Nat)
    (hbn : b.n = n) (hbm : b.m = n) (hr : r ≠ b.buf) (hI : DMat.identity n = .ok ⟨n, n, m b.buf⟩) :
    ∃ X, X.length = n * n ∧ Chol.solveMutMat nd false mt n L b m = .ok (m.setBuf b.buf X) ∧
      Chol.solveMatAt nd false mt n L b r m = .ok (m.setBuf r X) ∧
      matMul nd ⟨n, n, a⟩ ⟨n, n, X⟩ = DMat.identity n ∧ matMul nd ⟨n, n, X⟩ ⟨n, n, a⟩ = DMat.identity n ∧
      Symm n (entry n X) ∧ PosDef n (entry n X) ∧
      ∀ (m' : Mem T) (v q : Nat), m'.len v = n → q ≠ v → ∃ x, matVec nd ⟨n, n, X⟩ (m' v) = .ok x ∧
        Chol.solveVecAt nd false mt n L v q m' = .ok (m'.setBuf q x) := by
  have hlen : (m b.buf).length = n * n := by
    unfold DMat.identity at hI
    rw [diagConst_eq] at hI
    injection hI with hI
    injection hI with _ _ hI
    rw [← hI]; simp
  obtain ⟨X, hX, hcol, e1, e2⟩ := C37_mat nd mt n l L A hl hs hp hL m b r (by rw [MatRef.Wf, hbn, hbm]; exact hlen) hbn hr
  rw [hbm] at hX hcol
  have hcol : ∀ k, k < n → Solves n A (fun i => entry n X i k) fun i => if i = k then 1 else 0 := fun k hk =>
    solves_congr (hcol k hk) fun i hi => ident_cols hI hk hi
  have hm := hp.regular.det
  refine ⟨X, hX, e1, e2, (inv_products nd hm ha hX haA hcol).1, (inv_products nd hm ha hX haA hcol).2, inv_symm hm hcol hs,
    inv_posDef hcol hp, fun m' v q hv hq => ?_⟩
  obtain ⟨x, hx, sx, -, e⟩ := C37_vec nd mt n l L A hl hs hp hL m' v q hv hq
  exact ⟨x, inv_matVec nd hm hX hcol hx hv sx, e⟩

/-- Modified Cholesky: every matrix it accepts. -/
theorem C110_inverse_mod [Field T] [DecidableEq T] (nd : Bool) (mt : MemType) (n : Nat) (l L : List T) (A : Nat → Nat → T)
    (hl : Lower mt n l A) (hs : Symm n A) (hL : Chol.modNew mt n l = .ok L) (a : List T) (ha : a.length = n * n)
    (haA : ∀ i j, i < n → j < n → entry n a i j = A i j) (m : Mem T) (b : MatRef) (r : Nat) (hbn : b.n = n) (hbm : b.m = n)
    (hr : r ≠ b.buf) (hI : DMat.identity n = .ok ⟨n, n, m b.buf⟩) :
    ∃ X, X.length = n * n ∧ Chol.solveMutMat nd true mt n L b m = .ok (m.setBuf b.buf X) ∧
      Chol.solveMatAt nd true mt n L b r m = .ok (m.setBuf r X) ∧
      matMul nd ⟨n, n, a⟩ ⟨n, n, X⟩ = DMat.identity n ∧ matMul nd ⟨n, n, X⟩ ⟨n, n, a⟩ = DMat.identity n ∧
      Symm n (entry n X) ∧
      ∀ (m' : Mem T) (v q : Nat), m'.len v = n → q ≠ v → ∃ x, matVec nd ⟨n, n, X⟩ (m' v) = .ok x ∧
        Chol.solveVecAt nd true mt n L v q m' = .ok (m'.setBuf q x) := by
  have hlen : (m b.buf).length = n * n := by
    unfold DMat.identity at hI
    rw [diagConst_eq] at hI
    injection hI with hI
    injection hI with _ _ hI
    rw [← hI]; simp
  obtain ⟨X, hX, hcol, e1, e2⟩ := C39_mat nd mt n l L A hl hs hL m b r (by rw [MatRef.Wf, hbn, hbm]; exact hlen) hbn hr
  rw [hbm] at hX hcol
  have hcol : ∀ k, k < n → Solves n A (fun i => entry n X i k) fun i => if i = k then 1 else 0 := fun k hk =>
    solves_congr (hcol k hk) fun i hi => ident_cols hI hk hi
  have hm := (mod_data mt n l L A hl hs hL).2.2.2
  refine ⟨X, hX, e1, e2, (inv_products nd hm ha hX haA hcol).1, (inv_products nd hm ha hX haA hcol).2, inv_symm hm hcol hs,
    fun m' v q hv hq => ?_⟩
  obtain ⟨x, hx, sx, -, e⟩ := C39_vec nd mt n l L A hl hs hL m' v q hv hq
  exact ⟨x, inv_matVec nd hm hX hcol hx hv sx, e⟩

/-- The tri-diagonal solver; the right-hand side may be the matrix `x` itself. -/
theorem C110_inverse_tdma [Field T] [DecidableEq T] (nd : Bool) (d : TriDiag T) (n : Nat) (hw : TriWf d n) (hn : 2 ≤ n)
    (hr : Regular (triFull d) n) (a : List T) (ha : a.length = n * n) (haA : ∀ i j, i < n → j < n → entry n a i j = triFull d i j)
    (m : Mem T) (b x : MatRef) (hbn : b.n = n) (hbm : b.m = n) (hxn : x.n = n) (hxm : x.m = n) (hx : m.len x.buf = n * n)
    (hI : DMat.identity n = .ok ⟨n, n, m b.buf⟩) :
    ∃ X, X.length = n * n ∧ Tdma.solveMat nd d b x m = .ok (m.setBuf x.buf X) ∧
      matMul nd ⟨n, n, a⟩ ⟨n, n, X⟩ = DMat.identity n ∧ matMul nd ⟨n, n, X⟩ ⟨n, n, a⟩ = DMat.identity n ∧
      ∀ (m' : Mem T) (v q : Nat), m'.len v = n → m'.len q = n → ∃ y, matVec nd ⟨n, n, X⟩ (m' v) = .ok y ∧
        Tdma.solveVec nd d v q m' = .ok (m'.setBuf q y) := by
  have hlen : (m b.buf).length = n * n := by
    unfold DMat.identity at hI
    rw [diagConst_eq] at hI
    injection hI with hI
    injection hI with _ _ hI
    rw [← hI]; simp
  obtain ⟨X, _, e1, h1, hX, hcol⟩ := C34_mat_partial nd d n hw hn b x m (by rw [MatRef.Wf, hbn, hbm]; exact hlen)
    (by rw [MatRef.Wf, hxn, hxm]; exact hx) hbn hxn (by rw [hxm, hbm]) hr
  rw [hbm] at hX hcol
  have hcol : ∀ k, k < n → Solves n (triFull d) (fun i => entry n X i k) fun i => if i = k then 1 else 0 := fun k hk =>
    solves_congr (hcol k hk) fun i hi => ident_cols hI hk hi
  have hm := hr.det
  refine ⟨X, hX, h1.eq ▸ e1, (inv_products nd hm ha hX haA hcol).1, (inv_products nd hm ha hX haA hcol).2, fun m' v q hv hq => ?_⟩
  obtain ⟨y, _, e2, h2, hy, sy⟩ := C34_vec_partial nd d n hw hn v q m' hv hq hr
  exact ⟨y, inv_matVec nd hm hX hcol hy hv sy, h2.eq ▸ e2⟩

section
variable [Field T] [LinearOrder T] [IsStrictOrderedRing T] [Sqrt T] [LawfulSqrt T]
variable {ops : Bool → GOps M T} {ok : M → Prop}

/-- No fill-in: the vectors that incomplete LU and GMRES (any positive tolerance) return for the unit vectors are the columns of the
inverse, one and the same for both. -/
theorem C110_inverse_columns (hst : GStorage ops ok) (nd : Bool) (rt : Nat → Nat) (hrt : SqrtExact rt) (n : Nat) (c : M)
    (A : Nat → Nat → T) (hok : ok c) (hA : Shows (ops nd).toMatOps n c A) (hf : NoFill n A) (hr : Regular A n) (tol : T) (ht : 0 < tol)
    (a : List T) (ha : a.length = n * n) (haA : ∀ i j, i < n → j < n → entry n a i j = A i j) :
    ∃ f g x, Ilu.new (ops nd).toMatOps c = .ok f ∧ Gmres.new (ops nd) c tol = .ok g ∧
      (∀ k, k < n → Ilu.solve (ops nd).toMatOps f (unitVec n k) = .ok (x k) ∧ Gmres.solve rt nd (ops nd) g (unitVec n k) = .ok (x k)) ∧
      matMul nd ⟨n, n, a⟩ ⟨n, n, ofCols n x⟩ = DMat.identity n ∧ matMul nd ⟨n, n, ofCols n x⟩ ⟨n, n, a⟩ = DMat.identity n ∧
      ∀ v : List T, v.length = n → matVec nd ⟨n, n, ofCols n x⟩ v = Ilu.solve (ops nd).toMatOps f v := by
  have hm := hr.det
  obtain ⟨f, F, ef, hokf, hF, hI⟩ : ∃ f F, Ilu.new (ops nd).toMatOps c = .ok f ∧ ok f ∧ Shows (ops nd).toMatOps n f F ∧ IsIlu n A F := by
    rcases C40_factor (hst.storage nd) n c A hok hA with ⟨f, F, e, hok', hF, hI⟩ | e
    · exact ⟨f, F, e, hok', hF, hI⟩
    · obtain ⟨a', F, e', -⟩ := C43_noFill (hst.storage nd) n c A hok hA hf hr
      rw [e] at e'; cases e'
  have hd : ∀ i, i < n → F i i ≠ 0 := by
    have h0 : minor A n = ∏ i ∈ Finset.range n, F i i := minor_lu (hI.exact hf)
    rw [h0] at hm
    exact fun i hi => prod_ne_zero_iff.mp hm i (mem_range.mpr hi)
  have hsol : ∀ v : List T, v.length = n → ∃ x, Ilu.solve (ops nd).toMatOps f v = .ok x ∧ x.length = n ∧ Solves n A (val0 x) (val0 v) := by
    intro v hv
    obtain ⟨x, e, hx, sx⟩ := C42_solve (hst.storage nd) n f F hokf hF hd v hv
    refine ⟨x, e, hx, fun i hi => ?_⟩
    rw [← sx i hi]
    exact sum_congr rfl fun j hj => by rw [hI.exact hf i j hi (mem_range.mp hj)]
  obtain ⟨g, eg, hg⟩ := C97_no_fill hst nd rt hrt n c A hok hA hf hr tol ht
  have hu : ∀ k, (unitVec n k : List T).length = n := fun k => by simp [unitVec]
  choose x ex hx sx using fun k => hsol (unitVec n k) (hu k)
  have hcol : ∀ k, k < n → Solves n A (fun i => entry n (ofCols n x) i k) fun i => if i = k then 1 else 0 := by
    intro k hk i hi
    refine Eq.trans ?_ ((sx k i hi).trans (unit_val hi))
    exact sum_congr rfl fun j hj => by
      show A i j * entry n (matOf n n _) j k = _
      rw [entry_matOf _ (mem_range.mp hj) hk]
  have hlen : (ofCols n x).length = n * n := by simp [ofCols]
  refine ⟨f, g, x, ef, eg, fun k hk => ⟨ex k, ?_⟩, (inv_products nd hm ha hlen haA hcol).1, (inv_products nd hm ha hlen haA hcol).2,
    fun v hv => ?_⟩
  · obtain ⟨y, ey, hy, sy⟩ := hg (unitVec n k) (hu k) ⟨k, hk, by rw [unit_val hk, if_pos rfl]; exact one_ne_zero⟩
    rw [ey, same_list hm hy (hx k) sy (sx k)]
  · obtain ⟨y, ey, hy, sy⟩ := hsol v hv
    rw [ey]
    exact inv_matVec nd hm hlen hcol hy hv sy

/-- GMRES is not additive: where it solves for `b` and for `-b` it has no finite result for their sum. -/
theorem C110_gmres_false (hst : GStorage ops ok) (nd : Bool) (rt : Nat → Nat) (hrt : SqrtExact rt) (n : Nat) (h0 : 0 < n) (a : M)
    (A : Nat → Nat → T) (hok : ok a) (hA : Shows (ops nd).toMatOps n a A) (hf : NoFill n A) (hr : Regular A n) (tol : T) (ht : 0 < tol) :
    ∃ g b d c x y, Gmres.new (ops nd) a tol = .ok g ∧ b.length = n ∧ d.length = n ∧ IsComb n 1 1 b d c ∧
      Gmres.solve rt nd (ops nd) g b = .ok x ∧ Gmres.solve rt nd (ops nd) g d = .ok y ∧
      Gmres.solve rt nd (ops nd) g c = .error .nonFinite := by
  obtain ⟨g, eg, hg⟩ := C97_no_fill hst nd rt hrt n a A hok hA hf hr tol ht
  obtain ⟨x, ex, -⟩ := hg (List.replicate n 1) (by simp) ⟨0, h0, by simp [val0_replicate, h0]⟩
  obtain ⟨y, ey, -⟩ := hg (List.replicate n (-1)) (by simp) ⟨0, h0, by simp [val0_replicate, h0]⟩
  refine ⟨g, _, _, List.replicate n 0, x, y, eg, by simp, by simp, ⟨by simp, fun i hi => ?_⟩, ex, ey,
    C45_zero_rhs hst nd rt hrt n h0 a A hok hA tol g eg⟩
  simp [val0_replicate, hi]

end

/-! ## Concrete cases -/

/-- The inverse of `[[4, 2], [2, 5]]` and its product with the matrix. -/
example : (do
    let L ← Chol.new .square 2 [4, 2, 2, 5]
    let m ← Chol.solveMatAt false false .square 2 L ⟨0, 2, 2⟩ 1 (Mem.ofList [[1, 0, 0, 1]])
    let p ← matMul false ⟨2, 2, [4, 2, 2, 5]⟩ ⟨2, 2, m 1⟩
    .ok (m 1, p.elems)) = (.ok ([5/16, -1/8, -1/8, 1/4], [1, 0, 0, 1]) : Res (List ℚ × List ℚ)) := by decide +kernel

/-- An indefinite matrix, modified Cholesky, packed storage. -/
example : (do
    let L ← Chol.modNew .triangle 2 [1, 2, 1]
    let m ← Chol.solveMatAt false true .triangle 2 L ⟨0, 2, 2⟩ 1 (Mem.ofList [[1, 0, 0, 1]])
    let p ← matMul false ⟨2, 2, [1, 2, 2, 1]⟩ ⟨2, 2, m 1⟩
    .ok (m 1, p.elems)) = (.ok ([-1/3, 2/3, 2/3, -1/3], [1, 0, 0, 1]) : Res (List ℚ × List ℚ)) := by decide +kernel

/-- The hypotheses of the superposition hold. -/
example : IsComb 2 (3 : ℚ) 2 [1, 0] [0, 5] [3, 10] ∧ (∀ i, i < 2 → held .square 2 [(1 : ℚ), 7, 2, 4] i i ≠ 0) :=
  ⟨⟨rfl, by decide +kernel⟩, by decide +kernel⟩

/-- `identity(2)` as a right-hand side. -/
example : DMat.identity 2 = .ok ⟨2, 2, (Mem.ofList [[(1 : ℚ), 0, 0, 1]]) 0⟩ := by decide +kernel

end Lalib.Props
