import Verif.Props.Cholesky
import Verif.Props.Renumber
import Verif.Proofs.Schur

/-! # Property C114: subsystems, and elimination in two stages

In exact arithmetic. -/

namespace Lalib.Props

open Lalib Finset

variable {T : Type}

/-! ## Equations which form a system of their own -/

section
variable [Field T] [LinearOrder T] [IsStrictOrderedRing T] [Sqrt T] [LawfulSqrt T]

/-- If some of the equations contain no other unknowns than the same-numbered ones, then solving them alone gives the components which the
solution of the whole system has there: Cholesky and modified Cholesky, every combination of storages. -/
theorem C114_closed (nd md : Bool) (mt mt' : MemType) (n k : Nat) (f : Nat → Nat) (l l' : List T) (A : Nat → Nat → T) (hf : ClosedSub n k f A)
    (hl : Lower mt n l A) (hl' : Lower mt' k l' fun i j => A (f i) (f j)) (hs : Symm n A) (hp : PosDef n A) (m m' : Mem T)
    (b r b' r' : Nat) (hb : m.len b = n) (hr : r ≠ b) (hb' : m'.len b' = k) (hr' : r' ≠ b')
    (hbb : ∀ i, i < k → val0 (m' b') i = val0 (m b) (f i)) :
    ∃ L L' x x', (if md then Chol.modNew mt n l else Chol.new mt n l) = .ok L ∧
      (if md then Chol.modNew mt' k l' else Chol.new mt' k l') = .ok L' ∧ x.length = n ∧ x'.length = k ∧
      Chol.solveVecAt nd md mt n L b r m = .ok (m.setBuf r x) ∧ Chol.solveVecAt nd md mt' k L' b' r' m' = .ok (m'.setBuf r' x') ∧
      ∀ i, i < k → val0 x' i = val0 x (f i) := by
  have hs' := hf.symm hs
  have hp' := hf.posDef hp
  have fin : ∀ x x' : List T, Solves n A (val0 x) (val0 (m b)) → Solves k (fun i j => A (f i) (f j)) (val0 x') (val0 (m' b')) →
      ∀ i, i < k → val0 x' i = val0 x (f i) :=
    fun x x' h h' => solves_unique hp'.regular.det h' fun i hi => ((hf.solves h) i hi).trans (hbb i hi).symm
  cases md
  · obtain ⟨L, eL, -⟩ := C35_factor mt n l A hl hs hp
    obtain ⟨L', eL', -⟩ := C35_factor mt' k l' _ hl' hs' hp'
    obtain ⟨x, hx, sx, -, e⟩ := C37_vec nd mt n l L A hl hs hp eL m b r hb hr
    obtain ⟨x', hx', sx', -, e'⟩ := C37_vec nd mt' k l' L' _ hl' hs' hp' eL' m' b' r' hb' hr'
    exact ⟨L, L', x, x', eL, eL', hx, hx', e, e', fin x x' sx sx'⟩
  · obtain ⟨L, eL, -⟩ := C38_factor mt n l A hl hs hp.regular
    obtain ⟨L', eL', -⟩ := C38_factor mt' k l' _ hl' hs' hp'.regular
    obtain ⟨x, hx, sx, -, e⟩ := C39_vec nd mt n l L A hl hs eL m b r hb hr
    obtain ⟨x', hx', sx', -, e'⟩ := C39_vec nd mt' k l' L' _ hl' hs' eL' m' b' r' hb' hr'
    exact ⟨L, L', x, x', eL, eL', hx, hx', e, e', fin x x' sx sx'⟩

end

/-! ## Two stages -/

/-- The second stage for the matrix `A` of order `p + q`, with the results `Y` and `z` of the first: the order of the calls, and their
results together.  `new` is the constructor, `md` tells which of the two factorisations it makes. -/
def TwoStage [Field T] [DecidableEq T] (new : MemType → Nat → List T → Res (List T)) (nd md : Bool) (mt : MemType) (p q : Nat) (l : List T) (A : Nat → Nat → T)
    (Y z : List T) (m : Mem T) (b r : Nat) : Prop :=
  ∀ (l₂ : List T) (m₂ : Mem T) (g : Nat), Lower mt q l₂ (schur p A (entry q Y)) → m₂.len g = q → g ≠ r →
    (∀ i, i < q → m₂.val g i = schurRhs p A (val0 z) (m.val b) i) →
    ∃ L L₂ x y, new mt (p + q) l = .ok L ∧ new mt q l₂ = .ok L₂ ∧ x.length = p + q ∧ y.length = q ∧
      Chol.solveVecAt nd md mt (p + q) L b r m = .ok (m.setBuf r x) ∧ Chol.solveVecAt nd md mt q L₂ g r m₂ = .ok (m₂.setBuf r y) ∧
      (∀ i, i < q → val0 x (p + i) = val0 y i) ∧ ∀ i, i < p → val0 x i = val0 z i - ∑ j ∈ range q, entry q Y i j * val0 y j

/-- `b₁`, `B`, `b` hold `b₁`, `A₁₂` and the whole right-hand side. -/
structure Stage1 [Field T] (p q : Nat) (A : Nat → Nat → T) (m : Mem T) (b₁ : Nat) (B : MatRef) (b r : Nat) : Prop where
  wf : B.Wf m
  rows : B.n = p
  cols : B.m = q
  len1 : m.len b₁ = p
  len : m.len b = p + q
  r1 : r ≠ b₁
  rB : r ≠ B.buf
  rb : r ≠ b
  val1 : ∀ i, i < p → m.val b₁ i = m.val b i
  valB : ∀ i j, i < p → j < q → entry q (m B.buf) i j = A i (p + j)

private theorem both [Field T] {p q : Nat} {A : Nat → Nat → T} {m : Mem T} {b₁ : Nat} {B : MatRef} {b r : Nat}
    (h : Stage1 p q A m b₁ B b r) {Y z : List T}
    (sY : ∀ k, k < B.m → Solves p A (fun i => entry B.m Y i k) (fun i => entry B.m (m B.buf) i k))
    (sz : Solves p A (val0 z) (val0 (m b₁))) :
    (∀ j, j < q → Solves p A (fun i => entry q Y i j) (fun i => A i (p + j))) ∧ Solves p A (val0 z) (m.val b) := by
  refine ⟨fun j hj i hi => ?_, fun i hi => (sz i hi).trans (h.val1 i hi)⟩
  have := sY j (h.cols.symm ▸ hj) i hi
  rw [h.cols] at this
  exact this.trans (h.valB i j hi hj)

private theorem fin [Field T] {p q : Nat} {A : Nat → Nat → T} (hm : minor A (p + q) ≠ 0) {b g : Nat → T} {x y Y z : List T}
    (hY : ∀ j, j < q → Solves p A (fun i => entry q Y i j) (fun i => A i (p + j))) (hz : Solves p A (val0 z) b)
    (sx : Solves (p + q) A (val0 x) b) (sy : Solves q (schur p A (entry q Y)) (val0 y) g)
    (hg : ∀ i, i < q → g i = schurRhs p A (val0 z) b i) :
    (∀ i, i < q → val0 x (p + i) = val0 y i) ∧ ∀ i, i < p → val0 x i = val0 z i - ∑ j ∈ range q, entry q Y i j * val0 y j := by
  have hv := schur_solves (v := fun i => if i < p then val0 z i - ∑ j ∈ range q, entry q Y i j * val0 y j else val0 y (i - p)) hY hz
    (fun i hi => (sy i hi).trans (hg i hi)) (fun i hi => if_pos hi) (fun j hj => by simp)
  have u := solves_unique hm sx hv
  exact ⟨fun i hi => (u (p + i) (by omega)).trans (by simp), fun i hi => (u i (by omega)).trans (if_pos hi)⟩

/-- Cholesky.  First stage: factorise the leading block of order `p`, solve for `A₁₂` and `b₁`.  Second stage: factorise
`A₂₂ - A₂₁ Y`, which is positive definite again, and solve for `b₂ - A₂₁ z`.  The results are those of one factorisation of the whole
matrix; determinants multiply. -/
theorem C114_two_stage_chol [Field T] [LinearOrder T] [IsStrictOrderedRing T] [Sqrt T] [LawfulSqrt T] (nd : Bool) (mt : MemType) (p q : Nat)
    (l l₁ : List T) (A : Nat → Nat → T) (hl : Lower mt (p + q) l A) (hl₁ : Lower mt p l₁ A) (hs : Symm (p + q) A) (hp : PosDef (p + q) A)
    (m : Mem T) (b₁ : Nat) (B : MatRef) (b r : Nat) (h : Stage1 p q A m b₁ B b r) :
    ∃ L₁ Y z, Chol.new mt p l₁ = .ok L₁ ∧ Chol.solveMatAt nd false mt p L₁ B r m = .ok (m.setBuf r Y) ∧
      Chol.solveVecAt nd false mt p L₁ b₁ r m = .ok (m.setBuf r z) ∧ Y.length = p * q ∧ z.length = p ∧
      Symm q (schur p A (entry q Y)) ∧ PosDef q (schur p A (entry q Y)) ∧
      minor A (p + q) = minor A p * minor (schur p A (entry q Y)) q ∧ TwoStage Chol.new nd false mt p q l A Y z m b r := by
  have hs₁ : Symm p A := fun i j hi hj => hs i j (by omega) (by omega)
  have hp₁ : PosDef p A := hp.leading
  obtain ⟨L₁, eL₁⟩ := C36_accepts mt p l₁ A hl₁ hs₁ hp₁
  obtain ⟨Y, hYl, sY, -, eY⟩ := C37_mat nd mt p l₁ L₁ A hl₁ hs₁ hp₁ eL₁ m B r h.wf h.rows h.rB
  obtain ⟨z, hzl, sz, -, ez⟩ := C37_vec nd mt p l₁ L₁ A hl₁ hs₁ hp₁ eL₁ m b₁ r h.len1 h.r1
  obtain ⟨hY, hz⟩ := both h sY sz
  have hsS := schur_symm hs hY
  have hpS := schur_posDef hY hp
  refine ⟨L₁, Y, z, eL₁, eY, ez, by rw [hYl, h.cols], hzl, hsS, hpS, schur_minor hY (Nat.le_refl _), ?_⟩
  intro l₂ m₂ g hl₂ hgl hgr hg
  obtain ⟨L, eL⟩ := C36_accepts mt (p + q) l A hl hs hp
  obtain ⟨L₂, eL₂⟩ := C36_accepts mt q l₂ _ hl₂ hsS hpS
  obtain ⟨x, hx, sx, -, ex⟩ := C37_vec nd mt (p + q) l L A hl hs hp eL m b r h.len h.rb
  obtain ⟨y, hy, sy, -, ey⟩ := C37_vec nd mt q l₂ L₂ _ hl₂ hsS hpS eL₂ m₂ g r hgl (Ne.symm hgr)
  exact ⟨L, L₂, x, y, eL, eL₂, hx, hy, ex, ey, fin hp.regular.det hY hz sx sy hg⟩

/-- Modified Cholesky, for every symmetric matrix which it accepts. -/
theorem C114_two_stage_mod [Field T] [DecidableEq T] (nd : Bool) (mt : MemType) (p q : Nat)
    (l l₁ L : List T) (A : Nat → Nat → T) (hl : Lower mt (p + q) l A) (hl₁ : Lower mt p l₁ A) (hs : Symm (p + q) A)
    (hL : Chol.modNew mt (p + q) l = .ok L) (m : Mem T) (b₁ : Nat) (B : MatRef) (b r : Nat) (h : Stage1 p q A m b₁ B b r) :
    ∃ L₁ Y z, Chol.modNew mt p l₁ = .ok L₁ ∧ Chol.solveMatAt nd true mt p L₁ B r m = .ok (m.setBuf r Y) ∧
      Chol.solveVecAt nd true mt p L₁ b₁ r m = .ok (m.setBuf r z) ∧ Y.length = p * q ∧ z.length = p ∧
      Symm q (schur p A (entry q Y)) ∧ minor A (p + q) = minor A p * minor (schur p A (entry q Y)) q ∧
      TwoStage Chol.modNew nd true mt p q l A Y z m b r := by
  have hr : Regular A (p + q) := by
    by_contra hc
    rw [(C38_throws mt (p + q) l A hl hs).mpr hc] at hL
    cases hL
  have hs₁ : Symm p A := fun i j hi hj => hs i j (by omega) (by omega)
  have hr₁ : Regular A p := fun k hk => hr k (by omega)
  obtain ⟨L₁, eL₁, -⟩ := C38_factor mt p l₁ A hl₁ hs₁ hr₁
  obtain ⟨Y, hYl, sY, -, eY⟩ := C39_mat nd mt p l₁ L₁ A hl₁ hs₁ eL₁ m B r h.wf h.rows h.rB
  obtain ⟨z, hzl, sz, -, ez⟩ := C39_vec nd mt p l₁ L₁ A hl₁ hs₁ eL₁ m b₁ r h.len1 h.r1
  obtain ⟨hY, hz⟩ := both h sY sz
  have hsS := schur_symm hs hY
  have hrS := schur_regular hY hr
  refine ⟨L₁, Y, z, eL₁, eY, ez, by rw [hYl, h.cols], hzl, hsS, schur_minor hY (Nat.le_refl _), ?_⟩
  intro l₂ m₂ g hl₂ hgl hgr hg
  obtain ⟨L₂, eL₂, -⟩ := C38_factor mt q l₂ _ hl₂ hsS hrS
  obtain ⟨x, hx, sx, -, ex⟩ := C39_vec nd mt (p + q) l L A hl hs hL m b r h.len h.rb
  obtain ⟨y, hy, sy, -, ey⟩ := C39_vec nd mt q l₂ L₂ _ hl₂ hsS eL₂ m₂ g r hgl (Ne.symm hgr)
  exact ⟨L, L₂, x, y, hL, eL₂, hx, hy, ex, ey, fin (mod_data mt _ l L A hl hs hL).2.2.2 hY hz sx sy hg⟩

/-! ## Cases -/

-- equations 0 and 2 of three are a system of their own
example : ClosedSub 3 2 (fun i => 2 * i) (fun i j => if i % 2 = j % 2 then (1 : ℚ) else 0) :=
  ⟨fun i hi => by omega, fun i j _ _ h => by omega, fun i j hi hj h => by
    have h0 := h 0 (by omega)
    have h1 := h 1 (by omega)
    have : j = 1 := by omega
    subst this
    simp⟩

-- (2, 0, 1; 0, 5, 0; 1, 0, 1) x = (3, 10, 2), and (2, 1; 1, 1) x' = (3, 2) alone
example : (Chol.modNew .square 3 [2, 0, 1, 0, 5, 0, 1, 0, (1 : ℚ)] >>= fun L =>
    Chol.solveVecAt true true .square 3 L 0 1 (Mem.ofList [[3, 10, 2]])).map (· 1) = .ok [1, 2, 1] ∧
    (Chol.modNew .square 2 [2, 1, 1, (1 : ℚ)] >>= fun L =>
    Chol.solveVecAt true true .square 2 L 0 1 (Mem.ofList [[3, 2]])).map (· 1) = .ok [1, 1] := by decide +kernel

-- the same equations in two stages: p = 2, Y = (1/2, 0), z = (3/2, 2); what is left is (1/2) y = 1/2
example : (Chol.modNew .square 2 [2, 0, 0, (5 : ℚ)] >>= fun L =>
    Chol.solveMatAt true true .square 2 L ⟨0, 2, 1⟩ 1 (Mem.ofList [[1, 0]])).map (· 1) = .ok [1 / 2, 0] ∧
    (Chol.modNew .square 2 [2, 0, 0, (5 : ℚ)] >>= fun L =>
    Chol.solveVecAt true true .square 2 L 0 1 (Mem.ofList [[3, 10]])).map (· 1) = .ok [3 / 2, 2] ∧
    (Chol.modNew .square 1 [(1 / 2 : ℚ)] >>= fun L =>
    Chol.solveVecAt true true .square 1 L 0 1 (Mem.ofList [[1 / 2]])).map (· 1) = .ok [1] := by decide +kernel

-- the hypotheses on the first stage are satisfiable
example : Stage1 2 1 (fun i j => entry 3 [2, 0, 1, 0, 5, 0, 1, 0, (1 : ℚ)] i j) (Mem.ofList [[3, 10], [1, 0], [3, 10, 2]]) 0 ⟨1, 2, 1⟩ 2 3 := by
  refine ⟨rfl, rfl, rfl, rfl, rfl, by decide, by decide, by decide, by decide +kernel, fun i j hi hj => ?_⟩
  obtain rfl : j = 0 := by omega
  have : ∀ i, i < 2 → entry 1 (Mem.ofList [[3, 10], [1, 0], [3, 10, (2 : ℚ)]] 1) i 0 = entry 3 [2, 0, 1, 0, 5, 0, 1, 0, 1] i 2 := by
    decide +kernel
  exact this i hi

end Lalib.Props
