import Verif.Proofs.GmresRun

/-! # C45, C46, C51: the GMRES solver

Every theorem is for both matrix classes the solver can be used with (`GStorage`) and for both builds (`nd`).
`rt` is the rounded square root of the structured-matrix constructors, here only applied to 1. -/

namespace Lalib.Props

open Lalib

variable {T M M' : Type}

section
variable [Field T] [LinearOrder T] [IsStrictOrderedRing T] [Sqrt T] [LawfulSqrt T]
variable {ops : Bool → GOps M T} {ok : M → Prop} {ops' : Bool → GOps M' T} {ok' : M' → Prop}

/-! ## C51: which vector is returned -/

/-- `F` is the incomplete factorisation of `A` and all pivots are non-zero.  `IsGmres` says which vector `x` is:
it minimises the norm of the preconditioned residual `z` over the span of `k` Krylov vectors, where `k` is the first
number that allows a norm below the tolerance. -/
theorem C51_gmres (hst : GStorage ops ok) (nd : Bool) (rt : Nat → Nat) (hrt : SqrtExact rt) (n : Nat) (a : M)
    (A F : Nat → Nat → T) (hok : ok a) (hA : Shows (ops nd).toMatOps n a A) (hF : IsIlu n A F)
    (hd : ∀ i, i < n → F i i ≠ 0) (hr : minor A n ≠ 0) (tol : T) (ht : 0 < tol) :
    ∃ g, Gmres.new (ops nd) a tol = .ok g ∧ ∀ b : List T, b.length = n → (∃ i, i < n ∧ val0 b i ≠ 0) →
      ∀ u, IsKrylov n (luProd n F) A (val0 b) u →
      ∃ x k z, Gmres.solve rt nd (ops nd) g b = .ok x ∧ x.length = n ∧
        IsGmres n (luProd n F) A (val0 b) tol u (val0 x) k z := by
  rcases C40_factor (hst.storage nd) n a A hok hA with ⟨lu, F', e, hok', hF', hI⟩ | e
  · have hS : Shows (ops nd).toMatOps n lu F :=
      ⟨hF'.1, fun i j hi hj => by rw [hF'.2 i j hi hj, hI.unique hF i j hi hj]⟩
    refine ⟨⟨a, lu, tol⟩, by unfold Gmres.new; rw [e]; rfl, fun b hb hne u ⟨h0, hu⟩ => ?_⟩
    have hrun := Gmres.run_spec hst nd hrt (g := ⟨a, lu, tol⟩) hok hA hok' hS hd hb h0 hu
    cases hx : Gmres.solve rt nd (ops nd) ⟨a, lu, tol⟩ b with
    | error e =>
      rw [hx] at hrun
      obtain ⟨i, hi, hbi⟩ := hne
      rcases hrun.2.2 with h | h | h
      · exact absurd (h i hi) hbi
      · exact absurd h (not_le.mpr ht)
      · exact absurd h hr
    | ok x =>
      rw [hx] at hrun
      obtain ⟨lx, k, z, hkn, hk0, hc, hz, hn, hmin, hearly⟩ := hrun
      obtain ⟨i, hi, -⟩ := hne
      refine ⟨x, k, z, rfl, lx, hk0 (by omega), hkn, hc, hz, ?_, hmin, fun j h1 h2 y w hy hw =>
        hearly j h1 h2 y w hy hw ht⟩
      rcases hn with h | h
      · rw [h]; exact pow_pos ht 2
      · exact h.2
  · exact absurd ⟨F, hF⟩ ((C41_iff (hst.storage nd) n a A hok hA).mp e)

omit [Sqrt T] [LawfulSqrt T] in
/-- The conditions determine the vector and the number of iterations. -/
theorem C51_unique (n : Nat) (P A : Nat → Nat → T) (hr : minor A n ≠ 0) (b : Nat → T) (tol : T)
    (u : Nat → Nat → T) (x x' : Nat → T) (k k' : Nat) (z z' : Nat → T) (h : IsGmres n P A b tol u x k z)
    (h' : IsGmres n P A b tol u x' k' z') : k = k' ∧ ∀ i, i < n → x i = x' i := Gmres.isGmres_unique hr h h'

omit [LinearOrder T] [IsStrictOrderedRing T] [Sqrt T] [LawfulSqrt T] in
/-- Krylov vectors exist. -/
theorem C51_krylov (n : Nat) (P A : Nat → Nat → T) (hP : minor P n ≠ 0) (b : Nat → T) : ∃ u, IsKrylov n P A b u := by
  have hex := fun r => exists_solves hP r
  choose S hS using hex
  exact ⟨fun i => Nat.rec (S b) (fun _ v => S (mulVec n A v)) i, hS _, fun i => hS _⟩

/-- The two storages of one matrix give the same result. -/
theorem C51_same (hst : GStorage ops ok) (hst' : GStorage ops' ok') (nd nd' : Bool) (rt rt' : Nat → Nat)
    (hrt : SqrtExact rt) (hrt' : SqrtExact rt') (n : Nat) (a : M) (a' : M')
    (A F : Nat → Nat → T) (hok : ok a) (hok' : ok' a') (hA : Shows (ops nd).toMatOps n a A)
    (hA' : Shows (ops' nd').toMatOps n a' A) (hF : IsIlu n A F)
    (hd : ∀ i, i < n → F i i ≠ 0) (hr : minor A n ≠ 0) (tol : T) (ht : 0 < tol) :
    ∃ g g', Gmres.new (ops nd) a tol = .ok g ∧ Gmres.new (ops' nd') a' tol = .ok g' ∧
      ∀ b : List T, b.length = n → (∃ i, i < n ∧ val0 b i ≠ 0) →
        Gmres.solve rt nd (ops nd) g b = Gmres.solve rt' nd' (ops' nd') g' b := by
  obtain ⟨g, eg, h⟩ := C51_gmres hst nd rt hrt n a A F hok hA hF hd hr tol ht
  obtain ⟨g', eg', h'⟩ := C51_gmres hst' nd' rt' hrt' n a' A F hok' hA' hF hd hr tol ht
  refine ⟨g, g', eg, eg', fun b hb hne => ?_⟩
  obtain ⟨u, hu⟩ := C51_krylov n (luProd n F) A (Gmres.minor_luProd hd) (val0 b)
  obtain ⟨x, k, z, ex, lx, hx⟩ := h b hb hne u hu
  obtain ⟨x', k', z', ex', lx', hx'⟩ := h' b hb hne u hu
  rw [ex, ex']
  congr 1
  refine list_ext_val0 (by rw [lx, lx']) fun i hi => ?_
  exact (C51_unique n _ A hr _ tol u _ _ k k' z z' hx hx').2 i (by rw [← lx]; exact hi)

/-! ## C45 -/

/-- The vector returned has a preconditioned residual `z` below the tolerance. -/
theorem C45_solve (hst : GStorage ops ok) (nd : Bool) (rt : Nat → Nat) (hrt : SqrtExact rt) (n : Nat) (a : M)
    (A F : Nat → Nat → T) (hok : ok a) (hA : Shows (ops nd).toMatOps n a A) (hF : IsIlu n A F)
    (hd : ∀ i, i < n → F i i ≠ 0) (hr : minor A n ≠ 0) (tol : T) (ht : 0 < tol) :
    ∃ g, Gmres.new (ops nd) a tol = .ok g ∧ ∀ b : List T, b.length = n → (∃ i, i < n ∧ val0 b i ≠ 0) →
      ∃ x z, Gmres.solve rt nd (ops nd) g b = .ok x ∧ x.length = n ∧
        PResid n (luProd n F) A (val0 b) (val0 x) z ∧ normSq n z < tol ^ 2 := by
  obtain ⟨g, eg, h⟩ := C51_gmres hst nd rt hrt n a A F hok hA hF hd hr tol ht
  refine ⟨g, eg, fun b hb hne => ?_⟩
  obtain ⟨u, hu⟩ := C51_krylov n (luProd n F) A (Gmres.minor_luProd hd) (val0 b)
  obtain ⟨x, k, z, ex, lx, hx⟩ := h b hb hne u hu
  exact ⟨x, z, ex, lx, hx.res, hx.small⟩

/-- When the incomplete factorisation is exact: the distance to the solution is below the tolerance. -/
theorem C45_exact (hst : GStorage ops ok) (nd : Bool) (rt : Nat → Nat) (hrt : SqrtExact rt) (n : Nat) (a : M)
    (A : Nat → Nat → T) (hok : ok a) (hA : Shows (ops nd).toMatOps n a A) (hf : NoFill n A) (hr : Regular A n)
    (tol : T) (ht : 0 < tol) :
    ∃ g, Gmres.new (ops nd) a tol = .ok g ∧ ∀ b : List T, b.length = n → (∃ i, i < n ∧ val0 b i ≠ 0) →
      ∃ x, Gmres.solve rt nd (ops nd) g b = .ok x ∧ x.length = n ∧
        ∀ s, Solves n A s (val0 b) → normSq n (fun i => s i - val0 x i) < tol ^ 2 := by
  rcases C40_factor (hst.storage nd) n a A hok hA with ⟨lu, F, e, hok', hF', hI⟩ | e
  · have hm : minor A n = ∏ i ∈ Finset.range n, F i i := minor_lu (hI.exact hf)
    have hd : ∀ i, i < n → F i i ≠ 0 := by
      have := hr.det
      rw [hm] at this
      exact fun i hi => Finset.prod_ne_zero_iff.mp this i (Finset.mem_range.mpr hi)
    obtain ⟨g, eg, h⟩ := C45_solve hst nd rt hrt n a A F hok hA hI hd hr.det tol ht
    refine ⟨g, eg, fun b hb hne => ?_⟩
    obtain ⟨x, z, ex, lx, hz, hn⟩ := h b hb hne
    refine ⟨x, ex, lx, fun s hs => ?_⟩
    have he : ∀ v, ∀ i, i < n → mulVec n (luProd n F) v i = mulVec n A v i := fun v i hi =>
      Finset.sum_congr rfl fun j hj => by rw [hI.exact hf i j hi (Finset.mem_range.mp hj)]
    have hz' : Solves n A z (resid n A (val0 x) (val0 b)) := fun i hi => by rw [← he z i hi]; exact hz i hi
    have hs' : Solves n A (fun i => s i - val0 x i) (resid n A (val0 x) (val0 b)) := by
      intro i hi
      unfold resid
      rw [← hs i hi]
      unfold mulVec
      rw [← Finset.sum_sub_distrib]
      exact Finset.sum_congr rfl fun j _ => mul_sub _ _ _
    have : normSq n (fun i => s i - val0 x i) = normSq n z := by
      unfold normSq
      exact Finset.sum_congr rfl fun i hi =>
        congrArg (· ^ 2) (solves_unique hr.det hs' hz' i (Finset.mem_range.mp hi))
    rw [this]; exact hn
  · obtain ⟨F, hF⟩ : ∃ F, IsIlu n A F := by
      obtain ⟨a', F, e', -⟩ := C43_noFill (hst.storage nd) n a A hok hA hf hr
      rw [e] at e'; cases e'
    exact absurd ⟨F, hF⟩ ((C41_iff (hst.storage nd) n a A hok hA).mp e)

/-- The hypothesis `b ≠ 0` of C45 is needed: for `b = 0` the solver divides by zero, whatever the matrix, although
`x = 0` is the solution. -/
theorem C45_zero_rhs (hst : GStorage ops ok) (nd : Bool) (rt : Nat → Nat) (hrt : SqrtExact rt) (n : Nat) (h0 : 0 < n)
    (a : M) (A : Nat → Nat → T) (hok : ok a) (hA : Shows (ops nd).toMatOps n a A) (tol : T) (g : Gmres M T)
    (hg : Gmres.new (ops nd) a tol = .ok g) :
    Gmres.solve rt nd (ops nd) g (List.replicate n 0) = .error .nonFinite := by
  rcases C40_factor (hst.storage nd) n a A hok hA with ⟨lu, F, e, hok', hF, -⟩ | e
  · unfold Gmres.new at hg
    rw [e] at hg
    injection hg with hg
    subst hg
    exact Gmres.run_zero hst nd hrt (g := ⟨a, lu, tol⟩) hA hok' hF (by simp) h0
      (.inr fun i _ => by simp [val0_replicate])
  · unfold Gmres.new at hg
    rw [e] at hg
    cases hg

/-! ## C46 -/

/-- Any matrix the constructor accepts (singular or not), any right-hand side of matching size, any tolerance: the
solver returns a vector of the right size or some operation has no finite result.  Assertion failures, exceptions,
out-of-range accesses and the other kinds of undefined behaviour are excluded. -/
theorem C46_safe (hst : GStorage ops ok) (nd : Bool) (rt : Nat → Nat) (hrt : SqrtExact rt) (n : Nat) (a : M)
    (A : Nat → Nat → T) (hok : ok a) (hA : Shows (ops nd).toMatOps n a A) (tol : T) (g : Gmres M T)
    (hg : Gmres.new (ops nd) a tol = .ok g) (b : List T) (hb : b.length = n) :
    (∃ x, Gmres.solve rt nd (ops nd) g b = .ok x ∧ x.length = n) ∨
      Gmres.solve rt nd (ops nd) g b = .error .nonFinite := by
  rcases C40_factor (hst.storage nd) n a A hok hA with ⟨lu, F, e, hok', hF, -⟩ | e
  · unfold Gmres.new at hg
    rw [e] at hg
    injection hg with hg
    subst hg
    by_cases hd : ∃ i, i < n ∧ F i i = 0
    · have h0 : 0 < n := by obtain ⟨i, hi, -⟩ := hd; omega
      exact .inr (Gmres.run_zero hst nd hrt (g := ⟨a, lu, tol⟩) hA hok' hF hb h0 (.inl hd))
    · push Not at hd
      obtain ⟨u, h0, hu⟩ := C51_krylov n (luProd n F) A (Gmres.minor_luProd hd) (val0 b)
      have hrun := Gmres.run_spec hst nd hrt (g := ⟨a, lu, tol⟩) hok hA hok' hF hd hb h0 hu
      cases hx : Gmres.solve rt nd (ops nd) ⟨a, lu, tol⟩ b with
      | error e => rw [hx] at hrun; rw [hrun.1]; exact .inr rfl
      | ok x => rw [hx] at hrun; exact .inl ⟨x, rfl, hrun.1⟩
  · unfold Gmres.new at hg
    rw [e] at hg
    cases hg

end

/-! ## Concrete cases -/

/-- The matrix `[[2, 1], [4, 5]]`. -/
def gA (i j : Nat) : ℝ := val0 [2, 1, 4, 5] (i * 2 + j)

theorem gA_shows : Shows (dGOps false).toMatOps 2 (⟨2, 2, [2, 1, 4, 5]⟩ : DMat ℝ) gA := by
  refine ⟨rfl, fun i j hi hj => ?_⟩
  have h1 : i = 0 ∨ i = 1 := by omega
  have h2 : j = 0 ∨ j = 1 := by omega
  rcases h1 with rfl | rfl <;> rcases h2 with rfl | rfl <;> rfl

theorem gA_noFill : NoFill 2 gA := by
  refine C43_full 2 gA fun i j hi hj => ?_
  have h1 : i = 0 ∨ i = 1 := by omega
  have h2 : j = 0 ∨ j = 1 := by omega
  rcases h1 with rfl | rfl <;> rcases h2 with rfl | rfl <;> norm_num [gA, val0]

theorem gA_regular : Regular gA 2 := by
  intro k hk
  have : k = 0 ∨ k = 1 := by omega
  rcases this with rfl | rfl
  · simp [minor, gA, val0]
  · simp [minor, Matrix.det_fin_two, gA, val0]; norm_num

/-- All hypotheses of `C45_exact` hold for it. -/
example : ∃ g, Gmres.new (dGOps false) (⟨2, 2, [2, 1, 4, 5]⟩ : DMat ℝ) (1 / 10) = .ok g ∧
    ∀ b : List ℝ, b.length = 2 → (∃ i, i < 2 ∧ val0 b i ≠ 0) →
      ∃ x, Gmres.solve Nat.sqrt false (dGOps false) g b = .ok x ∧ x.length = 2 ∧
        ∀ s, Solves 2 gA s (val0 b) → normSq 2 (fun i => s i - val0 x i) < (1 / 10) ^ 2 :=
  C45_exact .dense false Nat.sqrt sqrtExact_natSqrt 2 _ gA rfl gA_shows gA_noFill gA_regular _ (by norm_num)

/-- A run of two iterations, dense (the factorisation of this matrix is not exact)... -/
example : (do
    let g ← Gmres.new (dGOps false) (⟨3, 3, [2, 4, 4, 4, 3, -2, 2, 0, -2]⟩ : DMat ℚ) (1 / 1000)
    Gmres.solve Nat.sqrt false (dGOps false) g [0, 2, 1]) = .ok [1 / 5, 1 / 5, -3 / 10] := by decide +kernel

/-- ... and sparse. -/
example : (do
    let g ← Gmres.new (csrGOps false) (⟨[2, 4, 4, 4, 3, -2, 2, -2], [0, 3, 6, 8], [0, 1, 2, 0, 1, 2, 0, 2]⟩ : Csr ℚ)
      (1 / 1000)
    Gmres.solve Nat.sqrt false (csrGOps false) g [0, 2, 1]) = .ok [1 / 5, 1 / 5, -3 / 10] := by decide +kernel

end Lalib.Props
