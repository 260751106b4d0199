import Verif.Model.SolverRef
import Verif.Props.Gmres

/-! # C98: the iterative solvers over a matrix of the caller

`Ilu<T, X&>` and `Gmres<T, X&>` refer to the matrix `x` they are constructed from. -/

namespace Lalib.Props

open Lalib Finset

variable {T M : Type}

/-! ## The incomplete factorisation -/

section
variable [Field T] [DecidableEq T] {ops : MatOps M T} {ok : M → Prop}

/-- The constructor fails as that of a solver with its own matrix. -/
theorem C98_same_outcome (a : M) : (Ilu.newRef ops a).toRes = Ilu.new ops a := by
  unfold Ilu.newRef Ilu.new Kept.toRes
  cases h : Ilu.decomp ops a with
  | error e => rfl
  | ok r =>
    rw [Lalib.ok_bind]
    cases hr : r.1 <;> simp [throwIf, hr, Except.map]

/-- With a factorisation, the variable of the caller holds the factors afterwards; the solver works like one with its
own matrix as long as nobody writes to the variable. -/
theorem C98_ilu (hst : Storage ops ok) (n : Nat) (a : M) (A F : Nat → Nat → T) (hok : ok a)
    (hA : Shows ops n a A) (hF : IsIlu n A F) :
    ∃ a', Ilu.newRef ops a = ⟨.ok (), a'⟩ ∧ ok a' ∧ Shows ops n a' F ∧ Ilu.new ops a = .ok a' ∧
      ∀ b : List T, Ilu.solveRef ops a' b = Ilu.solve ops a' b := by
  rcases C40_factor hst n a A hok hA with ⟨a', F', e, hok', hF', hI⟩ | e
  · refine ⟨a', ?_, hok', ⟨hF'.1, fun i j hi hj => by rw [hF'.2 i j hi hj, hI.unique hF i j hi hj]⟩, e,
      fun _ => rfl⟩
    unfold Ilu.new at e
    unfold Ilu.newRef
    cases h : Ilu.decomp ops a with
    | error f => rw [h] at e; cases e
    | ok r =>
      rw [h, Lalib.ok_bind] at e
      cases hr : r.1 <;> rw [hr] at e
      · cases e
      · injection e with e
        simp [throwIf, hr, e]
  · exact absurd ⟨F, hF⟩ ((C41_iff hst n a A hok hA).mp e)

/-- Without one the constructor throws and leaves the variable half overwritten: the elimination stopped in row `i`,
the rows above are factorised, the rows below and the rest of row `i` are untouched. -/
theorem C98_throw (hst : Storage ops ok) (n : Nat) (a : M) (A : Nat → Nat → T) (hok : ok a)
    (hA : Shows ops n a A) (hF : ¬ ∃ F, IsIlu n A F) :
    ∃ a' V i j, Ilu.newRef ops a = ⟨.error (.throw .runtimeError), a'⟩ ∧ ok a' ∧ Shows ops n a' V ∧
      j < i ∧ i < n ∧ A i j ≠ 0 ∧ V j j = 0 ∧ IsIlu i A V ∧
      (∀ c, j ≤ c → c < n → V i c = A i c) ∧ ∀ r c, i < r → r < n → c < n → V r c = A r c := by
  obtain ⟨R, hR, h1, h2⟩ := storage_rep hst n
  obtain ⟨r, e, ⟨-, F, -, hI⟩ | ⟨hr, i, j, V, hj, hi, hI, h0, hd⟩⟩ := Ilu.decomp_spec hR.acc le_rfl (Nat.le_refl n)
    (fun _ _ _ h1 h2 => absurd h2 (by omega)) (h1 a A hok hA) (hR.shape a A (h1 a A hok hA))
  · exact absurd ⟨F, hI⟩ hF
  · refine ⟨r.2, V, i, j, by unfold Ilu.newRef; rw [e]; simp [throwIf, hr], (h2 _ _ hI.rep).1, (h2 _ _ hI.rep).2, hj, hi,
      h0, hd, isIlu_iff.mpr fun r c hr hc => hI.done r c (by omega) (by omega) (.inl hr), fun c hc hn => ?_,
      fun r c hr hn hc => ?_⟩
    · exact hI.todo i c hi hn (by unfold before; omega)
    · exact hI.todo r c hn hc (by unfold before; omega)

end

/-- The exception leaves the matrix of the caller changed. -/
theorem C98_throw_false :
    (Ilu.newRef dOps (⟨3, 3, [2, 1, 1, 4, 2, 1, 1, 1, 1]⟩ : DMat ℚ)).res = .error (.throw .runtimeError) ∧
    (Ilu.newRef dOps (⟨3, 3, [2, 1, 1, 4, 2, 1, 1, 1, 1]⟩ : DMat ℚ)).obj =
      ⟨3, 3, [2, 1, 1, 2, 0, -1, 1 / 2, 1, 1]⟩ := by decide +kernel

/-- A second solver over the same variable factorises the factors: the first one then gives another result. -/
theorem C98_second_false :
    (Ilu.newRef dOps (⟨2, 2, [2, 0, 2, 1]⟩ : DMat ℚ)).toRes = .ok ⟨2, 2, [2, 0, 1, 1]⟩ ∧
    Ilu.solveRef dOps (⟨2, 2, [2, 0, 1, 1]⟩ : DMat ℚ) [2, 2] = .ok [1, 0] ∧
    (Ilu.newRef dOps (⟨2, 2, [2, 0, 1, 1]⟩ : DMat ℚ)).toRes = .ok ⟨2, 2, [2, 0, 1 / 2, 1]⟩ ∧
    Ilu.solveRef dOps (⟨2, 2, [2, 0, 1 / 2, 1]⟩ : DMat ℚ) [2, 2] = .ok [1, 1] := by decide +kernel

/-! ## GMRES -/

section
variable [Field T] [LinearOrder T] [IsStrictOrderedRing T]

omit [LinearOrder T] [IsStrictOrderedRing T] in
/-- The vectors with preconditioned residual `z` differ from the solution by a fixed linear map of `z`. -/
theorem presid_map {n : Nat} (P F A : Nat → Nat → T) (hm : minor F n ≠ 0) :
    ∃ W : Nat → Nat → T, ∀ b s x z, Solves n F s b → PResid n P F b x z → ∀ i,
      mulVec n A x i = mulVec n A s i - ∑ k ∈ range n, W i k * z k := by
  choose g hg using fun k => exists_solves hm fun i => P i k
  refine ⟨fun i k => mulVec n A (g k) i, fun b s x z hs hx i => ?_⟩
  have hy : Solves n F (fun t => s t - ∑ k ∈ range n, z k * g k t) (mulVec n F x) := by
    intro i hi
    have h1 := hs i hi
    have h2 := hx i hi
    simp only [resid] at h2
    have h3 : mulVec n F x i = b i - mulVec n P z i := by rw [h2]; ring
    rw [h3, ← h1]
    simp only [mulVec, mul_sub, sum_sub_distrib, mul_sum]
    rw [sum_comm]
    congr 1
    refine sum_congr rfl fun k _ => ?_
    have h4 := hg k i hi
    simp only [mulVec] at h4
    rw [← h4, sum_mul]
    exact sum_congr rfl fun t _ => by ring
  have hu := solves_unique hm (fun i _ => rfl : Solves n F x (mulVec n F x)) hy
  have : mulVec n A x i = mulVec n A (fun t => s t - ∑ k ∈ range n, z k * g k t) i := by
    unfold mulVec
    exact sum_congr rfl fun t ht => by rw [hu t (mem_range.mp ht)]
  rw [this]
  simp only [mulVec, mul_sub, sum_sub_distrib, mul_sum, sum_mul]
  rw [sum_comm]
  congr 1
  exact sum_congr rfl fun k _ => sum_congr rfl fun t _ => by ring

/-- A vector of norm below `t` moves a linear form by less than a constant times `t`. -/
theorem form_small {n : Nat} (w z : Nat → T) {t : T} (ht : 0 < t) (hz : normSq n z < t ^ 2) :
    |∑ k ∈ range n, w k * z k| ≤ (∑ k ∈ range n, |w k|) * t := by
  refine (abs_sum_le_sum_abs _ _).trans ?_
  rw [sum_mul]
  refine sum_le_sum fun k hk => ?_
  rw [abs_mul]
  refine mul_le_mul_of_nonneg_left ?_ (abs_nonneg _)
  refine abs_le_of_sq_le_sq ?_ ht.le
  have := single_le_sum (f := fun i => z i ^ 2) (fun i _ => sq_nonneg (z i)) hk
  exact (this.trans hz.le)

variable [Sqrt T] [LawfulSqrt T] {ops : Bool → GOps M T} {ok : M → Prop}

/-- The solver over a variable with the matrix `A`: the variable holds the factors `F` afterwards and the solver
solves `F x = b`, the factors taken as one matrix, preconditioned with their product. -/
theorem C98_gmres (hst : GStorage ops ok) (nd : Bool) (rt : Nat → Nat) (hrt : SqrtExact rt) (n : Nat) (a : M)
    (A F : Nat → Nat → T) (hok : ok a) (hA : Shows (ops nd).toMatOps n a A) (hF : IsIlu n A F)
    (hd : ∀ i, i < n → F i i ≠ 0) (hr : minor F n ≠ 0) :
    ∃ a', Gmres.newRef (ops nd) a = ⟨.ok (), a'⟩ ∧ ok a' ∧ Shows (ops nd).toMatOps n a' F ∧
      ∀ tol : T, 0 < tol → ∀ b : List T, b.length = n → (∃ i, i < n ∧ val0 b i ≠ 0) →
      ∀ u, IsKrylov n (luProd n F) F (val0 b) u →
      ∃ x k z, Gmres.solveRef rt nd (ops nd) a' tol b = .ok x ∧ x.length = n ∧
        IsGmres n (luProd n F) F (val0 b) tol u (val0 x) k z := by
  obtain ⟨a', e, hok', hS, -, -⟩ := C98_ilu (hst.storage nd) n a A F hok hA hF
  refine ⟨a', e, hok', hS, fun tol ht b hb hne u ⟨h0, hu⟩ => ?_⟩
  have hrun := Gmres.run_spec hst nd hrt (g := ⟨a', a', tol⟩) hok' hS hok' hS hd hb h0 hu
  unfold Gmres.solveRef
  cases hx : Gmres.solve rt nd (ops nd) ⟨a', a', tol⟩ b with
  | error e =>
    rw [hx] at hrun
    obtain ⟨-, -, h | h | h⟩ := hrun
    · obtain ⟨i, hi, hb0⟩ := hne
      exact absurd (h i hi) hb0
    · exact absurd ht (_root_.not_lt.mpr h)
    · exact absurd h hr
  | ok x =>
    rw [hx] at hrun
    obtain ⟨lx, k, z, hk, hk0, hc, hz, hn, hmin, hfirst⟩ := hrun
    obtain ⟨i0, hi0, -⟩ := hne
    refine ⟨x, k, z, rfl, lx, hk0 (by omega), hk, hc, hz, ?_, hmin, fun j h1 h2 y w hy hw => hfirst j h1 h2 y w hy hw ht⟩
    rcases hn with hn | hn
    · rw [hn]; exact pow_pos ht 2
    · exact hn.2

/-- The part of it that matters below. -/
theorem C98_resid (hst : GStorage ops ok) (nd : Bool) (rt : Nat → Nat) (hrt : SqrtExact rt) (n : Nat) (a : M)
    (A F : Nat → Nat → T) (hok : ok a) (hA : Shows (ops nd).toMatOps n a A) (hF : IsIlu n A F)
    (hd : ∀ i, i < n → F i i ≠ 0) (hr : minor F n ≠ 0) :
    ∃ a', Gmres.newRef (ops nd) a = ⟨.ok (), a'⟩ ∧ Shows (ops nd).toMatOps n a' F ∧
      ∀ tol : T, 0 < tol → ∀ b : List T, b.length = n → (∃ i, i < n ∧ val0 b i ≠ 0) →
      ∃ x z, Gmres.solveRef rt nd (ops nd) a' tol b = .ok x ∧ x.length = n ∧
        PResid n (luProd n F) F (val0 b) (val0 x) z ∧ normSq n z < tol ^ 2 := by
  obtain ⟨a', e, -, hS, h⟩ := C98_gmres hst nd rt hrt n a A F hok hA hF hd hr
  refine ⟨a', e, hS, fun tol ht b hb hne => ?_⟩
  obtain ⟨u, hu⟩ := C51_krylov n (luProd n F) F (Gmres.minor_luProd hd) (val0 b)
  obtain ⟨x, k, z, ex, lx, hx⟩ := h tol ht b hb hne u hu
  exact ⟨x, z, ex, lx, hx.res, hx.small⟩

/-- The results are solutions of `A x = b`, up to the tolerance, exactly if the factorisation changed nothing.
Otherwise there is a right-hand side for which the residual stays away from 0 however small the tolerance is. -/
theorem C98_iff (hst : GStorage ops ok) (nd : Bool) (rt : Nat → Nat) (hrt : SqrtExact rt) (n : Nat) (a : M)
    (A F : Nat → Nat → T) (hok : ok a) (hA : Shows (ops nd).toMatOps n a A) (hF : IsIlu n A F)
    (hd : ∀ i, i < n → F i i ≠ 0) (hr : minor F n ≠ 0) :
    ∃ a', Gmres.newRef (ops nd) a = ⟨.ok (), a'⟩ ∧
      ((∀ b : List T, b.length = n → (∃ i, i < n ∧ val0 b i ≠ 0) → ∀ δ, 0 < δ → ∃ t0, 0 < t0 ∧ ∀ tol, 0 < tol →
          tol ≤ t0 → ∃ x, Gmres.solveRef rt nd (ops nd) a' tol b = .ok x ∧ x.length = n ∧
            ∀ i, i < n → |resid n A (val0 x) (val0 b) i| < δ) ↔
        ∀ i j, i < n → j < n → F i j = A i j) := by
  obtain ⟨a', e, -, h⟩ := C98_resid hst nd rt hrt n a A F hok hA hF hd hr
  obtain ⟨W, hW⟩ := presid_map (luProd n F) F A hr
  -- every residual is that of the solution of the other system, up to a multiple of the tolerance
  have key : ∀ tol : T, 0 < tol → ∀ b s : List T, b.length = n → (∃ i, i < n ∧ val0 b i ≠ 0) →
      Solves n F (val0 s) (val0 b) → ∃ x, Gmres.solveRef rt nd (ops nd) a' tol b = .ok x ∧ x.length = n ∧
        ∀ i, |resid n A (val0 x) (val0 b) i - resid n A (val0 s) (val0 b) i| ≤ (∑ k ∈ range n, |W i k|) * tol := by
    intro tol ht b s hb hne hs
    obtain ⟨x, z, ex, lx, hz, hn⟩ := h tol ht b hb hne
    refine ⟨x, ex, lx, fun i => ?_⟩
    have := hW _ _ _ _ hs hz i
    rw [show resid n A (val0 x) (val0 b) i - resid n A (val0 s) (val0 b) i = ∑ k ∈ range n, W i k * z k by
      unfold resid; rw [this]; ring]
    exact form_small _ _ ht hn
  refine ⟨a', e, fun hgood i j hi hj => ?_, fun heq b hb hne δ hδ => ?_⟩
  · by_contra hne
    set b : List T := (List.range n).map fun r => F r j with hbdef
    have hbl : b.length = n := by simp [hbdef]
    have hbv : ∀ r, r < n → val0 b r = F r j := fun r hr => by simp [val0, hbdef, hr]
    set s : List T := (List.range n).map fun r => if r = j then 1 else 0 with hsdef
    have hsv : ∀ r, r < n → val0 s r = if r = j then 1 else 0 := fun r hr => by simp [val0, hsdef, hr]
    have hcol : ∀ (B : Nat → Nat → T) r, mulVec n B (val0 s) r = B r j := by
      intro B r
      unfold mulVec
      rw [sum_congr rfl fun t ht => by rw [hsv t (mem_range.mp ht)]]
      simp [hj]
    have hs : Solves n F (val0 s) (val0 b) := fun r hr => by
      rw [hbv r hr]; exact hcol F r
    have hb0 : ∃ i, i < n ∧ val0 b i ≠ 0 := ⟨j, hj, by rw [hbv j hj]; exact hd j hj⟩
    have hdp : 0 < |F i j - A i j| := abs_pos.mpr (sub_ne_zero.mpr hne)
    obtain ⟨t0, ht0, hall⟩ := hgood b hbl hb0 (|F i j - A i j| / 2) (by linarith)
    set K := ∑ k ∈ range n, |W i k| with hK
    have hK0 : 0 ≤ K := sum_nonneg fun _ _ => abs_nonneg _
    set t := min t0 (|F i j - A i j| / (2 * (K + 1))) with htdef
    have ht : 0 < t := lt_min ht0 (by positivity)
    obtain ⟨x, ex, -, hx⟩ := hall t ht (min_le_left _ _)
    obtain ⟨x', ex', -, hx'⟩ := key t ht b s hbl hb0 hs
    rw [ex] at ex'
    injection ex' with ex'
    subst ex'
    have h1 := hx i hi
    have h2 := hx' i
    rw [show resid n A (val0 s) (val0 b) i = F i j - A i j by unfold resid; rw [hcol, hbv i hi]] at h2
    have h3 : K * t ≤ |F i j - A i j| / 2 := by
      calc K * t ≤ (K + 1) * (|F i j - A i j| / (2 * (K + 1))) :=
            mul_le_mul (by linarith) (min_le_right _ _) ht.le (by linarith)
        _ = |F i j - A i j| / 2 := by field_simp
    have h4 := abs_sub_abs_le_abs_sub (F i j - A i j) (resid n A (val0 x) (val0 b) i)
    rw [abs_sub_comm (F i j - A i j) (resid n A (val0 x) (val0 b) i)] at h4
    linarith
  · obtain ⟨s, hs⟩ := exists_solves hr (val0 b)
    set sl : List T := (List.range n).map s with hsl
    have hsv : ∀ r, r < n → val0 sl r = s r := fun r hr => by simp [val0, hsl, hr]
    have hs' : Solves n F (val0 sl) (val0 b) := fun r hr => by
      rw [← hs r hr]; unfold mulVec; exact sum_congr rfl fun t ht => by rw [hsv t (mem_range.mp ht)]
    set K := ∑ i ∈ range n, ∑ k ∈ range n, |W i k| with hK
    have hK0 : 0 ≤ K := sum_nonneg fun _ _ => sum_nonneg fun _ _ => abs_nonneg _
    refine ⟨δ / (2 * (K + 1)), by positivity, fun tol ht htt => ?_⟩
    obtain ⟨x, ex, lx, hx⟩ := key tol ht b sl hb hne hs'
    refine ⟨x, ex, lx, fun i hi => ?_⟩
    have h0 : resid n A (val0 sl) (val0 b) i = 0 := by
      have := hs' i hi
      unfold resid
      rw [← this, sub_eq_zero]
      unfold mulVec
      exact sum_congr rfl fun t ht => by rw [heq i t hi (mem_range.mp ht)]
    have h1 := hx i
    rw [h0, sub_zero] at h1
    have h2 : (∑ k ∈ range n, |W i k|) ≤ K :=
      single_le_sum (f := fun i => ∑ k ∈ range n, |W i k|) (fun i _ => sum_nonneg fun _ _ => abs_nonneg _)
        (mem_range.mpr hi)
    have h3 : (∑ k ∈ range n, |W i k|) * tol ≤ (K + 1) * (δ / (2 * (K + 1))) :=
      mul_le_mul (by linarith) htt ht.le (by linarith)
    have h4 : (K + 1) * (δ / (2 * (K + 1))) = δ / 2 := by field_simp
    linarith

omit [LinearOrder T] [IsStrictOrderedRing T] [Sqrt T] [LawfulSqrt T] in
/-- Upper triangular matrices are among those the factorisation leaves as they are. -/
theorem C98_upper (n : Nat) (A : Nat → Nat → T) (hu : ∀ i j, j < i → i < n → A i j = 0) : IsIlu n A A := by
  refine ⟨fun _ _ _ _ h => h, fun i j hi hj h0 => ?_, fun i j hj hi h0 => absurd (hu i j hj hi) h0⟩
  unfold luProd
  rw [sum_eq_single i]
  · have : i ≤ j := by by_contra h; exact h0 (hu i j (by omega) hi)
    simp [unitLow, upper, this]
  · intro k _ hk
    unfold unitLow
    rcases Nat.lt_or_gt_of_ne hk with h | h
    · rw [if_pos h, hu i k h hi, zero_mul]
    · rw [if_neg (by omega), if_neg hk, zero_mul]
  · intro h; exact absurd (mem_range.mpr hi) h

end

/-! ## A wrong result -/

/-- The matrix `[2 0; 2 1]`. -/
def rA (i j : Nat) : ℝ := if i = 0 then (if j = 0 then 2 else 0) else if j = 0 then 2 else 1

/-- What the constructor makes of it. -/
def rF (i j : Nat) : ℝ := if i = 0 then (if j = 0 then 2 else 0) else if j = 0 then 1 else 1

theorem rA_shows : Shows (dGOps (T := ℝ) false).toMatOps 2 ⟨2, 2, [2, 0, 2, 1]⟩ rA := by
  refine ⟨rfl, fun i j hi hj => ?_⟩
  have h1 : i = 0 ∨ i = 1 := by omega
  have h2 : j = 0 ∨ j = 1 := by omega
  rcases h1 with rfl | rfl <;> rcases h2 with rfl | rfl <;> simp [rA, dGOps, dOps, DMat.get, lrd]

theorem rF_prod : ∀ i j, i < 2 → j < 2 → luProd 2 rF i j = rA i j := by
  intro i j hi hj
  have h1 : i = 0 ∨ i = 1 := by omega
  have h2 : j = 0 ∨ j = 1 := by omega
  rcases h1 with rfl | rfl <;> rcases h2 with rfl | rfl <;>
    norm_num [luProd, sum_range_succ, unitLow, upper, rF, rA]

theorem rF_ilu : IsIlu 2 rA rF := by
  refine ⟨fun i j hi hj h => ?_, fun i j hi hj _ => rF_prod i j hi hj, fun i j hj hi _ => ?_⟩
  · have h1 : i = 0 ∨ i = 1 := by omega
    have h2 : j = 0 ∨ j = 1 := by omega
    rcases h1 with rfl | rfl <;> rcases h2 with rfl | rfl <;> simp_all [rA, rF]
  · have h1 : i = 1 := by omega
    have h2 : j = 0 := by omega
    subst h1 h2
    norm_num [rF]

theorem rF_pivots : ∀ i, i < 2 → rF i i ≠ 0 := by
  intro i hi
  have h1 : i = 0 ∨ i = 1 := by omega
  rcases h1 with rfl | rfl <;> norm_num [rF]

theorem rF_minor : minor rF 2 ≠ 0 := by
  norm_num [minor, Matrix.det_fin_two, rF]

/-- `Gmres<double, DynMat<double>&>` on a regular system: construction and solution succeed, and the second component of
the residual is at least one half for every tolerance from 1/8 down. -/
theorem C98_gmres_false : minor rA 2 ≠ 0 ∧
    ∃ a', Gmres.newRef (dGOps false) (⟨2, 2, [2, 0, 2, 1]⟩ : DMat ℝ) = ⟨.ok (), a'⟩ ∧
      ∀ tol : ℝ, 0 < tol → tol ≤ 1 / 8 → ∃ x, Gmres.solveRef Nat.sqrt false (dGOps false) a' tol [2, 1] = .ok x ∧
        1 / 2 ≤ |resid 2 rA (val0 x) (val0 [2, 1]) 1| := by
  refine ⟨by norm_num [minor, Matrix.det_fin_two, rA], ?_⟩
  obtain ⟨a', e, -, h⟩ := C98_resid .dense false Nat.sqrt sqrtExact_natSqrt 2 _ rA rF rfl rA_shows rF_ilu rF_pivots rF_minor
  refine ⟨a', e, fun tol ht ht' => ?_⟩
  obtain ⟨x, z, ex, -, hz, hn⟩ := h tol ht [2, 1] rfl ⟨0, by omega, by norm_num [val0]⟩
  refine ⟨x, ex, ?_⟩
  have h0 := hz 0 (by omega)
  have h1 := hz 1 (by omega)
  simp only [mulVec, resid, sum_range_succ, sum_range_zero, zero_add] at h0 h1 ⊢
  rw [rF_prod 0 0 (by omega) (by omega), rF_prod 0 1 (by omega) (by omega)] at h0
  rw [rF_prod 1 0 (by omega) (by omega), rF_prod 1 1 (by omega) (by omega)] at h1
  simp [rA, rF, val0] at h0 h1 ⊢
  have z0 : |z 0| ≤ tol := abs_le_of_sq_le_sq (by
    have := hn.le; simp only [normSq, sum_range_succ, sum_range_zero, zero_add] at this; nlinarith [sq_nonneg (z 1)]) ht.le
  have z1 : |z 1| ≤ tol := abs_le_of_sq_le_sq (by
    have := hn.le; simp only [normSq, sum_range_succ, sum_range_zero, zero_add] at this; nlinarith [sq_nonneg (z 0)]) ht.le
  rw [abs_le] at z0 z1
  refine le_trans ?_ (neg_le_abs _)
  linarith

/-- The solver with its own matrix, for comparison (the factorisation is exact, so is the result up to the tolerance). -/
example : ∃ g, Gmres.new (dGOps false) (⟨2, 2, [2, 0, 2, 1]⟩ : DMat ℝ) (1 / 8) = .ok g ∧
    ∀ b : List ℝ, b.length = 2 → (∃ i, i < 2 ∧ val0 b i ≠ 0) →
      ∃ x z, Gmres.solve Nat.sqrt false (dGOps false) g b = .ok x ∧ x.length = 2 ∧
        PResid 2 (luProd 2 rF) rA (val0 b) (val0 x) z ∧ normSq 2 z < (1 / 8) ^ 2 :=
  C45_solve .dense false Nat.sqrt sqrtExact_natSqrt 2 _ rA rF rfl rA_shows rF_ilu rF_pivots
    (by norm_num [minor, Matrix.det_fin_two, rA]) _ (by norm_num)

/-- The hypothesis of `C98_upper` can be met (that of `C98_throw`: see `C98_throw_false`). -/
example : ∃ (A : Nat → Nat → ℚ), (∀ i j, j < i → i < 2 → A i j = 0) ∧ A 0 1 ≠ 0 :=
  ⟨fun i j => if j < i then 0 else 1, fun i j h _ => by simp [h], by simp⟩

end Lalib.Props
