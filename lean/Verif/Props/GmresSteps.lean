import Verif.Proofs.GmresSteps
import Verif.Props.Gmres

/-! # Property C97: how many steps GMRES takes, and when its result is exact

In exact arithmetic.  `k` is the number of Krylov vectors of which the result is a combination (`IsGmres`, C51). -/

namespace Lalib.Props

open Lalib Finset

variable {T M : Type}

section
variable [Field T] [LinearOrder T] [IsStrictOrderedRing T] [Sqrt T] [LawfulSqrt T]
variable {ops : Bool → GOps M T} {ok : M → Prop}

/-- The product of the factors differs from `A` in a matrix of rank at most `r` (`C` has `r` columns): at most `r + 1` steps, and
after `r + 1` steps the result is the exact solution, whatever the tolerance. -/
theorem C97_rank (hst : GStorage ops ok) (nd : Bool) (rt : Nat → Nat) (hrt : SqrtExact rt) (n : Nat) (a : M)
    (A F : Nat → Nat → T) (hok : ok a) (hA : Shows (ops nd).toMatOps n a A) (hF : IsIlu n A F)
    (hd : ∀ i, i < n → F i i ≠ 0) (hr : minor A n ≠ 0) (tol : T) (ht : 0 < tol)
    {ι : Type} [Fintype ι] (C : Nat → ι → T) (D : ι → Nat → T)
    (h : ∀ i j, i < n → j < n → A i j = luProd n F i j + ∑ l, C i l * D l j) :
    ∃ g, Gmres.new (ops nd) a tol = .ok g ∧ ∀ b : List T, b.length = n → (∃ i, i < n ∧ val0 b i ≠ 0) →
      ∀ u, IsKrylov n (luProd n F) A (val0 b) u →
      ∃ x k z, Gmres.solve rt nd (ops nd) g b = .ok x ∧ x.length = n ∧
        IsGmres n (luProd n F) A (val0 b) tol u (val0 x) k z ∧ k ≤ Fintype.card ι + 1 ∧
        (k = Fintype.card ι + 1 → Solves n A (val0 x) (val0 b)) := by
  obtain ⟨g, eg, H⟩ := C51_gmres hst nd rt hrt n a A F hok hA hF hd hr tol ht
  refine ⟨g, eg, fun b hb hne u hu => ?_⟩
  obtain ⟨x, k, z, ex, lx, hx⟩ := H b hb hne u hu
  obtain ⟨y, hy, hs⟩ := Gmres.krylov_rank (Gmres.minor_luProd hd) hr hu C D h
  obtain ⟨h1, h2⟩ := Gmres.isGmres_le ht hx (Nat.succ_pos _) hy hs
  exact ⟨x, k, z, ex, lx, hx, h1, h2⟩

/-- No fill-in: the result is the exact solution. -/
theorem C97_no_fill (hst : GStorage ops ok) (nd : Bool) (rt : Nat → Nat) (hrt : SqrtExact rt) (n : Nat) (a : M)
    (A : Nat → Nat → T) (hok : ok a) (hA : Shows (ops nd).toMatOps n a A) (hf : NoFill n A) (hr : Regular A n)
    (tol : T) (ht : 0 < tol) :
    ∃ g, Gmres.new (ops nd) a tol = .ok g ∧ ∀ b : List T, b.length = n → (∃ i, i < n ∧ val0 b i ≠ 0) →
      ∃ x, Gmres.solve rt nd (ops nd) g b = .ok x ∧ x.length = n ∧ Solves n A (val0 x) (val0 b) := by
  rcases C40_factor (hst.storage nd) n a A hok hA with ⟨lu, F, e, hok', hF', hI⟩ | e
  · have hm : minor A n = ∏ i ∈ Finset.range n, F i i := minor_lu (hI.exact hf)
    have hd : ∀ i, i < n → F i i ≠ 0 := by
      have := hr.det
      rw [hm] at this
      exact fun i hi => Finset.prod_ne_zero_iff.mp this i (Finset.mem_range.mpr hi)
    obtain ⟨g, eg, H⟩ := C97_rank hst nd rt hrt n a A F hok hA hI hd hr.det tol ht (ι := Empty) (fun _ l => l.elim)
      (fun l _ => l.elim) (fun i j hi hj => by simp [hI.exact hf i j hi hj])
    refine ⟨g, eg, fun b hb hne => ?_⟩
    obtain ⟨u, hu⟩ := C51_krylov n (luProd n F) A (Gmres.minor_luProd hd) (val0 b)
    obtain ⟨x, k, z, ex, lx, hx, h1, h2⟩ := H b hb hne u hu
    exact ⟨x, ex, lx, h2 (le_antisymm h1 (by simp [Nat.succ_le_iff, hx.pos]))⟩
  · obtain ⟨_, _, e', _⟩ := C43_noFill (hst.storage nd) n a A hok hA hf hr
    rw [e] at e'
    cases e'

/-- The positions of fill-in, judged by the positions of the elements of `A`, are in the rows `R` and the columns `Q`: at most
`|R| + |Q| + 1` steps. -/
theorem C97_cover (hst : GStorage ops ok) (nd : Bool) (rt : Nat → Nat) (hrt : SqrtExact rt) (n : Nat) (a : M)
    (A F : Nat → Nat → T) (hok : ok a) (hA : Shows (ops nd).toMatOps n a A) (hF : IsIlu n A F)
    (hd : ∀ i, i < n → F i i ≠ 0) (hr : minor A n ≠ 0) (tol : T) (ht : 0 < tol) (R Q : Finset Nat)
    (h : ∀ i j k, i < n → j < n → k < i → k < j → A i k ≠ 0 → A k j ≠ 0 → A i j = 0 → i ∈ R ∨ j ∈ Q) :
    ∃ g, Gmres.new (ops nd) a tol = .ok g ∧ ∀ b : List T, b.length = n → (∃ i, i < n ∧ val0 b i ≠ 0) →
      ∀ u, IsKrylov n (luProd n F) A (val0 b) u →
      ∃ x k z, Gmres.solve rt nd (ops nd) g b = .ok x ∧ x.length = n ∧
        IsGmres n (luProd n F) A (val0 b) tol u (val0 x) k z ∧ k ≤ R.card + Q.card + 1 ∧
        (k = R.card + Q.card + 1 → Solves n A (val0 x) (val0 b)) := by
  classical
  have key : ∀ i j, i < n → j < n → i ∉ R → j ∉ Q → luProd n F i j = A i j := by
    intro i j hi hj hR hQ
    by_cases h0 : A i j = 0
    · rw [h0]
      unfold luProd
      refine sum_eq_zero fun k hk => ?_
      have hk := mem_range.mp hk
      have hz := hF.zero i j hi hj h0
      unfold unitLow upper
      rcases Nat.lt_trichotomy k i with h1 | rfl | h1
      · rw [if_pos h1]
        rcases Nat.lt_trichotomy k j with h2 | rfl | h2
        · rw [if_pos h2.le]
          by_cases h3 : A i k = 0
          · rw [hF.zero i k hi hk h3, zero_mul]
          · by_cases h4 : A k j = 0
            · rw [hF.zero k j hk hj h4, mul_zero]
            · exact ((h i j k hi hj h1 h2 h3 h4 h0).elim hR hQ).elim
        · rw [hz, zero_mul]
        · rw [if_neg (by omega), mul_zero]
      · rw [hz]; simp
      · rw [if_neg (by omega), if_neg (by omega), zero_mul]
    · exact hF.prod i j hi hj h0
  have := C97_rank hst nd rt hrt n a A F hok hA hF hd hr tol ht (ι := R ⊕ Q)
    (fun i l => match l with
      | .inl r => if i = r.1 then 1 else 0
      | .inr q => if i ∈ R then 0 else A i q.1 - luProd n F i q.1)
    (fun l j => match l with
      | .inl r => A r.1 j - luProd n F r.1 j
      | .inr q => if j = q.1 then 1 else 0)
    (fun i j hi hj => by
      rw [Fintype.sum_sum_type]
      simp only
      by_cases hiR : i ∈ R
      · rw [Finset.sum_eq_single (⟨i, hiR⟩ : R) (fun r _ hne => by
          rw [if_neg (fun e => hne (Subtype.ext e.symm)), zero_mul]) (fun hn => absurd (mem_univ _) hn)]
        simp [hiR]
      · rw [Finset.sum_eq_zero (fun r _ => by rw [if_neg (fun e : i = r.1 => hiR (e ▸ r.2)), zero_mul])]
        by_cases hjQ : j ∈ Q
        · rw [Finset.sum_eq_single (⟨j, hjQ⟩ : Q) (fun q _ hne => by
            rw [if_neg (fun e : j = q.1 => hne (Subtype.ext e.symm)), mul_zero]) (fun hn => absurd (mem_univ _) hn)]
          simp [hiR]
        · rw [Finset.sum_eq_zero (fun q _ => by rw [if_neg (fun e : j = q.1 => hjQ (e ▸ q.2)), mul_zero])]
          rw [key i j hi hj hiR hjQ]
          simp)
  simpa using this

/-- Tri-diagonal with two more elements in the corners (periodic boundary conditions): at most three steps, for every size. -/
theorem C97_periodic (hst : GStorage ops ok) (nd : Bool) (rt : Nat → Nat) (hrt : SqrtExact rt) (n : Nat) (a : M)
    (A F : Nat → Nat → T) (hok : ok a) (hA : Shows (ops nd).toMatOps n a A) (hF : IsIlu n A F)
    (hd : ∀ i, i < n → F i i ≠ 0) (hr : minor A n ≠ 0) (tol : T) (ht : 0 < tol)
    (h : ∀ i j, i < n → j < n → A i j ≠ 0 → i ≤ j + 1 ∧ j ≤ i + 1 ∨ i = 0 ∧ j + 1 = n ∨ j = 0 ∧ i + 1 = n) :
    ∃ g, Gmres.new (ops nd) a tol = .ok g ∧ ∀ b : List T, b.length = n → (∃ i, i < n ∧ val0 b i ≠ 0) →
      ∀ u, IsKrylov n (luProd n F) A (val0 b) u →
      ∃ x k z, Gmres.solve rt nd (ops nd) g b = .ok x ∧ x.length = n ∧
        IsGmres n (luProd n F) A (val0 b) tol u (val0 x) k z ∧ k ≤ 3 ∧ (k = 3 → Solves n A (val0 x) (val0 b)) := by
  have := C97_cover hst nd rt hrt n a A F hok hA hF hd hr tol ht {n - 1} {n - 1} (fun i j k hi hj hki hkj h1 h2 h0 => by
    simp only [mem_singleton]
    have e1 := h i k hi (by omega) h1
    have e2 := h k j (by omega) hj h2
    by_cases hij : i = j
    · subst hij
      exact absurd (hF.zero i i hi hi h0) (hd i hi)
    · omega)
  simpa using this

/-- There is a number `t` such that all vectors shrink by a factor when `t P⁻¹ A v` is subtracted: the residual shrinks by that
factor in every step, at least, which bounds the number of steps. -/
theorem C97_rate (hst : GStorage ops ok) (nd : Bool) (rt : Nat → Nat) (hrt : SqrtExact rt) (n : Nat) (a : M)
    (A F : Nat → Nat → T) (hok : ok a) (hA : Shows (ops nd).toMatOps n a A) (hF : IsIlu n A F)
    (hd : ∀ i, i < n → F i i ≠ 0) (hr : minor A n ≠ 0) (tol : T) (ht : 0 < tol) (t rho : T)
    (h : ∀ v w, Solves n (luProd n F) w (mulVec n A v) → normSq n (fun i => v i - t * w i) ≤ rho * normSq n v) :
    ∃ g, Gmres.new (ops nd) a tol = .ok g ∧ ∀ b : List T, b.length = n → (∃ i, i < n ∧ val0 b i ≠ 0) →
      ∀ u, IsKrylov n (luProd n F) A (val0 b) u →
      ∃ x k z, Gmres.solve rt nd (ops nd) g b = .ok x ∧ x.length = n ∧
        IsGmres n (luProd n F) A (val0 b) tol u (val0 x) k z ∧ normSq n z ≤ rho ^ k * normSq n (u 0) ∧
        ∀ m, 0 < m → rho ^ m * normSq n (u 0) < tol ^ 2 → k ≤ m := by
  obtain ⟨g, eg, H⟩ := C51_gmres hst nd rt hrt n a A F hok hA hF hd hr tol ht
  refine ⟨g, eg, fun b hb hne u hu => ?_⟩
  obtain ⟨x, k, z, ex, lx, hx⟩ := H b hb hne u hu
  have hP : minor (luProd n F) n ≠ 0 := Gmres.minor_luProd hd
  have hrho : 0 ≤ rho := by
    obtain ⟨i, hi, -⟩ := hne
    obtain ⟨w, hw⟩ := exists_solves hP (mulVec n A fun _ => 1)
    have h1 := (Gmres.normSq_nonneg (n := n) _).trans (h _ w hw)
    have h2 : 0 < normSq n (fun _ => (1 : T)) := by
      simp only [normSq, one_pow, sum_const, card_range, nsmul_eq_mul, mul_one, Nat.cast_pos]
      omega
    exact nonneg_of_mul_nonneg_left h1 h2
  have hR := Gmres.richardson hP hu t rho hrho h
  refine ⟨x, k, z, ex, lx, hx, ?_, fun m hm hlt => ?_⟩
  · obtain ⟨y, w, hy, -, hw, hn⟩ := hR k
    exact (hx.minimal y w hy hw).trans hn
  · by_contra hc
    obtain ⟨y, w, hy, -, hw, hn⟩ := hR m
    exact absurd (hx.first m hm (by omega) y w hy hw) (_root_.not_le.mpr (hn.trans_lt hlt))

/-- The fill that was dropped is small: `P⁻¹ (P - A)` shrinks all vectors by the factor `q`.  Then the residual of step `k` is at
most `q ^ k` times that of the start. -/
theorem C97_small_fill (hst : GStorage ops ok) (nd : Bool) (rt : Nat → Nat) (hrt : SqrtExact rt) (n : Nat) (a : M)
    (A F : Nat → Nat → T) (hok : ok a) (hA : Shows (ops nd).toMatOps n a A) (hF : IsIlu n A F)
    (hd : ∀ i, i < n → F i i ≠ 0) (hr : minor A n ≠ 0) (tol : T) (ht : 0 < tol) (q : T)
    (h : ∀ v w, Solves n (luProd n F) w (mulVec n (fun i j => luProd n F i j - A i j) v) → normSq n w ≤ q ^ 2 * normSq n v) :
    ∃ g, Gmres.new (ops nd) a tol = .ok g ∧ ∀ b : List T, b.length = n → (∃ i, i < n ∧ val0 b i ≠ 0) →
      ∀ u, IsKrylov n (luProd n F) A (val0 b) u →
      ∃ x k z, Gmres.solve rt nd (ops nd) g b = .ok x ∧ x.length = n ∧
        IsGmres n (luProd n F) A (val0 b) tol u (val0 x) k z ∧ normSq n z ≤ (q ^ k) ^ 2 * normSq n (u 0) ∧
        ∀ m, 0 < m → (q ^ m) ^ 2 * normSq n (u 0) < tol ^ 2 → k ≤ m := by
  have := C97_rate hst nd rt hrt n a A F hok hA hF hd hr tol ht 1 (q ^ 2) (fun v w hw => by
    refine h v _ fun i hi => ?_
    have e1 : mulVec n (luProd n F) (fun i => v i - 1 * w i) i = mulVec n (luProd n F) v i - mulVec n (luProd n F) w i := by
      simp only [one_mul]
      exact Gmres.mulVec_sub' _ _ _ _
    rw [e1, hw i hi]
    unfold mulVec
    rw [← sum_sub_distrib]
    exact sum_congr rfl fun j _ => by ring)
  simpa only [← pow_mul, mul_comm 2] using this

/-- `P⁻¹ A` is positive definite, with bounds: the residual of step `k` is at most `(1 - α² / β) ^ k` times that of the start
(squares of norms). -/
theorem C97_definite (hst : GStorage ops ok) (nd : Bool) (rt : Nat → Nat) (hrt : SqrtExact rt) (n : Nat) (a : M)
    (A F : Nat → Nat → T) (hok : ok a) (hA : Shows (ops nd).toMatOps n a A) (hF : IsIlu n A F)
    (hd : ∀ i, i < n → F i i ≠ 0) (hr : minor A n ≠ 0) (tol : T) (ht : 0 < tol) (al be : T) (hal : 0 ≤ al) (hbe : 0 < be)
    (h : ∀ v w, Solves n (luProd n F) w (mulVec n A v) →
      al * normSq n v ≤ ∑ i ∈ range n, v i * w i ∧ normSq n w ≤ be * normSq n v) :
    ∃ g, Gmres.new (ops nd) a tol = .ok g ∧ ∀ b : List T, b.length = n → (∃ i, i < n ∧ val0 b i ≠ 0) →
      ∀ u, IsKrylov n (luProd n F) A (val0 b) u →
      ∃ x k z, Gmres.solve rt nd (ops nd) g b = .ok x ∧ x.length = n ∧
        IsGmres n (luProd n F) A (val0 b) tol u (val0 x) k z ∧ normSq n z ≤ (1 - al ^ 2 / be) ^ k * normSq n (u 0) ∧
        ∀ m, 0 < m → (1 - al ^ 2 / be) ^ m * normSq n (u 0) < tol ^ 2 → k ≤ m := by
  refine C97_rate hst nd rt hrt n a A F hok hA hF hd hr tol ht (al / be) (1 - al ^ 2 / be) (fun v w hw => ?_)
  obtain ⟨h1, h2⟩ := h v w hw
  have e : normSq n (fun i => v i - al / be * w i) =
      normSq n v - 2 * (al / be) * (∑ i ∈ range n, v i * w i) + (al / be) ^ 2 * normSq n w := by
    unfold normSq
    rw [mul_sum, mul_sum, ← sum_sub_distrib, ← sum_add_distrib]
    exact sum_congr rfl fun i _ => by ring
  have h3 : 0 ≤ al / be := div_nonneg hal hbe.le
  have h4 := mul_le_mul_of_nonneg_left h1 h3
  have h5 := mul_le_mul_of_nonneg_left h2 (sq_nonneg (al / be))
  have e1 : al / be * (al * normSq n v) = al ^ 2 / be * normSq n v := by ring
  have e2 : (al / be) ^ 2 * (be * normSq n v) = al ^ 2 / be * normSq n v := by field_simp
  rw [e]
  rw [e1] at h4
  rw [e2] at h5
  linarith

/-- A larger tolerance does not take more steps, and a smaller one does not give a larger residual. -/
theorem C97_tolerance (hst : GStorage ops ok) (nd : Bool) (rt : Nat → Nat) (hrt : SqrtExact rt) (n : Nat) (a : M)
    (A F : Nat → Nat → T) (hok : ok a) (hA : Shows (ops nd).toMatOps n a A) (hF : IsIlu n A F)
    (hd : ∀ i, i < n → F i i ≠ 0) (hr : minor A n ≠ 0) (tol tol' : T) (ht : 0 < tol) (ht' : tol ≤ tol') :
    ∃ g g', Gmres.new (ops nd) a tol = .ok g ∧ Gmres.new (ops nd) a tol' = .ok g' ∧
      ∀ b : List T, b.length = n → (∃ i, i < n ∧ val0 b i ≠ 0) →
      ∀ u, IsKrylov n (luProd n F) A (val0 b) u →
      ∃ x k z x' k' z', Gmres.solve rt nd (ops nd) g b = .ok x ∧ Gmres.solve rt nd (ops nd) g' b = .ok x' ∧
        IsGmres n (luProd n F) A (val0 b) tol u (val0 x) k z ∧ IsGmres n (luProd n F) A (val0 b) tol' u (val0 x') k' z' ∧
        k' ≤ k ∧ normSq n z ≤ normSq n z' := by
  obtain ⟨g, eg, H⟩ := C51_gmres hst nd rt hrt n a A F hok hA hF hd hr tol ht
  obtain ⟨g', eg', H'⟩ := C51_gmres hst nd rt hrt n a A F hok hA hF hd hr tol' (ht.trans_le ht')
  refine ⟨g, g', eg, eg', fun b hb hne u hu => ?_⟩
  obtain ⟨x, k, z, ex, lx, hx⟩ := H b hb hne u hu
  obtain ⟨x', k', z', ex', lx', hx'⟩ := H' b hb hne u hu
  have hk : k' ≤ k := by
    by_contra hc
    have h1 := hx'.first k hx.pos (by omega) _ z hx.comb hx.res
    have h2 := hx.small
    have h3 : tol ^ 2 ≤ tol' ^ 2 := pow_le_pow_left₀ ht.le ht' 2
    exact absurd (h3.trans h1) (_root_.not_le.mpr h2)
  exact ⟨x, k, z, x', k', z', ex, ex', hx, hx', hk, hx.minimal _ _ (Gmres.comb_mono hx'.comb hk) hx'.res⟩

end

/-! ## Concrete cases -/

/-- No fill-in (`C97_no_fill`). -/
example : ∃ g, Gmres.new (dGOps false) (⟨2, 2, [2, 1, 4, 5]⟩ : DMat ℝ) 100 = .ok g ∧
    ∀ b : List ℝ, b.length = 2 → (∃ i, i < 2 ∧ val0 b i ≠ 0) →
      ∃ x, Gmres.solve Nat.sqrt false (dGOps false) g b = .ok x ∧ x.length = 2 ∧ Solves 2 gA (val0 x) (val0 b) :=
  C97_no_fill .dense false Nat.sqrt sqrtExact_natSqrt 2 _ gA rfl gA_shows gA_noFill gA_regular _ (by norm_num)

/-- A matrix with periodic boundary conditions and its incomplete factors; elements (1, 3) and (3, 1) are dropped. -/
def perA (i j : Nat) : ℝ := val0 [1, 1, 0, 1, 1, 2, 1, 0, 0, 1, 2, 1, 1, 0, 1, 3] (i * 4 + j)
def perF (i j : Nat) : ℝ := val0 [1, 1, 0, 1, 1, 1, 1, 0, 0, 1, 1, 1, 1, 0, 1, 1] (i * 4 + j)

theorem lt_four {P : Nat → Prop} (h0 : P 0) (h1 : P 1) (h2 : P 2) (h3 : P 3) (i : Nat) (h : i < 4) : P i := by
  have : i = 0 ∨ i = 1 ∨ i = 2 ∨ i = 3 := by omega
  rcases this with rfl | rfl | rfl | rfl <;> assumption

/-- Its solver: at most three steps for four unknowns. -/
example : ∃ g, Gmres.new (dGOps false) (⟨4, 4, [1, 1, 0, 1, 1, 2, 1, 0, 0, 1, 2, 1, 1, 0, 1, 3]⟩ : DMat ℝ) (1 / 100) = .ok g ∧
    ∀ b : List ℝ, b.length = 4 → (∃ i, i < 4 ∧ val0 b i ≠ 0) →
      ∀ u, IsKrylov 4 (luProd 4 perF) perA (val0 b) u →
      ∃ x k z, Gmres.solve Nat.sqrt false (dGOps false) g b = .ok x ∧ x.length = 4 ∧
        IsGmres 4 (luProd 4 perF) perA (val0 b) (1 / 100) u (val0 x) k z ∧ k ≤ 3 ∧
        (k = 3 → Solves 4 perA (val0 x) (val0 b)) := by
  have H : ∀ {Q : Nat → Nat → Prop}, (∀ i : Fin 4, ∀ j : Fin 4, Q i j) → ∀ i j, i < 4 → j < 4 → Q i j :=
    fun h i j hi hj => h ⟨i, hi⟩ ⟨j, hj⟩
  refine C97_periodic .dense false Nat.sqrt sqrtExact_natSqrt 4 _ perA perF rfl ⟨rfl, H ?_⟩ ⟨H ?_, H ?_, ?_⟩ ?_ ?_ _
    (by norm_num) (H ?_)
  · intro i j
    fin_cases i <;> fin_cases j <;> rfl
  · intro i j
    fin_cases i <;> fin_cases j <;> simp [perA, perF, val0]
  · intro i j
    fin_cases i <;> fin_cases j <;> simp [perA, perF, val0, luProd, unitLow, upper, sum_range_succ] <;> norm_num
  · intro i j hj hi _
    refine lt_four (P := fun j => perF j j ≠ 0) ?_ ?_ ?_ ?_ j (by omega) <;> simp [perF, val0]
  · refine lt_four ?_ ?_ ?_ ?_ <;> simp [perF, val0]
  · simp [minor, Matrix.det_succ_row_zero, Fin.sum_univ_succ, perA, val0, Fin.succAbove]
    norm_num
  · intro i j
    fin_cases i <;> fin_cases j <;> simp [perA, val0]

/-- Factors that are exact satisfy the hypotheses of the rates, with `q = 0` and `α = β = 1`. -/
example (n : Nat) (F A : Nat → Nat → ℝ) (hd : ∀ i, i < n → F i i ≠ 0) (h : ∀ i j, i < n → j < n → luProd n F i j = A i j) :
    (∀ v w, Solves n (luProd n F) w (mulVec n (fun i j => luProd n F i j - A i j) v) → normSq n w ≤ 0 ^ 2 * normSq n v) ∧
    ∀ v w, Solves n (luProd n F) w (mulVec n A v) →
      1 * normSq n v ≤ ∑ i ∈ range n, v i * w i ∧ normSq n w ≤ 1 * normSq n v := by
  have hP : minor (luProd n F) n ≠ 0 := Gmres.minor_luProd hd
  refine ⟨fun v w hw => ?_, fun v w hw => ?_⟩
  · have : ∀ i, i < n → w i = 0 := solves_unique hP (b := fun _ => 0) (y := fun _ => 0) (fun i hi => by
      rw [hw i hi]
      exact sum_eq_zero fun j hj => by beta_reduce; rw [h i j hi (mem_range.mp hj)]; simp) (fun i _ => by simp [mulVec])
    have e : normSq n w = 0 := sum_eq_zero fun i hi => by rw [this i (mem_range.mp hi)]; simp
    rw [e]; simp
  · have : ∀ i, i < n → w i = v i := solves_unique hP hw fun i hi =>
      sum_congr rfl fun j hj => by rw [h i j hi (mem_range.mp hj)]
    have e : normSq n w = normSq n v := sum_congr rfl fun i hi => by rw [this i (mem_range.mp hi)]
    refine ⟨le_of_eq ?_, by rw [e, one_mul]⟩
    rw [one_mul]
    exact sum_congr rfl fun i hi => by rw [this i (mem_range.mp hi), pow_two]

end Lalib.Props
