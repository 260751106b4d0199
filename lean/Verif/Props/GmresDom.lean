import Verif.Proofs.GmresDom
import Verif.Props.GmresSteps
import Verif.Props.Stationary

/-! # Property C104: GMRES for matrices with a dominating diagonal

In exact arithmetic.  `k` is the number of Krylov vectors of which the result is a combination (`IsGmres`, C51). -/

namespace Lalib.Props

open Lalib Finset

variable {T M : Type}

section
variable [Field T] [LinearOrder T] [IsStrictOrderedRing T] [Sqrt T] [LawfulSqrt T]
variable {ops : Bool → GOps M T} {ok : M → Prop}

private theorem dom_gmres (hst : GStorage ops ok) (nd : Bool) (rt : Nat → Nat) (hrt : SqrtExact rt) (n : Nat) (a : M)
    (A F : Nat → Nat → T) (w : Nat → T) (hok : ok a) (hA : Shows (ops nd).toMatOps n a A) (hw : WeightDom n A w) (hI : IsIlu n A F)
    (hd : ∀ i, i < n → F i i ≠ 0) (tol : T) (ht : 0 < tol) (rho : T) (r0 : 0 ≤ rho)
    (hr : ∀ i, i < n → |F i i| * w i * (1 - rho) ≤ rowGap n A w i) :
    ∃ g, Gmres.new (ops nd) a tol = .ok g ∧ ∀ b : List T, b.length = n → (∃ i, i < n ∧ val0 b i ≠ 0) →
      ∀ u, IsKrylov n (luProd n F) A (val0 b) u →
      ∃ x k z, Gmres.solve rt nd (ops nd) g b = .ok x ∧ x.length = n ∧ IsGmres n (luProd n F) A (val0 b) tol u (val0 x) k z ∧
        (∀ t, 0 ≤ t → (∀ i, i < n → |val0 b i| ≤ t * rowGap n A w i) →
          normSq n z ≤ (t * rho ^ k) ^ 2 * normSq n w ∧ ∀ m, 0 < m → (t * rho ^ m) ^ 2 * normSq n w < tol ^ 2 → k ≤ m) ∧
        (rho < 1 → ∀ s, Solves n A s (val0 b) → ∀ l, 0 < l → (∀ i, i < n → l ≤ w i) →
          ∀ i, i < n → l * (1 - rho) * |s i - val0 x i| ≤ tol * w i) := by
  obtain ⟨g, eg, H⟩ := C51_gmres hst nd rt hrt n a A F hok hA hI hd (hw.minor_ne le_rfl) tol ht
  refine ⟨g, eg, fun b hb hne u hu => ?_⟩
  obtain ⟨x, k, z, ex, lx, hx⟩ := H b hb hne u hu
  refine ⟨x, k, z, ex, lx, hx, fun t t0 hbt => ⟨?_, fun m hm hlt => ?_⟩, fun r1 s hs l l0 hl => ?_⟩
  · obtain ⟨y, v, hy, -, hv, hn⟩ := richardson_weight hw hI hd r0 t0 hr hu (pre_bound hw hI hd t0 hbt hu.1) k
    exact (hx.minimal y v hy hv).trans (norm_weight hn)
  · by_contra hc
    obtain ⟨y, v, hy, -, hv, hn⟩ := richardson_weight hw hI hd r0 t0 hr hu (pre_bound hw hI hd t0 hbt hu.1) m
    exact absurd (hx.first m hm (by omega) y v hy hv) (_root_.not_le.mpr ((norm_weight hn).trans_lt hlt))
  · intro i hi
    have h := resid_error hw hI hd r1 hr hs hx.res (q := tol / l) (fun j hj => by
      refine (comp_lt ht hx.small hj).trans ?_
      rw [div_mul_eq_mul_div, le_div_iff₀ l0]
      exact mul_le_mul_of_nonneg_left (hl j hj) ht.le) i hi
    rw [div_mul_eq_mul_div, le_div_iff₀ l0] at h
    linarith

/-- The constructor does not throw, the residual after `k` steps is at most `rho ^ k` times a bound for that of the start, which
bounds the number of steps, and the tolerance bounds the error of the result; `rho ≥ 1 - gap / (2 |a_ii| w_i)` in all rows. -/
theorem C104_gmres (hst : GStorage ops ok) (nd : Bool) (rt : Nat → Nat) (hrt : SqrtExact rt) (n : Nat) (a : M)
    (A : Nat → Nat → T) (w : Nat → T) (hok : ok a) (hA : Shows (ops nd).toMatOps n a A) (hw : WeightDom n A w) (tol : T)
    (ht : 0 < tol) (rho : T) (r0 : 0 ≤ rho) (hr : ∀ i, i < n → 2 * |A i i| * w i * (1 - rho) ≤ rowGap n A w i) :
    ∃ F g, IsIlu n A F ∧ Gmres.new (ops nd) a tol = .ok g ∧ ∀ b : List T, b.length = n → (∃ i, i < n ∧ val0 b i ≠ 0) →
      ∀ u, IsKrylov n (luProd n F) A (val0 b) u →
      ∃ x k z, Gmres.solve rt nd (ops nd) g b = .ok x ∧ x.length = n ∧ IsGmres n (luProd n F) A (val0 b) tol u (val0 x) k z ∧
        (∀ t, 0 ≤ t → (∀ i, i < n → |val0 b i| ≤ t * rowGap n A w i) →
          normSq n z ≤ (t * rho ^ k) ^ 2 * normSq n w ∧ ∀ m, 0 < m → (t * rho ^ m) ^ 2 * normSq n w < tol ^ 2 → k ≤ m) ∧
        (rho < 1 → ∀ s, Solves n A s (val0 b) → ∀ l, 0 < l → (∀ i, i < n → l ≤ w i) →
          ∀ i, i < n → l * (1 - rho) * |s i - val0 x i| ≤ tol * w i) := by
  obtain ⟨f, F, e, hf, hS, hI, hd, _⟩ := C86_factor (hst.storage nd) n a A w hok hA hw
  obtain ⟨g, eg, h⟩ := dom_gmres hst nd rt hrt n a A F w hok hA hw hI (fun i hi => left_ne_zero_of_mul (hd i hi).ne') tol ht rho r0
    fun i hi => pivot_rate hw hI hr hi
  exact ⟨F, g, hI, eg, h⟩

/-- M-matrices: with the rate of Jacobi's iteration, `rho ≥ 1 - (A w)_i / (a_ii w_i)`. -/
theorem C104_m_matrix (hst : GStorage ops ok) (nd : Bool) (rt : Nat → Nat) (hrt : SqrtExact rt) (n : Nat) (a : M)
    (A : Nat → Nat → T) (w : Nat → T) (hok : ok a) (hA : Shows (ops nd).toMatOps n a A) (hm : MMatrix n A w) (tol : T)
    (ht : 0 < tol) (rho : T) (r0 : 0 ≤ rho) (hr : ∀ i, i < n → A i i * w i * (1 - rho) ≤ ∑ j ∈ range n, A i j * w j) :
    ∃ F g, IsIlu n A F ∧ Gmres.new (ops nd) a tol = .ok g ∧ ∀ b : List T, b.length = n → (∃ i, i < n ∧ val0 b i ≠ 0) →
      ∀ u, IsKrylov n (luProd n F) A (val0 b) u →
      ∃ x k z, Gmres.solve rt nd (ops nd) g b = .ok x ∧ x.length = n ∧ IsGmres n (luProd n F) A (val0 b) tol u (val0 x) k z ∧
        (∀ t, 0 ≤ t → (∀ i, i < n → |val0 b i| ≤ t * ∑ j ∈ range n, A i j * w j) →
          normSq n z ≤ (t * rho ^ k) ^ 2 * normSq n w ∧ ∀ m, 0 < m → (t * rho ^ m) ^ 2 * normSq n w < tol ^ 2 → k ≤ m) ∧
        (rho < 1 → ∀ s, Solves n A s (val0 b) → ∀ l, 0 < l → (∀ i, i < n → l ≤ w i) →
          ∀ i, i < n → l * (1 - rho) * |s i - val0 x i| ≤ tol * w i) := by
  obtain ⟨f, F, e, hf, hS, hI, hd, _⟩ := C86_factor (hst.storage nd) n a A w hok hA hm.dom
  have hp : ∀ i, i < n → 0 < F i i := fun i hi => (pos_iff_pos_of_mul_pos (hd i hi)).mpr (hm.diag i hi)
  obtain ⟨g, eg, h⟩ := dom_gmres hst nd rt hrt n a A F w hok hA hm.dom hI (fun i hi => (hp i hi).ne') tol ht rho r0
    fun i hi => pivot_rate_m hm hI hp hr hi
  refine ⟨F, g, hI, eg, fun b hb hne u hu => ?_⟩
  obtain ⟨x, k, z, ex, lx, hx, h1, h2⟩ := h b hb hne u hu
  exact ⟨x, k, z, ex, lx, hx, fun t t0 hbt => h1 t t0 fun i hi => by rw [hm.gap_eq hi]; exact hbt i hi, h2⟩

end

/-! ## Concrete cases -/

/-- The ring of four unknowns of C86 with the right-hand side (2, 2, 2, 2): `rho = 1 / 2` and `t = 1`, so that for the tolerance
1/10 at most 5 steps would be needed for any such matrix of order 4 (for order `n` and `w = 1` the bound is `√n / 2 ^ m < tol`). -/
example : MMatrix 4 exDom (fun _ => 1) ∧ (∀ i, i < 4 → exDom i i * 1 * (1 - 1 / 2) ≤ ∑ j ∈ range 4, exDom i j * 1) ∧
    (∀ i, i < 4 → |val0 [2, 2, 2, 2] i| ≤ 1 * ∑ j ∈ range 4, exDom i j * 1) ∧
    (1 * (1 / 2) ^ 5) ^ 2 * normSq 4 (fun _ => (1 : ℚ)) < (1 / 10) ^ 2 := by
  refine ⟨⟨by decide +kernel, fun i j hi hj => ?_, by decide +kernel, by decide +kernel⟩, by decide +kernel, by decide +kernel,
    by decide +kernel⟩
  have : ∀ i, i < 4 → ∀ j, j < 4 → i ≠ j → exDom i j ≤ 0 := by decide +kernel
  exact this i hi j hj

end Lalib.Props
