import Verif.Proofs.IluDom
import Verif.Props.Ilu
import Verif.Props.Gmres

/-! # C86: incomplete factorisations of matrices with a dominating diagonal

For every pattern of zeros, each of the three storage classes and every positive choice of weights. -/

namespace Lalib.Props

open Lalib Finset

variable {T M : Type}

section
variable [Field T] [LinearOrder T] [IsStrictOrderedRing T] {ops : MatOps M T} {ok : M → Prop}

/-- The constructor does not throw.  Every pivot has the sign of the diagonal entry it comes from, and what is left of it
after the rest of its row of `U` is taken off is no less than it was in the matrix. -/
theorem C86_factor (hst : Storage ops ok) (n : Nat) (a : M) (A : Nat → Nat → T) (w : Nat → T) (hok : ok a)
    (hA : Shows ops n a A) (hw : WeightDom n A w) :
    ∃ f F, Ilu.new ops a = .ok f ∧ ok f ∧ Shows ops n f F ∧ IsIlu n A F ∧ (∀ i, i < n → 0 < F i i * A i i) ∧
      ∀ i, i < n → rowGap n A w i ≤ |F i i| * w i - ∑ j ∈ Ico (i + 1) n, |F i j| * w j := by
  obtain ⟨R, hR, h1, h2⟩ := storage_rep hst n
  rcases Ilu.new_spec hR le_rfl (h1 a A hok hA) with ⟨F, f, e, hf, hF⟩ | ⟨_, _, hS⟩
  · have hg := isIlu_iff.mp hF
    have hr := dom_rows hw le_rfl hg
    exact ⟨f, F, e, (h2 f F hf).1, (h2 f F hf).2, hF, fun i hi => dom_pivot (hr i hi).2, fun i hi => (hr i hi).1⟩
  · exact (Ilu.not_stuck hw hS).elim

/-- Solving with the factors works for every right-hand side, and the solution has the bound that the solution of the
system itself has (`C86_bound`). -/
theorem C86_solve (hst : Storage ops ok) (n : Nat) (a : M) (A : Nat → Nat → T) (w : Nat → T) (hok : ok a)
    (hA : Shows ops n a A) (hw : WeightDom n A w) :
    ∃ f F, Ilu.new ops a = .ok f ∧ Shows ops n f F ∧ IsIlu n A F ∧ ∀ b : List T, b.length = n →
      ∃ x, Ilu.solve ops f b = .ok x ∧ x.length = n ∧ Solves n (luProd n F) (val0 x) (val0 b) ∧
        ∀ s, 0 ≤ s → (∀ i, i < n → |val0 b i| ≤ s * rowGap n A w i) → ∀ i, i < n → |val0 x i| ≤ s * w i := by
  obtain ⟨f, F, e, hf, hS, hI, hd, _⟩ := C86_factor hst n a A w hok hA hw
  have hd : ∀ i, i < n → F i i ≠ 0 := fun i hi => left_ne_zero_of_mul (hd i hi).ne'
  refine ⟨f, F, e, hS, hI, fun b hb => ?_⟩
  obtain ⟨x, ex, hx, hs⟩ := C42_solve hst n f F hf hS hd b hb
  exact ⟨x, ex, hx, hs, fun s hs0 hbd => dom_back hd (fun i hi => lu_back hi)
    (dom_fwd hw (isIlu_iff.mp hI) (fun i hi => lu_fwd hs hi) hs0 hbd)⟩

/-- The same bound for the system itself. -/
theorem C86_bound (n : Nat) (A : Nat → Nat → T) (w x b : Nat → T)
    (hw : WeightDom n A w) (hx : Solves n A x b) (s : T) (hb : ∀ i, i < n → |b i| ≤ s * rowGap n A w i) :
    ∀ i, i < n → |x i| ≤ s * w i :=
  dom_bound hw hx hb

/-- The factors of an M-matrix have positive pivots and nothing positive elsewhere; solving with them keeps a right-hand
side without negative components free of negative components. -/
theorem C86_m_matrix (hst : Storage ops ok) (n : Nat) (a : M) (A : Nat → Nat → T) (w : Nat → T) (hok : ok a)
    (hA : Shows ops n a A) (hm : MMatrix n A w) :
    ∃ f F, Ilu.new ops a = .ok f ∧ Shows ops n f F ∧ IsIlu n A F ∧ (∀ i, i < n → 0 < F i i) ∧
      (∀ i j, i < n → j < n → i ≠ j → F i j ≤ 0) ∧ ∀ b : List T, b.length = n →
        ∃ x, Ilu.solve ops f b = .ok x ∧ x.length = n ∧ Solves n (luProd n F) (val0 x) (val0 b) ∧
          ((∀ i, i < n → 0 ≤ val0 b i) → ∀ i, i < n → 0 ≤ val0 x i) := by
  obtain ⟨f, F, e, hf, hS, hI, hd, _⟩ := C86_factor hst n a A w hok hA hm.dom
  have hp : ∀ i, i < n → 0 < F i i := fun i hi => (pos_iff_pos_of_mul_pos (hd i hi)).mpr (hm.diag i hi)
  have hs := m_signs hp hm.off (isIlu_iff.mp hI)
  refine ⟨f, F, e, hS, hI, hp, hs, fun b hb => ?_⟩
  obtain ⟨x, ex, hx, hsol⟩ := C42_solve hst n f F hf hS (fun i hi => (hp i hi).ne') b hb
  exact ⟨x, ex, hx, hsol, fun hb0 => m_solve hp hs (fun i hi => lu_fwd hsol hi) (fun i hi => lu_back hi) hb0⟩

/-- No fill-in is possible: the system itself is solved. -/
theorem C86_noFill (hst : Storage ops ok) (n : Nat) (a : M) (A : Nat → Nat → T) (w : Nat → T) (hok : ok a)
    (hA : Shows ops n a A) (hw : WeightDom n A w) (hf : NoFill n A) :
    ∃ f, Ilu.new ops a = .ok f ∧ ∀ b : List T, b.length = n →
      ∃ x, Ilu.solve ops f b = .ok x ∧ x.length = n ∧ Solves n A (val0 x) (val0 b) := by
  obtain ⟨f, F, e, _, _, h⟩ := C43_noFill hst n a A hok hA hf fun k hk => hw.minor_ne hk
  exact ⟨f, e, h⟩

end

section
variable [Field T] [LinearOrder T] [IsStrictOrderedRing T] [Sqrt T] [LawfulSqrt T]
variable {ops : Bool → GOps M T} {ok : M → Prop}

/-- GMRES needs no assumption about its preconditioner: the constructor does not throw and every solution returned has a
preconditioned residual below the tolerance. -/
theorem C86_gmres (hst : GStorage ops ok) (nd : Bool) (rt : Nat → Nat) (hrt : SqrtExact rt) (n : Nat) (a : M)
    (A : Nat → Nat → T) (w : Nat → T) (hok : ok a) (hA : Shows (ops nd).toMatOps n a A) (hw : WeightDom n A w) (tol : T)
    (ht : 0 < tol) :
    ∃ F g, IsIlu n A F ∧ Gmres.new (ops nd) a tol = .ok g ∧ ∀ b : List T, b.length = n → (∃ i, i < n ∧ val0 b i ≠ 0) →
      ∃ x z, Gmres.solve rt nd (ops nd) g b = .ok x ∧ x.length = n ∧
        PResid n (luProd n F) A (val0 b) (val0 x) z ∧ normSq n z < tol ^ 2 := by
  obtain ⟨f, F, e, hf, hS, hI, hd, _⟩ := C86_factor (hst.storage nd) n a A w hok hA hw
  obtain ⟨g, eg, h⟩ := C45_solve hst nd rt hrt n a A F hok hA hI (fun i hi => left_ne_zero_of_mul (hd i hi).ne')
    (hw.minor_ne le_rfl) tol ht
  exact ⟨F, g, hI, eg, h⟩

end

/-! ## Equality in one row is too little -/

/-- No row has a negative gap, but the pivot of row 1 is zero and row 2 needs it. -/
theorem C86_strict_false :
    (∀ i, i < 3 → 0 ≤ rowGap 3 (fun i j => val0 ([1, 1, 0, 1, 1, 0, 0, 1, 1] : List ℚ) (3 * i + j)) (fun _ => 1) i) ∧
    Ilu.new dOps (⟨3, 3, [1, 1, 0, 1, 1, 0, 0, 1, 1]⟩ : DMat ℚ) = .error (.throw .runtimeError) := by
  refine ⟨by decide +kernel, by decide +kernel⟩

/-! ## Concrete cases -/

/-- A ring of four unknowns: elimination of the first would fill `(1, 3)`. -/
def exDom (i j : Nat) : ℚ := val0 [4, -1, 0, -1, -1, 4, -1, 0, 0, -1, 4, -1, -1, 0, -1, 4] (4 * i + j)

example : WeightDom 4 exDom (fun _ => 1) := ⟨by decide +kernel, by decide +kernel⟩
example : MMatrix 4 exDom (fun _ => 1) :=
  ⟨by decide +kernel, fun i j hi hj => by
    have : ∀ i, i < 4 → ∀ j, j < 4 → i ≠ j → exDom i j ≤ 0 := by decide +kernel
    exact this i hi j hj, by decide +kernel, by decide +kernel⟩
example : ¬ NoFill 4 exDom := fun h => by
  have := h 1 3 0 (by omega) (by omega) (by omega) (by omega) (by decide +kernel) (by decide +kernel)
  exact this (by decide +kernel)
-- dominance that needs the weights: row 0 is not dominant as it stands
example : ¬ WeightDom 2 (fun i j => val0 ([1, 3, 0, 1] : List ℚ) (2 * i + j)) (fun _ => 1) := fun h =>
  absurd (h.gap 0 (by omega)) (by decide +kernel)
example : WeightDom 2 (fun i j => val0 ([1, 3, 0, 1] : List ℚ) (2 * i + j)) (fun j => if j = 0 then 4 else 1) :=
  ⟨by decide +kernel, by decide +kernel⟩
example : Shows dOps 4 (⟨4, 4, [4, -1, 0, -1, -1, 4, -1, 0, 0, -1, 4, -1, -1, 0, -1, 4]⟩ : DMat ℚ) exDom :=
  ⟨rfl, fun i j hi hj => by
    have : ∀ i, i < 4 → ∀ j, j < 4 →
      dOps.get (⟨4, 4, [4, -1, 0, -1, -1, 4, -1, 0, 0, -1, 4, -1, -1, 0, -1, 4]⟩ : DMat ℚ) i j = .ok (exDom i j) := by decide +kernel
    exact this i hi j hj⟩

end Lalib.Props
