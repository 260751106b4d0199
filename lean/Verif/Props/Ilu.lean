import Verif.Proofs.Ilu

/-! # Properties C40 - C43 and C48: incomplete LU factorisation

Every theorem is for each of the three storage classes (`Storage ops ok`): `ok a` is the invariant of the
class, `Shows ops n a A` says that the object `a`, read through its accessors, is the `n x n` matrix `A`. -/

namespace Lalib.Props

open Lalib

variable {T : Type} {M M' : Type}

section aux

theorem storage_rep [Zero T] {ops : MatOps M T} {ok : M → Prop} (hst : Storage ops ok) (n : Nat) :
    ∃ R, Rep ops n n R ∧ (∀ a A, ok a → Shows ops n a A → R a A) ∧ ∀ a A, R a A → ok a ∧ Shows ops n a A := by
  have shows_of : ∀ {M : Type} {ops : MatOps M T} {R}, Rep ops n n R → ∀ a A, R a A → Shows ops n a A :=
    fun hR a A h => ⟨hR.shape a A h, fun i j hi hj => hR.get a A i j h hi hj⟩
  cases hst with
  | dense =>
    refine ⟨DRep n n, dRep n n, ?_, fun a A h => ⟨by show a.elems.length = a.n * a.m; rw [h.2.2.1, h.1, h.2.1],
      shows_of (dRep n n) a A h⟩⟩
    intro a A hok h
    have h1 := h.1
    injection h1 with h1
    injection h1 with h1 h2
    refine ⟨h1, h2, by rw [hok, h1, h2], fun i j hi hj => ?_⟩
    have hg := h.2 i j hi hj
    have hg : lrd a.elems (i * a.m + j) = .ok (A i j) := hg
    rw [lrd_val (by rw [hok, h1, h2]; exact cell_lt hi hj), h2] at hg
    injection hg
  | coo =>
    refine ⟨CooRep n n, cooRep n n, ?_, fun a A h => ⟨h.1, shows_of (cooRep n n) a A h⟩⟩
    intro a A hok h
    refine ⟨hok, h.1, fun i j hi hj => ?_⟩
    have hg : a.get i j = .ok (A i j) := h.2 i j hi hj
    rw [Coo.get_eq hok] at hg
    injection hg
  | csr =>
    refine ⟨CsrRep n n, csrRep n n, ?_, fun a A h => ⟨⟨h.1, h.2.1⟩, shows_of (csrRep n n) a A h⟩⟩
    intro a A hok h
    refine ⟨hok.1, hok.2, ?_, h.1, h.2⟩
    have hs : a.shape = .ok (n, n) := h.1
    unfold Csr.shape at hs
    have hne : a.rowPtr.length ≠ 0 := by
      intro h0
      have := hok.1.ptr0
      rw [List.length_eq_zero_iff.mp h0] at this
      simp at this
    cases hm : maxElem a.col with
    | error e => rw [hm] at hs; cases hs
    | ok c =>
      rw [hm, ok_bind, if_neg hne] at hs
      injection hs with hs
      injection hs with hs _

end aux

section
variable [Field T] [DecidableEq T] {ops : MatOps M T} {ok : M → Prop} {ops' : MatOps M' T} {ok' : M' → Prop}

/-! ## C40 -/

/-- The constructor stores an ILU(0) factorisation or throws `runtime_error`; nothing else can happen. -/
theorem C40_factor (hst : Storage ops ok) (n : Nat) (a : M) (A : Nat → Nat → T) (hok : ok a)
    (hA : Shows ops n a A) :
    (∃ a' F, Ilu.new ops a = .ok a' ∧ ok a' ∧ Shows ops n a' F ∧ IsIlu n A F) ∨
      Ilu.new ops a = .error (.throw .runtimeError) := by
  obtain ⟨R, hR, h1, h2⟩ := storage_rep hst n
  rcases Ilu.new_spec hR le_rfl (h1 a A hok hA) with ⟨F, a', e, ha', hF⟩ | ⟨e, _⟩
  · exact .inl ⟨a', F, e, (h2 a' F ha').1, (h2 a' F ha').2, hF⟩
  · exact .inr e

omit [DecidableEq T] in
/-- The factorisation is determined by the matrix. -/
theorem C40_unique (n : Nat) (A F G : Nat → Nat → T) (hF : IsIlu n A F) (hG : IsIlu n A G) :
    ∀ i j, i < n → j < n → F i j = G i j := hF.unique hG

/-! ## C41 -/

/-- Exactly when the constructor throws. -/
theorem C41_iff (hst : Storage ops ok) (n : Nat) (a : M) (A : Nat → Nat → T) (hok : ok a)
    (hA : Shows ops n a A) :
    Ilu.new ops a = .error (.throw .runtimeError) ↔ ¬ ∃ F, IsIlu n A F := by
  obtain ⟨R, hR, h1, h2⟩ := storage_rep hst n
  rcases Ilu.new_spec hR le_rfl (h1 a A hok hA) with ⟨F, a', e, ha', hF⟩ | ⟨e, _, hS⟩
  · rw [e]
    simp only [reduceCtorEq, false_iff, not_not]
    exact ⟨F, hF⟩
  · exact iff_of_true e (hS.no_ilu le_rfl)

/-- A matrix without zero entries is rejected exactly if one of the leading minors of orders `1..n-1`
vanishes.  The claim would need the minor of order `n` (the determinant) too: see `C41_false`. -/
theorem C41_full_partial (hst : Storage ops ok) (n : Nat) (a : M) (A : Nat → Nat → T) (hok : ok a)
    (hA : Shows ops n a A) (hz : ∀ i j, i < n → j < n → A i j ≠ 0) :
    Ilu.new ops a = .error (.throw .runtimeError) ↔ ¬ Regular A (n - 1) := by
  have hf : NoFill n A := fun i j _ hi hj _ _ _ _ => hz i j hi hj
  obtain ⟨R, hR, h1, h2⟩ := storage_rep hst n
  rcases Ilu.new_spec hR le_rfl (h1 a A hok hA) with ⟨F, a', e, ha', hF⟩ | ⟨e, _, hS⟩
  · rw [e]
    simp only [reduceCtorEq, false_iff, not_not]
    intro k hk
    have hF' : IsIlu (k + 1) A F := isIlu_iff.mpr fun r c hr hc => isIlu_iff.mp hF r c (by omega) (by omega)
    rw [minor_lu (hF'.exact fun i j k h1 h2 => hf i j k (by omega) (by omega))]
    refine Finset.prod_ne_zero_iff.mpr fun i hi => ?_
    have hi := Finset.mem_range.mp hi
    exact hF.piv (n - 1) i (by omega) (by omega) (hz _ _ (by omega) (by omega))
  · refine iff_of_true e fun hr => ?_
    obtain ⟨j, hj, h0⟩ := hS.minor le_rfl hf
    exact hr j (by omega) h0

/-- Singular matrices are accepted when only the last pivot vanishes, and `solve` then divides by zero. -/
theorem C41_false (hst : Storage ops ok) (n : Nat) (a : M) (A : Nat → Nat → T) (hok : ok a)
    (hA : Shows ops n a A) (hf : NoFill n A) (hr : Regular A (n - 1)) (hs : minor A n = 0) :
    ∃ a', Ilu.new ops a = .ok a' ∧ ∀ b : List T, b.length = n → Ilu.solve ops a' b = .error .nonFinite := by
  obtain ⟨R, hR, h1, h2⟩ := storage_rep hst n
  rcases Ilu.new_spec hR le_rfl (h1 a A hok hA) with ⟨F, a', e, ha', hF⟩ | ⟨e, _, hS⟩
  · refine ⟨a', e, fun b hb => Ilu.solve_zero (fun i j => hR.get a' F i j ha') ?_ hb⟩
    rw [minor_lu (hF.exact hf), Finset.prod_eq_zero_iff] at hs
    obtain ⟨i, hi, h0⟩ := hs
    exact ⟨i, Finset.mem_range.mp hi, h0⟩
  · obtain ⟨j, hj, h0⟩ := hS.minor le_rfl hf
    exact absurd h0 (hr j (by omega))

/-- A concrete case of `C41_false`: the matrix of ones is singular, yet accepted. -/
theorem C41_ones_false : minor (fun _ _ => (1 : ℚ)) 2 = 0 ∧
    Shows dOps 2 (⟨2, 2, [1, 1, 1, 1]⟩ : DMat ℚ) (fun _ _ => 1) ∧
    Ilu.new dOps (⟨2, 2, [1, 1, 1, 1]⟩ : DMat ℚ) = .ok ⟨2, 2, [1, 1, 1, 0]⟩ ∧
    Ilu.solve dOps (⟨2, 2, [1, 1, 1, 0]⟩ : DMat ℚ) [1, 1] = .error .nonFinite := by
  refine ⟨by simp [minor, Matrix.det_fin_two], ⟨rfl, fun i j hi hj => ?_⟩, by decide +kernel, by decide +kernel⟩
  have h1 : i = 0 ∨ i = 1 := by omega
  have h2 : j = 0 ∨ j = 1 := by omega
  rcases h1 with rfl | rfl <;> rcases h2 with rfl | rfl <;> rfl

/-! ## C42 -/

theorem C42_solve (_hst : Storage ops ok) (n : Nat) (a : M) (F : Nat → Nat → T) (_hok : ok a)
    (hF : Shows ops n a F) (hd : ∀ i, i < n → F i i ≠ 0) (b : List T) (hb : b.length = n) :
    ∃ x, Ilu.solve ops a b = .ok x ∧ x.length = n ∧ Solves n (luProd n F) (val0 x) (val0 b) := by
  exact Ilu.solve_ok hF.2 hd hb

/-- With a zero on the diagonal of `U` the result is not finite. -/
theorem C42_zero (_hst : Storage ops ok) (n : Nat) (a : M) (F : Nat → Nat → T) (_hok : ok a)
    (hF : Shows ops n a F) (hd : ∃ i, i < n ∧ F i i = 0) (b : List T) (hb : b.length = n) :
    Ilu.solve ops a b = .error .nonFinite := by
  exact Ilu.solve_zero hF.2 hd hb

/-! ## C43 -/

/-- Any exact factorisation inside the pattern of `A` is found, and solving with it solves `A x = b`. -/
theorem C43_exact (hst : Storage ops ok) (n : Nat) (a : M) (A F : Nat → Nat → T) (hok : ok a)
    (hA : Shows ops n a A) (hF : ∀ i j, i < n → j < n → luProd n F i j = A i j)
    (hp : ∀ i j, i < n → j < n → A i j = 0 → F i j = 0) (hd : ∀ i, i < n → F i i ≠ 0) :
    ∃ a', Ilu.new ops a = .ok a' ∧ Shows ops n a' F ∧ ∀ b : List T, b.length = n →
      ∃ x, Ilu.solve ops a' b = .ok x ∧ x.length = n ∧ Solves n A (val0 x) (val0 b) := by
  have hI : IsIlu n A F := ⟨hp, fun i j hi hj _ => hF i j hi hj, fun i j hj hi _ => hd j (by omega)⟩
  rcases C40_factor hst n a A hok hA with ⟨a', G, e, hok', hG, hIG⟩ | e
  · have hGF := hIG.unique hI
    have hS : Shows ops n a' F := ⟨hG.1, fun i j hi hj => by rw [hG.2 i j hi hj, hGF i j hi hj]⟩
    refine ⟨a', e, hS, fun b hb => ?_⟩
    obtain ⟨x, ex, hx, hsol⟩ := C42_solve hst n a' F hok' hS hd b hb
    refine ⟨x, ex, hx, fun i hi => ?_⟩
    rw [← hsol i hi]
    unfold mulVec
    exact Finset.sum_congr rfl fun j hj => by rw [hF i j hi (Finset.mem_range.mp hj)]
  · exact absurd ⟨F, hI⟩ ((C41_iff hst n a A hok hA).mp e)

/-- Matrices whose pattern admits no fill-in and whose leading minors do not vanish. -/
theorem C43_noFill (hst : Storage ops ok) (n : Nat) (a : M) (A : Nat → Nat → T) (hok : ok a)
    (hA : Shows ops n a A) (hf : NoFill n A) (hr : Regular A n) :
    ∃ a' F, Ilu.new ops a = .ok a' ∧ Shows ops n a' F ∧ (∀ i j, i < n → j < n → luProd n F i j = A i j) ∧
      ∀ b : List T, b.length = n →
        ∃ x, Ilu.solve ops a' b = .ok x ∧ x.length = n ∧ Solves n A (val0 x) (val0 b) := by
  obtain ⟨R, hR, h1, h2⟩ := storage_rep hst n
  rcases Ilu.new_spec hR le_rfl (h1 a A hok hA) with ⟨F, a', e, ha', hF⟩ | ⟨e, _, hS⟩
  · have hd : ∀ i, i < n → F i i ≠ 0 := by
      have := hr.det
      rw [minor_lu (hF.exact hf)] at this
      exact fun i hi => Finset.prod_ne_zero_iff.mp this i (Finset.mem_range.mpr hi)
    obtain ⟨a'', e', hS, hsol⟩ := C43_exact hst n a A F hok hA (hF.exact hf) hF.zero hd
    exact ⟨a'', F, e', hS, hF.exact hf, hsol⟩
  · obtain ⟨j, hj, h0⟩ := hS.minor le_rfl hf
    exact absurd h0 (hr j (by omega))

omit [DecidableEq T] in
/-- No zero entry: no fill-in. -/
theorem C43_full (n : Nat) (A : Nat → Nat → T) (h : ∀ i j, i < n → j < n → A i j ≠ 0) : NoFill n A :=
  fun i j _ hi hj _ _ _ _ => h i j hi hj

omit [DecidableEq T] in
/-- Tri-diagonal with non-zero diagonal: no fill-in. -/
theorem C43_triDiag (n : Nat) (A : Nat → Nat → T) (h : ∀ i j, i < n → j < n → i + 1 < j ∨ j + 1 < i → A i j = 0)
    (hd : ∀ i, i < n → A i i ≠ 0) : NoFill n A := by
  intro i j k hi hj hki hkj h1 h2
  have e1 : i = k + 1 := by
    by_contra hc
    exact h1 (h i k hi (by omega) (.inr (by omega)))
  have e2 : j = k + 1 := by
    by_contra hc
    exact h2 (h k j (by omega) hj (.inl (by omega)))
  rw [e1, e2]
  exact hd _ (by omega)

/-! ## C48 -/

/-- Two objects of any two of the classes that show the same matrix: same outcome of the constructor,
same factors, same results of `solve`. -/
theorem C48_same (hst : Storage ops ok) (hst' : Storage ops' ok') (n : Nat) (a : M) (a' : M')
    (A : Nat → Nat → T) (hok : ok a) (hok' : ok' a') (hA : Shows ops n a A) (hA' : Shows ops' n a' A) :
    (Ilu.new ops a = .error (.throw .runtimeError) ∧ Ilu.new ops' a' = .error (.throw .runtimeError)) ∨
    ∃ f f' F, Ilu.new ops a = .ok f ∧ Ilu.new ops' a' = .ok f' ∧ Shows ops n f F ∧ Shows ops' n f' F ∧
      ∀ b : List T, b.length = n → Ilu.solve ops f b = Ilu.solve ops' f' b := by
  rcases C40_factor hst n a A hok hA with ⟨f, F, e, hokf, hF, hI⟩ | e
  · rcases C40_factor hst' n a' A hok' hA' with ⟨f', F', e', hokf', hF', hI'⟩ | e'
    · have hS : Shows ops' n f' F := ⟨hF'.1, fun i j hi hj => by rw [hF'.2 i j hi hj, hI'.unique hI i j hi hj]⟩
      refine .inr ⟨f, f', F, e, e', hF, hS, fun b hb => ?_⟩
      by_cases hd : ∃ i, i < n ∧ F i i = 0
      · rw [C42_zero hst n f F hokf hF hd b hb, C42_zero hst' n f' F hokf' hS hd b hb]
      · push Not at hd
        obtain ⟨x, ex, hx, hs⟩ := C42_solve hst n f F hokf hF hd b hb
        obtain ⟨x', ex', hx', hs'⟩ := C42_solve hst' n f' F hokf' hS hd b hb
        have hm : minor (luProd n F) n ≠ 0 := by
          rw [minor_lu (F := F) fun _ _ _ _ => rfl]
          exact Finset.prod_ne_zero_iff.mpr fun i hi => hd i (Finset.mem_range.mp hi)
        rw [ex, ex']
        congr 1
        exact list_ext_val0 (by omega) fun i hi => solves_unique hm hs hs' i (by omega)
    · exact absurd ⟨F, hI⟩ ((C41_iff hst' n a' A hok' hA').mp e')
  · exact .inl ⟨e, (C41_iff hst' n a' A hok' hA').mpr ((C41_iff hst n a A hok hA).mp e)⟩

end

/-! ## Concrete cases -/

-- full matrix, dense storage
example : Ilu.new dOps (⟨2, 2, [2, 1, 4, 5]⟩ : DMat ℚ) = .ok ⟨2, 2, [2, 1, 2, 3]⟩ := by decide +kernel
example : Ilu.solve dOps (⟨2, 2, [2, 1, 2, 3]⟩ : DMat ℚ) [3, 9] = .ok [1, 1] := by decide +kernel
-- the same matrix in the sparse classes
example : Ilu.new cooOps (⟨[2, 1, 4, 5], [0, 0, 1, 1], [0, 1, 0, 1]⟩ : Coo ℚ) =
    .ok ⟨[2, 1, 2, 3], [0, 0, 1, 1], [0, 1, 0, 1]⟩ := by decide +kernel
example : Ilu.new csrOps (⟨[2, 1, 4, 5], [0, 2, 4], [0, 1, 0, 1]⟩ : Csr ℚ) =
    .ok ⟨[2, 1, 2, 3], [0, 2, 4], [0, 1, 0, 1]⟩ := by decide +kernel
-- rejected: a zero pivot with something below it
example : Ilu.new dOps (⟨2, 2, [0, 1, 1, 0]⟩ : DMat ℚ) = .error (.throw .runtimeError) := by decide +kernel
-- singular but accepted (`C41_false`): all ones
example : Ilu.new dOps (⟨2, 2, [1, 1, 1, 1]⟩ : DMat ℚ) = .ok ⟨2, 2, [1, 1, 1, 0]⟩ := by decide +kernel
example : Ilu.solve dOps (⟨2, 2, [1, 1, 1, 0]⟩ : DMat ℚ) [1, 1] = .error .nonFinite := by decide +kernel
example : Ilu.new dOps (⟨1, 1, [0]⟩ : DMat ℚ) = .ok ⟨1, 1, [0]⟩ := by decide +kernel
-- an incomplete factorisation: fill-in at (1, 2) is dropped, so `L U` differs from the matrix there
example : Ilu.new dOps (⟨3, 3, [1, 1, 1, 1, 2, 0, 1, 0, 3]⟩ : DMat ℚ) =
    .ok ⟨3, 3, [1, 1, 1, 1, 1, 0, 1, 0, 2]⟩ := by decide +kernel
-- the hypotheses of `C40` .. `C48`: an object of each class that shows `[[2, 1], [4, 5]]`
def ex2 (i j : Nat) : ℚ := val0 [2, 1, 4, 5] (2 * i + j)

theorem swap2 {P : Nat → Nat → Prop} (h : ∀ i, i < 2 → ∀ j, j < 2 → P i j) : ∀ i j, i < 2 → j < 2 → P i j :=
  fun i j hi hj => h i hi j hj

example : Shows dOps 2 (⟨2, 2, [2, 1, 4, 5]⟩ : DMat ℚ) ex2 := ⟨rfl, swap2 (by decide +kernel)⟩
example : Shows cooOps 2 (⟨[2, 1, 4, 5], [0, 0, 1, 1], [0, 1, 0, 1]⟩ : Coo ℚ) ex2 := ⟨rfl, swap2 (by decide +kernel)⟩
example : Shows csrOps 2 (⟨[2, 1, 4, 5], [0, 2, 4], [0, 1, 0, 1]⟩ : Csr ℚ) ex2 := ⟨rfl, swap2 (by decide +kernel)⟩
example : NoFill 2 ex2 := C43_full 2 ex2 (swap2 (by decide +kernel))
example : Regular ex2 2 := by
  intro k hk
  have : k = 0 ∨ k = 1 := by omega
  rcases this with rfl | rfl
  · simp [minor, ex2, val0]
  · simp [minor, Matrix.det_fin_two, ex2, val0]; norm_num

end Lalib.Props
