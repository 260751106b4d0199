import Verif.Proofs.Gmres
import Verif.Spec.Gmres
import Verif.Props.Ilu
import Verif.Props.Sparse

/-! # From the GMRES runs to the language of the specification -/

namespace Lalib.Gmres

open Lalib Finset Matrix GM

variable {T M : Type}

/-! ## The matrix classes -/

section classes
variable [Field T]

theorem _root_.Lalib.GStorage.storage {ops : Bool → GOps M T} {ok : M → Prop} (h : GStorage ops ok) (nd : Bool) :
    Storage (ops nd).toMatOps ok := by
  cases h with
  | dense => exact .dense
  | csr => exact .csr

theorem _root_.Lalib.GStorage.mul {ops : Bool → GOps M T} {ok : M → Prop} (h : GStorage ops ok) (nd : Bool)
    {n : Nat} {a : M} {A : Nat → Nat → T} (hok : ok a) (hA : Shows (ops nd).toMatOps n a A) {l : List T}
    (hl : l.length = n) :
    ∃ w, (ops nd).mul a l = .ok w ∧ w.length = n ∧ ∀ i, i < n → val0 w i = mulVec n A (val0 l) i := by
  cases h with
  | dense =>
    have h1 := hA.1
    injection h1 with h1
    injection h1 with h1 h2
    refine ⟨_, matVec_eq hok (by rw [hl, h2]), by simp [h1], fun i hi => ?_⟩
    rw [val0_map_range, if_pos (by rw [h1]; exact hi), h2]
    unfold mulVec
    refine sum_congr rfl fun j hj => ?_
    congr 1
    have hg : lrd a.elems (i * a.m + j) = .ok (A i j) := hA.2 i j hi (mem_range.mp hj)
    rw [lrd_val (by rw [hok, h1, h2]; exact cell_lt hi (mem_range.mp hj)), h2] at hg
    injection hg
  | csr =>
    have hs : a.shape = .ok (n, n) := hA.1
    have hr : a.nrows = n := by
      have hs' := hs
      unfold Csr.shape at hs'
      have hne : a.rowPtr.length ≠ 0 := by
        intro h0
        have := hok.1.ptr0
        rw [List.length_eq_zero_iff.mp h0] at this
        simp at this
      cases hm : maxElem a.col with
      | error e => rw [hm] at hs'; cases hs'
      | ok c =>
        rw [hm, ok_bind, if_neg hne] at hs'
        injection hs' with hs'
        injection hs' with hs' _
    obtain ⟨s', e, hst⟩ := Props.C31_op_partial nd a hok.1 hok.2 A n 0 1 (Mem.ofList [l]) (by rw [hr]; exact hs)
      (fun i j hi hj => hA.2 i j (by rw [← hr]; exact hi) hj) (by simpa [Mem.len, Mem.ofList] using hl) (by omega)
    refine ⟨s' 1, ?_, ?_, ?_⟩
    · show Csr.mulVec nd a l = _
      unfold Csr.mulVec
      rw [e]; rfl
    · rw [hst.1]; simp [hr]
    · intro i hi
      rw [hst.1, val0_map_range, if_pos (by rw [hr]; exact hi)]
      rfl

end classes

/-! ## Vectors and matrices of fixed size -/

section fin
variable [Field T] {n : Nat}

/-- A matrix restricted to its `n x n` part. -/
def sqM (n : Nat) (A : Nat → Nat → T) : Matrix (Fin n) (Fin n) T := Matrix.of fun i j => A i j

/-- The first `n` components. -/
def vec (n : Nat) (x : Nat → T) : Fin n → T := fun i => x i

/-- The preconditioned operator. -/
noncomputable def opF (n : Nat) (P A : Nat → Nat → T) : (Fin n → T) →ₗ[T] (Fin n → T) :=
  ((sqM n P)⁻¹ * sqM n A).mulVecLin

theorem mat_mulVec (A : Nat → Nat → T) (x : Nat → T) : (sqM n A).mulVec (vec n x) = vec n (mulVec n A x) := by
  funext i
  show ∑ j : Fin n, A i j * x j = _
  rw [Fin.sum_univ_eq_sum_range (fun j => A i j * x j)]
  rfl

theorem solves_iff {A : Nat → Nat → T} {x b : Nat → T} : Solves n A x b ↔ (sqM n A).mulVec (vec n x) = vec n b := by
  rw [mat_mulVec]
  constructor
  · intro h; funext i; exact h i i.2
  · intro h i hi; exact congrFun h ⟨i, hi⟩

theorem exists_vec (x : Fin n → T) : ∃ x', vec n x' = x :=
  ⟨fun i => if h : i < n then x ⟨i, h⟩ else 0, by funext i; simp [vec]⟩

theorem vec_resid (A : Nat → Nat → T) (x b : Nat → T) : vec n (resid n A x b) = vec n b - (sqM n A).mulVec (vec n x) := by
  rw [mat_mulVec]; rfl

variable {P A : Nat → Nat → T}

theorem inv_mulVec (hP : minor P n ≠ 0) {x y : Fin n → T} : (sqM n P).mulVec x = y ↔ x = (sqM n P)⁻¹.mulVec y := by
  have hu : IsUnit (sqM n P).det := isUnit_iff_ne_zero.mpr hP
  constructor
  · rintro rfl; rw [mulVec_mulVec, nonsing_inv_mul _ hu, one_mulVec]
  · rintro rfl; rw [mulVec_mulVec, mul_nonsing_inv _ hu, one_mulVec]

theorem opF_apply (x : Fin n → T) : opF n P A x = (sqM n P)⁻¹.mulVec ((sqM n A).mulVec x) := by
  show ((sqM n P)⁻¹ * sqM n A).mulVec x = _
  rw [mulVec_mulVec]

theorem opF_injective (hP : minor P n ≠ 0) (hA : minor A n ≠ 0) : Function.Injective (opF n P A) := by
  have h : ((sqM n P)⁻¹ * sqM n A).det ≠ 0 := by
    rw [det_mul, det_nonsing_inv, Ring.inverse_eq_inv']
    exact mul_ne_zero (inv_ne_zero hP) hA
  exact mulVec_injective_iff_isUnit.mpr ((isUnit_iff_isUnit_det _).mpr (isUnit_iff_ne_zero.mpr h))

/-- The preconditioned residual. -/
theorem resid_iff (hP : minor P n ≠ 0) {b' b x z : Nat → T} (hb : Solves n P b' b) :
    Solves n P z (resid n A x b) ↔ vec n z = vec n b' - opF n P A (vec n x) := by
  rw [solves_iff, inv_mulVec hP, vec_resid, mulVec_sub, opF_apply]
  rw [solves_iff, inv_mulVec hP] at hb
  rw [hb]

/-- `u 0, u 1, ...` are the vectors which span the Krylov spaces. -/
theorem krylov_pow (hP : minor P n ≠ 0) {u : Nat → Nat → T} {b' b : Nat → T} (hb : Solves n P b' b)
    (h0 : Solves n P (u 0) b) (hu : ∀ i, Solves n P (u (i + 1)) (mulVec n A (u i))) (i : Nat) :
    vec n (u i) = (opF n P A ^ i) (vec n b') := by
  induction i with
  | zero =>
    rw [solves_iff, inv_mulVec hP] at hb h0
    rw [h0, hb]; rfl
  | succ i ih =>
    have := hu i
    rw [solves_iff, inv_mulVec hP, ← mat_mulVec, ih] at this
    rw [this, pow_succ', ← opF_apply]; rfl

theorem comb_iff {u : Nat → Nat → T} {F : (Fin n → T) →ₗ[T] (Fin n → T)} {b : Fin n → T}
    (hu : ∀ i, vec n (u i) = (F ^ i) b) {k : Nat} {x : Nat → T} : Comb n k u x ↔ vec n x ∈ Kr F b k := by
  have hc : ∀ c : Nat → T, (fun i : Fin n => ∑ l ∈ range k, c l * u l i) = ∑ l ∈ range k, c l • (F ^ l) b := by
    intro c
    funext i
    rw [Finset.sum_apply]
    refine sum_congr rfl fun l _ => ?_
    rw [Pi.smul_apply, ← hu l]; rfl
  constructor
  · rintro ⟨c, h⟩
    have : vec n x = ∑ l ∈ range k, c l • (F ^ l) b := by
      rw [← hc c]; funext i; exact h i i.2
    rw [this]
    exact Submodule.sum_mem _ fun l hl => Submodule.smul_mem _ _ (Submodule.subset_span ⟨l, mem_range.mp hl, rfl⟩)
  · intro h
    have hex : ∃ c : Nat → T, vec n x = ∑ l ∈ range k, c l • (F ^ l) b := by
      generalize vec n x = y at h
      unfold Kr at h
      induction h using Submodule.span_induction with
      | mem y hy =>
        obtain ⟨l, hl, rfl⟩ := hy
        have hl : l < k := hl
        refine ⟨fun m => if m = l then 1 else 0, ?_⟩
        rw [sum_eq_single_of_mem l (mem_range.mpr hl) fun m _ hm => by simp [hm]]; simp
      | zero => exact ⟨fun _ => 0, by simp⟩
      | add y z _ _ h1 h2 =>
        obtain ⟨c, rfl⟩ := h1
        obtain ⟨d, rfl⟩ := h2
        exact ⟨fun m => c m + d m, by simp only [add_smul, sum_add_distrib]⟩
      | smul a y _ h1 =>
        obtain ⟨c, rfl⟩ := h1
        exact ⟨fun m => a * c m, by simp only [mul_smul, smul_sum]⟩
    obtain ⟨c, e⟩ := hex
    rw [← hc c] at e
    exact ⟨c, fun i hi => congrFun e ⟨i, hi⟩⟩

theorem normSq_eq (z : Nat → T) : normSq n z = vec n z ⬝ᵥ vec n z := by
  unfold normSq dotProduct
  rw [← Fin.sum_univ_eq_sum_range (fun i => z i ^ 2)]
  exact sum_congr rfl fun i _ => pow_two _

end fin

/-! ## The minimiser is unique -/

section unique
variable [Field T] [LinearOrder T] [IsStrictOrderedRing T] {n : Nat}

theorem normSq_nonneg (x : Nat → T) : 0 ≤ normSq n x := sum_nonneg fun _ _ => sq_nonneg _

theorem normSq_zero {x : Nat → T} (h : normSq n x ≤ 0) : ∀ i, i < n → x i = 0 := by
  have := (sum_eq_zero_iff_of_nonneg fun i _ => sq_nonneg (x i)).mp (le_antisymm h (normSq_nonneg x))
  exact fun i hi => pow_eq_zero_iff (two_ne_zero) |>.mp (this i (mem_range.mpr hi))

omit [LinearOrder T] [IsStrictOrderedRing T] in
theorem mulVec_mid (A : Nat → Nat → T) (x y : Nat → T) (i : Nat) :
    mulVec n A (fun i => 2⁻¹ * (x i + y i)) i = 2⁻¹ * (mulVec n A x i + mulVec n A y i) := by
  unfold mulVec
  rw [← sum_add_distrib, mul_sum]
  exact sum_congr rfl fun j _ => by ring

omit [LinearOrder T] [IsStrictOrderedRing T] in
theorem mulVec_sub' (A : Nat → Nat → T) (x y : Nat → T) (i : Nat) :
    mulVec n A (fun i => x i - y i) i = mulVec n A x i - mulVec n A y i := by
  unfold mulVec
  rw [← sum_sub_distrib]
  exact sum_congr rfl fun j _ => by ring

theorem isGmres_unique {P A : Nat → Nat → T} {b : Nat → T} {tol : T} {u : Nat → Nat → T} {x x' : Nat → T}
    {k k' : Nat} {z z' : Nat → T} (hA : minor A n ≠ 0)
    (h : IsGmres n P A b tol u x k z) (h' : IsGmres n P A b tol u x' k' z') : k = k' ∧ ∀ i, i < n → x i = x' i := by
  have hk : k = k' := by
    rcases Nat.lt_trichotomy k k' with hlt | he | hlt
    · exact absurd (h'.first k h.pos hlt x z h.comb h.res) (not_le.mpr h.small)
    · exact he
    · exact absurd (h.first k' h'.pos hlt x' z' h'.comb h'.res) (not_le.mpr h'.small)
  subst hk
  refine ⟨rfl, ?_⟩
  have hc : Comb n k u (fun i => 2⁻¹ * (x i + x' i)) := by
    obtain ⟨c, hc⟩ := h.comb
    obtain ⟨d, hd⟩ := h'.comb
    refine ⟨fun l => 2⁻¹ * (c l + d l), fun i hi => ?_⟩
    simp only
    rw [hc i hi, hd i hi, ← sum_add_distrib, mul_sum]
    exact sum_congr rfl fun l _ => by ring
  have h2 : (2 : T) ≠ 0 := two_ne_zero
  have hr : PResid n P A b (fun i => 2⁻¹ * (x i + x' i)) (fun i => 2⁻¹ * (z i + z' i)) := by
    intro i hi
    rw [mulVec_mid, h.res i hi, h'.res i hi]
    unfold resid
    rw [mulVec_mid]
    field_simp
    ring
  have hm := h.minimal _ _ hc hr
  have e1 := le_antisymm (h.minimal _ _ h'.comb h'.res) (h'.minimal _ _ h.comb h.res)
  have hpar : normSq n (fun i => z i - z' i) = 2 * normSq n z + 2 * normSq n z' - 4 * normSq n (fun i => 2⁻¹ * (z i + z' i)) := by
    unfold normSq
    rw [mul_sum, mul_sum, mul_sum, ← sum_add_distrib, ← sum_sub_distrib]
    refine sum_congr rfl fun i _ => ?_
    field_simp
    ring
  have hz : ∀ i, i < n → z i - z' i = 0 := normSq_zero (x := fun i => z i - z' i) (by rw [hpar]; linarith)
  refine solves_unique hA (b := mulVec n A x') ?_ (fun _ _ => rfl)
  intro i hi
  have r1 := h.res i hi
  have r2 := h'.res i hi
  have : mulVec n P z i = mulVec n P z' i :=
    sum_congr rfl fun j hj => by rw [sub_eq_zero.mp (hz j (mem_range.mp hj))]
  rw [this, r2] at r1
  unfold resid at r1
  linear_combination r1

end unique

/-! ## A run in terms of the specification -/

section run
variable [Field T] [LinearOrder T] [IsStrictOrderedRing T] [Sqrt T] [LawfulSqrt T]
variable {ops : Bool → GOps M T} {ok : M → Prop} {n : Nat}

omit [LinearOrder T] [IsStrictOrderedRing T] [Sqrt T] [LawfulSqrt T] in
theorem minor_luProd {F : Nat → Nat → T} (hd : ∀ i, i < n → F i i ≠ 0) : minor (luProd n F) n ≠ 0 := by
  rw [minor_lu (F := F) fun _ _ _ _ => rfl]
  exact prod_ne_zero_iff.mpr fun i hi => hd i (mem_range.mp hi)

omit [IsStrictOrderedRing T] [Sqrt T] [LawfulSqrt T] in
theorem impl_of (hst : GStorage ops ok) (nd : Bool) {g : Gmres M T} {A F : Nat → Nat → T} (hok : ok g.mat)
    (hA : Shows (ops nd).toMatOps n g.mat A) (hok' : ok g.lu) (hF : Shows (ops nd).toMatOps n g.lu F)
    (hd : ∀ i, i < n → F i i ≠ 0) : Impl (opF n (luProd n F) A) (ops nd) g := by
  intro l hl
  obtain ⟨w, ew, lw, hw⟩ := hst.mul nd hok hA hl
  obtain ⟨y, ey, ly, hy⟩ := Props.C42_solve (hst.storage nd) n g.lu F hok' hF hd w lw
  refine ⟨w, y, ew, ey, ly, ?_⟩
  rw [solves_iff, inv_mulVec (minor_luProd hd)] at hy
  show vec n (val0 y) = opF n _ A (vec n (val0 l))
  rw [hy, opF_apply, mat_mulVec]
  congr 1
  funext i
  exact hw i i.2

/-- Everything about a run, with non-zero pivots. -/
theorem run_spec (hst : GStorage ops ok) (nd : Bool) {rt : Nat → Nat} (hrt : SqrtExact rt) {g : Gmres M T}
    {A F : Nat → Nat → T} (hok : ok g.mat) (hA : Shows (ops nd).toMatOps n g.mat A) (hok' : ok g.lu)
    (hF : Shows (ops nd).toMatOps n g.lu F) (hd : ∀ i, i < n → F i i ≠ 0) {b : List T} (hb : b.length = n)
    {u : Nat → Nat → T} (h0 : Solves n (luProd n F) (u 0) (val0 b))
    (hu : ∀ i, Solves n (luProd n F) (u (i + 1)) (mulVec n A (u i))) :
    Sat (fun x : List T => x.length = n ∧ ∃ (k : Nat) (z : Nat → T), k ≤ n ∧ (0 < n → 0 < k) ∧
        Comb n k u (val0 x) ∧ Solves n (luProd n F) z (resid n A (val0 x) (val0 b)) ∧
        (normSq n z = 0 ∨ (0 < g.tol ∧ normSq n z < g.tol ^ 2)) ∧
        (∀ y w, Comb n k u y → Solves n (luProd n F) w (resid n A y (val0 b)) → normSq n z ≤ normSq n w) ∧
        ∀ j, 0 < j → j < k → ∀ y w, Comb n j u y → Solves n (luProd n F) w (resid n A y (val0 b)) →
          0 < g.tol → g.tol ^ 2 ≤ normSq n w)
      (fun e => e = .nonFinite ∧ 0 < n ∧ ((∀ i, i < n → val0 b i = 0) ∨ g.tol ≤ 0 ∨ minor A n = 0))
      (solve rt nd (ops nd) g b) := by
  have hP := minor_luProd hd
  obtain ⟨b', eb, lb, hb'⟩ := Props.C42_solve (hst.storage nd) n g.lu F hok' hF hd b hb
  have hpow := krylov_pow (A := A) hP hb' h0 hu
  have ht : toE n b' = vec n (val0 b') := rfl
  refine Sat.mono (solve_run nd hrt (impl_of hst nd hok hA hok' hF hd) hA.1 eb lb) ?_ ?_
  · rintro x ⟨lx, k, γ, hkn, hk0, hx, hearly, hγ, hfin, hmin⟩
    rw [ht] at hx hearly hγ hmin
    obtain ⟨z, hz⟩ := exists_vec (vec n (val0 b') - opF n (luProd n F) A (toE n x))
    have hzn : normSq n z = γ * γ := by rw [normSq_eq, hz, hγ]
    refine ⟨lx, k, z, hkn, hk0, (comb_iff hpow).mpr hx, (resid_iff hP hb').mpr hz, ?_, ?_, ?_⟩
    · rw [hzn]
      rcases hfin with h | h
      · left; rw [h, mul_zero]
      · right
        have ht0 : 0 < g.tol := lt_of_le_of_lt (abs_nonneg _) h
        refine ⟨ht0, ?_⟩
        rw [← pow_two, ← sq_abs]
        exact pow_lt_pow_left₀ h (abs_nonneg _) (by norm_num)
    · intro y w hy hw
      rw [hzn, normSq_eq, (resid_iff hP hb').mp hw]
      exact hmin _ ((comb_iff hpow).mp hy)
    · intro j h1 h2 y w hy hw ht0
      have hnn : 0 ≤ normSq n w := sum_nonneg fun i _ => sq_nonneg _
      have := hearly j h1 h2 _ ((comb_iff hpow).mp hy) (Sqrt.sqrt (normSq n w)) (LawfulSqrt.sqrt_nonneg _) (by
        rw [LawfulSqrt.mul_self_sqrt _ hnn, normSq_eq, (resid_iff hP hb').mp hw])
      calc g.tol ^ 2 ≤ (Sqrt.sqrt (normSq n w)) ^ 2 := pow_le_pow_left₀ (le_of_lt ht0) this 2
        _ = normSq n w := by rw [pow_two, LawfulSqrt.mul_self_sqrt _ hnn]
  · rintro e ⟨h1, h2, h3⟩
    refine ⟨h1, h2, ?_⟩
    rcases h3 with h | h | h
    · left
      intro i hi
      rw [ht] at h
      rw [solves_iff, h, mulVec_zero] at hb'
      exact (congrFun hb' ⟨i, hi⟩).symm
    · exact .inr (.inl h)
    · right; right
      by_contra hA0
      exact h (opF_injective hP hA0)

theorem run_zero (hst : GStorage ops ok) (nd : Bool) {rt : Nat → Nat} (hrt : SqrtExact rt) {g : Gmres M T}
    {A F : Nat → Nat → T} (hA : Shows (ops nd).toMatOps n g.mat A) (hok' : ok g.lu)
    (hF : Shows (ops nd).toMatOps n g.lu F) {b : List T} (hb : b.length = n) (h0 : 0 < n)
    (hbad : (∃ i, i < n ∧ F i i = 0) ∨ ∀ i, i < n → val0 b i = 0) :
    solve rt nd (ops nd) g b = .error .nonFinite := by
  by_cases hd : ∃ i, i < n ∧ F i i = 0
  · unfold solve
    rw [hA.1, ok_bind]
    simp only []
    unfold start
    rw [Props.C42_zero (hst.storage nd) n g.lu F hok' hF hd b hb]
    rfl
  · have hz := hbad.resolve_left hd
    push Not at hd
    obtain ⟨b', eb, lb, hb'⟩ := Props.C42_solve (hst.storage nd) n g.lu F hok' hF hd b hb
    refine solve_zero_rhs nd hrt hA.1 eb lb ?_ h0
    rw [solves_iff, inv_mulVec (minor_luProd hd)] at hb'
    have : vec n (val0 b) = 0 := by funext i; exact hz i i.2
    rw [this, mulVec_zero] at hb'
    exact hb'

end run

end Lalib.Gmres
