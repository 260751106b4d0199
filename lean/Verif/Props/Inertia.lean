import Verif.Proofs.Inertia
import Verif.Props.FloatSolve
import Verif.Props.IeeeBack
import Verif.Props.Ilu
import Verif.Props.Cgs

/-! # Property C109: what the factors tell — determinants, signs, numbers of eigenvalues -/

namespace Lalib.Props

open Lalib Finset

variable {T M : Type}

/-- The relation of `C38_factor`, all entries. -/
private theorem ldl_full [Field T] {L A : Nat → Nat → T} {n : Nat} (hs : Symm n A)
    (h : ∀ i j, j ≤ i → i < n → ∑ k ∈ range (j + 1), L i k * L j k / L k k = A i j) :
    ∀ i j, i < n → j < n → ∑ k ∈ range n, low L i k * low L j k / L k k = A i j := by
  have half : ∀ i j, j ≤ i → i < n → ∑ k ∈ range n, low L i k * low L j k / L k k = A i j := fun i j hj hi => by
    rw [← h i j hj hi]
    have := low_sum (n := n) L (fun i k => L i k / L k k) hj hi
    simp only [mul_div_assoc]
    rw [← this]
    refine sum_congr rfl fun k _ => ?_
    unfold low
    split_ifs <;> simp
  intro i j hi hj
  rcases Nat.le_total j i with q | q
  · exact half i j q hi
  · rw [hs i j hi hj, ← half j i q hj]
    exact sum_congr rfl fun k _ => by rw [mul_comm (low L i k)]

section
variable [Field T] [DecidableEq T]

private theorem mod_facts {mt : MemType} {n : Nat} {l L : List T} {A : Nat → Nat → T} (hl : Lower mt n l A) (hs : Symm n A)
    (e : Chol.modNew mt n l = .ok L) : (∀ i, i < n → held mt n L i i ≠ 0) ∧
      ∀ i j, j ≤ i → i < n → ∑ k ∈ range (j + 1), held mt n L i k * held mt n L j k / held mt n L k k = A i j := by
  have hr : Regular A n := by
    by_contra hc
    rw [(C38_throws mt n l A hl hs).mpr hc] at e
    cases e
  obtain ⟨L', e', -, h1, h2⟩ := C38_factor mt n l A hl hs hr
  rw [e] at e'; injection e' with e'; subst e'
  exact ⟨h1, h2⟩

/-! ## Determinants -/

/-- Modified Cholesky: the product of the first `k` diagonal entries is the leading minor of order `k`; the determinant for
`k = n`. -/
theorem C109_det_mod (mt : MemType) (n : Nat) (l L : List T) (A : Nat → Nat → T) (hl : Lower mt n l A) (hs : Symm n A)
    (e : Chol.modNew mt n l = .ok L) (k : Nat) (hk : k ≤ n) : ∏ i ∈ range k, held mt n L i i = minor A k := by
  obtain ⟨hd, hf⟩ := mod_facts hl hs e
  have hfull := ldl_full (n := k) (A := A) (fun i j hi hj => hs i j (by omega) (by omega))
    (fun i j hj hi => hf i j hj (by omega))
  rw [minor_LU (L := fun i t => low (held mt n L) i t / held mt n L t t) (U := fun t j => low (held mt n L) j t)
    (fun i t _ _ h => by simp only [low]; rw [if_neg (by omega), zero_div]) (fun t j _ _ h => by simp only [low]; rw [if_neg (by omega)])
    (fun i j hi hj => by rw [← hfull i j hi hj]; exact sum_congr rfl fun t _ => by ring)]
  rw [prod_eq_one (s := range k) (f := fun i => low (held mt n L) i i / held mt n L i i) fun i hi => by
    rw [low, if_pos (le_refl _), div_self (hd i (by have := mem_range.mp hi; omega))], one_mul]
  exact prod_congr rfl fun i _ => by simp [low]

variable {ops : MatOps M T} {ok : M → Prop}

/-- Incomplete LU without fill-in. -/
theorem C109_det_ilu (hst : Storage ops ok) (n : Nat) (a : M) (A : Nat → Nat → T) (hok : ok a) (hA : Shows ops n a A)
    (hf : NoFill n A) (hr : Regular A n) :
    ∃ f F, Ilu.new ops a = .ok f ∧ Shows ops n f F ∧ ∀ k, k ≤ n → ∏ i ∈ range k, F i i = minor A k := by
  obtain ⟨f, F, e, hF, hp, -⟩ := C43_noFill hst n a A hok hA hf hr
  refine ⟨f, F, e, hF, fun k hk => (minor_lu fun i j hi hj => ?_).symm⟩
  rw [← hp i j (by omega) (by omega)]
  refine sum_subset (range_subset_range.mpr hk) fun t _ ht => ?_
  rw [unitLow, if_neg, if_neg, zero_mul] <;> · simp only [mem_range] at ht; omega

end

section
variable [Field T] [LinearOrder T] [IsStrictOrderedRing T] [Sqrt T] [LawfulSqrt T]

/-- Cholesky: the squares of the diagonal entries. -/
theorem C109_det_chol (mt : MemType) (n : Nat) (l : List T) (A : Nat → Nat → T) (hl : Lower mt n l A) (hs : Symm n A)
    (hp : PosDef n A) : ∃ L, Chol.new mt n l = .ok L ∧ ∀ k, k ≤ n → ∏ i ∈ range k, held mt n L i i ^ 2 = minor A k := by
  obtain ⟨L, e, -, hL⟩ := C35_factor mt n l A hl hs hp
  refine ⟨L, e, fun k hk => ?_⟩
  rw [minor_LU (L := low (held mt n L)) (U := fun t j => low (held mt n L) j t)
    (fun i t _ _ h => by simp only [low]; rw [if_neg (by omega)]) (fun t j _ _ h => by simp only [low]; rw [if_neg (by omega)])
    (fun i j hi hj => by
      rw [← hL.2 i j (by omega) (by omega)]
      symm
      refine sum_subset (range_subset_range.mpr hk) fun t _ ht => ?_
      rw [low, if_neg (by simp only [mem_range] at ht; omega), zero_mul]), ← prod_mul_distrib]
  exact prod_congr rfl fun i _ => by simp [low, sq]

end

section
variable [Field T] [LinearOrder T] [IsStrictOrderedRing T]

/-- Gram-Schmidt: the product of the squared lengths of the first `K` results is the Gram determinant of the first `K` given
vectors. -/
theorem C109_det_cgs (nd : Bool) (sz : Option Nat) (n N : Nat) (m : Mem T) (hs : sz = none ∨ sz = some n) (hN : 0 < N)
    (hm : ∀ k, k < N → m.len k = n) (hi : Indep n N m.val) :
    ∃ m', Cgs.cgs nd sz N m = .ok m' ∧ ∀ K, K ≤ N →
      ∏ k ∈ range K, ip n (m'.val k) (m'.val k) = minor (fun k k' => ip n (m.val k) (m.val k')) K := by
  obtain ⟨m', e, -, -, -, ho, -, hc, -⟩ := C44_cgs_partial nd sz n N m hs hN hm hi
  refine ⟨m', e, fun K hK => ?_⟩
  choose c hc using hc
  let P : Nat → Nat → T := fun k t => if h : k < N then (if t < k then c k h t else if t = k then 1 else 0) else 0
  have hP : ∀ k, k < K → ∀ i, i < n → m'.val k i = ∑ t ∈ range K, P k t * m.val t i := fun k hk i hin => by
    have h1 := hc k (by omega) i hin
    rw [← sum_subset (range_subset_range.mpr (show k + 1 ≤ K by omega)), sum_range_succ]
    · have : ∑ t ∈ range k, P k t * m.val t i = ∑ t ∈ range k, c k (by omega) t * m.val t i :=
        sum_congr rfl fun t ht => by simp only [P]; rw [dif_pos (by omega), if_pos (mem_range.mp ht)]
      rw [this, ← h1]
      have hPk : P k k = 1 := by
        show (if h : k < N then (if k < k then c k h k else if k = k then 1 else 0) else 0) = 1
        rw [dif_pos (by omega), if_neg (by omega), if_pos rfl]
      rw [hPk]
      ring
    · intro t _ ht
      simp only [P]
      rw [dif_pos (by omega), if_neg (by simp only [mem_range] at ht; omega), if_neg (by simp only [mem_range] at ht; omega), zero_mul]
  let G : Matrix (Fin K) (Fin K) T := Matrix.of fun k k' => ip n (m.val k) (m.val k')
  let Pm : Matrix (Fin K) (Fin K) T := Matrix.of fun k t => P k t
  have hdet : Pm.det = 1 := by
    rw [Matrix.det_of_isLowerTriangular]
    · refine prod_eq_one fun k _ => ?_
      show (if h : (k : ℕ) < N then (if (k : ℕ) < k then c k h k else if (k : ℕ) = k then 1 else 0) else 0) = 1
      rw [dif_pos (by omega), if_neg (by omega), if_pos rfl]
    · intro k t ht
      have ht' : (k : ℕ) < t := ht
      simp only [Pm, P, Matrix.of_apply]
      rw [dif_pos (by omega), if_neg (by omega), if_neg (by omega)]
  have hG : (Matrix.of fun k k' : Fin K => ip n (m'.val k) (m'.val k')) = Pm * G * Pm.transpose := by
    ext k k'
    simp only [Matrix.mul_apply, Matrix.of_apply, Matrix.transpose_apply, Pm, G, ip]
    rw [sum_congr rfl fun i hi => by rw [hP k k.2 i (mem_range.mp hi), hP k' k'.2 i (mem_range.mp hi)]]
    simp only [Finset.sum_range (n := K), sum_mul, mul_sum]
    rw [sum_comm]
    rw [sum_congr rfl fun t _ => sum_comm]
    exact sum_congr rfl fun t _ => sum_congr rfl fun t' _ => sum_congr rfl fun i _ => by ring
  have hdiag : (Matrix.of fun k k' : Fin K => ip n (m'.val k) (m'.val k')) =
      Matrix.diagonal fun k : Fin K => ip n (m'.val k) (m'.val k) := by
    ext k k'
    by_cases h : k = k'
    · subst h; simp
    · rw [Matrix.diagonal_apply_ne _ h]
      exact ho k k' (by omega) (by omega) (fun h' => h (Fin.ext h'))
  have h1 := congrArg Matrix.det hG
  rw [hdiag, Matrix.det_diagonal, Matrix.det_mul, Matrix.det_mul, Matrix.det_transpose, hdet, one_mul, mul_one] at h1
  rw [Finset.prod_range]
  exact h1

/-! ## Signs -/

/-- Modified Cholesky: the form of the matrix is negative on a space whose dimension is the number of negative diagonal entries
of the factor, and on no larger one; the same for positive; the numbers add up to `n`. -/
theorem C109_inertia (mt : MemType) (n : Nat) (l L : List T) (A : Nat → Nat → T) (hl : Lower mt n l A) (hs : Symm n A)
    (e : Chol.modNew mt n l = .ok L) :
    NegIndex n A (negCount n fun i => held mt n L i i) ∧
      NegIndex n (fun i j => -A i j) (posCount n fun i => held mt n L i i) ∧
      (negCount n fun i => held mt n L i i) + (posCount n fun i => held mt n L i i) = n := by
  obtain ⟨hd, hf⟩ := mod_facts hl hs e
  obtain ⟨h1, h2⟩ := negIndex_ldl hd (ldl_full hs hf)
  exact ⟨h1, h2, counts_add n _ hd⟩

omit [LinearOrder T] [IsStrictOrderedRing T] in
private theorem form_range {n : Nat} (A : Nat → Nat → T) (x : Nat → T) :
    form n A (fun i => x i) = ∑ i ∈ range n, ∑ j ∈ range n, x i * A i j * x j := by
  rw [Finset.sum_range]
  exact sum_congr rfl fun i _ => by rw [Finset.sum_range]

/-- A factored matrix is positive definite iff all diagonal entries of the factor are positive. -/
theorem C109_posdef (mt : MemType) (n : Nat) (l L : List T) (A : Nat → Nat → T) (hl : Lower mt n l A) (hs : Symm n A)
    (e : Chol.modNew mt n l = .ok L) : PosDef n A ↔ ∀ i, i < n → 0 < held mt n L i i := by
  obtain ⟨⟨⟨W, eW, hW⟩, -⟩, ⟨⟨W', eW', hW'⟩, -⟩, hsum⟩ := C109_inertia mt n l L A hl hs e
  obtain ⟨hd, -⟩ := mod_facts hl hs e
  constructor
  · intro hp
    by_contra hc
    push Not at hc
    obtain ⟨i, hi, h0⟩ := hc
    have hpos : 0 < Module.finrank T W := by
      rw [eW]
      exact card_pos.mpr ⟨i, mem_filter.mpr ⟨mem_range.mpr hi, lt_of_le_of_ne h0 (hd i hi)⟩⟩
    obtain ⟨x, hx⟩ := Module.finrank_pos_iff_exists_ne_zero.mp hpos
    have hx0 : (x : Fin n → T) ≠ 0 := fun h => hx (Subtype.ext h)
    have h1 := hW x x.2 hx0
    obtain ⟨k, hk⟩ : ∃ k, (x : Fin n → T) k ≠ 0 := by
      by_contra hc; push Not at hc; exact hx0 (funext hc)
    have h2 := hp (fun i => if h : i < n then (x : Fin n → T) ⟨i, h⟩ else 0) ⟨k, k.2, by simpa using hk⟩
    rw [← form_range] at h2
    simp only [Fin.is_lt, dif_pos] at h2
    exact absurd h1 (not_lt.mpr h2.le)
  · intro hp x ⟨i, hi, hx⟩
    have hn : posCount n (fun i => held mt n L i i) = n := by
      unfold posCount
      rw [filter_true_of_mem fun i hi => hp i (mem_range.mp hi), card_range]
    have htop : W' = ⊤ := Submodule.eq_top_of_finrank_eq (by rw [eW', hn, Module.finrank_fin_fun])
    have := hW' (fun i : Fin n => x i) (by rw [htop]; trivial) (fun h => hx (congrFun h ⟨i, hi⟩))
    rw [← form_range]
    have e' : form n (fun i j => -A i j) (fun i => x i) = -form n A (fun i => x i) := by simp [form]
    rw [e'] at this
    linarith

end

/-! ## Numbers of eigenvalues -/

private theorem symm_ldl {n : Nat} (L : Nat → Nat → ℝ) : Symm n (fun i j => ∑ k ∈ range n, low L i k * low L j k / L k k) :=
  fun i j _ _ => sum_congr rfl fun k _ => by rw [mul_comm (low L i k)]

/-- The factor of `A - s I` counts the eigenvalues of `A` below `s`. -/
theorem C109_eigenvalues (mt : MemType) (n : Nat) (l L : List ℝ) (A : Nat → Nat → ℝ) (hs : Symm n A) (s : ℝ)
    (hl : Lower mt n l (shiftBy A s)) (e : Chol.modNew mt n l = .ok L) :
    (negCount n fun i => held mt n L i i) = (eigs n A).countP (· < s) := by
  have hs' : Symm n (shiftBy A s) := fun i j hi hj => by
    unfold shiftBy
    rw [hs i j hi hj]
    simp only [eq_comm]
  obtain ⟨h, -, -⟩ := C109_inertia mt n l L _ hl hs' e
  have := negIndex_eigs hs (s := s) (e := 0) h (fun x => by simp)
  simp only [sub_zero, add_zero] at this
  omega

/-- What `A` is compared with: the product of the factor, entry by entry, and row sums. -/
private theorem count_near {n : Nat} {L : Nat → Nat → ℝ} (hd : ∀ i, i < n → L i i ≠ 0) {A H : Nat → Nat → ℝ} (hs : Symm n A) {s e : ℝ}
    (hH : Symm n H) (h : ∀ i j, i < n → j < n → |∑ k ∈ range n, low L i k * low L j k / L k k - shiftBy A s i j| ≤ H i j)
    (he : ∀ i, i < n → ∑ j ∈ range n, H i j ≤ e) :
    (eigs n A).countP (· < s - e) ≤ (negCount n fun i => L i i) ∧ (negCount n fun i => L i i) ≤ (eigs n A).countP (· < s + e) :=
  negIndex_eigs hs (negIndex_ldl (A := fun i j => ∑ k ∈ range n, low L i k * low L j k / L k k) hd fun _ _ _ _ => rfl).1
    (form_near hH h he)

section
variable {R : Rounding}

private theorem mod_prod_err {n : Nat} {A L : Nat → Nat → Fl R} (hs : Symm n A) (h : ModRec n A L) (hd : ∀ i, i < n → L i i ≠ 0) :
    ∀ i j, i < n → j < n → |∑ k ∈ range n, low (Fl.mat L) i k * low (Fl.mat L) j k / Fl.mat L k k - Fl.mat A i j| ≤
      gam R.u (n + 1) * ∑ k ∈ range n, |low (Fl.mat L) i k * low (Fl.mat L) j k / Fl.mat L k k| := by
  obtain ⟨ρ, hρ, e⟩ := Fl.mod_fac h hd
  have half : ∀ i j, j ≤ i → i < n → |∑ k ∈ range n, low (Fl.mat L) i k * low (Fl.mat L) j k / Fl.mat L k k - Fl.mat A i j| ≤
      gam R.u (n + 1) * ∑ k ∈ range n, |low (Fl.mat L) i k * low (Fl.mat L) j k / Fl.mat L k k| := by
    intro i j hj hi
    have ee : Fl.mat A i j = ∑ k ∈ range n, low (Fl.mat L) i k * low (Fl.mat L) j k / Fl.mat L k k * ρ i j k := e i j hj hi
    rw [ee, abs_sub_comm]
    exact sum_fac_le R.u_nonneg R.u_lt_one fun k _ => hρ i j k
  intro i j hi hj
  rcases Nat.le_total j i with q | q
  · exact half i j q hi
  · have := half j i q hj
    rw [show Fl.mat A i j = Fl.mat A j i by unfold Fl.mat; rw [hs i j hi hj]]
    simpa only [mul_comm] using this

/-- In rounded arithmetic the number of negative diagonal entries is between the numbers of eigenvalues below `s - e` and below
`s + e`; `e` bounds the row sums of the errors made in storing `A - s I`, `G`, and of those of the factorisation. -/
theorem C109_rounded (mt : MemType) (n : Nat) (l L : List (Fl R)) (B : Nat → Nat → Fl R) (hl : Lower mt n l B) (hB : Symm n B)
    (e : Chol.modNew mt n l = .ok L) (A G : Nat → Nat → ℝ) (s eps : ℝ) (hs : Symm n A) (hG : Symm n G)
    (hA : ∀ i j, i < n → j < n → |(B i j).val - shiftBy A s i j| ≤ G i j)
    (he : ∀ i, i < n → ∑ j ∈ range n, (G i j + gam R.u (n + 1) * ∑ k ∈ range n,
      |low (Fl.mat (held mt n L)) i k * low (Fl.mat (held mt n L)) j k / (held mt n L k k).val|) ≤ eps) :
    (eigs n A).countP (· < s - eps) ≤ (negCount n fun i => (held mt n L i i).val) ∧
      (negCount n fun i => (held mt n L i i).val) ≤ (eigs n A).countP (· < s + eps) := by
  rcases C55_mod_cholesky mt mt n l l B hl hl with ⟨e', _⟩ | ⟨L', L'', e', _, hlen, _, hd, hrec, _⟩
  · rw [e] at e'; cases e'
  rw [e] at e'; injection e' with e'; subst e'
  refine count_near (L := Fl.mat (held mt n L)) (fun i hi => (Fl.ne_zero_iff _).mp (hd i hi)) hs (fun i j hi hj => ?_) (fun i j hi hj => ?_) he
  · rw [hG i j hi hj]
    simp only [mul_comm (low _ i _)]
  · have h1 := mod_prod_err hB hrec hd i j hi hj
    have h2 := hA i j hi hj
    have := (abs_sub_le _ (Fl.mat B i j) _).trans (add_le_add h1 h2)
    rw [add_comm] at this
    exact this

end

section
variable {F : Fmt}

private theorem mod_prod_err_fp {n : Nat} {A L : Nat → Nat → Fp F} (hs : Symm n A) (h : ModRec n A L)
    (hf : ∀ i j, j ≤ i → i < n → (L i j).IsFin) (hz : ∀ i, i < n → ¬ IsZ (L i i)) :
    ∀ i j, i < n → j < n → |∑ k ∈ range n, low (Fp.mat L) i k * low (Fp.mat L) j k / Fp.mat L k k - Fp.mat A i j| ≤
      gam F.u (n + 1) * (∑ k ∈ range n, |low (Fp.mat L) i k * low (Fp.mat L) j k / Fp.mat L k k|) +
        (1 + gam F.u (n + 1)) * F.eta * ∑ k ∈ range n, (1 + 1 / |Fp.mat L k k|) := by
  obtain ⟨ρ, t, hρ, ht, e⟩ := Fp.mod_eta h hf hz
  have half : ∀ i j, j ≤ i → i < n → |∑ k ∈ range n, low (Fp.mat L) i k * low (Fp.mat L) j k / Fp.mat L k k - Fp.mat A i j| ≤
      gam F.u (n + 1) * (∑ k ∈ range n, |low (Fp.mat L) i k * low (Fp.mat L) j k / Fp.mat L k k|) +
        (1 + gam F.u (n + 1)) * F.eta * ∑ k ∈ range n, (1 + 1 / |Fp.mat L k k|) := by
    intro i j hj hi
    have ee : Fp.mat A i j = ∑ k ∈ range n, low (Fp.mat L) i k * low (Fp.mat L) j k / Fp.mat L k k * ρ i j k + t i j := e i j hj hi
    rw [ee, abs_sub_comm, add_sub_right_comm]
    exact (abs_add_le _ _).trans (add_le_add (sum_fac_le F.u_nonneg F.u_lt_one fun k _ => hρ i j k) (ht i j hj hi))
  intro i j hi hj
  rcases Nat.le_total j i with q | q
  · exact half i j q hi
  · have := half j i q hj
    rw [show Fp.mat A i j = Fp.mat A j i by unfold Fp.mat; rw [hs i j hi hj]]
    simpa only [mul_comm] using this

/-- The same with IEEE numbers, for a factor with finite entries. -/
theorem C109_ieee (mt : MemType) (n : Nat) (l L : List (Fp F)) (B : Nat → Nat → Fp F) (hl : Lower mt n l B) (hB : Symm n B)
    (e : Chol.modNew mt n l = .ok L) (hf : ∀ i j, j ≤ i → i < n → (held mt n L i j).IsFin) (A G : Nat → Nat → ℝ) (s eps : ℝ)
    (hs : Symm n A) (hG : Symm n G) (hA : ∀ i j, i < n → j < n → |(B i j).val - shiftBy A s i j| ≤ G i j)
    (he : ∀ i, i < n → ∑ j ∈ range n, (G i j + (gam F.u (n + 1) * (∑ k ∈ range n,
      |low (Fp.mat (held mt n L)) i k * low (Fp.mat (held mt n L)) j k / (held mt n L k k).val|) +
      (1 + gam F.u (n + 1)) * F.eta * ∑ k ∈ range n, (1 + 1 / |(held mt n L k k).val|))) ≤ eps) :
    (eigs n A).countP (· < s - eps) ≤ (negCount n fun i => (held mt n L i i).val) ∧
      (negCount n fun i => (held mt n L i i).val) ≤ (eigs n A).countP (· < s + eps) := by
  rcases C68_mod_cholesky mt n l B hl with e' | ⟨L', e', hlen, hz, hrec⟩
  · rw [e] at e'; cases e'
  rw [e] at e'; injection e' with e'; subst e'
  refine count_near (L := Fp.mat (held mt n L)) (fun i hi => ?_) hs (fun i j hi hj => ?_) (fun i j hi hj => ?_) he
  · exact Fp.val_ne (hf i i le_rfl hi) (hz i hi)
  · rw [hG i j hi hj]
    simp only [mul_comm (low _ i _)]
  · have h1 := mod_prod_err_fp hB hrec hf hz i j hi hj
    have h2 := hA i j hi hj
    have := (abs_sub_le _ (Fp.mat B i j) _).trans (add_le_add h1 h2)
    rw [add_comm] at this
    exact this

end

/-! ## Concrete cases -/

/-- `[[1, 2], [2, 1]]` is indefinite: the diagonal of the factor is 1, -3. -/
example : Chol.modNew .square 2 [1, 2, 2, 1] = (.ok [1, 2, 2, -3] : Res (List ℚ)) ∧
    negCount 2 (fun i => held .square 2 ([1, 2, 2, -3] : List ℚ) i i) = 1 ∧
    posCount 2 (fun i => held .square 2 ([1, 2, 2, -3] : List ℚ) i i) = 1 := by decide +kernel

/-- A matrix of order 3 in packed storage: determinants of the leading blocks 2, -2, -2. -/
example : Chol.modNew .triangle 3 [2, 2, 1, 0, 1, 0] = (.ok [2, 2, -1, 0, 1, 1] : Res (List ℚ)) ∧
    ∏ i ∈ range 3, held .triangle 3 ([2, 2, -1, 0, 1, 1] : List ℚ) i i = -2 := by decide +kernel

/-- Cholesky: the squares of the diagonal 2, 2 of the factor of `[[4, 2], [2, 5]]` multiply to the determinant 16. -/
example : Chol.new .square 2 [4, 2, 2, 5] = (.ok [2, 2, 1, 2] : Res (List ℚ)) := by decide +kernel

/-- Gram-Schmidt of (1, 1), (1, 0): squared lengths 2 and 1/2, Gram determinant 1. -/
example : (do
    let m ← Cgs.cgs false none 2 (Mem.ofList [[1, 1], [1, 0]])
    .ok (m 0, m 1)) = (.ok ([1, 1], [1 / 2, -1 / 2]) : Res (List ℚ × List ℚ)) := by decide +kernel

/-- `[[2, -1], [-1, 2]]`, whose eigenvalues are 1 and 3. -/
def inA (i j : Nat) : ℝ := if i = j then 2 else -1

/-- The factor of the matrix shifted by 3/2 says that one eigenvalue is below 3/2. -/
example : (eigs 2 inA).countP (· < 3 / 2) = 1 := by
  have hs : Symm 2 inA := fun i j _ _ => by unfold inA; simp only [eq_comm]
  have hs' : Symm 2 (shiftBy inA (3 / 2)) := fun i j _ _ => by unfold shiftBy inA; simp only [eq_comm]
  have hl : Lower .square 2 [1 / 2, -1, -1, 1 / 2] (shiftBy inA (3 / 2)) := by
    refine ⟨rfl, fun i j hj hi => ?_⟩
    have : (i = 0 ∧ j = 0) ∨ (i = 1 ∧ j = 0) ∨ (i = 1 ∧ j = 1) := by omega
    rcases this with ⟨rfl, rfl⟩ | ⟨rfl, rfl⟩ | ⟨rfl, rfl⟩ <;> norm_num [held, entry, val0, shiftBy, inA]
  have m1 : minor (shiftBy inA (3 / 2)) 1 = 1 / 2 := by norm_num [minor, shiftBy, inA]
  have m2 : minor (shiftBy inA (3 / 2)) 2 = -(3 / 4) := by norm_num [minor, Matrix.det_fin_two, shiftBy, inA]
  have hr : Regular (shiftBy inA (3 / 2)) 2 := fun k hk => by
    have : k = 0 ∨ k = 1 := by omega
    rcases this with rfl | rfl
    · rw [m1]; norm_num
    · rw [m2]; norm_num
  obtain ⟨L, e, -⟩ := C38_factor .square 2 _ _ hl hs' hr
  rw [← C109_eigenvalues .square 2 _ L inA hs (3 / 2) hl e]
  have d1 := C109_det_mod .square 2 _ L _ hl hs' e 1 (by omega)
  have d2 := C109_det_mod .square 2 _ L _ hl hs' e 2 le_rfl
  rw [m1, prod_range_one] at d1
  rw [m2, prod_range_succ, prod_range_one, d1] at d2
  have h1 : held .square 2 L 1 1 < 0 := by linarith
  have h0 : ¬ held .square 2 L 0 0 < 0 := by rw [d1]; norm_num
  unfold negCount
  rw [show range 2 = {0, 1} from rfl, filter_insert, if_neg h0, filter_singleton, if_pos h1, card_singleton]

/-- The hypotheses of the rounded bound are met, for every rounding, by a matrix of order 1; here -3 gives the count 1. -/
example (R : Rounding) (a : Fl R) (ha : a.val = -3) : ∃ L, Chol.modNew .square 1 [a] = .ok L ∧
    Lower .square 1 [a] (fun _ _ => a) ∧ negCount 1 (fun i => (held .square 1 L i i).val) = 1 := by
  have h0 : a ≠ 0 := (Fl.ne_zero_iff _).mpr (by rw [ha]; norm_num)
  refine ⟨[a], ?_, ⟨rfl, fun i j hj hi => ?_⟩, ?_⟩
  · simp [Chol.modNew, Chol.modRow, forRange, forUp, lrd, cIndex, throwIf, h0]
  · have : i = 0 ∧ j = 0 := by omega
    rw [this.1, this.2]; rfl
  · unfold negCount
    rw [range_one, filter_singleton, if_pos]
    · rfl
    · show a.val < 0
      rw [ha]; norm_num

end Lalib.Props
