import Verif.Proofs.GmresRaw
import Verif.Proofs.IeeeSolve
import Verif.Proofs.SparseCsr

/-! # A GMRES run over IEEE 754 numbers: what a component of the result tells -/

namespace Lalib

variable {F : Fmt}

namespace Fp

theorem isFin_addUpL {g : Nat → Fp F} {k : Nat} {t : Fp F} (h : (addUpL g k t).IsFin) :
    t.IsFin ∧ ∀ j, j < k → (g j).IsFin := by
  induction k with
  | zero => exact ⟨h, fun j hj => absurd hj (by omega)⟩
  | succ k ih =>
    obtain ⟨h1, h2⟩ := fin_of_add _ _ h
    obtain ⟨h3, h4⟩ := ih h2
    refine ⟨h3, fun j hj => ?_⟩
    rcases Nat.lt_or_ge j k with h5 | h5
    · exact h4 j h5
    · rw [show j = k by omega]; exact h1

theorem nn_addUpL {g : Nat → Fp F} {k : Nat} {t : Fp F} (h : addUpL g k t ≠ nan) :
    t ≠ nan ∧ ∀ j, j < k → g j ≠ nan := by
  induction k with
  | zero => exact ⟨h, fun j hj => absurd hj (by omega)⟩
  | succ k ih =>
    obtain ⟨h1, h2⟩ := nn_of_add _ _ h
    obtain ⟨h3, h4⟩ := ih h2
    refine ⟨h3, fun j hj => ?_⟩
    rcases Nat.lt_or_ge j k with h5 | h5
    · exact h4 j h5
    · rw [show j = k by omega]; exact h1

theorem isFin_normUp {n : Nat} {x : Nat → Fp F} (h : (normUp n x).IsFin) : ∀ l, l < n → (x l).IsFin := fun l hl =>
  (fin_of_mul _ _ ((isFin_addUp (isFin_sqrt_imp h).1).2 l (Nat.zero_le _) hl)).1

theorem nn_normUp {n : Nat} {x : Nat → Fp F} (h : normUp n x ≠ nan) : ∀ l, l < n → x l ≠ nan := fun l hl =>
  (nn_of_mul _ _ ((nn_addUp (nn_of_sqrt h)).2 l (Nat.zero_le _) hl)).1

theorem nn_dotUp {n : Nat} {x y : Nat → Fp F} (h : dotUp n x y ≠ nan) : ∀ l, l < n → x l ≠ nan ∧ y l ≠ nan := by
  intro l hl
  obtain ⟨h1, h2⟩ := nn_addUp h
  by_cases h0 : l = 0
  · rw [h0]; exact nn_of_mul _ _ h1
  · exact nn_of_mul _ _ (h2 l (by omega) hl)

theorem one_div_zero {b : Fp F} (hb : IsZ b) : ∃ s, 1 / b = inf s := by
  obtain ⟨t, y, hy, rfl⟩ := ((isZ_iff b).mp hb).1.cases
  have hy0 : y = 0 := hb
  exact ⟨false ^^ t, by rw [one_eq]; simp [div_eq, div, hy0]⟩

theorem mul_zero_cases {b : Fp F} (hb : IsZ b) (a : Fp F) : IsZ (a * b) ∨ a * b = nan := by
  obtain ⟨hf, hv⟩ := (isZ_iff b).mp hb
  cases a with
  | nan => exact .inr rfl
  | inf s => exact .inr (inf_mul_zero s hb)
  | fin s x hx =>
    have h : ((fin s x hx : Fp F) * b).IsFin := by
      rw [isFin_mul]
      exact ⟨trivial, hf, by rw [hv, mul_zero, abs_zero, F.rnd_zero]; exact F.top_pos⟩
    refine .inl ((isZ_iff _).mpr ⟨h, ?_⟩)
    rw [val_mul h, hv, mul_zero, F.rnd_zero]

theorem zero_div_cases {a : Fp F} (ha : IsZ a) (b : Fp F) : IsZ (a / b) ∨ a / b = nan := by
  obtain ⟨hf, hv⟩ := (isZ_iff a).mp ha
  by_cases hbn : b = nan
  · right
    by_contra h
    exact (nn_of_div _ _ h).2 hbn
  by_cases hbz : IsZ b
  · exact .inr (zero_div_zero ha hbz)
  left
  by_cases hbf : b.IsFin
  · have h : (a / b).IsFin := (isFin_div a b).mpr ⟨hf, hbn, hbz, fun _ => by
      rw [hv, _root_.zero_div, abs_zero, F.rnd_zero]; exact F.top_pos⟩
    refine (isZ_iff _).mpr ⟨h, ?_⟩
    rw [val_div h hbf, hv, _root_.zero_div, F.rnd_zero]
  · cases b with
    | nan => exact absurd rfl hbn
    | inf s => exact div_inf hf s
    | fin s x hx => exact absurd trivial hbf

theorem isZ_add {a b : Fp F} (ha : IsZ a) (hb : IsZ b) : IsZ (a + b) := by
  obtain ⟨hf, hv⟩ := (isZ_iff a).mp ha
  obtain ⟨h1, h2⟩ := add_zero_val hf hb
  exact (isZ_iff _).mpr ⟨h1, by rw [h2, hv]⟩

theorem isZ_neg {a : Fp F} (ha : IsZ a) : IsZ (-a) := by
  obtain ⟨hf, hv⟩ := (isZ_iff a).mp ha
  exact (isZ_iff _).mpr ⟨(isFin_neg a).mpr hf, by rw [val_neg, hv, neg_zero]⟩

theorem isZ_sub {a b : Fp F} (ha : IsZ a) (hb : IsZ b) : IsZ (a - b) := by
  rw [sub_eq]; exact isZ_add ha (isZ_neg hb)

theorem isZ_addUp {g : Nat → Fp F} {lo hi : Nat} {t : Fp F} (ht : IsZ t) (hg : ∀ k, lo ≤ k → k < hi → IsZ (g k)) :
    IsZ (addUp g lo hi t) := by
  rcases Nat.lt_or_ge lo hi with h | h
  · obtain ⟨n, rfl⟩ : ∃ n, hi = lo + n := ⟨hi - lo, by omega⟩
    clear h
    induction n with
    | zero => rw [addUp_ge _ (by omega)]; exact ht
    | succ n ih =>
      rw [addUp_succ]
      exact isZ_add (ih fun k h1 h2 => hg k h1 (by omega)) (hg _ (by omega) (by omega))
  · rw [addUp_ge _ h]; exact ht

theorem isZ_subUp {g : Nat → Fp F} {lo hi : Nat} {t : Fp F} (ht : IsZ t) (hg : ∀ k, lo ≤ k → k < hi → IsZ (g k)) :
    IsZ (subUp g lo hi t) := by
  rcases Nat.lt_or_ge lo hi with h | h
  · obtain ⟨n, rfl⟩ : ∃ n, hi = lo + n := ⟨hi - lo, by omega⟩
    clear h
    induction n with
    | zero => rw [subUp_ge _ (by omega)]; exact ht
    | succ n ih =>
      rw [subUp_succ]
      exact isZ_sub (ih fun k h1 h2 => hg k h1 (by omega)) (hg _ (by omega) (by omega))
  · rw [subUp_ge _ h]; exact ht

theorem isZ_sqrt {a : Fp F} (ha : IsZ a) : IsZ (Sqrt.sqrt a) := by
  obtain ⟨t, y, hy, rfl⟩ := ((isZ_iff a).mp ha).1.cases
  have hy0 : y = 0 := ha
  show IsZ (Fp.sqrt _)
  simp only [Fp.sqrt, if_pos hy0]
  exact hy0

theorem isZ_normUp {n : Nat} {x : Nat → Fp F} (h : ∀ l, l < n → IsZ (x l)) : IsZ (normUp n x) := by
  refine isZ_sqrt (isZ_addUp isZ_zero fun k _ hk => ?_)
  rcases mul_zero_cases (h k hk) (x k) with h1 | h1
  · exact h1
  · exfalso
    obtain ⟨t, y, hy, e⟩ := ((isZ_iff _).mp (h k hk)).1.cases
    rw [e] at h1
    exact round_ne_nan _ _ h1

end Fp

variable {n : Nat}

/-- The solution with zero data is zero, where it is not NaN. -/
theorem IluSolveRec.zero {G : Nat → Nat → Fp F} {b x : Nat → Fp F} (h : IluSolveRec n G b x) (hb : ∀ i, i < n → IsZ (b i))
    (hx : ∀ i, i < n → x i ≠ .nan) : ∀ i, i < n → IsZ (x i) := by
  obtain ⟨y, h1, h2⟩ := h
  have hy : ∀ i, i < n → y i ≠ .nan := fun i hi => (h2.nn hi (hx i hi) (Nat.le_refl i) hi).2.1
  have zy : ∀ i, i < n → IsZ (y i) := by
    intro i
    induction i using Nat.strong_induction_on with
    | _ i ih =>
      intro hi
      have e := hy i hi
      rw [h1 i hi] at e ⊢
      obtain ⟨_, e2⟩ := Fp.nn_subUp e
      exact Fp.isZ_subUp (hb i hi) fun k h3 h4 =>
        (Fp.mul_zero_cases (ih k h4 (by omega)) _).resolve_right (e2 k h3 h4)
  have : ∀ d i, n - i = d → i < n → IsZ (x i) := by
    intro d
    induction d using Nat.strong_induction_on with
    | _ d ih =>
      intro i hd hi
      have e := hx i hi
      rw [h2 i hi] at e ⊢
      obtain ⟨_, e2⟩ := Fp.nn_subUp (Fp.nn_of_div _ _ e).1
      refine (Fp.zero_div_cases (Fp.isZ_subUp (zy i hi) fun k h3 h4 => ?_) _).resolve_right e
      exact (Fp.mul_zero_cases (ih (n - k) (by omega) k rfl h4) _).resolve_right (e2 k h3 h4)
  exact fun i hi => this _ i rfl hi

section run
variable {S : (Nat → Fp F) → (Nat → Fp F) → Prop} {tol : Fp F} {b x : Nat → Fp F} {k : Nat}
  {q H : Nat → Nat → Fp F} {h : Nat → Fp F} {R : Nat → Nat → Fp F} {c s γ y : Nat → Fp F}

/-- A component that is finite. -/
theorem GmresRec.fin (hr : GmresRec n S tol b x k q H h R c s γ y) {l : Nat} (hl : l < n) (hf : (x l).IsFin) :
    (∀ i, i < n → (b i).IsFin) ∧ (γ 0).IsFin ∧ ¬ IsZ (γ 0) ∧
      (∀ i, i < k → (γ i).IsFin ∧ (h i).IsFin ∧ (i + 1 < k → ¬ IsZ (h i))) ∧
      ∀ i, i < k → ∃ v, S (q i) v ∧ ∀ l, l < n → (v l).IsFin := by
  have hk := hr.pos (by omega)
  rw [hr.comb l hl] at hf
  have t : ∀ i, i < k → (y i).IsFin ∧ (q i l).IsFin := fun i hi =>
    Fp.fin_of_mul _ _ (Fp.fin_of_mul _ _ ((Fp.isFin_addUpL hf).2 i hi)).2
  have hy := t 0 hk
  have back : ∀ j, j < k → ((c j).IsFin ∧ (γ j).IsFin) ∧ R j j ≠ .nan := fun j hj => by
    have := hr.tri.fin hk hy.1 (Nat.zero_le j) hj
    exact ⟨Fp.fin_of_mul _ _ this.2.1, this.2.2.1⟩
  have hγ0 := (back 0 hk).1.2
  have nz : ∀ {a b : Fp F}, (1 / a * b).IsFin → ¬ IsZ a := fun h => (Fp.fin_of_div (Fp.fin_of_mul _ _ h).1).2.2
  have col : ∀ i, i < k → (h i).IsFin ∧ ∃ v, S (q i) v ∧ ∀ l, l < n → (v l).IsFin := by
    intro i hi
    obtain ⟨v, ρ, hc⟩ := hr.cols i hi
    obtain ⟨⟨hci, _⟩, hR⟩ := back i hi
    rw [hc.cos] at hci
    obtain ⟨_, hδ, _⟩ := Fp.fin_of_div hci
    rw [hc.diag] at hR
    obtain ⟨hs, hh⟩ := Fp.nn_of_mul _ _ (Fp.nn_of_add _ _ hR).2
    have hhf : (h i).IsFin := by
      by_contra hcon
      cases e : h i with
      | nan => exact hh e
      | fin s x hx => rw [e] at hcon; exact hcon trivial
      | inf s =>
        rw [hc.sin] at hs
        generalize hd : (Sqrt.sqrt (ρ i * ρ i + h i * h i) : Fp F) = δ at hs hδ
        cases δ with
        | nan => exact hδ rfl
        | inf t => rw [e] at hs; exact hs rfl
        | fin t z hz =>
          have : (Sqrt.sqrt (ρ i * ρ i + h i * h i) : Fp F).IsFin := by rw [hd]; trivial
          exact hcon (Fp.fin_of_mul _ _ (Fp.fin_of_add _ _ (Fp.isFin_sqrt_imp this).1).2).1
    refine ⟨hhf, v, hc.op, fun l hl => ?_⟩
    rw [hc.norm] at hhf
    exact (Fp.isFin_addUpL (Fp.isFin_normUp hhf l hl)).1
  refine ⟨?_, hγ0, ?_, fun i hi => ⟨(back i hi).1.2, (col i hi).1, fun hi' => ?_⟩, fun i hi => (col i hi).2⟩
  · rw [hr.beta] at hγ0
    exact Fp.isFin_normUp hγ0
  · have := hy.2
    rw [hr.first l hl] at this
    exact nz this
  · obtain ⟨v, ρ, hc⟩ := hr.cols i hi
    have := (t (i + 1) hi').2
    rw [hc.next l hl] at this
    exact nz this

/-- A component that is not NaN. -/
theorem GmresRec.nn (hr : GmresRec n S tol b x k q H h R c s γ y) {l : Nat} (hl : l < n) (hf : x l ≠ .nan) :
    (∀ i, i < n → b i ≠ .nan) ∧ (∀ i, i < k → γ i ≠ .nan) ∧ (∀ i, i < k → q i l ≠ .nan) ∧
      ∃ v, S (q 0) v ∧ ∀ l, l < n → v l ≠ .nan := by
  have hk := hr.pos (by omega)
  rw [hr.comb l hl] at hf
  have t : ∀ i, i < k → y i ≠ .nan ∧ q i l ≠ .nan := fun i hi =>
    Fp.nn_of_mul _ _ (Fp.nn_of_mul _ _ ((Fp.nn_addUpL hf).2 i hi)).2
  have back : ∀ j, j < k → c j ≠ .nan ∧ γ j ≠ .nan := fun j hj =>
    Fp.nn_of_mul _ _ (hr.tri.nn hk (t 0 hk).1 (Nat.zero_le j) hj).2.1
  refine ⟨?_, fun i hi => (back i hi).2, fun i hi => (t i hi).2, ?_⟩
  · have := (back 0 hk).2
    rw [hr.beta] at this
    exact Fp.nn_normUp this
  · obtain ⟨v, ρ, hc⟩ := hr.cols 0 hk
    have := (back 0 hk).1
    rw [hc.cos] at this
    have h0 := (Fp.nn_of_div _ _ this).1
    rw [hc.rot0, hc.proj 0 (Nat.le_refl _)] at h0
    exact ⟨v, hc.op, fun l hl => (Fp.nn_dotUp h0 l hl).2⟩

/-- Nothing to solve for. -/
theorem GmresRec.zero (hr : GmresRec n S tol b x k q H h R c s γ y) (hb : ∀ i, i < n → IsZ (b i)) {l : Nat} (hl : l < n) :
    x l = .nan := by
  by_contra hf
  have hk := hr.pos (by omega)
  have hq := (hr.nn hl hf).2.2.1 0 hk
  rw [hr.first l hl, hr.beta] at hq
  obtain ⟨s, e⟩ := Fp.one_div_zero (Fp.isZ_normUp hb)
  rw [e, Fp.inf_mul_zero s (hb l hl)] at hq
  exact hq rfl

/-- A tolerance that no number is below. -/
theorem GmresRec.all (hr : GmresRec n S tol b x k q H h R c s γ y) (ht : ¬ (0 : Fp F) < tol) : k = n := by
  refine hr.stop.resolve_right fun hlt => ht ?_
  have habs : ¬ absT (γ k) < 0 := by
    unfold absT
    split
    · rename_i h0
      cases e : γ k with
      | nan => rw [e] at h0; exact absurd h0 id
      | inf s =>
        rw [e] at h0
        have h0 : s = true := h0
        subst h0
        intro hc
        exact absurd (show (false : Bool) = true from hc) (by decide)
      | fin s z hz =>
        rw [e] at h0
        rw [Fp.fin_lt (Fp.isFin_fin _ _ _) Fp.isFin_zero, Fp.val_zero] at h0
        rw [Fp.fin_lt ((Fp.isFin_neg _).mpr (Fp.isFin_fin _ _ _)) Fp.isFin_zero, Fp.val_zero, Fp.val_neg]
        linarith
    · rename_i h0; exact h0
  generalize absT (γ k) = g at hlt habs
  cases g with
  | nan => exact absurd hlt id
  | inf s =>
    cases s with
    | false =>
      cases tol with
      | nan => exact absurd hlt id
      | inf t => exact absurd (show (false : Bool) = true from hlt.1) (by decide)
      | fin t z hz => exact absurd (show (false : Bool) = true from hlt) (by decide)
    | true => exact absurd (show (true : Bool) = true from rfl) habs
  | fin s z hz =>
    cases tol with
    | nan => exact absurd hlt id
    | inf t => exact hlt
    | fin t w hw =>
      rw [Fp.fin_lt (Fp.isFin_fin _ _ _) (Fp.isFin_fin _ _ _)] at hlt
      rw [Fp.fin_lt (Fp.isFin_fin _ _ _) Fp.isFin_zero, Fp.val_zero, not_lt] at habs
      rw [Fp.fin_lt Fp.isFin_zero (Fp.isFin_fin _ _ _), Fp.val_zero]
      linarith

end run

/-! ## The product -/

/-- The components of the product see every entry of their row. -/
theorem GKind.row {M : Type} {ops : Bool → GOps M (Fp F)} {ok : M → Prop}
    {prod : Nat → M → (Nat → Fp F) → (Nat → Fp F) → Prop} (hst : GKind ops ok prod) {nd : Bool} {a : M}
    {A : Nat → Nat → Fp F} (hok : ok a) (hA : Shows (ops nd).toMatOps n a A) {u w : Nat → Fp F} (h : prod n a u w)
    {i j : Nat} (hi : i < n) (hj : j < n) : ((w i).IsFin → (A i j).IsFin) ∧ (w i ≠ .nan → A i j ≠ .nan) := by
  cases hst with
  | dense =>
    have h1 := hA.1
    injection h1 with h1
    injection h1 with h1 h2
    have hg : lrd a.elems (i * a.m + j) = .ok (A i j) := hA.2 i j hi hj
    rw [lrd_val (by rw [hok, h1, h2]; exact cell_lt hi hj), h2] at hg
    injection hg with hg
    rw [h i hi, ← hg]
    exact ⟨fun hf => (Fp.fin_of_mul _ _ (Fp.fin_of_mul _ _ ((Fp.isFin_addUp hf).2 j (Nat.zero_le _) hj)).1).2,
      fun hf => (Fp.nn_of_mul _ _ (Fp.nn_of_mul _ _ ((Fp.nn_addUp hf).2 j (Nat.zero_le _) hj)).1).2⟩
  | csr =>
    have hr : a.nrows = n := by
      have hs' : a.shape = .ok (n, n) := hA.1
      unfold Csr.shape at hs'
      have hne : a.rowPtr.length ≠ 0 := by
        intro h0
        have := hok.1.ptr0
        rw [List.length_eq_zero_iff.mp h0] at this
        simp at this
      cases hm : maxElem a.col with
      | error e => rw [hm] at hs'; cases hs'
      | ok c =>
        rw [hm, ok_bind, if_neg hne] at hs'
        injection hs' with hs'
        injection hs' with hs' _
    have hg : a.get i j = .ok (A i j) := hA.2 i j hi hj
    by_cases hex : ∃ k, a.StoredAt i j k
    · obtain ⟨k, hk⟩ := hex
      rw [Csr.get_stored hok.1 hok.2 (by omega) hk] at hg
      injection hg with hg
      have hv : val0 a.val k = A i j := by
        rw [← hg]
        simp [val0, List.getD_eq_getElem?_getD, List.getElem?_eq_getElem (hk.lt hok.1)]
      rw [h i hi, ← hv]
      exact ⟨fun hf => (Fp.fin_of_mul _ _ (Fp.fin_of_mul _ _ ((Fp.isFin_addUp hf).2 k hk.1 hk.2.1)).1).2,
        fun hf => (Fp.nn_of_mul _ _ (Fp.nn_of_mul _ _ ((Fp.nn_addUp hf).2 k hk.1 hk.2.1)).1).2⟩
    · rw [Csr.get_unstored hok.1 (by omega) (fun k hk => hex ⟨k, hk⟩)] at hg
      injection hg with hg
      rw [← hg]
      exact ⟨fun _ => Fp.isFin_zero, fun _ h => by cases h⟩

end Lalib
