import Verif.Proofs.Scaling
import Verif.Proofs.EvalSolve
import Verif.Proofs.IeeeSum

/-! # Factors carried through the recurrences -/

namespace Lalib

namespace Scaling

variable {T : Type} [Zero T] [Add T] [Sub T] [Mul T] [Neg T] [Div T] [CDiv T] [CZero T] [LT T] [Sqrt T] [CSqrt T]
  (S : Scaling T)

theorem cast {c d : ℝ} {a b : T} (h : c = d) (r : S.rel c a b) : S.rel d a b := h ▸ r

theorem ok_div {c d : ℝ} (h : S.ok c) (k : S.ok d) : S.ok (c / d) := by
  rw [div_eq_mul_inv]; exact S.ok_mul h (S.ok_inv k)

theorem lt_zero {c : ℝ} {a b : T} (hc : S.ok c) (r : S.rel (c * c) a b) : a < 0 ↔ b < 0 := by
  have hcc := S.ok_mul hc hc
  have e : |c * c| = c * c := abs_of_nonneg (mul_self_nonneg c)
  exact S.lt hcc (S.cast e.symm r) (by rw [e]; exact S.zero_any S.ok_one hcc S.isZ_zero (S.refl 0))

theorem zero {c : ℝ} (h : S.ok c) : S.rel c 0 0 := S.zero_any S.ok_one h S.isZ_zero (S.refl 0)

theorem addUp {c : ℝ} (hc : S.ok c) {g g' : Nat → T} {lo hi : Nat} (h : ∀ k, lo ≤ k → k < hi → S.rel c (g k) (g' k))
    {t t' : T} (ht : S.rel c t t') : S.rel c (addUp g lo hi t) (Lalib.addUp g' lo hi t') := by
  rcases Nat.le_total hi lo with hle | hle
  · rw [Fp.addUp_ge _ hle, Fp.addUp_ge _ hle]; exact ht
  obtain ⟨n, rfl⟩ := Nat.exists_eq_add_of_le hle
  induction n with
  | zero => rw [Fp.addUp_ge _ (by omega), Fp.addUp_ge _ (by omega)]; exact ht
  | succ n ih =>
    rw [Fp.addUp_succ, Fp.addUp_succ]
    exact S.add hc (ih (fun k h1 h2 => h k h1 (by omega)) (by omega)) (h _ (by omega) (by omega))

theorem subUp {c : ℝ} (hc : S.ok c) {g g' : Nat → T} {lo hi : Nat} (h : ∀ k, lo ≤ k → k < hi → S.rel c (g k) (g' k))
    {t t' : T} (ht : S.rel c t t') : S.rel c (subUp g lo hi t) (Lalib.subUp g' lo hi t') := by
  rcases Nat.le_total hi lo with hle | hle
  · rw [Fp.subUp_ge _ hle, Fp.subUp_ge _ hle]; exact ht
  obtain ⟨n, rfl⟩ := Nat.exists_eq_add_of_le hle
  induction n with
  | zero => rw [Fp.subUp_ge _ (by omega), Fp.subUp_ge _ (by omega)]; exact ht
  | succ n ih =>
    rw [Fp.subUp_succ, Fp.subUp_succ]
    exact S.sub hc (ih (fun k h1 h2 => h k h1 (by omega)) (by omega)) (h _ (by omega) (by omega))

/-! ## Triangular systems -/

theorem backSub {n : Nat} {R R' : Nat → Nat → T} {y y' x x' : Nat → T} {r c : Nat → ℝ} (h : BackSubRec n R y x)
    (h' : BackSubRec n R' y' x') (hr : ∀ i, i < n → S.ok (r i)) (hc : ∀ i, i < n → S.ok (c i))
    (hR : ∀ i j, i ≤ j → j < n → S.rel (r i * c j) (R i j) (R' i j)) (hy : ∀ i, i < n → S.rel (r i) (y i) (y' i))
    (hd : ∀ i, i < n → ¬ IsZ (R i i)) : ∀ i, i < n → S.rel (c i)⁻¹ (x i) (x' i) := by
  have : ∀ d i, i < n → n - i ≤ d → S.rel (c i)⁻¹ (x i) (x' i) := by
    intro d
    induction d with
    | zero => intro i hi hd; omega
    | succ d ih =>
      intro i hi hdi
      rw [h i hi, h' i hi]
      have e := S.div (hr i hi) (S.ok_mul (hr i hi) (hc i hi)) (hd i hi)
        (S.subUp (hr i hi) (g := fun j => R i j * x j) (g' := fun j => R' i j * x' j) (lo := i + 1) (hi := n)
          (fun j h1 h2 => S.cast (by
            have := S.ne_zero (hc j h2)
            field_simp) (S.mul (S.ok_mul (hr i hi) (hc j h2)) (S.ok_inv (hc j h2)) (hR i j (by omega) h2)
              (ih j h2 (by omega)))) (hy i hi))
        (hR i i (Nat.le_refl _) hi)
      refine S.cast ?_ e
      have := S.ne_zero (hr i hi)
      have := S.ne_zero (hc i hi)
      field_simp
  exact fun i hi => this (n - i) i hi (Nat.le_refl _)

theorem fwdSub {n : Nat} {L L' : Nat → Nat → T} {b b' y y' : Nat → T} {r c : Nat → ℝ} (h : FwdSubRec n L b y)
    (h' : FwdSubRec n L' b' y') (hr : ∀ i, i < n → S.ok (r i)) (hc : ∀ i, i < n → S.ok (c i))
    (hL : ∀ i j, j ≤ i → i < n → S.rel (r i * c j) (L i j) (L' i j)) (hb : ∀ i, i < n → S.rel (r i) (b i) (b' i))
    (hd : ∀ i, i < n → ¬ IsZ (L i i)) : ∀ i, i < n → S.rel (c i)⁻¹ (y i) (y' i) := by
  intro i
  induction i using Nat.strong_induction_on with
  | _ i ih =>
    intro hi
    rw [h i hi, h' i hi]
    have e := S.div (hr i hi) (S.ok_mul (hr i hi) (hc i hi)) (hd i hi)
      (S.subUp (hr i hi) (g := fun j => L i j * y j) (g' := fun j => L' i j * y' j) (lo := 0) (hi := i)
        (fun j h1 h2 => S.cast (by
          have := S.ne_zero (hc j (by omega))
          field_simp) (S.mul (S.ok_mul (hr i hi) (hc j (by omega))) (S.ok_inv (hc j (by omega))) (hL i j (by omega) hi)
            (ih j h2 (by omega)))) (hb i hi))
      (hL i i (Nat.le_refl _) hi)
    refine S.cast ?_ e
    have := S.ne_zero (hr i hi)
    have := S.ne_zero (hc i hi)
    field_simp

theorem fwdUnit {n : Nat} {L L' : Nat → Nat → T} {b b' y y' : Nat → T} {r : Nat → ℝ} (h : FwdUnitRec n L b y)
    (h' : FwdUnitRec n L' b' y') (hr : ∀ i, i < n → S.ok (r i))
    (hL : ∀ i j, j < i → i < n → S.rel (r i / r j) (L i j) (L' i j)) (hb : ∀ i, i < n → S.rel (r i) (b i) (b' i)) :
    ∀ i, i < n → S.rel (r i) (y i) (y' i) := by
  intro i
  induction i using Nat.strong_induction_on with
  | _ i ih =>
    intro hi
    rw [h i hi, h' i hi]
    refine S.subUp (hr i hi) (fun j h1 h2 => S.cast ?_ (S.mul (S.ok_div (hr i hi) (hr j (by omega))) (hr j (by omega))
      (hL i j (by omega) hi) (ih j h2 (by omega)))) (hb i hi)
    have := S.ne_zero (hr j (by omega))
    field_simp

/-- Solving with a Cholesky factor: the columns of the factor may change sign. -/
theorem cholSolve {n : Nat} {L L' : Nat → Nat → T} {b b' x x' : Nat → T} {d e : Nat → ℝ} {g : ℝ} (hg : S.ok g)
    (h : CholSolveRec false n L b x) (h' : CholSolveRec false n L' b' x') (hd : ∀ i, i < n → S.ok (d i))
    (he : ∀ i, i < n → S.ok (e i) ∧ e i * e i = 1)
    (hL : ∀ i j, j ≤ i → i < n → S.rel (d i * e j) (L i j) (L' i j))
    (hb : ∀ i, i < n → S.rel (g * d i) (b i) (b' i))
    (hp : ∀ i, i < n → ¬ IsZ (L i i)) : ∀ i, i < n → S.rel (g / d i) (x i) (x' i) := by
  obtain ⟨y, h1, h2⟩ := h
  obtain ⟨y', h1', h2'⟩ := h'
  have hg0 := S.ne_zero hg
  have hy := S.fwdSub (L := L) (L' := L') (r := fun i => g * d i) (c := fun i => e i / g) h1 h1'
    (fun i hi => S.ok_mul hg (hd i hi)) (fun i hi => S.ok_div (he i hi).1 hg)
    (fun i j hj hi => S.cast (by field_simp) (hL i j hj hi)) hb hp
  have := S.backSub (r := fun i => g * e i) (c := fun i => d i / g) h2 h2' (fun i hi => S.ok_mul hg (he i hi).1)
    (fun i hi => S.ok_div (hd i hi) hg) (fun i j hij hj => S.cast (by field_simp) (hL j i hij hj))
    (fun i hi => S.cast (by
      have h0 := S.ne_zero (he i hi).1
      rw [inv_div, div_eq_iff h0, mul_assoc, (he i hi).2, mul_one]) (hy i hi)) hp
  exact fun i hi => S.cast (inv_div _ _) (this i hi)

/-- Solving with a modified factor. -/
theorem modSolve {n : Nat} {L L' : Nat → Nat → T} {b b' x x' : Nat → T} {d : Nat → ℝ} {g : ℝ} (hg : S.ok g)
    (h : CholSolveRec true n L b x) (h' : CholSolveRec true n L' b' x') (hd : ∀ i, i < n → S.ok (d i))
    (hL : ∀ i j, j ≤ i → i < n → S.rel (d i * d j) (L i j) (L' i j))
    (hb : ∀ i, i < n → S.rel (g * d i) (b i) (b' i))
    (hp : ∀ i, i < n → ¬ IsZ (L i i)) : ∀ i, i < n → S.rel (g / d i) (x i) (x' i) := by
  obtain ⟨y, h1, h2⟩ := h
  obtain ⟨y', h1', h2'⟩ := h'
  have hg0 := S.ne_zero hg
  have hgd : ∀ i, i < n → S.ok (g * d i) := fun i hi => S.ok_mul hg (hd i hi)
  have hy := S.fwdUnit (L := fun i j => L i j / L j j) (L' := fun i j => L' i j / L' j j) (r := fun i => g * d i) h1 h1' hgd
    (fun i j hj hi => S.cast (by
      have := S.ne_zero (hd i hi)
      have := S.ne_zero (hd j (by omega))
      field_simp) (S.div (S.ok_mul (hd i hi) (hd j (by omega))) (S.ok_mul (hd j (by omega)) (hd j (by omega)))
        (hp j (by omega)) (hL i j (by omega) hi) (hL j j (Nat.le_refl _) (by omega)))) hb
  have := S.backSub (r := fun i => g * d i) (c := fun i => d i / g) h2 h2' hgd (fun i hi => S.ok_div (hd i hi) hg)
    (fun i j hij hj => S.cast (by field_simp) (hL j i hij hj)) hy hp
  exact fun i hi => S.cast (inv_div _ _) (this i hi)

/-! ## Cholesky factors -/

/-- The sign of a factor. -/
theorem sgn_sq {d : ℝ} (h : d ≠ 0) : |d| / d * (|d| / d) = 1 := by
  have : |d| * |d| = d * d := abs_mul_abs_self d
  field_simp
  rw [sq, sq, this]

theorem sgn_div (a : ℝ) {d : ℝ} (h : d ≠ 0) : a * d / (d * (|d| / d)) = a * (|d| / d) := by
  have h1 : |d| ≠ 0 := abs_ne_zero.mpr h
  have h2 : |d| / d ≠ 0 := div_ne_zero h1 h
  have h3 := sgn_sq h
  rw [div_eq_iff (mul_ne_zero h h2)]
  linear_combination -(a * d) * h3

theorem ok_sgn {d : ℝ} (h : S.ok d) : S.ok (|d| / d) := S.ok_div (S.ok_abs h) h

variable {n : Nat} {A A' : Nat → Nat → T} {d : Nat → ℝ}

theorem upto {L L' : Nat → Nat → T} {i : Nat} (hd : ∀ i, i < n → S.ok (d i))
    (hA : ∀ i j, j ≤ i → i < n → S.rel (d i * d j) (A i j) (A' i j)) (h : Chol.Upto A L i) (h' : Chol.Upto A' L' i)
    (hi : i < n) (hp : ∀ r, r < i → ¬ IsZ (L r r)) :
    ∀ r c, c ≤ r → r ≤ i → (r < i ∨ c < r) → S.rel (d r * (|d c| / d c)) (L r c) (L' r c) := by
  intro r
  induction r using Nat.strong_induction_on with
  | _ r ihr =>
    intro c
    induction c using Nat.strong_induction_on with
    | _ c ihc =>
      intro hc hr hx
      have hdr := hd r (by omega)
      have hdc := hd c (by omega)
      have hnr := S.ne_zero hdr
      have hnc := S.ne_zero hdc
      have term : ∀ s t k, S.rel (d r * (|d k| / d k)) s t → ∀ s' t', S.rel (d c * (|d k| / d k)) s' t' → k < n →
          S.rel (d r * d c) (s * s') (t * t') := by
        intro s t k h1 s' t' h2 hk
        have hdk := hd k hk
        refine S.cast ?_ (S.mul (S.ok_mul hdr (S.ok_sgn hdk)) (S.ok_mul hdc (S.ok_sgn hdk)) h1 h2)
        rw [mul_mul_mul_comm, sgn_sq (S.ne_zero hdk), mul_one]
      have hrow : ∀ k, k < c → S.rel (d r * (|d k| / d k)) (L r k) (L' r k) := fun k hk =>
        ihc k hk (by omega) hr (.inr (by omega))
      rcases Nat.lt_or_ge c r with hcr | hrc
      · rw [h.off r c hcr hr, h'.off r c hcr hr]
        have e := S.div (S.ok_mul hdr hdc) (S.ok_mul hdc (S.ok_sgn hdc)) (hp c (by omega))
          (S.subUp (S.ok_mul hdr hdc) (g := fun k => L r k * L c k) (g' := fun k => L' r k * L' c k) (lo := 0) (hi := c)
            (fun k _ hk => term _ _ k (hrow k hk) _ _ (ihr c hcr k (by omega) (by omega) (.inl (by omega))) (by omega))
            (hA r c (by omega) (by omega)))
          (ihr c hcr c (Nat.le_refl _) (by omega) (.inl (by omega)))
        refine S.cast ?_ e
        exact sgn_div _ hnc
      · obtain rfl : c = r := by omega
        rw [h.diag c (by omega), h'.diag c (by omega)]
        refine S.cast ?_ (S.sqrt hdc (S.subUp (S.ok_mul hdc hdc) (fun k _ hk =>
          term _ _ k (hrow k hk) _ _ (hrow k hk) (by omega)) (hA c c (Nat.le_refl _) (by omega))))
        field_simp

theorem uptoPivot {L L' : Nat → Nat → T} {i : Nat} (hd : ∀ i, i < n → S.ok (d i))
    (hA : ∀ i j, j ≤ i → i < n → S.rel (d i * d j) (A i j) (A' i j)) (h : Chol.Upto A L i) (h' : Chol.Upto A' L' i)
    (hi : i < n) (hp : ∀ r, r < i → ¬ IsZ (L r r)) :
    S.rel (d i * d i) (Lalib.subUp (fun k => L i k * L i k) 0 i (A i i))
      (Lalib.subUp (fun k => L' i k * L' i k) 0 i (A' i i)) := by
  have hdi := hd i hi
  refine S.subUp (S.ok_mul hdi hdi) (fun k _ hk => ?_) (hA i i (Nat.le_refl _) hi)
  have hdk := hd k (by omega)
  have e := S.upto hd hA h h' hi hp i k (by omega) (Nat.le_refl _) (.inr hk)
  refine S.cast ?_ (S.mul (S.ok_mul hdi (S.ok_sgn hdk)) (S.ok_mul hdi (S.ok_sgn hdk)) e e)
  rw [mul_mul_mul_comm, sgn_sq (S.ne_zero hdk), mul_one]

theorem mod {L L' : Nat → Nat → T} {k : Nat} (hd : ∀ i, i < n → S.ok (d i)) (hk : k ≤ n)
    (hA : ∀ i j, j ≤ i → i < n → S.rel (d i * d j) (A i j) (A' i j)) (h : ModRec k A L) (h' : ModRec k A' L')
    (hp : ∀ r, r + 1 < k → ¬ IsZ (L r r)) : ∀ r c, c ≤ r → r < k → S.rel (d r * d c) (L r c) (L' r c) := by
  intro r
  induction r using Nat.strong_induction_on with
  | _ r ihr =>
    intro c
    induction c using Nat.strong_induction_on with
    | _ c ihc =>
      intro hc hr
      have hdr := hd r (by omega)
      have hdc := hd c (by omega)
      rw [h r c hc hr, h' r c hc hr]
      refine S.subUp (S.ok_mul hdr hdc) (fun j _ hj => ?_) (hA r c hc (by omega))
      have hdj := hd j (by omega)
      have hn := S.ne_zero hdj
      have e1 := ihc j hj (by omega) hr
      have e2 : S.rel (d c * d j) (L c j) (L' c j) := by
        rcases Nat.lt_or_ge c r with hcr | hrc
        · exact ihr c hcr j (by omega) (by omega)
        · obtain rfl : c = r := by omega
          exact e1
      have e3 := ihr j (by omega) j (Nat.le_refl _) (by omega)
      refine S.cast ?_ (S.div (S.ok_mul (S.ok_mul hdr hdj) (S.ok_mul hdc hdj)) (S.ok_mul hdj hdj) (hp j (by omega))
        (S.mul (S.ok_mul hdr hdj) (S.ok_mul hdc hdj) e1 e2) e3)
      field_simp

/-! ## Incomplete LU -/

theorem ilu {F F' : Nat → Nat → T} {r c : Nat → ℝ} {i j : Nat} (hr : ∀ i, i < n → S.ok (r i))
    (hc : ∀ i, i < n → S.ok (c i)) (hA : S.Mat n n r c A A')
    (h : ∀ p q, p < n → q < n → (p < i ∨ p = i ∧ q < j) → IluCell A F p q)
    (h' : ∀ p q, p < n → q < n → (p < i ∨ p = i ∧ q < j) → IluCell A' F' p q) :
    ∀ p q, p < n → q < n → (p < i ∨ p = i ∧ q < j) → S.rel (iluUnit r c p q) (F p q) (F' p q) := by
  intro p
  induction p using Nat.strong_induction_on with
  | _ p ihp =>
    intro q
    induction q using Nat.strong_induction_on with
    | _ q ihq =>
      intro hp hq hb
      have hrp := hr p hp
      have hcq := hc q hq
      have hrow : ∀ k, k < q → S.rel (iluUnit r c p k) (F p k) (F' p k) := fun k hk =>
        ihq k hk hp (by omega) (by omega)
      obtain ⟨h1, h2, h3⟩ := h p q hp hq hb
      obtain ⟨g1, g2, g3⟩ := h' p q hp hq hb
      have hz := S.isZ (S.ok_mul hrp hcq) (hA p q hp hq)
      by_cases h0 : IsZ (A p q)
      · rw [h1 h0, g1 (hz.mp h0)]
        refine S.zero_any (S.ok_mul hrp hcq) ?_ h0 (hA p q hp hq)
        unfold iluUnit
        split
        · exact S.ok_div hrp (hr q hq)
        · exact S.ok_mul hrp hcq
      have h0' : ¬ IsZ (A' p q) := fun h => h0 (hz.mpr h)
      have term : ∀ k, k < p → k < q → S.rel (r p * c q) (F p k * F k q) (F' p k * F' k q) := by
        intro k hkp hkq
        have hrk := hr k (by omega)
        have e1 := hrow k hkq
        have e2 := ihp k hkp q (by omega) hq (by omega)
        unfold iluUnit at e1 e2
        rw [if_pos hkp] at e1
        rw [if_neg (by omega)] at e2
        refine S.cast ?_ (S.mul (S.ok_div hrp hrk) (S.ok_mul hrk hcq) e1 e2)
        have := S.ne_zero hrk
        field_simp
      unfold iluUnit
      rcases Nat.lt_or_ge q p with hqp | hpq
      · rw [(h2 hqp h0).2, (g2 hqp h0').2, if_pos hqp]
        have e := ihp q hqp q (by omega) hq (by omega)
        unfold iluUnit at e
        rw [if_neg (by omega)] at e
        refine S.cast ?_ (S.div (S.ok_mul hrp hcq) (S.ok_mul (hr q hq) hcq) (h2 hqp h0).1
          (S.subUp (S.ok_mul hrp hcq) (fun k _ hk => term k (by omega) hk) (hA p q hp hq)) e)
        have := S.ne_zero hcq
        have := S.ne_zero (hr q hq)
        field_simp
      · rw [h3 hpq h0, g3 hpq h0', if_neg (by omega)]
        exact S.subUp (S.ok_mul hrp hcq) (fun k _ hk => term k hk (by omega)) (hA p q hp hq)

theorem iluSolve {F F' : Nat → Nat → T} {r c : Nat → ℝ} {b b' x x' : Nat → T} (hr : ∀ i, i < n → S.ok (r i))
    (hc : ∀ i, i < n → S.ok (c i)) (h : IluSolveRec n F b x) (h' : IluSolveRec n F' b' x')
    (hF : ∀ i j, i < n → j < n → S.rel (iluUnit r c i j) (F i j) (F' i j)) (hb : ∀ i, i < n → S.rel (r i) (b i) (b' i))
    (hp : ∀ i, i < n → ¬ IsZ (F i i)) : ∀ i, i < n → S.rel (c i)⁻¹ (x i) (x' i) := by
  obtain ⟨y, h1, h2⟩ := h
  obtain ⟨y', h1', h2'⟩ := h'
  have hy := S.fwdUnit h1 h1' hr (fun i j hj hi => by
    have := hF i j hi (by omega)
    unfold iluUnit at this
    rwa [if_pos hj] at this) hb
  refine S.backSub h2 h2' hr hc (fun i j hij hj => ?_) hy hp
  have := hF i j (by omega) hj
  unfold iluUnit at this
  rwa [if_neg (by omega)] at this

/-! ## Tri-diagonal systems -/

variable {a a' : TriDiag T} {r c : Nat → ℝ}

theorem triD (hr : ∀ i, i < n → S.ok (r i)) (hc : ∀ i, i < n → S.ok (c i)) (ha : S.Tri n r c a a') :
    ∀ i, i < n → (∀ k, k < i → ¬ IsZ (Tdma.D a k)) → S.rel (r i * c i) (Tdma.D a i) (Tdma.D a' i) := by
  intro i
  induction i with
  | zero => intro hi _; exact ha.d 0 hi
  | succ i ih =>
    intro hi hz
    have hD := ih (by omega) (fun k hk => hz k (by omega))
    have hri := hr i (by omega)
    have hci := hc i (by omega)
    have hr1 := hr (i + 1) hi
    have hc1 := hc (i + 1) hi
    show S.rel _ (val0 a.d (i + 1) + val0 a.dl i * Tdma.P a i) (val0 a'.d (i + 1) + val0 a'.dl i * Tdma.P a' i)
    refine S.add (S.ok_mul hr1 hc1) (ha.d _ hi) ?_
    rw [Tdma.P_eq, Tdma.P_eq]
    have hp := S.div (S.ok_mul hri hc1) (S.ok_mul hri hci) (hz i (by omega)) (S.neg (S.ok_mul hri hc1) (ha.du i hi)) hD
    refine S.cast ?_ (S.mul (S.ok_mul hr1 hci) (S.ok_div (S.ok_mul hri hc1) (S.ok_mul hri hci)) (ha.dl i hi) hp)
    have := S.ne_zero hri
    have := S.ne_zero hci
    field_simp

theorem triP (hr : ∀ i, i < n → S.ok (r i)) (hc : ∀ i, i < n → S.ok (c i)) (ha : S.Tri n r c a a')
    (hz : ∀ k, k < n → ¬ IsZ (Tdma.D a k)) (i : Nat) (hi : i + 1 < n) :
    S.rel (c (i + 1) / c i) (Tdma.P a i) (Tdma.P a' i) := by
  have hD := S.triD hr hc ha i (by omega) (fun k hk => hz k (by omega))
  have hri := hr i (by omega)
  have hci := hc i (by omega)
  have hc1 := hc (i + 1) hi
  rw [Tdma.P_eq, Tdma.P_eq]
  refine S.cast ?_ (S.div (S.ok_mul hri hc1) (S.ok_mul hri hci) (hz i (by omega))
    (S.neg (S.ok_mul hri hc1) (ha.du i hi)) hD)
  have := S.ne_zero hri
  have := S.ne_zero hci
  field_simp

theorem triQ {B B' : Nat → T} (hr : ∀ i, i < n → S.ok (r i)) (hc : ∀ i, i < n → S.ok (c i)) (ha : S.Tri n r c a a')
    (hz : ∀ k, k < n → ¬ IsZ (Tdma.D a k)) (hB : ∀ i, i < n → S.rel (r i) (B i) (B' i)) :
    ∀ i, i < n → S.rel (c i)⁻¹ (Tdma.Q a B i) (Tdma.Q a' B' i) := by
  intro i
  induction i with
  | zero =>
    intro hi
    show S.rel _ (B 0 / val0 a.d 0) (B' 0 / val0 a'.d 0)
    refine S.cast ?_ (S.div (hr 0 hi) (S.ok_mul (hr 0 hi) (hc 0 hi)) (hz 0 hi) (hB 0 hi) (ha.d 0 hi))
    have := S.ne_zero (hr 0 hi)
    have := S.ne_zero (hc 0 hi)
    field_simp
  | succ i ih =>
    intro hi
    have hci := hc i (by omega)
    have hr1 := hr (i + 1) hi
    have hc1 := hc (i + 1) hi
    show S.rel _ ((B (i + 1) - val0 a.dl i * Tdma.Q a B i) / Tdma.D a (i + 1))
      ((B' (i + 1) - val0 a'.dl i * Tdma.Q a' B' i) / Tdma.D a' (i + 1))
    refine S.cast ?_ (S.div hr1 (S.ok_mul hr1 hc1) (hz _ hi) (S.sub hr1 (hB _ hi) (S.cast ?_
      (S.mul (S.ok_mul hr1 hci) (S.ok_inv hci) (ha.dl i hi) (ih (by omega)))))
      (S.triD hr hc ha (i + 1) hi (fun k hk => hz k (by omega))))
    · have := S.ne_zero hr1
      have := S.ne_zero hc1
      field_simp
    · have := S.ne_zero hci
      field_simp

theorem triX {B B' X X' : Nat → T} (hr : ∀ i, i < n → S.ok (r i)) (hc : ∀ i, i < n → S.ok (c i))
    (ha : S.Tri n r c a a') (hz : ∀ k, k < n → ¬ IsZ (Tdma.D a k)) (hB : ∀ i, i < n → S.rel (r i) (B i) (B' i))
    (h : Tdma.BackEq a B n X) (h' : Tdma.BackEq a' B' n X') : ∀ i, i < n → S.rel (c i)⁻¹ (X i) (X' i) := by
  have : ∀ k i, i < n → n - i ≤ k → S.rel (c i)⁻¹ (X i) (X' i) := by
    intro k
    induction k with
    | zero => intro i hi hd; omega
    | succ k ih =>
      intro i hi hk
      by_cases hl : i = n - 1
      · subst hl
        rw [h.1, h'.1]
        exact S.triQ hr hc ha hz hB _ hi
      · rw [h.2 i (by omega), h'.2 i (by omega)]
        have hci := hc i hi
        have hc1 := hc (i + 1) (by omega)
        refine S.add (S.ok_inv hci) (S.cast ?_ (S.mul (S.ok_div hc1 hci) (S.ok_inv hc1)
          (S.triP hr hc ha hz i (by omega)) (ih (i + 1) (by omega) (by omega)))) (S.triQ hr hc ha hz hB i hi)
        have := S.ne_zero hci
        have := S.ne_zero hc1
        field_simp
  exact fun i hi => this (n - i) i hi (Nat.le_refl _)

end Scaling

end Lalib
