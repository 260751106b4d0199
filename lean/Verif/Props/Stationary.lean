import Verif.Proofs.Stationary
import Verif.Props.IluDom
import Mathlib.Algebra.Order.Archimedean.Basic

/-! # Property C103: iteration with incomplete factors -/

namespace Lalib.Props

open Lalib Finset

variable {M T : Type}

section
variable [Field T] [LinearOrder T] [IsStrictOrderedRing T] {ops : Bool → GOps M T} {ok : M → Prop}

omit [IsStrictOrderedRing T] in
/-- One step, for any matrix whose incomplete factors have no zero pivot: the change of `x` solves the system of the factors
for the residual. -/
theorem C103_step (hst : GStorage ops ok) (nd : Bool) (n : Nat) (a f : M) (A F : Nat → Nat → T) (hok : ok a)
    (hA : Shows (ops nd).toMatOps n a A) (hokf : ok f) (hF : Shows (ops nd).toMatOps n f F) (hd : ∀ i, i < n → F i i ≠ 0)
    (b x : List T) (hb : b.length = n) (hx : x.length = n) (ord : List Nat) (ho : ord.Perm (List.range n)) :
    ∃ y, iluStep (ops nd) ord a f b x = .ok y ∧ y.length = n ∧
      Solves n (luProd n F) (fun i => val0 y i - val0 x i) (fun i => val0 b i - mulVec n A (val0 x) i) := by
  obtain ⟨p, ep, hp, vp⟩ := hst.mul nd hok hA hx
  have er := subOp_eq (ord := ord) (x := b) (y := p) (by rw [hb]; exact ho) (by rw [hb, hp])
  obtain ⟨z, ez, hz, vz⟩ := C42_solve (hst.storage nd) n f F hokf hF hd (List.zipWith (· - ·) b p) (by simp [hb, hp])
  have ea := addOp_eq (ord := ord) (x := x) (y := z) (by rw [hx]; exact ho) (by rw [hx, hz])
  refine ⟨List.zipWith (· + ·) x z, by simp only [iluStep, ep, Lalib.ok_bind, er, ez, ea], ?_, ?_⟩
  · simp [hx, hz]
  · intro i hi
    have h1 := vz i hi
    rw [val0_of_lt (by simp [hb, hp, hi]), List.getElem_zipWith, ← val0_of_lt (by omega), ← val0_of_lt (by omega), vp i hi] at h1
    refine Eq.trans (sum_congr rfl fun j hj => ?_) h1
    have hj := mem_range.mp hj
    have e3 : val0 (List.zipWith (· + ·) x z) j = val0 x j + val0 z j := by
      rw [val0_of_lt (by simp [hx, hz, hj]), List.getElem_zipWith, ← val0_of_lt (by omega), ← val0_of_lt (by omega)]
    show luProd n F i j * (val0 (List.zipWith (· + ·) x z) j - val0 x j) = _
    rw [e3, add_sub_cancel_left]

omit [IsStrictOrderedRing T] in
/-- Nothing changes in a step exactly at the solutions of the system. -/
theorem C103_fixed (hst : GStorage ops ok) (nd : Bool) (n : Nat) (a f : M) (A F : Nat → Nat → T) (hok : ok a)
    (hA : Shows (ops nd).toMatOps n a A) (hokf : ok f) (hF : Shows (ops nd).toMatOps n f F) (hd : ∀ i, i < n → F i i ≠ 0)
    (b x : List T) (hb : b.length = n) (hx : x.length = n) (ord : List Nat) (ho : ord.Perm (List.range n)) :
    iluStep (ops nd) ord a f b x = .ok x ↔ Solves n A (val0 x) (val0 b) := by
  obtain ⟨y, e, hy, hs⟩ := C103_step hst nd n a f A F hok hA hokf hF hd b x hb hx ord ho
  constructor
  · intro h i hi
    have : y = x := Except.ok.inj (e.symm.trans h)
    subst this
    have := hs i hi
    simp only [sub_self, mulVec, mul_zero, sum_const_zero] at this ⊢
    linear_combination this
  · intro h
    have h0 : Solves n (luProd n F) (fun i => val0 y i - val0 x i) fun _ => 0 := fun i hi => by
      rw [hs i hi]; exact sub_eq_zero.mpr (h i hi).symm
    have hz := lu_zero hd h0
    rw [e]
    congr 1
    refine List.ext_getElem (by omega) fun i h1 h2 => ?_
    have := hz i (by omega)
    rw [val0_of_lt h1, val0_of_lt h2] at this
    exact sub_eq_zero.mp this

omit [LinearOrder T] [IsStrictOrderedRing T] in
theorem step_error {n : Nat} {A P : Nat → Nat → T} {x y z b : Nat → T} (hz : Solves n A z b)
    (hy : Solves n P (fun i => y i - x i) (fun i => b i - mulVec n A x i)) :
    Solves n P (fun i => y i - z i) (mulVec n (fun i j => P i j - A i j) fun i => x i - z i) := by
  intro i hi
  have h1 := hy i hi
  have h2 := hz i hi
  simp only [mulVec, mul_sub, sub_mul, sum_sub_distrib] at h1 h2 ⊢
  rw [h2]
  linear_combination h1

/-- The error of `k` steps, from a bound for the pivots. -/
theorem times_error (hst : GStorage ops ok) (nd : Bool) (n : Nat) (a f : M) (A F : Nat → Nat → T) (w : Nat → T) (hok : ok a)
    (hA : Shows (ops nd).toMatOps n a A) (hw : WeightDom n A w) (hokf : ok f) (hF : Shows (ops nd).toMatOps n f F)
    (hI : IsIlu n A F) (hd : ∀ i, i < n → F i i ≠ 0) (b : List T) (hb : b.length = n) (z : Nat → T) (hz : Solves n A z (val0 b))
    (ord : List Nat) (ho : ord.Perm (List.range n)) (rho : T) (h0 : 0 ≤ rho)
    (hr : ∀ i, i < n → |F i i| * w i * (1 - rho) ≤ rowGap n A w i) (x : List T) (hx : x.length = n) (s : T) (hs : 0 ≤ s)
    (he : ErrLe n w (val0 x) z s) (k : Nat) :
    ∃ y, iluTimes (ops nd) ord a f b k x = .ok y ∧ y.length = n ∧ ErrLe n w (val0 y) z (s * rho ^ k) := by
  induction k with
  | zero => exact ⟨x, rfl, hx, by rwa [pow_zero, mul_one]⟩
  | succ k ih =>
    obtain ⟨y, ey, hy, hey⟩ := ih
    obtain ⟨y', ey', hy', hs'⟩ := C103_step hst nd n a f A F hok hA hokf hF hd b y hb hy ord ho
    refine ⟨y', by simp only [iluTimes, ey, Lalib.ok_bind, ey'], hy', fun i hi => ?_⟩
    have s0 : 0 ≤ s * rho ^ k := mul_nonneg hs (pow_nonneg h0 k)
    have h1 := drop_error hw hI.pat s0 hey (step_error hz hs') i hi
    refine le_of_mul_le_mul_left (h1.trans ?_) (abs_pos.mpr (hd i hi))
    have h2 := mul_le_mul_of_nonneg_left (hr i hi) s0
    rw [pow_succ]
    linarith

/-- The constructor does not throw, and the error, measured with the weights, is multiplied by at most `rho` in every step, where
`rho ≥ 1 - gap / (2 |a_ii| w_i)` in all rows.  Nothing is assumed about the pattern. -/
theorem C103_converges (hst : GStorage ops ok) (nd : Bool) (n : Nat) (a : M) (A : Nat → Nat → T) (w : Nat → T) (hok : ok a)
    (hA : Shows (ops nd).toMatOps n a A) (hw : WeightDom n A w) :
    ∃ f, Ilu.new (ops nd).toMatOps a = .ok f ∧ ∀ b : List T, b.length = n → ∀ z, Solves n A z (val0 b) →
      ∀ ord : List Nat, ord.Perm (List.range n) → ∀ rho, 0 ≤ rho → (∀ i, i < n → 2 * |A i i| * w i * (1 - rho) ≤ rowGap n A w i) →
      ∀ x : List T, x.length = n → ∀ s, 0 ≤ s → ErrLe n w (val0 x) z s →
      ∀ k, ∃ y, iluTimes (ops nd) ord a f b k x = .ok y ∧ y.length = n ∧ ErrLe n w (val0 y) z (s * rho ^ k) := by
  obtain ⟨f, F, e, hf, hS, hI, hd, _⟩ := C86_factor (hst.storage nd) n a A w hok hA hw
  have hdr := dom_rows hw le_rfl (isIlu_iff.mp hI)
  refine ⟨f, e, fun b hb z hz ord ho rho h0 hr x hx s hs he k => times_error hst nd n a f A F w hok hA hw hf hS hI
    (fun i hi => left_ne_zero_of_mul (hd i hi).ne') b hb z hz ord ho rho h0 (fun i hi => ?_) x hx s hs he k⟩
  have h1 := (hdr i hi).2
  have h2 : |F i i| ≤ 2 * |A i i| := by
    have := abs_sub (A i i) (A i i - F i i)
    rw [sub_sub_cancel] at this
    linarith
  rcases le_total rho 1 with h | h
  · refine le_trans ?_ (hr i hi)
    exact mul_le_mul_of_nonneg_right (mul_le_mul_of_nonneg_right h2 (hw.pos i hi).le) (by linarith)
  · exact (mul_nonpos_of_nonneg_of_nonpos (mul_nonneg (abs_nonneg _) (hw.pos i hi).le) (by linarith)).trans (hw.gap i hi).le

/-- M-matrices: the rate that Jacobi's iteration has, `rho ≥ 1 - (A w)_i / (a_ii w_i)`. -/
theorem C103_m_matrix (hst : GStorage ops ok) (nd : Bool) (n : Nat) (a : M) (A : Nat → Nat → T) (w : Nat → T) (hok : ok a)
    (hA : Shows (ops nd).toMatOps n a A) (hm : MMatrix n A w) :
    ∃ f, Ilu.new (ops nd).toMatOps a = .ok f ∧ ∀ b : List T, b.length = n → ∀ z, Solves n A z (val0 b) →
      ∀ ord : List Nat, ord.Perm (List.range n) → ∀ rho, 0 ≤ rho →
      (∀ i, i < n → A i i * w i * (1 - rho) ≤ ∑ j ∈ range n, A i j * w j) →
      ∀ x : List T, x.length = n → ∀ s, 0 ≤ s → ErrLe n w (val0 x) z s →
      ∀ k, ∃ y, iluTimes (ops nd) ord a f b k x = .ok y ∧ y.length = n ∧ ErrLe n w (val0 y) z (s * rho ^ k) := by
  obtain ⟨f, F, e, hf, hS, hI, hd, _⟩ := C86_factor (hst.storage nd) n a A w hok hA hm.dom
  have hp : ∀ i, i < n → 0 < F i i := fun i hi => (pos_iff_pos_of_mul_pos (hd i hi)).mpr (hm.diag i hi)
  have hs := m_signs hp hm.off (isIlu_iff.mp hI)
  refine ⟨f, e, fun b hb z hz ord ho rho h0 hr x hx s hs' he k => times_error hst nd n a f A F w hok hA hm.dom hf hS hI
    (fun i hi => (hp i hi).ne') b hb z hz ord ho rho h0 (fun i hi => ?_) x hx s hs' he k⟩
  have hg : rowGap n A w i = ∑ j ∈ range n, A i j * w j := by
    rw [rowGap, ← add_sum_erase _ _ (mem_range.mpr hi), abs_of_pos (hm.diag i hi), sub_eq_add_neg, ← sum_neg_distrib]
    congr 1
    refine sum_congr rfl fun j hj => ?_
    have hj := mem_erase.mp hj
    rw [abs_of_nonpos (hm.off i j hi (mem_range.mp hj.2) (Ne.symm hj.1)), neg_mul, neg_neg]
  rw [abs_of_pos (hp i hi)]
  rcases le_total rho 1 with h | h
  · rw [hg]
    refine le_trans ?_ (hr i hi)
    exact mul_le_mul_of_nonneg_right (mul_le_mul_of_nonneg_right (m_pivot hm hI hs hi) (hm.pos i hi).le) (by linarith)
  · exact (mul_nonpos_of_nonneg_of_nonpos (mul_nonneg (hp i hi).le (hm.pos i hi).le) (by linarith)).trans (hm.dom.gap i hi).le

/-- From every starting vector the iteration comes as close to the solution as one likes, and stays there. -/
theorem C103_limit [Archimedean T] (hst : GStorage ops ok) (nd : Bool) (n : Nat) (a : M) (A : Nat → Nat → T) (w : Nat → T) (hok : ok a)
    (hA : Shows (ops nd).toMatOps n a A) (hw : WeightDom n A w) :
    ∃ f, Ilu.new (ops nd).toMatOps a = .ok f ∧ ∀ b : List T, b.length = n → ∀ z, Solves n A z (val0 b) →
      ∀ ord : List Nat, ord.Perm (List.range n) → ∀ x : List T, x.length = n → ∀ eps, 0 < eps →
      ∃ K, ∀ k, K ≤ k → ∃ y, iluTimes (ops nd) ord a f b k x = .ok y ∧ y.length = n ∧ ∀ i, i < n → |val0 y i - z i| < eps := by
  obtain ⟨f, e, h⟩ := C103_converges hst nd n a A w hok hA hw
  refine ⟨f, e, fun b hb z hz ord ho x hx eps hp => ?_⟩
  -- the rate
  obtain ⟨rho, r0, r1, hr⟩ : ∃ rho : T, 0 ≤ rho ∧ rho < 1 ∧ ∀ i, i < n → 2 * |A i i| * w i * (1 - rho) ≤ rowGap n A w i := by
    have hpos : ∀ i, i < n → 0 < 2 * |A i i| * w i := fun i hi =>
      mul_pos (mul_pos two_pos (abs_pos.mpr (hw.diag_ne hi))) (hw.pos i hi)
    rcases Nat.eq_zero_or_pos n with rfl | hn
    · exact ⟨0, le_rfl, one_pos, fun i hi => absurd hi (by omega)⟩
    · obtain ⟨i, hi, hmin⟩ := exists_min_image (range n) (fun i => rowGap n A w i / (2 * |A i i| * w i)) ⟨0, mem_range.mpr hn⟩
      have hi := mem_range.mp hi
      have g1 : rowGap n A w i / (2 * |A i i| * w i) ≤ 1 := by
        rw [div_le_one (hpos i hi), rowGap]
        have : 0 ≤ ∑ j ∈ (range n).erase i, |A i j| * w j :=
          sum_nonneg fun j hj => mul_nonneg (abs_nonneg _) (hw.pos j (mem_range.mp (mem_erase.mp hj).2)).le
        have := mul_nonneg (abs_nonneg (A i i)) (hw.pos i hi).le
        linarith
      refine ⟨1 - rowGap n A w i / (2 * |A i i| * w i), by linarith, by
        have := div_pos (hw.gap i hi) (hpos i hi); linarith, fun j hj => ?_⟩
      have := hmin j (mem_range.mpr hj)
      rw [le_div_iff₀ (hpos j hj)] at this
      rw [sub_sub_cancel]
      linarith
  -- the start
  obtain ⟨s, s0, hs⟩ : ∃ s, 0 ≤ s ∧ ErrLe n w (val0 x) z s := by
    refine ⟨∑ i ∈ range n, |val0 x i - z i| / w i, sum_nonneg fun i hi => div_nonneg (abs_nonneg _) (hw.pos i (mem_range.mp hi)).le,
      fun i hi => ?_⟩
    rw [← div_le_iff₀ (hw.pos i hi)]
    exact single_le_sum (f := fun i => |val0 x i - z i| / w i)
      (fun j hj => div_nonneg (abs_nonneg _) (hw.pos j (mem_range.mp hj)).le) (mem_range.mpr hi)
  obtain ⟨W, W0, hW⟩ : ∃ W : T, 0 < W ∧ ∀ i, i < n → w i ≤ W := by
    refine ⟨1 + ∑ i ∈ range n, w i, ?_, fun i hi => ?_⟩
    · have := sum_nonneg fun i hi => (hw.pos i (mem_range.mp hi)).le
      linarith
    · have := single_le_sum (f := w) (fun j hj => (hw.pos j (mem_range.mp hj)).le) (mem_range.mpr hi)
      linarith
  have hden : 0 < (s + 1) * W := mul_pos (by linarith) W0
  obtain ⟨K, hK⟩ := exists_pow_lt_of_lt_one (div_pos hp hden) r1
  refine ⟨K, fun k hk => ?_⟩
  obtain ⟨y, ey, hy, hey⟩ := h b hb z hz ord ho rho r0 hr x hx s s0 hs k
  refine ⟨y, ey, hy, fun i hi => (hey i hi).trans_lt ?_⟩
  have h1 : rho ^ k ≤ rho ^ K := pow_le_pow_of_le_one r0 r1.le hk
  rw [lt_div_iff₀ hden] at hK
  have h2 : s * rho ^ k * w i ≤ s * rho ^ K * W := by
    refine mul_le_mul (mul_le_mul_of_nonneg_left h1 s0) (hW i hi) (hw.pos i hi).le (mul_nonneg s0 (pow_nonneg r0 _))
  have h3 : 0 ≤ rho ^ K * W := mul_nonneg (pow_nonneg r0 _) W0.le
  nlinarith

/-- M-matrices: from a vector with `A x ≤ b` the iterates grow and stay below the solution. -/
theorem C103_monotone (hst : GStorage ops ok) (nd : Bool) (n : Nat) (a : M) (A : Nat → Nat → T) (w : Nat → T) (hok : ok a)
    (hA : Shows (ops nd).toMatOps n a A) (hm : MMatrix n A w) :
    ∃ f, Ilu.new (ops nd).toMatOps a = .ok f ∧ ∀ b : List T, b.length = n → ∀ z, Solves n A z (val0 b) →
      ∀ ord : List Nat, ord.Perm (List.range n) → ∀ x : List T, x.length = n → (∀ i, i < n → mulVec n A (val0 x) i ≤ val0 b i) →
      ∀ k, ∃ y y', iluTimes (ops nd) ord a f b k x = .ok y ∧ iluTimes (ops nd) ord a f b (k + 1) x = .ok y' ∧
        y.length = n ∧ y'.length = n ∧
        ∀ i, i < n → val0 y i ≤ val0 y' i ∧ val0 y' i ≤ z i ∧ mulVec n A (val0 y') i ≤ val0 b i := by
  obtain ⟨f, F, e, hf, hS, hI, hd, _⟩ := C86_factor (hst.storage nd) n a A w hok hA hm.dom
  have hp : ∀ i, i < n → 0 < F i i := fun i hi => (pos_iff_pos_of_mul_pos (hd i hi)).mpr (hm.diag i hi)
  have hs := m_signs hp hm.off (isIlu_iff.mp hI)
  refine ⟨f, e, fun b hb z hz ord ho x hx hbx k => ?_⟩
  have step : ∀ y : List T, y.length = n → (∀ i, i < n → mulVec n A (val0 y) i ≤ val0 b i) →
      ∃ y', iluStep (ops nd) ord a f b y = .ok y' ∧ y'.length = n ∧
        ∀ i, i < n → val0 y i ≤ val0 y' i ∧ val0 y' i ≤ z i ∧ mulVec n A (val0 y') i ≤ val0 b i := by
    intro y hy hby
    obtain ⟨y', ey', hy', hs'⟩ := C103_step hst nd n a f A F hok hA hf hS (fun i hi => (hp i hi).ne') b y hb hy ord ho
    have up : ∀ i, i < n → 0 ≤ val0 y' i - val0 y i :=
      m_solve hp hs (fun i hi => lu_fwd hs' hi) (fun i hi => lu_back hi) fun i hi => sub_nonneg.mpr (hby i hi)
    have le : ∀ i, i < n → mulVec n A (val0 y') i ≤ val0 b i := by
      intro i hi
      have h1 := hs' i hi
      have h2 : 0 ≤ ∑ j ∈ range n, (luProd n F i j - A i j) * (val0 y' j - val0 y j) :=
        sum_nonneg fun j hj => mul_nonneg (m_dropped hI hs hi (mem_range.mp hj)) (up j (mem_range.mp hj))
      simp only [mulVec, mul_sub, sub_mul, sum_sub_distrib] at h1 h2 ⊢
      linarith
    refine ⟨y', ey', hy', fun i hi => ⟨sub_nonneg.mp (up i hi), ?_, le i hi⟩⟩
    refine sub_nonneg.mp (hm.nonneg (y := fun i => z i - val0 y' i) (fun i hi => ?_) i hi)
    have h1 := hz i hi
    have h2 := le i hi
    simp only [mulVec, mul_sub, sum_sub_distrib] at h1 h2 ⊢
    linarith
  have run : ∀ k, ∃ y, iluTimes (ops nd) ord a f b k x = .ok y ∧ y.length = n ∧ ∀ i, i < n → mulVec n A (val0 y) i ≤ val0 b i := by
    intro k
    induction k with
    | zero => exact ⟨x, rfl, hx, hbx⟩
    | succ k ih =>
      obtain ⟨y, ey, hy, hby⟩ := ih
      obtain ⟨y', ey', hy', h⟩ := step y hy hby
      exact ⟨y', by simp only [iluTimes, ey, Lalib.ok_bind, ey'], hy', fun i hi => (h i hi).2.2⟩
  obtain ⟨y, ey, hy, hby⟩ := run k
  obtain ⟨y', ey', hy', h⟩ := step y hy hby
  exact ⟨y, y', ey, by simp only [iluTimes, ey, Lalib.ok_bind, ey'], hy, hy', h⟩

end

/-! ## A matrix without dominating diagonal -/

/-- The factorisation succeeds (one entry is dropped) and the system is regular, but the last component of the error is multiplied
by -2 in every step. -/
theorem C103_any_matrix_false (nd : Bool) :
    ∃ f, Ilu.new (dGOps nd).toMatOps (⟨3, 3, [1, 0, 2, 1, 1, 0, 0, 1, 1]⟩ : DMat ℚ) = .ok f ∧
      minor (fun i j => val0 ([1, 0, 2, 1, 1, 0, 0, 1, 1] : List ℚ) (3 * i + j)) 3 = 3 ∧
      ∀ b : List ℚ, b.length = 3 → ∀ z, Solves 3 (fun i j => val0 [1, 0, 2, 1, 1, 0, 0, 1, 1] (3 * i + j)) z (val0 b) →
      ∀ ord : List Nat, ord.Perm (List.range 3) → ∀ x : List ℚ, x.length = 3 → ∀ k, ∃ y,
        iluTimes (dGOps nd) ord ⟨3, 3, [1, 0, 2, 1, 1, 0, 0, 1, 1]⟩ f b k x = .ok y ∧ y.length = 3 ∧
        val0 y 2 - z 2 = (-2) ^ k * (val0 x 2 - z 2) := by
  refine ⟨⟨3, 3, [1, 0, 2, 1, 1, 0, 0, 1, 1]⟩, ?_, ?_, fun b hb z hz ord ho x hx k => ?_⟩
  · show Ilu.new dOps (⟨3, 3, [1, 0, 2, 1, 1, 0, 0, 1, 1]⟩ : DMat ℚ) = _
    decide +kernel
  · unfold minor
    rw [Matrix.det_fin_three]
    decide +kernel
  have sh : Shows (dGOps nd).toMatOps 3 (⟨3, 3, [1, 0, 2, 1, 1, 0, 0, 1, 1]⟩ : DMat ℚ)
      (fun i j => val0 [1, 0, 2, 1, 1, 0, 0, 1, 1] (3 * i + j)) := by
    refine ⟨rfl, fun i j hi hj => ?_⟩
    have : ∀ i, i < 3 → ∀ j, j < 3 → (dOps : MatOps (DMat ℚ) ℚ).get ⟨3, 3, [1, 0, 2, 1, 1, 0, 0, 1, 1]⟩ i j =
      .ok (val0 [1, 0, 2, 1, 1, 0, 0, 1, 1] (3 * i + j)) := by decide +kernel
    exact this i hi j hj
  induction k with
  | zero => exact ⟨x, rfl, hx, by simp⟩
  | succ k ih =>
    obtain ⟨y, ey, hy, hey⟩ := ih
    obtain ⟨y', ey', hy', hs⟩ := C103_step .dense nd 3 _ _ _ _ rfl sh rfl sh (by decide +kernel) b y hb hy ord ho
    refine ⟨y', by simp only [iluTimes, ey, Lalib.ok_bind, ey'], hy', ?_⟩
    have h := step_error hz hs
    have h0 := h 0 (by omega)
    have h1 := h 1 (by omega)
    have h2 := h 2 (by omega)
    simp [mulVec, luProd, sum_range_succ, unitLow, upper, val0] at h0 h1 h2
    have h3 : val0 y' 2 - z 2 = -2 * (val0 y 2 - z 2) := by
      show y'[2]?.getD 0 - z 2 = -2 * (y[2]?.getD 0 - z 2)
      linear_combination h2 - h1 + h0
    rw [h3, hey, pow_succ]
    ring

/-! ## Concrete cases -/

/-- The ring of four unknowns of C86 has the rate 1/2: the gap of each row is 2, the diagonal 4. -/
example : MMatrix 4 exDom (fun _ => 1) ∧ ∀ i, i < 4 → exDom i i * 1 * (1 - 1 / 2) ≤ ∑ j ∈ range 4, exDom i j * 1 := by
  refine ⟨⟨by decide +kernel, fun i j hi hj => ?_, by decide +kernel, by decide +kernel⟩, by decide +kernel⟩
  have : ∀ i, i < 4 → ∀ j, j < 4 → i ≠ j → exDom i j ≤ 0 := by decide +kernel
  exact this i hi j hj

/-- Two steps from zero for the right-hand side (2, 2, 2, 2), whose solution is (1, 1, 1, 1). -/
example : (do
    let a : DMat ℚ := ⟨4, 4, [4, -1, 0, -1, -1, 4, -1, 0, 0, -1, 4, -1, -1, 0, -1, 4]⟩
    let f ← Ilu.new dOps a
    iluTimes (dGOps false) [0, 1, 2, 3] a f [2, 2, 2, 2] 2 [0, 0, 0, 0]) = .ok [337 / 338, 168 / 169, 337 / 338, 168 / 169] := by
  decide +kernel

end Lalib.Props
