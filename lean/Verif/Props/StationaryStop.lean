import Verif.Spec.StationaryStop
import Verif.Proofs.GmresDom
import Verif.Props.Stationary

/-! # Property C103: the iteration that stops when nothing changes much -/

namespace Lalib.Props

open Lalib Finset

variable {M T : Type}

section
variable [Field T] [LinearOrder T] [IsStrictOrderedRing T] {ops : Bool → GOps M T} {ok : M → Prop}

omit [IsStrictOrderedRing T] in
theorem iluTimes_step {o : GOps M T} {ord : List Nat} {a f : M} {b x y : List T} (h : iluStep o ord a f b x = .ok y) (k : Nat) :
    iluTimes o ord a f b (k + 1) x = iluTimes o ord a f b k y := by
  induction k with
  | zero => simp [iluTimes, h]
  | succ k ih => rw [iluTimes, ih]; rfl

/-- A small change proves a small error. -/
theorem change_error {n : Nat} {w x y z : Nat → T} {rho q : T} (hw : ∀ i, i < n → 0 < w i) (r0 : 0 ≤ rho) (q0 : 0 ≤ q)
    (hstep : ∀ s, 0 ≤ s → ErrLe n w x z s → ErrLe n w y z (s * rho)) (hq : ErrLe n w y x q) (i : Nat) (hi : i < n) :
    (1 - rho) * |y i - z i| ≤ rho * q * w i := by
  obtain ⟨m, hm, hmax⟩ := exists_max_image (range n) (fun i => |y i - z i| / w i) ⟨i, mem_range.mpr hi⟩
  have hm := mem_range.mp hm
  set s := |y m - z m| / w m with hs
  have s0 : 0 ≤ s := div_nonneg (abs_nonneg _) (hw m hm).le
  have hy : ∀ j, j < n → |y j - z j| ≤ s * w j := fun j hj => by
    have := hmax j (mem_range.mpr hj)
    rwa [div_le_iff₀ (hw j hj)] at this
  have hx : ErrLe n w x z (s + q) := fun j hj => by
    have e : x j - z j = (y j - z j) - (y j - x j) := by ring
    rw [e, add_mul]
    exact (abs_sub _ _).trans (add_le_add (hy j hj) (hq j hj))
  have h1 := hstep _ (add_nonneg s0 q0) hx m hm
  rw [← div_le_iff₀ (hw m hm), ← hs] at h1
  rcases le_total rho 1 with h | h
  · have h2 := mul_le_mul_of_nonneg_left (hy i hi) (sub_nonneg.mpr h)
    have h3 : (1 - rho) * s ≤ rho * q := by linarith
    have h4 := mul_le_mul_of_nonneg_right h3 (hw i hi).le
    linarith
  · exact (mul_nonpos_of_nonpos_of_nonneg (by linarith) (abs_nonneg _)).trans
      (mul_nonneg (mul_nonneg r0 q0) (hw i hi).le)

variable [Sqrt T] [LawfulSqrt T]

/-- `(y - x).norm2()`. -/
theorem change_run {n : Nat} {ord : List Nat} {x y : List T} (hx : x.length = n) (hy : y.length = n) (ho : ord.Perm (List.range n)) :
    ∃ c d, subOp ord y x = .ok c ∧ Gmres.norm2 c = .ok d ∧ 0 ≤ d ∧ d ^ 2 = normSq n fun i => val0 y i - val0 x i := by
  have e := subOp_eq (ord := ord) (x := y) (y := x) (by rw [hy]; exact ho) (by rw [hx, hy])
  have hl : (List.zipWith (· - ·) y x).length = n := by simp [hx, hy]
  obtain ⟨d, ed, d0, hd⟩ := Gmres.norm2_eq hl
  refine ⟨_, d, e, ed, d0, ?_⟩
  rw [sq, hd, normSq, dotProduct, ← Fin.sum_univ_eq_sum_range (fun i => (val0 y i - val0 x i) ^ 2)]
  refine sum_congr rfl fun i _ => ?_
  have : Gmres.toE n (List.zipWith (· - ·) y x) i = val0 y i - val0 x i := by
    unfold Gmres.toE
    rw [val0_of_lt (by omega), List.getElem_zipWith, ← val0_of_lt (by omega), ← val0_of_lt (by omega)]
  rw [this, sq]

private theorem until_run (hst : GStorage ops ok) (nd : Bool) (n : Nat) (a f : M) (A F : Nat → Nat → T) (hok : ok a)
    (hA : Shows (ops nd).toMatOps n a A) (hokf : ok f) (hF : Shows (ops nd).toMatOps n f F) (hd : ∀ i, i < n → F i i ≠ 0)
    (b : List T) (hb : b.length = n) (ord : List Nat) (ho : ord.Perm (List.range n)) (tol : T) (t0 : 0 < tol) (z : Nat → T) (eps : T)
    (he : (n : T) * (2 * eps) ^ 2 < tol ^ 2) (K : Nat) :
    ∀ x : List T, x.length = n → (∀ k, K ≤ k → ∃ y, iluTimes (ops nd) ord a f b k x = .ok y ∧ ∀ i, i < n → |val0 y i - z i| < eps) →
      ∃ x' y, (∀ k, K < k → iluUntil (ops nd) ord a f b tol k x = .ok (some y)) ∧ x'.length = n ∧ y.length = n ∧
        iluStep (ops nd) ord a f b x' = .ok y ∧ normSq n (fun i => val0 y i - val0 x' i) < tol ^ 2 := by
  induction K with
  | zero =>
    intro x hx h
    obtain ⟨y, ey, hy, -⟩ := C103_step hst nd n a f A F hok hA hokf hF hd b x hb hx ord ho
    obtain ⟨c, d, ec, ed, d0, hdd⟩ := change_run hx hy ho
    obtain ⟨x1, e1, h1⟩ := h 0 le_rfl
    obtain ⟨y1, e2, h2⟩ := h 1 (by omega)
    rw [iluTimes_step ey] at e2
    obtain rfl : x = x1 := Except.ok.inj e1
    obtain rfl : y = y1 := Except.ok.inj e2
    have hn : normSq n (fun i => val0 y i - val0 x i) < tol ^ 2 := by
      refine lt_of_le_of_lt ?_ he
      unfold normSq
      have := sum_le_card_nsmul (range n) (fun i => (val0 y i - val0 x i) ^ 2) ((2 * eps) ^ 2) fun i hi => by
        have hi := mem_range.mp hi
        rw [← sq_abs]
        refine pow_le_pow_left₀ (abs_nonneg _) ?_ 2
        have e : val0 y i - val0 x i = (val0 y i - z i) - (val0 x i - z i) := by ring
        rw [e]
        linarith [abs_sub (val0 y i - z i) (val0 x i - z i), h1 i hi, h2 i hi]
      rwa [card_range, nsmul_eq_mul] at this
    refine ⟨x, y, fun k hk => ?_, hx, hy, ey, hn⟩
    obtain ⟨k, rfl⟩ : ∃ j, k = j + 1 := ⟨k - 1, by omega⟩
    rw [← hdd] at hn
    simp only [iluUntil, ey, ec, ed, Lalib.ok_bind, if_pos (lt_of_pow_lt_pow_left₀ 2 t0.le hn)]
  | succ K ih =>
    intro x hx h
    obtain ⟨y, ey, hy, -⟩ := C103_step hst nd n a f A F hok hA hokf hF hd b x hb hx ord ho
    obtain ⟨c, d, ec, ed, d0, hdd⟩ := change_run hx hy ho
    by_cases hlt : d < tol
    · refine ⟨x, y, fun k hk => ?_, hx, hy, ey, by rw [← hdd]; exact pow_lt_pow_left₀ hlt d0 (by omega)⟩
      obtain ⟨k, rfl⟩ : ∃ j, k = j + 1 := ⟨k - 1, by omega⟩
      simp only [iluUntil, ey, ec, ed, Lalib.ok_bind, if_pos hlt]
    · obtain ⟨x', y', hu, h1, h2, h3, h4⟩ := ih y hy fun k hk => by
        rw [← iluTimes_step ey]; exact h (k + 1) (by omega)
      refine ⟨x', y', fun k hk => ?_, h1, h2, h3, h4⟩
      obtain ⟨k, rfl⟩ : ∃ j, k = j + 1 := ⟨k - 1, by omega⟩
      simp only [iluUntil, ey, ec, ed, Lalib.ok_bind, if_neg hlt]
      exact hu k (by omega)

private theorem stop_error [Archimedean T] (hst : GStorage ops ok) (nd : Bool) (n : Nat) (a f : M) (A F : Nat → Nat → T) (w : Nat → T)
    (hok : ok a) (hA : Shows (ops nd).toMatOps n a A) (hw : WeightDom n A w) (hf : ok f) (hF : Shows (ops nd).toMatOps n f F)
    (hI : IsIlu n A F) (hd : ∀ i, i < n → F i i ≠ 0) (ef : Ilu.new (ops nd).toMatOps a = .ok f) (b : List T) (hb : b.length = n)
    (z : Nat → T) (hz : Solves n A z (val0 b)) (ord : List Nat) (ho : ord.Perm (List.range n)) (tol : T) (t0 : 0 < tol)
    (x : List T) (hx : x.length = n) :
    ∃ K y, (∀ k, K ≤ k → iluUntil (ops nd) ord a f b tol k x = .ok (some y)) ∧ y.length = n ∧
      ∀ rho, 0 ≤ rho → (∀ i, i < n → |F i i| * w i * (1 - rho) ≤ rowGap n A w i) →
      ∀ l, 0 < l → (∀ i, i < n → l ≤ w i) → ∀ i, i < n → l * (1 - rho) * |val0 y i - z i| ≤ rho * tol * w i := by
  obtain ⟨f', ef', hlim⟩ := C103_limit hst nd n a A w hok hA hw
  obtain rfl : f = f' := Except.ok.inj (ef.symm.trans ef')
  have n0 : (0 : T) < n + 1 := by positivity
  have p0 : 0 < tol / (2 * (n + 1)) := div_pos t0 (by positivity)
  obtain ⟨K, hK⟩ := hlim b hb z hz ord ho x hx (tol / (2 * (n + 1))) p0
  obtain ⟨x', y, hu, hx', hy, es, hn⟩ := until_run hst nd n a f A F hok hA hf hF hd b hb ord ho tol t0 z (tol / (2 * (n + 1)))
    (by
      have e : (n : T) * (2 * (tol / (2 * (n + 1)))) ^ 2 = tol ^ 2 * (n / (n + 1) ^ 2) := by field_simp
      rw [e]
      refine mul_lt_of_lt_one_right (by positivity) ?_
      rw [div_lt_one (by positivity)]
      have : (0 : T) ≤ n := Nat.cast_nonneg n
      nlinarith) K x hx
    fun k hk => by obtain ⟨y, ey, -, hey⟩ := hK k hk; exact ⟨y, ey, hey⟩
  refine ⟨K + 1, y, fun k hk => hu k (by omega), hy, fun rho r0 hr l l0 hl i hi => ?_⟩
  have h := change_error (y := val0 y) (x := val0 x') (z := z) (q := tol / l) (rho := rho) hw.pos r0 (div_nonneg t0.le l0.le)
    (fun s s0 hs => by
      obtain ⟨y1, e1, -, h1⟩ := times_error hst nd n a f A F w hok hA hw hf hF hI hd b hb z hz ord ho rho r0 hr x' hx' s s0 hs 1
      rw [iluTimes_step es] at e1
      obtain rfl : y = y1 := Except.ok.inj e1
      rwa [pow_one] at h1)
    (fun j hj => by
      refine (comp_lt t0 hn hj).trans ?_
      rw [div_mul_eq_mul_div, le_div_iff₀ l0]
      exact mul_le_mul_of_nonneg_left (hl j hj) t0.le) i hi
  have h2 := mul_le_mul_of_nonneg_left h l0.le
  have e : l * (rho * (tol / l) * w i) = rho * tol * w i := by field_simp
  linarith

/-- The loop ends, and the tolerance bounds the error of its result. -/
theorem C103_stop [Archimedean T] (hst : GStorage ops ok) (nd : Bool) (n : Nat) (a : M) (A : Nat → Nat → T) (w : Nat → T) (hok : ok a)
    (hA : Shows (ops nd).toMatOps n a A) (hw : WeightDom n A w) :
    ∃ f, Ilu.new (ops nd).toMatOps a = .ok f ∧ ∀ b : List T, b.length = n → ∀ z, Solves n A z (val0 b) →
      ∀ ord : List Nat, ord.Perm (List.range n) → ∀ tol, 0 < tol → ∀ x : List T, x.length = n →
      ∃ K y, (∀ k, K ≤ k → iluUntil (ops nd) ord a f b tol k x = .ok (some y)) ∧ y.length = n ∧
        ∀ rho, 0 ≤ rho → (∀ i, i < n → 2 * |A i i| * w i * (1 - rho) ≤ rowGap n A w i) →
        ∀ l, 0 < l → (∀ i, i < n → l ≤ w i) → ∀ i, i < n → l * (1 - rho) * |val0 y i - z i| ≤ rho * tol * w i := by
  obtain ⟨f, F, e, hf, hS, hI, hd, _⟩ := C86_factor (hst.storage nd) n a A w hok hA hw
  refine ⟨f, e, fun b hb z hz ord ho tol t0 x hx => ?_⟩
  obtain ⟨K, y, hu, hy, h⟩ := stop_error hst nd n a f A F w hok hA hw hf hS hI (fun i hi => left_ne_zero_of_mul (hd i hi).ne') e b hb z hz
    ord ho tol t0 x hx
  exact ⟨K, y, hu, hy, fun rho r0 hr => h rho r0 fun i hi => pivot_rate hw hI hr hi⟩

/-- M-matrices, with the rate of Jacobi's iteration. -/
theorem C103_stop_m_matrix [Archimedean T] (hst : GStorage ops ok) (nd : Bool) (n : Nat) (a : M) (A : Nat → Nat → T) (w : Nat → T)
    (hok : ok a) (hA : Shows (ops nd).toMatOps n a A) (hm : MMatrix n A w) :
    ∃ f, Ilu.new (ops nd).toMatOps a = .ok f ∧ ∀ b : List T, b.length = n → ∀ z, Solves n A z (val0 b) →
      ∀ ord : List Nat, ord.Perm (List.range n) → ∀ tol, 0 < tol → ∀ x : List T, x.length = n →
      ∃ K y, (∀ k, K ≤ k → iluUntil (ops nd) ord a f b tol k x = .ok (some y)) ∧ y.length = n ∧
        ∀ rho, 0 ≤ rho → (∀ i, i < n → A i i * w i * (1 - rho) ≤ ∑ j ∈ range n, A i j * w j) →
        ∀ l, 0 < l → (∀ i, i < n → l ≤ w i) → ∀ i, i < n → l * (1 - rho) * |val0 y i - z i| ≤ rho * tol * w i := by
  obtain ⟨f, F, e, hf, hS, hI, hd, _⟩ := C86_factor (hst.storage nd) n a A w hok hA hm.dom
  have hp : ∀ i, i < n → 0 < F i i := fun i hi => (pos_iff_pos_of_mul_pos (hd i hi)).mpr (hm.diag i hi)
  refine ⟨f, e, fun b hb z hz ord ho tol t0 x hx => ?_⟩
  obtain ⟨K, y, hu, hy, h⟩ := stop_error hst nd n a f A F w hok hA hm.dom hf hS hI (fun i hi => (hp i hi).ne') e b hb z hz
    ord ho tol t0 x hx
  exact ⟨K, y, hu, hy, fun rho r0 hr => h rho r0 fun i hi => pivot_rate_m hm hI hp hr hi⟩

end

/-! ## A concrete case -/

/-- `[[2, -1], [-1, 2]]`. -/
noncomputable def stA (i j : Nat) : ℝ := if i = j then 2 else -1

theorem stA_shows : Shows (dGOps false).toMatOps 2 (⟨2, 2, [2, -1, -1, 2]⟩ : DMat ℝ) stA := by
  refine ⟨rfl, fun i j hi hj => ?_⟩
  have : i = 0 ∨ i = 1 := by omega
  have : j = 0 ∨ j = 1 := by omega
  rcases ‹i = 0 ∨ i = 1› with rfl | rfl <;> rcases ‹j = 0 ∨ j = 1› with rfl | rfl <;> rfl

theorem stA_m : MMatrix 2 stA fun _ => 1 := by
  refine ⟨fun i hi => by simp [stA], fun i j hi hj h => by simp [stA, h], fun i hi => one_pos, fun i hi => ?_⟩
  · have : i = 0 ∨ i = 1 := by omega
    rcases this with rfl | rfl <;> norm_num [stA, sum_range_succ]

/-- Here `rho = 1 / 2`: when the loop ends, the error is at most the tolerance. -/
example : ∃ f, Ilu.new (dGOps false).toMatOps (⟨2, 2, [2, -1, -1, 2]⟩ : DMat ℝ) = .ok f ∧
    ∀ b : List ℝ, b.length = 2 → ∀ z, Solves 2 stA z (val0 b) → ∀ tol, 0 < tol → ∀ x : List ℝ, x.length = 2 →
      ∃ K y, (∀ k, K ≤ k → iluUntil (dGOps false) [0, 1] ⟨2, 2, [2, -1, -1, 2]⟩ f b tol k x = .ok (some y)) ∧ y.length = 2 ∧
        ∀ i, i < 2 → |val0 y i - z i| ≤ tol := by
  obtain ⟨f, e, h⟩ := C103_stop_m_matrix GStorage.dense false 2 ⟨2, 2, [2, -1, -1, 2]⟩ stA (fun _ => 1) rfl stA_shows stA_m
  refine ⟨f, e, fun b hb z hz tol t0 x hx => ?_⟩
  obtain ⟨K, y, hu, hy, hb⟩ := h b hb z hz [0, 1] (by decide) tol t0 x hx
  refine ⟨K, y, hu, hy, fun i hi => ?_⟩
  have := hb (1 / 2) (by norm_num) (fun i hi => ?_) 1 one_pos (fun _ _ => le_rfl) i hi
  · linarith
  · have : i = 0 ∨ i = 1 := by omega
    rcases this with rfl | rfl <;> norm_num [stA, sum_range_succ]

end Lalib.Props
