import Verif.Props.Cholesky
import Verif.Props.Cgs
import Verif.Props.Dense
import Verif.Proofs.Minimise

/-! # Property C112: what the results minimise

Energy for symmetric positive definite matrices, the sum of squares for the normal equations, the distance from a span for `cgs`.
In exact arithmetic. -/

namespace Lalib.Props

open Lalib Lalib.Cgs Finset

variable {T : Type} [Field T] [LinearOrder T] [IsStrictOrderedRing T]

/-- What distinguishes the solution `x` of a symmetric positive definite system: it is the only minimiser of the energy `y·A y - 2 b·y`,
the minimum is `- b·x`, and `(b·y)² ≤ (b·x) (y·A y)` for every `y`. -/
def Minimises (n : Nat) (A : Nat → Nat → T) (b x : Nat → T) : Prop :=
  energy n A b x = -ip n b x ∧
  ∀ y : Nat → T, energy n A b x ≤ energy n A b y ∧ (energy n A b y = energy n A b x ↔ ∀ i, i < n → y i = x i) ∧
    ip n b y ^ 2 ≤ ip n b x * ip n y (mulVec n A y)

private theorem minimises {n : Nat} {A : Nat → Nat → T} (hs : Symm n A) (hp : PosDef n A) {x b : Nat → T} (h : Solves n A x b) :
    Minimises n A b x :=
  ⟨energy_at h, fun y => ⟨(energy_min hs hp h y).1, (energy_min hs hp h y).2, energy_schwarz hs hp h y⟩⟩

/-- Cholesky, both storages, in place or not. -/
theorem C112_energy_chol [Sqrt T] [LawfulSqrt T] (nd : Bool) (mt : MemType) (n : Nat) (l L : List T) (A : Nat → Nat → T)
    (hl : Lower mt n l A) (hs : Symm n A) (hp : PosDef n A) (hL : Chol.new mt n l = .ok L) (m : Mem T) (b r : Nat) (hb : m.len b = n)
    (hr : r ≠ b) :
    ∃ x, x.length = n ∧ Chol.solveMutVec nd false mt n L b m = .ok (m.setBuf b x) ∧
      Chol.solveVecAt nd false mt n L b r m = .ok (m.setBuf r x) ∧ Minimises n A (m.val b) (val0 x) := by
  obtain ⟨x, hx, sx, e1, e2⟩ := C37_vec nd mt n l L A hl hs hp hL m b r hb hr
  exact ⟨x, hx, e1, e2, minimises hs hp sx⟩

/-- Modified Cholesky. -/
theorem C112_energy_mod (nd : Bool) (mt : MemType) (n : Nat) (l L : List T) (A : Nat → Nat → T) (hl : Lower mt n l A) (hs : Symm n A)
    (hp : PosDef n A) (hL : Chol.modNew mt n l = .ok L) (m : Mem T) (b r : Nat) (hb : m.len b = n) (hr : r ≠ b) :
    ∃ x, x.length = n ∧ Chol.solveMutVec nd true mt n L b m = .ok (m.setBuf b x) ∧
      Chol.solveVecAt nd true mt n L b r m = .ok (m.setBuf r x) ∧ Minimises n A (m.val b) (val0 x) := by
  obtain ⟨x, hx, sx, e1, e2⟩ := C39_vec nd mt n l L A hl hs hL m b r hb hr
  exact ⟨x, hx, e1, e2, minimises hs hp sx⟩

/-- Stiffer matrices give smaller values: if the form of `B` is at least that of `A`, then `b·z ≤ b·x` for the solutions `z` of `B z = b`
and `x` of `A x = b`. -/
theorem C112_monotone [Sqrt T] [LawfulSqrt T] (nd : Bool) (mt : MemType) (n : Nat) (l L l' L' : List T) (A B : Nat → Nat → T)
    (hl : Lower mt n l A) (hl' : Lower mt n l' B) (hs : Symm n A) (hs' : Symm n B) (hp : PosDef n A)
    (hAB : ∀ y : Nat → T, ip n y (mulVec n A y) ≤ ip n y (mulVec n B y)) (hL : Chol.new mt n l = .ok L) (hL' : Chol.new mt n l' = .ok L')
    (m : Mem T) (b r : Nat) (hb : m.len b = n) (hr : r ≠ b) :
    ∃ x z, x.length = n ∧ z.length = n ∧ Chol.solveVecAt nd false mt n L b r m = .ok (m.setBuf r x) ∧
      Chol.solveVecAt nd false mt n L' b r m = .ok (m.setBuf r z) ∧ ip n (m.val b) (val0 z) ≤ ip n (m.val b) (val0 x) := by
  have hp' : PosDef n B := fun y hy => by
    rw [← ip_form]; exact (hp.ip_pos hy).trans_le (hAB y)
  obtain ⟨x, hx, sx, -, e1⟩ := C37_vec nd mt n l L A hl hs hp hL m b r hb hr
  obtain ⟨z, hz, sz, -, e2⟩ := C37_vec nd mt n l' L' B hl' hs' hp' hL' m b r hb hr
  exact ⟨x, z, hx, hz, e1, e2, energy_mono hs hp sx sz hAB⟩

/-- Least squares by the normal equations: `c := t * a` and `d := t * b` with `t` the transpose of `a` (`p` rows, `n` columns).
With independent columns the Cholesky factorisation of `c` completes, and the solution `x` of `c x = d` is the one and only vector for
which `a x` is closest to `b`; what remains is orthogonal to all columns.  With dependent columns, the first one not zero, the
factorisation throws. -/
theorem C112_least_squares [Sqrt T] [LawfulSqrt T] (nd : Bool) (p n : Nat) (a t b : List T) (ha : a.length = p * n) (ht : t.length = n * p)
    (hb : b.length = p) (hat : IsTransp p n (entry n a) (entry p t)) :
    ∃ c d, matMul nd ⟨n, p, t⟩ ⟨p, n, a⟩ = .ok ⟨n, n, c⟩ ∧ matVec nd ⟨n, p, t⟩ b = .ok d ∧ d.length = n ∧
      (Indep p n (fun k i => entry n a i k) →
        ∃ L, Chol.new .square n c = .ok L ∧ ∀ (m : Mem T) (q r : Nat), m q = d → r ≠ q →
          ∃ x z, x.length = n ∧ Chol.solveVecAt nd false .square n L q r m = .ok (m.setBuf r x) ∧ matVec nd ⟨p, n, a⟩ x = .ok z ∧
            z.length = p ∧ (∀ k, k < n → ip p (fun i => val0 b i - val0 z i) (fun i => entry n a i k) = 0) ∧
            ∀ y : List T, y.length = n → ∃ w, matVec nd ⟨p, n, a⟩ y = .ok w ∧ w.length = p ∧
              dist2 p (val0 z) (val0 b) ≤ dist2 p (val0 w) (val0 b) ∧ (dist2 p (val0 w) (val0 b) = dist2 p (val0 z) (val0 b) → y = x)) ∧
      (¬ Indep p n (fun k i => entry n a i k) → (∃ i, i < p ∧ entry n a i 0 ≠ 0) →
        Chol.new .square n c = .error (.throw .runtimeError)) := by
  obtain ⟨⟨cn, cm, c⟩, ec, h1, h2, hc, hce⟩ := C13_op nd ⟨n, p, t⟩ ⟨p, n, a⟩ ht ha rfl
  simp only at hc hce ec h1 h2
  rw [h1, h2] at ec hce
  have hcv : ∀ i j, i < n → j < n → entry n c i j = ∑ k ∈ range p, entry p t i k * entry n a k j := by
    intro i j hi hj
    have := hce i j hi hj
    rw [DMat.get_mk hc hi hj] at this
    injection this
  have hsym := normal_symm hat hcv
  have hl : Lower .square n c (entry n c) := ⟨hc, fun i j hj hi => rfl⟩
  have hmv : ∀ y : List T, y.length = n → ∃ w, matVec nd ⟨p, n, a⟩ y = .ok w ∧ w.length = p ∧
      ∀ i, i < p → val0 w i = mulVec n (entry n a) (val0 y) i := fun y hy =>
    ⟨_, C12_op nd ⟨p, n, a⟩ y ha hy, by simp, fun i hi => by rw [val0_map_range, if_pos hi]; rfl⟩
  have hdl : ∀ w u : List T, (∀ i, i < p → val0 w i = mulVec n (entry n a) (val0 u) i) →
      dist2 p (val0 w) (val0 b) = dist2 p (mulVec n (entry n a) (val0 u)) (val0 b) := fun w u h =>
    ip_congr (fun i hi => by rw [h i hi]) (fun i hi => by rw [h i hi])
  refine ⟨c, _, ec, C12_op nd ⟨n, p, t⟩ b ht hb, by simp, fun hi => ?_, fun hi h0 => ?_⟩
  · have hp := (normal_posDef hat hcv).mpr hi
    obtain ⟨L, eL⟩ := C36_accepts .square n c (entry n c) hl hsym hp
    refine ⟨L, eL, fun m q r hq hr => ?_⟩
    obtain ⟨x, hx, sx, -, ex⟩ := C37_vec nd .square n c L (entry n c) hl hsym hp eL m q r (by rw [Mem.len, hq]; simp) hr
    have sx : Solves n (entry n c) (val0 x) (fun j => ∑ i ∈ range p, entry p t j i * val0 b i) := fun i hi => by
      rw [sx i hi, hq, val0_map_range, if_pos hi]
    obtain ⟨z, ez, hz, vz⟩ := hmv x hx
    refine ⟨x, z, hx, ex, ez, hz, fun k hk => ?_, fun y hy => ?_⟩
    · have := sx k hk
      rw [normal_apply hcv _ k hk] at this
      simp only at this
      rw [ip_diff_left]
      have e : ∀ v : Nat → T, ip p v (fun i => entry n a i k) = ∑ i ∈ range p, entry p t k i * v i := fun v =>
        sum_congr rfl fun i hi => by rw [hat i k (mem_range.mp hi) hk, mul_comm]
      rw [e, e, ← this, sub_eq_zero]
      exact sum_congr rfl fun i hi => by rw [vz i (mem_range.mp hi)]
    · obtain ⟨w, ew, hw, vw⟩ := hmv y hy
      have m := energy_min hsym hp sx (val0 y)
      refine ⟨w, ew, hw, ?_, fun h => ?_⟩
      · rw [hdl z x vz, hdl w y vw, dist2_energy hat hcv, dist2_energy hat hcv]
        exact add_le_add m.1 le_rfl
      · rw [hdl z x vz, hdl w y vw, dist2_energy hat hcv, dist2_energy hat hcv, add_left_inj] at h
        exact list_ext_val0 (by omega) fun i hi => m.2.mp h i (by omega)
  · rcases Nat.eq_zero_or_pos n with rfl | hn
    · exact absurd (fun _ _ k hk => absurd hk (Nat.not_lt_zero k)) hi
    refine (C36_iff .square n c (entry n c) hl hsym).mpr ⟨hn, ?_, fun hp => hi ((normal_posDef hat hcv).mp hp)⟩
    obtain ⟨i, hi, hne⟩ := h0
    rw [hcv 0 0 hn hn]
    refine lt_of_lt_of_le (mul_self_pos.mpr hne) ?_
    have e : ∑ k ∈ range p, entry p t 0 k * entry n a k 0 = ∑ k ∈ range p, entry n a k 0 * entry n a k 0 :=
      sum_congr rfl fun k hk => by rw [hat k 0 (mem_range.mp hk) hn]
    rw [e]
    exact single_le_sum (f := fun k => entry n a k 0 * entry n a k 0) (fun k _ => mul_self_nonneg _) (mem_range.mpr hi)

/-- Best approximation by `cgs`: with `M` independent vectors in front and any vector `b` behind them, `cgs` returns and leaves in place of
`b` the residual `w` of its best approximation: `b - w` is a combination of the given vectors, the only one closest to `b`; `w·w` is the
square of the distance; it is zero exactly when `b` is a combination itself. -/
theorem C112_projection (nd : Bool) (sz : Option Nat) (n M : Nat) (m : Mem T) (hs : sz = none ∨ sz = some n) (hn : 0 < n)
    (hm : ∀ k, k ≤ M → m.len k = n) (hi : Indep n M m.val) :
    ∃ m', cgs nd sz (M + 1) m = .ok m' ∧ (∀ k, k ≤ M → m'.len k = n) ∧
      (∀ k, k < M → ip n (m'.val M) (m.val k) = 0) ∧
      Comb n M m.val (fun i => m.val M i - m'.val M i) ∧
      (∀ y, Comb n M m.val y → ip n (m'.val M) (m'.val M) ≤ dist2 n (m.val M) y ∧
        (dist2 n (m.val M) y = ip n (m'.val M) (m'.val M) ↔ ∀ i, i < n → y i = m.val M i - m'.val M i)) ∧
      (ip n (m'.val M) (m'.val M) = 0 ↔ Comb n M m.val (m.val M)) := by
  have hm' : ∀ k, k < M + 1 → m.len k = n := fun k hk => hm k (by omega)
  obtain ⟨m', e⟩ := (C44_dependent nd sz n (M + 1) m hs hn (by omega) hm').1.mpr hi
  obtain ⟨h1, -, -, h4, h5⟩ := (cgs_run nd hs hn (by omega) hm').of_ok e
  have ho := gs_orthogonal h4 h5
  have hc := gs_comb h4 M (by omega)
  have hv : ∀ k, k < M → ip n (m'.val M) (m.val k) = 0 := by
    intro k hk
    obtain ⟨c, hcw⟩ := (h4 k (by omega)).comb_w
    rw [ip_congr (fun _ _ => rfl) hcw, ip_sum_right]
    refine sum_eq_zero fun l hl => ?_
    have hl := mem_range.mp hl
    rw [ho M l (by omega) (by omega) (by omega), mul_zero]
  have hc' : Comb n M m.val (fun i => m.val M i - m'.val M i) := by
    obtain ⟨c, hcw⟩ := hc
    exact ⟨fun k => -c k, fun i hi => by simp only [neg_mul, sum_neg_distrib]; rw [← hcw i hi]; ring⟩
  have best := fun y hy => dist2_best (y := y) hc hv hy
  have zero : ∀ y, dist2 n (fun i => m.val M i - m'.val M i) y = 0 ↔ ∀ i, i < n → y i = m.val M i - m'.val M i := by
    intro y
    unfold dist2
    rw [ip_self_eq_zero]
    exact forall_congr' fun i => forall_congr' fun _ => ⟨fun h => (sub_eq_zero.mp h).symm, fun h => sub_eq_zero.mpr h.symm⟩
  refine ⟨m', e, fun k hk => h1 k (by omega), hv, hc', fun y hy => ⟨?_, ?_⟩, fun h => ?_, fun h => ?_⟩
  · rw [best y hy]
    exact le_add_of_nonneg_right (ip_self_nonneg _)
  · rw [best y hy, add_eq_left, zero]
  · obtain ⟨c, hcw⟩ := hc'
    refine ⟨c, fun i hi => ?_⟩
    have := hcw i hi
    simp only at this
    rw [← this, ip_self_eq_zero.mp h i hi, sub_zero]
  · have := best _ h
    have z0 : dist2 n (m.val M) (m.val M) = 0 := by
      unfold dist2
      exact sum_eq_zero fun i _ => by ring
    rw [z0] at this
    have a := ip_self_nonneg (n := n) (m'.val M)
    have b : 0 ≤ dist2 n (fun i => m.val M i - m'.val M i) (m.val M) := ip_self_nonneg _
    linarith

/-! ## Cases -/

-- the straight line through three points: the columns (1, 1, 1) and (0, 1, 2) are independent, so the theorem applies
example (nd : Bool) : ∃ c L, matMul nd ⟨2, 3, [1, 1, 1, 0, 1, 2]⟩ ⟨3, 2, [1, 0, 1, 1, 1, (2 : ℝ)]⟩ = .ok ⟨2, 2, c⟩ ∧
    Chol.new .square 2 c = .ok L := by
  obtain ⟨c, d, ec, -, -, h, -⟩ := C112_least_squares nd 3 2 [1, 0, 1, 1, 1, (2 : ℝ)] [1, 1, 1, 0, 1, 2] [1, 1, 4] rfl rfl rfl (by
    intro i j hi hj
    interval_cases i <;> interval_cases j <;> simp [entry, val0])
  obtain ⟨L, eL, -⟩ := h (by
    intro x hx k hk
    have h0 := hx 0 (by norm_num)
    have h1 := hx 1 (by norm_num)
    simp [sum_range_succ, entry, val0] at h0 h1
    interval_cases k
    · exact h0
    · linarith)
  exact ⟨c, L, ec, eL⟩

-- two equal columns: the factorisation of the normal equations throws
example (nd : Bool) : ∃ c, matMul nd ⟨2, 2, [1, 2, 1, 2]⟩ ⟨2, 2, [1, 1, 2, (2 : ℝ)]⟩ = .ok ⟨2, 2, c⟩ ∧
    Chol.new .square 2 c = .error (.throw .runtimeError) := by
  obtain ⟨c, d, ec, -, -, -, h⟩ := C112_least_squares nd 2 2 [1, 1, 2, (2 : ℝ)] [1, 2, 1, 2] [1, 1] rfl rfl rfl (by
    intro i j hi hj
    interval_cases i <;> interval_cases j <;> simp [entry, val0])
  refine ⟨c, ec, h (fun hi => ?_) ⟨0, by norm_num, by simp [entry, val0]⟩⟩
  have := hi (fun k => if k = 0 then 1 else -1) (fun i hi => by interval_cases i <;> simp [sum_range_succ, entry, val0]) 0 (by norm_num)
  simp at this

-- the vector (3, 4) behind (1, 0): what remains is (0, 4)
example : (cgs true none 2 (Mem.ofList [[1, 0], [3, 4]] : Mem ℚ)).map (fun s => (s 0, s 1)) = .ok ([1, 0], [0, 4]) := by decide +kernel

-- a negative definite matrix: its solution maximises, so positive definiteness cannot be dropped
example : ¬ Minimises 1 (fun _ _ => (-1 : ℚ)) (fun _ => 1) (fun _ => -1) := by
  intro h
  have := (h.2 fun _ => 0).1
  norm_num [energy, ip, mulVec] at this

end Lalib.Props
