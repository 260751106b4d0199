import Verif.Spec.NewtonFull
import Verif.Props.Newton

/-! # Property C119: Newton's method -/

namespace Lalib.Props

open Lalib Finset

section
variable {R : Rounding} {n : ℕ} {F : (ℕ → ℝ) → ℕ → ℝ} {s : ℕ → ℝ} {rho M eta K S c phi sig : ℝ}
  {fn solve : Mem (Fl R) → Res (Mem (Fl R))} {x r : ℕ}

/-- One step does not fail; it writes the two vectors only. -/
theorem C119_step (hf : EvalFor n F s rho phi x r fn) (hsv : NewtonFor n F s rho M eta K S c x r solve) (hxr : x ≠ r) (hM : 0 ≤ M) (hη : 0 ≤ eta)
    (hc : 0 ≤ c) (hq : K * c < 1) (hs : MaxLe n s sig) (ord : List Nat) (ho : ord.Perm (List.range n)) (m : Mem (Fl R)) (hx : m.len x = n)
    (hr : m.len r = n) (e : ℝ) (he : e ≤ rho) (h0 : MaxLe n (fun i => (m.val x i).val - s i) e) :
    ∃ d y : List (Fl R), d.length = n ∧ y.length = n ∧ chordStep fn solve ord x r m = .ok ((m.setBuf r d).setBuf x y) ∧
      MaxLe n (fun i => (val0 y i).val - s i) (chordRate R.u K S (M * e + eta) c * e + chordRest R.u K c phi sig) := by
  have hin : MaxLe n (fun i => (m.val x i).val - s i) rho := fun i hi => (h0 i hi).trans he
  obtain ⟨v, e1, lv, hv⟩ := hf m hx hr hin
  have vx : ∀ i, (m.setBuf r v).val x i = m.val x i := fun i => by simp [Mem.val, Mem.setBuf_other _ hxr]
  have vr : ∀ i, (m.setBuf r v).val r i = val0 v i := fun i => by simp [Mem.val]
  obtain ⟨A, E, d, t, e2, ld, hd⟩ := hsv (m.setBuf r v) (by simpa [Mem.len, Mem.setBuf_other _ hxr] using hx) (by simp [Mem.len, lv])
    (by simpa only [vx] using hin)
  rw [Mem.setBuf_setBuf] at e2
  simp only [vx] at t
  simp only [vr] at hd
  have hxx : (m.setBuf r d) x = m x := Mem.setBuf_other _ hxr _
  have hrr : (m.setBuf r d) r = d := Mem.setBuf_self _ _ _
  have lx : (m x).length = n := hx
  have e3 := subDD_eq (ord := ord) (m := m.setBuf r d) (v1 := x) (v2 := r) (vr := x) (by simpa [Mem.len, hxx, lx] using ho)
    (by simp [Mem.len, hxx, ld, lx]) rfl
  rw [hxx, hrr] at e3
  refine ⟨d, List.zipWith (· - ·) (m x) d, ld, by simp [lx, ld], by simp only [chordStep, e1, Lalib.ok_bind, e2, e3], ?_⟩
  rcases Nat.eq_zero_or_pos n with rfl | hn
  · intro i hi
    omega
  have e0 : 0 ≤ e := (abs_nonneg _).trans (h0 0 hn)
  refine C118_numbers (by positivity) t.inv t.row R.u_nonneg t.back hc hq hs h0 (t.near e h0) hv hd fun i hi => ?_
  have ez : val0 (List.zipWith (· - ·) (m x) d) i = m.val x i - val0 d i := by
    rw [val0_of_lt (by simp [lx, ld, hi]), List.getElem_zipWith, Mem.val, ← val0_of_lt, ← val0_of_lt]
  rw [ez]
  exact R.err _

private theorem again (m : Mem (Fl R)) (hxr : x ≠ r) (d y d' y' : List (Fl R)) :
    (((m.setBuf r d).setBuf x y).setBuf r d').setBuf x y' = (m.setBuf r d').setBuf x y' := by
  funext z
  by_cases z1 : z = x
  · subst z1
    simp only [Mem.setBuf_self]
  · by_cases z2 : z = r
    · subst z2
      simp only [Mem.setBuf_self, Mem.setBuf_other _ z1]
    · simp only [Mem.setBuf_other _ z1, Mem.setBuf_other _ z2]

/-- Any number of steps whose bounds are `e k`: no step fails or leaves the cube. -/
theorem C119_steps (hf : EvalFor n F s rho phi x r fn) (hsv : NewtonFor n F s rho M eta K S c x r solve) (hxr : x ≠ r) (hM : 0 ≤ M) (hη : 0 ≤ eta)
    (hc : 0 ≤ c) (hq : K * c < 1) (hs : MaxLe n s sig) (ord : List Nat) (ho : ord.Perm (List.range n)) (m : Mem (Fl R)) (hx : m.len x = n)
    (hr : m.len r = n) (e : ℕ → ℝ) (he : ∀ k, e k ≤ rho)
    (hstep : ∀ k, chordRate R.u K S (M * e k + eta) c * e k + chordRest R.u K c phi sig ≤ e (k + 1))
    (h0 : MaxLe n (fun i => (m.val x i).val - s i) (e 0)) (k : ℕ) :
    ∃ d y : List (Fl R), d.length = n ∧ y.length = n ∧ chordSteps fn solve ord x r k m = .ok ((m.setBuf r d).setBuf x y) ∧
      MaxLe n (fun i => (val0 y i).val - s i) (e k) := by
  induction k with
  | zero =>
    refine ⟨m r, m x, hr, hx, ?_, by simpa [Mem.val] using h0⟩
    rw [Mem.setBuf_same, Mem.setBuf_same]
    rfl
  | succ k ih =>
    obtain ⟨d, y, ld, ly, e1, h1⟩ := ih
    have hrr : ((m.setBuf r d).setBuf x y) r = d := by rw [Mem.setBuf_other _ hxr.symm, Mem.setBuf_self]
    have hv : ∀ i, ((m.setBuf r d).setBuf x y).val x i = val0 y i := fun i => by simp [Mem.val]
    obtain ⟨d', y', ld', ly', e2, h3⟩ := C119_step hf hsv hxr hM hη hc hq hs ord ho ((m.setBuf r d).setBuf x y) (by simp [Mem.len, ly])
      (by simp [Mem.len, hrr, ld]) (e k) (he k) (by simpa only [hv] using h1)
    refine ⟨d', y', ld', ly', ?_, fun i hi => (h3 i hi).trans (hstep k)⟩
    simp only [chordSteps, e1, Lalib.ok_bind, e2, again m hxr]

/-- The bound of a step: a quadratic term, a linear one from the errors of matrix and solver, and the rest. -/
theorem C119_rate (u K S M eta c e : ℝ) : chordRate u K S (M * e + eta) c * e =
    (1 + u) * (K * (M * (1 + c * K / (1 - K * c)))) * e ^ 2 + chordRate u K S eta c * e := by
  unfold chordRate
  ring

/-- Without errors the number of correct digits doubles in every step. -/
theorem C119_quadratic (h : R.u = 0) (hf : EvalFor n F s rho 0 x r fn) (hsv : NewtonFor n F s rho M 0 K S 0 x r solve) (hxr : x ≠ r)
    (hM : 0 ≤ M) (hK : 0 ≤ K) (h1 : K * M * rho ≤ 1) (ord : List Nat) (ho : ord.Perm (List.range n)) (m : Mem (Fl R)) (hx : m.len x = n)
    (hr : m.len r = n) (e : ℝ) (e0 : 0 ≤ e) (he : e ≤ rho) (h0 : MaxLe n (fun i => (m.val x i).val - s i) e) (k : ℕ) :
    ∃ d y : List (Fl R), d.length = n ∧ y.length = n ∧ chordSteps fn solve ord x r k m = .ok ((m.setBuf r d).setBuf x y) ∧
      MaxLe n (fun i => (val0 y i).val - s i) ((K * M * e) ^ (2 ^ k - 1) * e) := by
  have q0 : 0 ≤ K * M * e := by positivity
  have q1 : K * M * e ≤ 1 := (mul_le_mul_of_nonneg_left he (by positivity)).trans h1
  refine C119_steps (sig := ∑ i ∈ range n, |s i|) hf hsv hxr hM le_rfl le_rfl (by simp)
    (fun i hi => single_le_sum (f := fun i => |s i|) (fun _ _ => abs_nonneg _) (mem_range.mpr hi)) ord ho m hx hr
    (fun k => (K * M * e) ^ (2 ^ k - 1) * e) (fun k => ?_) (fun k => ?_) (by simpa using h0) k
  · exact (mul_le_of_le_one_left e0 (pow_le_one₀ q0 q1)).trans he
  · have e2 : 2 ^ (k + 1) - 1 = (2 ^ k - 1) + (2 ^ k - 1) + 1 := by
      have := Nat.one_le_two_pow (n := k)
      omega
    rw [C119_rate, h, e2, pow_succ, pow_add]
    simp only [chordRate, chordRest]
    apply le_of_eq
    ring

/-- With errors: as long as the factor for the whole cube is below one, the linear bound. -/
theorem C119_limit (hf : EvalFor n F s rho phi x r fn) (hsv : NewtonFor n F s rho M eta K S c x r solve) (hxr : x ≠ r) (hM : 0 ≤ M) (hη : 0 ≤ eta)
    (hc : 0 ≤ c) (hK : 0 ≤ K) (hS : 0 ≤ S) (hphi : 0 ≤ phi) (hsig : 0 ≤ sig) (hq : K * c < 1) (hs : MaxLe n s sig) (hrho : 0 ≤ rho)
    (h1 : chordRate R.u K S (M * rho + eta) c < 1)
    (hw : chordRest R.u K c phi sig ≤ (1 - chordRate R.u K S (M * rho + eta) c) * rho) (ord : List Nat) (ho : ord.Perm (List.range n))
    (m : Mem (Fl R)) (hx : m.len x = n) (hr : m.len r = n) (h0 : MaxLe n (fun i => (m.val x i).val - s i) rho) (k : ℕ) :
    ∃ d y : List (Fl R), d.length = n ∧ y.length = n ∧ chordSteps fn solve ord x r k m = .ok ((m.setBuf r d).setBuf x y) ∧
      MaxLe n (fun i => (val0 y i).val - s i) (chordRate R.u K S (M * rho + eta) c ^ k * rho +
        chordRest R.u K c phi sig / (1 - chordRate R.u K S (M * rho + eta) c)) := by
  set q := chordRate R.u K S (M * rho + eta) c with hqd
  set w := chordRest R.u K c phi sig with hwd
  have u0 := R.u_nonneg
  have k0 : 0 < 1 - K * c := by linarith
  have q0 : 0 ≤ q := by
    rw [hqd, chordRate]
    positivity
  have w0 : 0 ≤ w := by
    rw [hwd, chordRest]
    positivity
  have b0 : ∀ k : ℕ, 0 ≤ q ^ k * rho + (∑ j ∈ range k, q ^ j) * w := fun k => by positivity
  have sc : ∀ k : ℕ, q * (q ^ k * rho + (∑ j ∈ range k, q ^ j) * w) + w = q ^ (k + 1) * rho + (∑ j ∈ range (k + 1), q ^ j) * w := fun k => by
    rw [sum_range_succ']
    simp only [pow_succ, ← sum_mul]
    ring
  have b1 : ∀ k : ℕ, q ^ k * rho + (∑ j ∈ range k, q ^ j) * w ≤ rho := fun k => by
    induction k with
    | zero => simp
    | succ k ih =>
      rw [← sc]
      have := mul_le_mul_of_nonneg_left ih q0
      linarith
  have up : ∀ t, t ≤ rho → chordRate R.u K S (M * t + eta) c ≤ q := fun t ht => by
    rw [hqd, chordRate, chordRate]
    gcongr
  obtain ⟨d, y, h2, h3, h4, h5⟩ := C119_steps hf hsv hxr hM hη hc hq hs ord ho m hx hr (fun k => q ^ k * rho + (∑ j ∈ range k, q ^ j) * w) b1
    (fun k => (add_le_add_left (mul_le_mul_of_nonneg_right (up _ (b1 k)) (b0 k)) _).trans_eq (sc k)) (by simpa using h0) k
  refine ⟨d, y, h2, h3, h4, fun i hi => (h5 i hi).trans (add_le_add_right ?_ _)⟩
  have g := geom_sum_mul q k
  have g' : (∑ j ∈ range k, q ^ j) * (1 - q) = 1 - q ^ k := by linarith
  have := pow_nonneg q0 k
  rw [le_div_iff₀ (by linarith), mul_right_comm, g']
  nlinarith

/-- The tri-diagonal solver with a matrix that the caller computes from `x`, if its diagonal dominates. -/
theorem C119_tdma (nd : Bool) (hn : 2 ≤ n) (jac : List (Fl R) → TriDiag (Fl R)) (delta : ℝ) (d0 : 0 < delta)
    (hj : ∀ l : List (Fl R), l.length = n → MaxLe n (fun i => (val0 l i).val - s i) rho → TriWf (jac l) n ∧
      (∀ i, i < n → ∑ j ∈ (range n).erase i, |Fl.mat (triFull (jac l)) i j| < (1 - R.u) ^ 2 * |Fl.mat (triFull (jac l)) i i|) ∧
      DomBy n (Fl.mat (triFull (jac l))) delta ∧ RowLe n (Fl.mat (triFull (jac l))) S ∧
      ∀ e, MaxLe n (fun i => (val0 l i).val - s i) e → MaxLe n (fun i => F (fun i => (val0 l i).val) i -
        mulVec n (Fl.mat (triFull (jac l))) (fun j => (val0 l j).val - s j) i) ((M * e + eta) * e)) :
    NewtonFor n F s rho M eta (1 / delta) S (3 * gam R.u 5 * S) x r fun m => Tdma.solveVec nd (jac (m x)) r r m := by
  intro m hx hr hin
  obtain ⟨h1, h2, h3, h4, h5⟩ := hj (m x) hx hin
  obtain ⟨l, m', e, hs, hl, h⟩ := C60_dominant nd (jac (m x)) n h1 hn r r m hr hr h2
  have g0 := gam_nonneg R.u_nonneg R.u_lt_one 5
  exact ⟨_, _, l, ⟨h5, invBound_of_dom d0 h3, h4, fun i hi => by
    rw [← mul_sum]
    exact mul_le_mul_of_nonneg_left (h4 i hi) (by positivity)⟩, hs.eq ▸ e, hl, h⟩

/-- Cholesky with a matrix that the caller computes from `x`: symmetric, and accepted by the factorisation; `amax` is above the diagonals. -/
theorem C119_chol (nd : Bool) (mt : MemType) (jac : List (Fl R) → List (Fl R)) (amax : ℝ)
    (hj : ∀ l : List (Fl R), l.length = n → MaxLe n (fun i => (val0 l i).val - s i) rho → ∃ (A : Nat → Nat → Fl R) (G : List (Fl R)),
      Lower mt n (jac l) A ∧ Symm n A ∧ 0 < (A 0 0).val ∧ Chol.new mt n (jac l) = .ok G ∧ (∀ i, i < n → (A i i).val ≤ amax) ∧
      InvBound n (Fl.mat A) K ∧ RowLe n (Fl.mat A) S ∧
      ∀ e, MaxLe n (fun i => (val0 l i).val - s i) e → MaxLe n (fun i => F (fun i => (val0 l i).val) i -
        mulVec n (Fl.mat A) (fun j => (val0 l j).val - s j) i) ((M * e + eta) * e)) :
    NewtonFor n F s rho M eta K S (n * (gam R.u (4 * n + 2) * amax)) x r
      fun m => (do let G ← Chol.new mt n (jac (m x)); Chol.solveMutVec nd false mt n G r m) := by
  intro m hx hr hin
  obtain ⟨A, G, h1, h2, h3, h4, h5, h6, h7, h8⟩ := hj (m x) hx hin
  obtain ⟨y, hy, e, -, h⟩ := C59_solve_vec nd mt n (jac (m x)) G A h1 h2 h3 h4 m r (r + 1) hr (by omega)
  refine ⟨_, _, y, ⟨h8, h6, h7, fun i hi => ?_⟩, by simp only [h4, Lalib.ok_bind, e], hy, h⟩
  have hp : 0 ≤ amax := by
    have := h5 0 (by omega)
    linarith
  calc ∑ j ∈ range n, gam R.u (4 * n + 2) * (Real.sqrt (A i i).val * Real.sqrt (A j j).val)
      ≤ ∑ j ∈ range n, gam R.u (4 * n + 2) * amax := by
        refine sum_le_sum fun j hj => mul_le_mul_of_nonneg_left ?_ (gam_nonneg R.u_nonneg R.u_lt_one _)
        calc Real.sqrt (A i i).val * Real.sqrt (A j j).val ≤ Real.sqrt amax * Real.sqrt amax :=
              mul_le_mul (Real.sqrt_le_sqrt (h5 i hi)) (Real.sqrt_le_sqrt (h5 j (mem_range.mp hj))) (Real.sqrt_nonneg _) (Real.sqrt_nonneg _)
          _ = amax := Real.mul_self_sqrt hp
    _ = n * (gam R.u (4 * n + 2) * amax) := by rw [sum_const, card_range, nsmul_eq_mul]

end

/-- A discretised equation `A x + g(x) = b`: `A` with the derivatives `g'` on the diagonal, stored with errors whose rows are at most `eta`. -/
theorem C119_semilinear (n : ℕ) (A J : ℕ → ℕ → ℝ) (g g' : ℕ → ℝ → ℝ) (b s x : ℕ → ℝ) (M eta : ℝ) (hM : 0 ≤ M)
    (hg : ∀ i, i < n → |g i (x i) - g i (s i) - g' i (x i) * (x i - s i)| ≤ M * (x i - s i) ^ 2)
    (hs : ∀ i, i < n → mulVec n A s i + g i (s i) = b i)
    (hJ : RowLe n (fun i j => A i j + (if i = j then g' i (x i) else 0) - J i j) eta) (e : ℝ) (he : MaxLe n (fun i => x i - s i) e) :
    MaxLe n (fun i => mulVec n A x i + g i (x i) - b i - mulVec n J (fun j => x j - s j) i) ((M * e + eta) * e) := by
  intro i hi
  have e0 : 0 ≤ e := (abs_nonneg _).trans (he i hi)
  have h1 := maxLe_mulVec hJ e0 he i hi
  have e1 : mulVec n (fun i j => A i j + (if i = j then g' i (x i) else 0) - J i j) (fun j => x j - s j) i =
      mulVec n A (fun j => x j - s j) i + g' i (x i) * (x i - s i) - mulVec n J (fun j => x j - s j) i := by
    simp only [mulVec, add_mul, sub_mul, sum_add_distrib, sum_sub_distrib, ite_mul, zero_mul, sum_ite_eq, mem_range, hi, if_true]
  have e2 := mulVec_sub n A x s i
  have h2 : (x i - s i) ^ 2 ≤ e ^ 2 := sq_le_sq' (abs_le.mp (he i hi)).1 (abs_le.mp (he i hi)).2
  have h3 := (hg i hi).trans (mul_le_mul_of_nonneg_left h2 hM)
  have e3 := hs i hi
  rw [e1] at h1
  rw [abs_le] at h1 h3 ⊢
  constructor <;> nlinarith [h1.1, h1.2, h3.1, h3.2]

/-! ## Cases -/

-- the square: the tangent at `t` misses the value at zero by `t ^ 2`
example (t : ℝ) : |t ^ 2 - 0 ^ 2 - 2 * t * (t - 0)| ≤ 1 * (t - 0) ^ 2 := by
  have e : t ^ 2 - 0 ^ 2 - 2 * t * (t - 0) = -(t ^ 2) := by ring
  rw [e, abs_neg, abs_of_nonneg (sq_nonneg t)]
  linarith

-- `t + t ^ 2 = 0` at the zero `0`, for a vector in the cube of radius `1 / 4`
example (t : ℝ) (ht : |t| ≤ 1 / 4) : Tangent 1 (fun x i => x i + x i ^ 2) (fun _ => 0) 1 0 2 2 0 (fun _ => t) (fun _ _ => 1 + 2 * t)
    fun _ _ => 0 := by
  have hb := abs_le.mp ht
  refine ⟨fun e he i hi => ?_, ⟨by norm_num, fun y B hB h i hi => ?_⟩, fun i hi => ?_, by simp⟩
  · have h := he 0 (by omega)
    simp only [sub_zero] at h
    have e1 : t + t ^ 2 - mulVec 1 (fun _ _ => 1 + 2 * t) (fun _ => t - 0) i = -(t ^ 2) := by
      simp [mulVec]
      ring
    have h2 := sq_le_sq' (abs_le.mp h).1 (abs_le.mp h).2
    simp only [e1, abs_neg, abs_of_nonneg (sq_nonneg t)]
    nlinarith
  · obtain rfl : i = 0 := by omega
    have := h 0 (by omega)
    simp only [mulVec, sum_range_one, abs_mul] at this
    have h1 : 1 / 2 ≤ |1 + 2 * t| := (by linarith [hb.1] : (1 : ℝ) / 2 ≤ 1 + 2 * t).trans (le_abs_self _)
    have := mul_le_mul_of_nonneg_right h1 (abs_nonneg (y 0))
    linarith
  · rw [sum_range_one, abs_le]
    constructor <;> linarith [hb.1, hb.2]

-- the assumptions of `C119_tdma` hold, with every rounding, for `F(x) = x` and the unit matrix
example (R : Rounding) (nd : Bool) (rho : ℝ) (x r : ℕ) : NewtonFor (R := R) 2 (fun x i => x i) (fun _ => 0) rho 0 0 (1 / 1) 1 (3 * gam R.u 5 * 1)
    x r fun m => Tdma.solveVec nd ⟨[0], [1, 1], [0]⟩ r r m := by
  have hm : ∀ i j, i < 2 → j < 2 → Fl.mat (triFull (⟨[0], [1, 1], [0]⟩ : TriDiag (Fl R))) i j = if i = j then 1 else 0 := by
    intro i j hi hj
    obtain rfl | rfl : i = 0 ∨ i = 1 := by omega
    all_goals
      obtain rfl | rfl : j = 0 ∨ j = 1 := by omega
      all_goals simp [Fl.mat, triFull, val0]
  have hu := R.u_lt_one
  have hu2 : 0 < (1 - R.u) ^ 2 := pow_pos (by linarith) 2
  have two : ∀ i, i < 2 → i = 0 ∨ i = 1 := fun i hi => by omega
  have off : ∀ i, i < 2 → ∑ j ∈ (range 2).erase i, |Fl.mat (triFull (⟨[0], [1, 1], [0]⟩ : TriDiag (Fl R))) i j| = 0 := fun i hi => by
    refine sum_eq_zero fun j hj => ?_
    rw [mem_erase, mem_range] at hj
    rw [hm i j hi hj.2, if_neg (Ne.symm hj.1), abs_zero]
  refine C119_tdma nd le_rfl (fun _ => ⟨[0], [1, 1], [0]⟩) 1 one_pos fun l hl _ => ⟨by simp [TriWf], fun i hi => ?_, fun i hi => ?_, fun i hi => ?_,
    fun e he i hi => ?_⟩
  · rw [off i hi, hm i i hi hi]
    simpa using hu2
  · rw [off i hi, hm i i hi hi]
    simp
  · rw [sum_range_succ, sum_range_one, hm i 0 hi (by omega), hm i 1 hi (by omega)]
    obtain rfl | rfl := two i hi <;> simp
  · have e1 : mulVec 2 (Fl.mat (triFull (⟨[0], [1, 1], [0]⟩ : TriDiag (Fl R)))) (fun j => (val0 l j).val - 0) i = (val0 l i).val := by
      rw [mulVec, sum_range_succ, sum_range_one, hm i 0 hi (by omega), hm i 1 hi (by omega)]
      obtain rfl | rfl := two i hi <;> simp
    simp only [e1, sub_self, abs_zero, zero_mul, add_zero, le_refl]

end Lalib.Props
