import Verif.Spec.Newton
import Verif.Props.Refine

/-! # Property C118: nonlinear systems with a factorised matrix -/

namespace Lalib.Props

open Lalib Finset

section
variable {n : ℕ} {F : (ℕ → ℝ) → ℕ → ℝ} {A E : ℕ → ℕ → ℝ} {s : ℕ → ℝ} {L K S c u phi sig : ℝ}

/-- One step, in terms of the numbers: `v` is the computed value, `d` the computed correction, `y` the new vector. -/
theorem C118_numbers (hL : 0 ≤ L) (hK : InvBound n A K) (hS : RowLe n A S) (hu : 0 ≤ u)
    (hE : ∀ i, i < n → ∑ j ∈ range n, E i j ≤ c) (hc : 0 ≤ c) (hq : K * c < 1) (hs : MaxLe n s sig) {x v d y : ℕ → ℝ} {e : ℝ}
    (hx : MaxLe n (fun i => x i - s i) e) (hP : MaxLe n (fun i => F x i - mulVec n A (fun j => x j - s j) i) (L * e)) (hv : MaxLe n (fun i => v i - F x i) phi) (hd : NearSolves n A E d v)
    (hy : ∀ i, i < n → |y i - (x i - d i)| ≤ u * |x i - d i|) :
    MaxLe n (fun i => y i - s i) (chordRate u K S L c * e + chordRest u K c phi sig) := by
  rcases Nat.eq_zero_or_pos n with rfl | hn
  · intro i hi
    omega
  have e0 : 0 ≤ e := (abs_nonneg _).trans (hx 0 hn)
  have p0 : 0 ≤ phi := (abs_nonneg _).trans (hv 0 hn)
  have S0 := rowLe_nonneg hS hn
  have K0 := hK.1
  have q0 : 0 < 1 - K * c := by linarith
  -- the computed correction
  obtain ⟨p, hp, hm⟩ := exists_max hn d
  set Z := |d p| with hZ
  have Z0 : 0 ≤ Z := abs_nonneg _
  have hd2 := near2_of_near hd
  have r : ∀ i, i < n → |mulVec n A d i - v i| ≤ c * Z := by
    intro i hi
    obtain ⟨dA, db, h1, -, -⟩ := id hd2
    have h := near_resid hd2 hi
    rw [add_zero] at h
    calc |mulVec n A d i - v i| ≤ ∑ j ∈ range n, E i j * |d j| := h
      _ ≤ ∑ j ∈ range n, E i j * Z := sum_le_sum fun j hj =>
          mul_le_mul_of_nonneg_left (hm j (mem_range.mp hj)) ((abs_nonneg _).trans (h1 i j hi (mem_range.mp hj)))
      _ = (∑ j ∈ range n, E i j) * Z := by rw [sum_mul]
      _ ≤ c * Z := mul_le_mul_of_nonneg_right (hE i hi) Z0
  have g1 := maxLe_mulVec hS e0 hx
  have b : MaxLe n (mulVec n A d) ((S + L) * e + phi + c * Z) := by
    intro i hi
    have h1 := r i hi
    have h2 := g1 i hi
    have h3 := hP i hi
    have h4 := hv i hi
    simp only [abs_le] at h1 h2 h3 h4 ⊢
    constructor <;> linarith [h1.1, h1.2, h2.1, h2.2, h3.1, h3.2, h4.1, h4.2]
  have hZb : Z ≤ K * (S + L) / (1 - K * c) * e + K * phi / (1 - K * c) := by
    have := hK.2 d _ (by positivity) b p hp
    rw [← hZ] at this
    rw [div_mul_eq_mul_div, ← add_div, le_div_iff₀ q0]
    nlinarith
  -- the vector before its rounding
  set D := L * e + phi + c * (K * (S + L) / (1 - K * c) * e + K * phi / (1 - K * c)) with hD
  have b2 : MaxLe n (mulVec n A fun i => x i - d i - s i) D := by
    intro i hi
    have e1 : mulVec n A (fun i => x i - d i - s i) i = mulVec n A (fun i => x i - s i) i - mulVec n A d i := by
      rw [← mulVec_sub]
      exact sum_congr rfl fun j _ => by ring
    have h0 := mul_le_mul_of_nonneg_left hZb hc
    have h1 := r i hi
    have h3 := hP i hi
    have h4 := hv i hi
    rw [e1]
    simp only [abs_le] at h1 h3 h4 ⊢
    constructor <;> linarith [h1.1, h1.2, h3.1, h3.2, h4.1, h4.2]
  have D0 : 0 ≤ D := (abs_nonneg _).trans (b2 0 hn)
  intro i hi
  have h1 := hK.2 _ _ D0 b2 i hi
  have h2 := hy i hi
  have h3 : |x i - d i| ≤ K * D + sig := by
    calc |x i - d i| = |(x i - d i - s i) + s i| := by ring_nf
      _ ≤ |x i - d i - s i| + |s i| := abs_add_le _ _
      _ ≤ K * D + sig := add_le_add h1 (hs i hi)
  calc |y i - s i| = |(y i - (x i - d i)) + (x i - d i - s i)| := by ring_nf
    _ ≤ |y i - (x i - d i)| + |x i - d i - s i| := abs_add_le _ _
    _ ≤ u * (K * D + sig) + K * D := add_le_add (h2.trans (mul_le_mul_of_nonneg_left h3 hu)) h1
    _ = chordRate u K S L c * e + chordRest u K c phi sig := by
      rw [hD, chordRate, chordRest]
      ring

end

section
variable {R : Rounding} {n : ℕ} {F : (ℕ → ℝ) → ℕ → ℝ} {A E : ℕ → ℕ → ℝ} {s : ℕ → ℝ} {rho L K S c phi sig : ℝ}
  {fn solve : Mem (Fl R) → Res (Mem (Fl R))} {x r : ℕ}

/-- One step does not fail; it writes the two vectors only, and reduces the error. -/
theorem C118_step (hP : Predicts n F A s rho L) (hf : EvalFor n F s rho phi x r fn) (hsv : SolverFor n A E r r solve) (hxr : x ≠ r)
    (hK : InvBound n A K) (hS : RowLe n A S) (hE : ∀ i, i < n → ∑ j ∈ range n, E i j ≤ c) (hc : 0 ≤ c) (hq : K * c < 1) (hs : MaxLe n s sig)
    (ord : List Nat) (ho : ord.Perm (List.range n)) (m : Mem (Fl R)) (hx : m.len x = n) (hr : m.len r = n) (e : ℝ) (he : e ≤ rho)
    (h0 : MaxLe n (fun i => (m.val x i).val - s i) e) :
    ∃ d y : List (Fl R), d.length = n ∧ y.length = n ∧ chordStep fn solve ord x r m = .ok ((m.setBuf r d).setBuf x y) ∧
      MaxLe n (fun i => (val0 y i).val - s i) (chordRate R.u K S L c * e + chordRest R.u K c phi sig) := by
  obtain ⟨v, e1, lv, hv⟩ := hf m hx hr fun i hi => (h0 i hi).trans he
  obtain ⟨d, e2, ld, hd⟩ := hsv (m.setBuf r v) (by simp [Mem.len, lv]) (by simp [Mem.len, lv])
  rw [Mem.setBuf_setBuf] at e2
  have hxx : (m.setBuf r d) x = m x := Mem.setBuf_other _ hxr _
  have hrr : (m.setBuf r d) r = d := Mem.setBuf_self _ _ _
  have lx : (m x).length = n := hx
  have e3 := subDD_eq (ord := ord) (m := m.setBuf r d) (v1 := x) (v2 := r) (vr := x) (by simpa [Mem.len, hxx, lx] using ho)
    (by simp [Mem.len, hxx, ld, lx]) rfl
  rw [hxx, hrr] at e3
  refine ⟨d, List.zipWith (· - ·) (m x) d, ld, by simp [lx, ld], by simp only [chordStep, e1, Lalib.ok_bind, e2, e3], ?_⟩
  have hd' : NearSolves n A E (fun i => (val0 d i).val) (fun i => (val0 v i).val) := by
    have : ∀ i, (m.setBuf r v).val r i = val0 v i := fun i => by simp [Mem.val]
    simpa only [this] using hd
  refine C118_numbers hP.nonneg hK hS R.u_nonneg hE hc hq hs h0 (hP.near _ e he h0) hv hd' fun i hi => ?_
  have ez : val0 (List.zipWith (· - ·) (m x) d) i = m.val x i - val0 d i := by
    rw [val0_of_lt (by simp [lx, ld, hi]), List.getElem_zipWith, Mem.val, ← val0_of_lt, ← val0_of_lt]
  rw [ez]
  exact R.err _

/-- Any number of steps, from a vector in the cube: no step fails or leaves the cube. -/
theorem C118_steps (hP : Predicts n F A s rho L) (hf : EvalFor n F s rho phi x r fn) (hsv : SolverFor n A E r r solve) (hxr : x ≠ r)
    (hK : InvBound n A K) (hS : RowLe n A S) (hE : ∀ i, i < n → ∑ j ∈ range n, E i j ≤ c) (hc : 0 ≤ c) (hq : K * c < 1) (hs : MaxLe n s sig)
    (hin : chordRate R.u K S L c * rho + chordRest R.u K c phi sig ≤ rho)
    (ord : List Nat) (ho : ord.Perm (List.range n)) (m : Mem (Fl R)) (hx : m.len x = n) (hr : m.len r = n) (e : ℝ) (he : e ≤ rho)
    (h0 : MaxLe n (fun i => (m.val x i).val - s i) e) (k : ℕ) :
    ∃ d y : List (Fl R), d.length = n ∧ y.length = n ∧ chordSteps fn solve ord x r k m = .ok ((m.setBuf r d).setBuf x y) ∧
      MaxLe n (fun i => (val0 y i).val - s i) rho ∧
      MaxLe n (fun i => (val0 y i).val - s i)
        (chordRate R.u K S L c ^ k * e + (∑ j ∈ range k, chordRate R.u K S L c ^ j) * chordRest R.u K c phi sig) := by
  induction k with
  | zero =>
    refine ⟨m r, m x, hr, hx, ?_, fun i hi => (h0 i hi).trans he, ?_⟩
    · rw [Mem.setBuf_same, Mem.setBuf_same]
      rfl
    · simpa [Mem.val] using h0
  | succ k ih =>
    obtain ⟨d, y, ld, ly, e1, h1, h2⟩ := ih
    set q := chordRate R.u K S L c with hqd
    set w := chordRest R.u K c phi sig with hwd
    have hrr : ((m.setBuf r d).setBuf x y) r = d := by rw [Mem.setBuf_other _ hxr.symm, Mem.setBuf_self]
    have hv : ∀ i, ((m.setBuf r d).setBuf x y).val x i = val0 y i := fun i => by simp [Mem.val]
    have hmin : MaxLe n (fun i => (((m.setBuf r d).setBuf x y).val x i).val - s i)
        (min rho (q ^ k * e + (∑ j ∈ range k, q ^ j) * w)) := fun i hi => by
      simp only [hv]
      exact le_min (h1 i hi) (h2 i hi)
    obtain ⟨d', y', ld', ly', e2, h3⟩ := C118_step hP hf hsv hxr hK hS hE hc hq hs ord ho ((m.setBuf r d).setBuf x y) (by simp [Mem.len, ly])
      (by simp [Mem.len, hrr, ld]) _ (min_le_left _ _) hmin
    have q0 : 0 < n → 0 ≤ q := by
      intro hn
      have := rowLe_nonneg hS hn
      have := hP.nonneg
      have := hK.1
      have := R.u_nonneg
      have : 0 < 1 - K * c := by linarith
      rw [hqd, chordRate]
      positivity
    refine ⟨d', y', ld', ly', ?_, fun i hi => (h3 i hi).trans ?_, fun i hi => (h3 i hi).trans ?_⟩
    · simp only [chordSteps, e1, Lalib.ok_bind, e2]
      congr 1
      funext z
      by_cases z1 : z = x
      · subst z1
        simp only [Mem.setBuf_self]
      · by_cases z2 : z = r
        · subst z2
          simp only [Mem.setBuf_self, Mem.setBuf_other _ z1]
        · simp only [Mem.setBuf_other _ z1, Mem.setBuf_other _ z2]
    · exact (add_le_add_left (mul_le_mul_of_nonneg_left (min_le_left _ _) (q0 (by omega))) _).trans hin
    · refine (add_le_add_left (mul_le_mul_of_nonneg_left (min_le_right _ _) (q0 (by omega))) _).trans_eq ?_
      rw [sum_range_succ']
      simp only [pow_succ, ← sum_mul]
      ring

/-- A step which reduces the error: after enough steps only the rest remains. -/
theorem C118_limit (hP : Predicts n F A s rho L) (hf : EvalFor n F s rho phi x r fn) (hsv : SolverFor n A E r r solve) (hxr : x ≠ r)
    (hK : InvBound n A K) (hS : RowLe n A S) (hE : ∀ i, i < n → ∑ j ∈ range n, E i j ≤ c) (hc : 0 ≤ c) (hq : K * c < 1) (hs : MaxLe n s sig)
    (h1 : chordRate R.u K S L c < 1) (hw : chordRest R.u K c phi sig ≤ (1 - chordRate R.u K S L c) * rho)
    (ord : List Nat) (ho : ord.Perm (List.range n)) (m : Mem (Fl R)) (hx : m.len x = n) (hr : m.len r = n)
    (h0 : MaxLe n (fun i => (m.val x i).val - s i) rho) (k : ℕ) :
    ∃ d y : List (Fl R), d.length = n ∧ y.length = n ∧ chordSteps fn solve ord x r k m = .ok ((m.setBuf r d).setBuf x y) ∧
      MaxLe n (fun i => (val0 y i).val - s i)
        (chordRate R.u K S L c ^ k * rho + chordRest R.u K c phi sig / (1 - chordRate R.u K S L c)) := by
  obtain ⟨d, y, h2, h3, h4, -, h5⟩ := C118_steps hP hf hsv hxr hK hS hE hc hq hs (by linarith) ord ho m hx hr rho le_rfl h0 k
  refine ⟨d, y, h2, h3, h4, fun i hi => (h5 i hi).trans ?_⟩
  have hn : 0 < n := by omega
  have S0 := rowLe_nonneg hS hn
  have L0 := hP.nonneg
  have K0 := hK.1
  have u0 := R.u_nonneg
  have q0 : 0 < 1 - K * c := by linarith
  have p0 : 0 ≤ phi := by
    obtain ⟨v, -, -, hv⟩ := hf m hx hr h0
    exact (abs_nonneg _).trans (hv i hi)
  have s0 : 0 ≤ sig := (abs_nonneg _).trans (hs i hi)
  have Q0 : 0 ≤ chordRate R.u K S L c := by
    rw [chordRate]
    positivity
  have W0 : 0 ≤ chordRest R.u K c phi sig := by
    rw [chordRest]
    positivity
  have g := geom_sum_mul (chordRate R.u K S L c) k
  have g' : (∑ j ∈ range k, chordRate R.u K S L c ^ j) * (1 - chordRate R.u K S L c) = 1 - chordRate R.u K S L c ^ k := by linarith
  have := pow_nonneg Q0 k
  refine add_le_add_right ?_ _
  rw [le_div_iff₀ (by linarith), mul_right_comm, g']
  nlinarith

/-- The tri-diagonal solver as `solve`, for a dominating diagonal. -/
theorem C118_tdma (nd : Bool) (a : TriDiag (Fl R)) (hw : TriWf a n) (hn : 2 ≤ n)
    (hd : ∀ i, i < n → ∑ j ∈ (range n).erase i, |Fl.mat (triFull a) i j| < (1 - R.u) ^ 2 * |Fl.mat (triFull a) i i|) (r : ℕ) :
    SolverFor n (Fl.mat (triFull a)) (fun i j => 3 * gam R.u 5 * |Fl.mat (triFull a) i j|) r r (Tdma.solveVec nd a r r) := by
  intro m hr _
  obtain ⟨l, m', e, hs, hl, h⟩ := C60_dominant nd a n hw hn r r m hr hr hd
  exact ⟨l, hs.eq ▸ e, hl, h⟩

/-- Cholesky as `solve`, for every symmetric matrix which it accepts. -/
theorem C118_chol (nd : Bool) (mt : MemType) (l G : List (Fl R)) (A : Nat → Nat → Fl R) (hl : Lower mt n l A) (hs : Symm n A)
    (h0 : 0 < (A 0 0).val) (hG : Chol.new mt n l = .ok G) (r : ℕ) :
    SolverFor n (Fl.mat A) (fun i j => gam R.u (4 * n + 2) * (Real.sqrt (A i i).val * Real.sqrt (A j j).val)) r r
      (Chol.solveMutVec nd false mt n G r) := by
  intro m hr _
  obtain ⟨y, hy, e, -, h⟩ := C59_solve_vec nd mt n l G A hl hs h0 hG m r (r + 1) hr (by omega)
  exact ⟨y, e, hy, h⟩

/-- A discretised equation `A x + g(x) = b`: the linear part predicts the values if `g` changes little. -/
theorem C118_semilinear (n : ℕ) (A : ℕ → ℕ → ℝ) (g : ℕ → ℝ → ℝ) (b s : ℕ → ℝ) (rho L : ℝ) (hL : 0 ≤ L)
    (hg : ∀ i, i < n → ∀ t, |t - s i| ≤ rho → |g i t - g i (s i)| ≤ L * |t - s i|)
    (hs : ∀ i, i < n → mulVec n A s i + g i (s i) = b i) :
    Predicts n (fun x i => mulVec n A x i + g i (x i) - b i) A s rho L := by
  refine ⟨hL, fun x e he hx i hi => ?_⟩
  have e1 : mulVec n A x i + g i (x i) - b i - mulVec n A (fun j => x j - s j) i = g i (x i) - g i (s i) := by
    rw [mulVec_sub, ← hs i hi]
    ring
  simp only [e1]
  exact (hg i hi _ ((hx i hi).trans he)).trans (mul_le_mul_of_nonneg_left (hx i hi) hL)

/-- All together: `A x + g(x) = b` for a tri-diagonal matrix whose diagonal dominates by `delta`. -/
theorem C118_boundary_value (nd : Bool) (a : TriDiag (Fl R)) (hw : TriWf a n) (hn : 2 ≤ n)
    (hd : ∀ i, i < n → ∑ j ∈ (range n).erase i, |Fl.mat (triFull a) i j| < (1 - R.u) ^ 2 * |Fl.mat (triFull a) i i|) (delta : ℝ)
    (d0 : 0 < delta) (hD : DomBy n (Fl.mat (triFull a)) delta) (hS : RowLe n (Fl.mat (triFull a)) S) (g : ℕ → ℝ → ℝ) (b : ℕ → ℝ) (hL : 0 ≤ L)
    (hg : ∀ i, i < n → ∀ t, |t - s i| ≤ rho → |g i t - g i (s i)| ≤ L * |t - s i|)
    (hz : ∀ i, i < n → mulVec n (Fl.mat (triFull a)) s i + g i (s i) = b i)
    (hf : EvalFor n (fun x i => mulVec n (Fl.mat (triFull a)) x i + g i (x i) - b i) s rho phi x r fn) (hxr : x ≠ r)
    (hq : 1 / delta * (3 * gam R.u 5 * S) < 1) (hs : MaxLe n s sig)
    (h1 : chordRate R.u (1 / delta) S L (3 * gam R.u 5 * S) < 1)
    (hr : chordRest R.u (1 / delta) (3 * gam R.u 5 * S) phi sig ≤ (1 - chordRate R.u (1 / delta) S L (3 * gam R.u 5 * S)) * rho)
    (ord : List Nat) (ho : ord.Perm (List.range n)) (m : Mem (Fl R)) (hx : m.len x = n) (hlr : m.len r = n)
    (h0 : MaxLe n (fun i => (m.val x i).val - s i) rho) (k : ℕ) :
    ∃ d y : List (Fl R), d.length = n ∧ y.length = n ∧
      chordSteps fn (Tdma.solveVec nd a r r) ord x r k m = .ok ((m.setBuf r d).setBuf x y) ∧
      MaxLe n (fun i => (val0 y i).val - s i)
        (chordRate R.u (1 / delta) S L (3 * gam R.u 5 * S) ^ k * rho +
          chordRest R.u (1 / delta) (3 * gam R.u 5 * S) phi sig / (1 - chordRate R.u (1 / delta) S L (3 * gam R.u 5 * S))) := by
  have g0 := gam_nonneg R.u_nonneg R.u_lt_one 5
  have S0 := rowLe_nonneg hS (by omega)
  exact C118_limit (C118_semilinear n _ g b s rho L hL hg hz) hf (C118_tdma nd a hw hn hd r) hxr (invBound_of_dom d0 hD) hS
    (fun i hi => by
      rw [← mul_sum]
      exact mul_le_mul_of_nonneg_left (hS i hi) (by positivity)) (by positivity) hq hs h1 hr ord ho m hx hlr h0 k

end

/-! ## Cases -/

-- exact arithmetic and an exact function: the factor is `K L`, and nothing remains
example (K S L sig : ℝ) : chordRate 0 K S L 0 = K * L ∧ chordRest 0 K 0 0 sig = 0 := by
  simp [chordRate, chordRest]

-- a linear system: one exact step reaches the solution
example (n : ℕ) (A : ℕ → ℕ → ℝ) (b s : ℕ → ℝ) (rho : ℝ) (h : Solves n A s b) :
    Predicts n (fun x i => mulVec n A x i - b i) A s rho 0 := by
  have := C118_semilinear n A (fun _ _ => 0) b s rho 0 le_rfl (by simp) (fun i hi => by simpa using h i hi)
  simpa using this

-- a nonlinear one: `2 t - t ^ 2 = 0` at `0`, in the cube of radius `1 / 2`
example : Predicts 1 (fun x i => 2 * x i - x i ^ 2) (fun _ _ => 2) (fun _ => 0) (1 / 2) (1 / 2) := by
  refine ⟨by norm_num, fun x e he hx i hi => ?_⟩
  obtain rfl : i = 0 := by omega
  have h := hx 0 (by omega)
  simp only [sub_zero] at h
  have e1 : 2 * x 0 - x 0 ^ 2 - mulVec 1 (fun _ _ => (2 : ℝ)) (fun j => x j - 0) 0 = -(x 0 * x 0) := by
    simp [mulVec]
    ring
  simp only [e1, abs_neg, abs_mul]
  have := abs_nonneg (x 0)
  nlinarith

-- a function of the caller with this meaning exists, for a vector of one component
example (R : Rounding) (x r : ℕ) : EvalFor (R := R) 1 (fun x i => if i = 0 then x 0 else 0) (fun _ => 0) 1 0 x r
    fun m => .ok (m.setBuf r (m x)) := fun m hx _ _ => ⟨m x, rfl, hx, fun i hi => by
  obtain rfl : i = 0 := by omega
  simp [Mem.val]⟩

end Lalib.Props
