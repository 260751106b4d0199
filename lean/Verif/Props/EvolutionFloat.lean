import Verif.Spec.Drift
import Verif.Spec.Evolution
import Verif.Props.Forward
import Verif.Props.Order

/-! # Property C116: implicit time steps in floating-point arithmetic -/

namespace Lalib.Props

open Lalib Finset

/-! ## What the errors add up to -/

section
variable {n : ℕ} {A : ℕ → ℕ → ℝ} {f : ℕ → ℝ} {u c c0 K : ℝ} {x : ℕ → ℕ → ℝ}

/-- The equations of one step hold up to an error. -/
private theorem resid (h : Drifts n A f u c c0 x) (hu : 0 ≤ u) (k : ℕ) {X B : ℝ} (hX : 0 ≤ X) (hx : MaxLe n (x (k + 1)) X)
    (hB : MaxLe n (fun i => x k i + f i) B) (i : ℕ) (hi : i < n) :
    |mulVec n A (x (k + 1)) i - (x k i + f i)| ≤ c * X + c0 + u * B := by
  obtain ⟨b, E, e, h1, h2, h3, h4⟩ := h k
  obtain ⟨dA, db, hd, he, -⟩ := id h1
  have hE : ∀ j, j < n → 0 ≤ E i j := fun j hj => (abs_nonneg _).trans (hd i j hi hj)
  have r := near_resid h1 hi
  have s : ∑ j ∈ range n, E i j * |x (k + 1) j| ≤ c * X := by
    calc ∑ j ∈ range n, E i j * |x (k + 1) j| ≤ ∑ j ∈ range n, E i j * X :=
          sum_le_sum fun j hj => mul_le_mul_of_nonneg_left (hx j (mem_range.mp hj)) (hE j (mem_range.mp hj))
      _ = (∑ j ∈ range n, E i j) * X := by rw [sum_mul]
      _ ≤ c * X := mul_le_mul_of_nonneg_right (h2 i hi) hX
  have t := mul_le_mul_of_nonneg_left (hB i hi) hu
  calc |mulVec n A (x (k + 1)) i - (x k i + f i)| = |(mulVec n A (x (k + 1)) i - b i) + (b i - (x k i + f i))| := by ring_nf
    _ ≤ |mulVec n A (x (k + 1)) i - b i| + |b i - (x k i + f i)| := abs_add_le _ _
    _ ≤ c * X + c0 + u * B := by linarith [h3 i hi, h4 i hi]

private theorem sumBound {k : ℕ} {X M : ℝ} (hx : MaxLe n (x k) X) (hf : MaxLe n f M) : MaxLe n (fun i => x k i + f i) (X + M) :=
  fun i hi => (abs_add_le _ _).trans (add_le_add (hx i hi) (hf i hi))

/-- The distance from the exact evolution, in terms of a bound `X` for the computed vectors: every step adds at most one rounding error,
and the errors already made are multiplied by `K`. -/
theorem C116_error (h : Drifts n A f u c c0 x) (hu : 0 ≤ u) (hK : InvBound n A K) {v : ℕ → ℕ → ℝ} (hv : Evolves n A f v)
    (h0 : ∀ i, i < n → x 0 i = v 0 i) (X M : ℝ) (hf : MaxLe n f M) (k : ℕ) (hX : ∀ j, j ≤ k → MaxLe n (x j) X) :
    MaxLe n (fun i => x k i - v k i) ((∑ j ∈ range k, K ^ (j + 1)) * (c * X + c0 + u * (X + M))) := by
  induction k with
  | zero =>
    intro i hi
    simp [h0 i hi]
  | succ k ih =>
    have e := ih fun j hj => hX j (by omega)
    rcases Nat.eq_zero_or_pos n with rfl | hn
    · intro i hi
      omega
    have X0 : 0 ≤ X := (abs_nonneg _).trans (hX 0 (by omega) 0 hn)
    set w := c * X + c0 + u * (X + M) with hw
    set s := ∑ j ∈ range k, K ^ (j + 1) with hs
    have r := resid h hu k X0 (hX (k + 1) le_rfl) (sumBound (hX k (by omega)) hf)
    have b : MaxLe n (mulVec n A fun i => x (k + 1) i - v (k + 1) i) (s * w + w) := by
      intro i hi
      have e1 : mulVec n A (fun i => x (k + 1) i - v (k + 1) i) i = mulVec n A (x (k + 1)) i - mulVec n A (v (k + 1)) i := by
        simp only [mulVec, mul_sub, sum_sub_distrib]
      rw [e1, hv k i hi]
      calc |mulVec n A (x (k + 1)) i - (v k i + f i)| = |(x k i - v k i) + (mulVec n A (x (k + 1)) i - (x k i + f i))| := by ring_nf
        _ ≤ |x k i - v k i| + |mulVec n A (x (k + 1)) i - (x k i + f i)| := abs_add_le _ _
        _ ≤ s * w + w := add_le_add (e i hi) (r i hi)
    have b0 : 0 ≤ s * w + w := (abs_nonneg _).trans (b 0 hn)
    have := hK.2 _ _ b0 b
    intro i hi
    refine (this i hi).trans_eq ?_
    rw [sum_range_succ', hs, zero_add, pow_one]
    simp only [pow_succ, ← sum_mul]
    ring

/-- If `K < 1` the errors stay below a bound, however many steps are made. -/
theorem C116_bounded (h : Drifts n A f u c c0 x) (hu : 0 ≤ u) (hc : 0 ≤ c) (hc0 : 0 ≤ c0) (hK : InvBound n A K) (h1 : K < 1)
    {v : ℕ → ℕ → ℝ} (hv : Evolves n A f v) (h0 : ∀ i, i < n → x 0 i = v 0 i) (X M : ℝ) (hf : MaxLe n f M)
    (hX : ∀ k, MaxLe n (x k) X) (k : ℕ) :
    MaxLe n (fun i => x k i - v k i) (K / (1 - K) * (c * X + c0 + u * (X + M))) := by
  intro i hi
  have X0 : 0 ≤ X := (abs_nonneg _).trans (hX 0 i hi)
  have M0 : 0 ≤ M := (abs_nonneg _).trans (hf i hi)
  refine (C116_error h hu hK hv h0 X M hf k (fun j _ => hX j) i hi).trans (mul_le_mul_of_nonneg_right ?_ (by positivity))
  have e : ∑ j ∈ range k, K ^ (j + 1) = K * ∑ j ∈ range k, K ^ j := by
    rw [mul_sum]
    exact sum_congr rfl fun j _ => by ring
  have g : (1 - K) * ∑ j ∈ range k, K ^ j = 1 - K ^ k := by
    have := geom_sum_mul K k
    linarith
  rw [e, le_div_iff₀ (by linarith), mul_assoc, mul_comm _ (1 - K), g]
  have := pow_nonneg hK.1 k
  have := hK.1
  nlinarith

/-- A bound for the computed vectors themselves, known before the program runs. -/
theorem C116_growth (h : Drifts n A f u c c0 x) (hu : 0 ≤ u) (hc0 : 0 ≤ c0) (hK : InvBound n A K) (hq : K * c < 1)
    (X M : ℝ) (hX : MaxLe n (x 0) X) (hf : MaxLe n f M) (k : ℕ) :
    MaxLe n (x k) ((K * (1 + u) / (1 - K * c)) ^ k * X + (∑ j ∈ range k, (K * (1 + u) / (1 - K * c)) ^ (j + 1)) * (M + c0)) := by
  induction k with
  | zero => simpa using hX
  | succ k ih =>
    intro i hi
    have hn : 0 < n := by omega
    set g := K * (1 + u) / (1 - K * c) with hg
    set Y := g ^ k * X + (∑ j ∈ range k, g ^ (j + 1)) * (M + c0) with hY
    obtain ⟨p, hp, hm⟩ := exists_max hn (x (k + 1))
    set Z := |x (k + 1) p| with hZ
    have r := resid h hu k (abs_nonneg (x (k + 1) p)) hm (sumBound ih hf)
    have b : MaxLe n (mulVec n A (x (k + 1))) ((1 + u) * (Y + M) + c * Z + c0) := by
      intro q hq
      have h1 := r q hq
      have h2 := sumBound ih hf q hq
      calc |mulVec n A (x (k + 1)) q| = |(mulVec n A (x (k + 1)) q - (x k q + f q)) + (x k q + f q)| := by ring_nf
        _ ≤ _ := abs_add_le _ _
        _ ≤ (1 + u) * (Y + M) + c * Z + c0 := by
          simp only at h2
          linarith
    have b0 := (abs_nonneg _).trans (b p hp)
    have h3 := hK.2 _ _ b0 b p hp
    have d : 0 < 1 - K * c := by linarith
    have h4 : Z * (1 - K * c) ≤ K * ((1 + u) * (Y + M) + c0) := by
      rw [← hZ] at h3
      nlinarith
    have h5 : K * ((1 + u) * (Y + M) + c0) ≤ K * (1 + u) * (Y + (M + c0)) := by
      have := mul_nonneg hK.1 (mul_nonneg hu hc0)
      nlinarith
    have h6 : Z ≤ g * (Y + (M + c0)) := by
      rw [hg, div_mul_eq_mul_div, le_div_iff₀ d]
      exact h4.trans h5
    refine (hm i hi).trans (h6.trans_eq ?_)
    rw [hY, sum_range_succ', zero_add, pow_one]
    simp only [pow_succ, ← sum_mul]
    ring

end

/-! ## The program -/

section
variable {T : Type} [Add T]

/-- No step fails if the solver does not; `P` is what the solver says about its result and the right-hand side. -/
private theorem run (n : Nat) (P : List T → List T → Prop) (solve : Mem T → Res (Mem T)) (f x : Nat)
    (hsol : ∀ m : Mem T, m.len x = n → ∃ l, l.length = n ∧ solve m = .ok (m.setBuf x l) ∧ P l (m x)) (ord : List Nat)
    (ho : ord.Perm (List.range n)) (m : Mem T) (hf : m.len f = n) (hx : m.len x = n) (hfx : f ≠ x) :
    ∃ l : Nat → List T, l 0 = m x ∧ (∀ k, (l k).length = n ∧ timeSteps solve ord f x k m = .ok (m.setBuf x (l k))) ∧
      ∀ k, P (l (k + 1)) (List.zipWith (· + ·) (l k) (m f)) := by
  have one : ∀ k l, l.length = n → timeSteps solve ord f x k m = .ok (m.setBuf x l) →
      ∃ l', l'.length = n ∧ timeSteps solve ord f x (k + 1) m = .ok (m.setBuf x l') ∧ P l' (List.zipWith (· + ·) l (m f)) := by
    intro k l hl e
    have hxx : (m.setBuf x l) x = l := Mem.setBuf_self _ _ _
    have hff : (m.setBuf x l) f = m f := Mem.setBuf_other _ hfx _
    have lf : (m f).length = n := hf
    have ea := addDD_eq (ord := ord) (m := m.setBuf x l) (v1 := x) (v2 := f) (vr := x) (by simpa [Mem.len, hxx, hl] using ho)
      (by simp [Mem.len, hff, hl, lf]) rfl
    rw [hxx, hff, Mem.setBuf_setBuf] at ea
    have hz : (m.setBuf x (List.zipWith (· + ·) l (m f))) x = List.zipWith (· + ·) l (m f) := Mem.setBuf_self _ _ _
    obtain ⟨l', hl', e', s'⟩ := hsol (m.setBuf x (List.zipWith (· + ·) l (m f))) (by simp [Mem.len, hl, lf])
    rw [Mem.setBuf_setBuf] at e'
    exact ⟨l', hl', by simp only [timeSteps, timeStep, e, Lalib.ok_bind, ea, e'], by rwa [hz] at s'⟩
  have all : ∀ k, ∃ l, l.length = n ∧ timeSteps solve ord f x k m = .ok (m.setBuf x l) := by
    intro k
    induction k with
    | zero => exact ⟨m x, hx, by rw [Mem.setBuf_same]; rfl⟩
    | succ k ih =>
      obtain ⟨l, h1, h2⟩ := ih
      obtain ⟨l', h1', h2', -⟩ := one k l h1 h2
      exact ⟨l', h1', h2'⟩
  choose l hl he using all
  have inj : ∀ k l₁ l₂, timeSteps solve ord f x k m = .ok (m.setBuf x l₁) → timeSteps solve ord f x k m = .ok (m.setBuf x l₂) → l₁ = l₂ := by
    intro k l₁ l₂ h1 h2
    have := congrFun (Except.ok.inj (h1.symm.trans h2)) x
    rwa [Mem.setBuf_self, Mem.setBuf_self] at this
  refine ⟨l, inj 0 _ _ (he 0) (by rw [Mem.setBuf_same]; rfl), fun k => ⟨hl k, he k⟩, fun k => ?_⟩
  obtain ⟨l', -, h2, h3⟩ := one k (l k) (hl k) (he k)
  rw [inj (k + 1) _ _ (he (k + 1)) h2]
  exact h3

end

section
variable {R : Rounding}

private theorem drift (n : Nat) (A : Nat → Nat → ℝ) (E : ℕ → ℕ → ℝ) (c : ℝ) (hE : ∀ i, i < n → ∑ j ∈ range n, E i j ≤ c)
    (f0 : List (Fl R)) (hf : f0.length = n) (l : Nat → List (Fl R)) (hl : ∀ k, (l k).length = n)
    (h : ∀ k, NearSolves n A E (fun i => (val0 (l (k + 1)) i).val) (fun i => (val0 (List.zipWith (· + ·) (l k) f0) i).val)) :
    Drifts n A (fun i => (val0 f0 i).val) R.u c 0 fun k i => (val0 (l k) i).val := by
  intro k
  refine ⟨_, E, fun _ => 0, near2_of_near (h k), hE, fun _ _ => le_rfl, fun i hi => ?_⟩
  have e : val0 (List.zipWith (· + ·) (l k) f0) i = val0 (l k) i + val0 f0 i := by
    rw [val0_of_lt (by simp [hl k, hf, hi]), List.getElem_zipWith, ← val0_of_lt, ← val0_of_lt]
  simp only [e]
  exact R.err _

/-- The tri-diagonal solver, for a matrix with a dominating diagonal: no step fails, and the errors are those of `Drifts`. -/
theorem C116_tdma (nd : Bool) (a : TriDiag (Fl R)) (n : Nat) (hw : TriWf a n) (hn : 2 ≤ n)
    (hd : ∀ i, i < n → ∑ j ∈ (range n).erase i, |Fl.mat (triFull a) i j| < (1 - R.u) ^ 2 * |Fl.mat (triFull a) i i|) (S : ℝ)
    (hS : RowLe n (Fl.mat (triFull a)) S) (f x : Nat) (ord : List Nat) (ho : ord.Perm (List.range n)) (m : Mem (Fl R))
    (hf : m.len f = n) (hx : m.len x = n) (hfx : f ≠ x) :
    ∃ l : Nat → List (Fl R), l 0 = m x ∧
      (∀ k, (l k).length = n ∧ timeSteps (Tdma.solveVec nd a x x) ord f x k m = .ok (m.setBuf x (l k))) ∧
      Drifts n (Fl.mat (triFull a)) (fun i => (m.val f i).val) R.u (3 * gam R.u 5 * S) 0 fun k i => (val0 (l k) i).val := by
  obtain ⟨l, h0, h1, h2⟩ := run n (fun l r => NearSolves n (Fl.mat (triFull a)) (fun i j => 3 * gam R.u 5 * |Fl.mat (triFull a) i j|)
    (fun i => (val0 l i).val) (fun i => (val0 r i).val)) (Tdma.solveVec nd a x x) f x (fun m hx => by
      obtain ⟨l, m', e, hs, hl, h⟩ := C60_dominant nd a n hw hn x x m hx hx hd
      exact ⟨l, hl, hs.eq ▸ e, h⟩) ord ho m hf hx hfx
  have g0 := gam_nonneg R.u_nonneg R.u_lt_one 5
  exact ⟨l, h0, h1, drift n _ _ _ (fun i hi => by
    rw [← mul_sum]
    exact mul_le_mul_of_nonneg_left (hS i hi) (by positivity)) (m f) hf l (fun k => (h1 k).1) h2⟩

/-- Cholesky, for every symmetric matrix which it accepts; `amax` is above the diagonal. -/
theorem C116_chol (nd : Bool) (mt : MemType) (n : Nat) (l L : List (Fl R)) (A : Nat → Nat → Fl R) (hl : Lower mt n l A)
    (hs : Symm n A) (h0 : 0 < (A 0 0).val) (hL : Chol.new mt n l = .ok L) (amax : ℝ) (ha : ∀ i, i < n → (A i i).val ≤ amax) (f x : Nat)
    (ord : List Nat) (ho : ord.Perm (List.range n)) (m : Mem (Fl R)) (hf : m.len f = n) (hx : m.len x = n) (hfx : f ≠ x) :
    ∃ l : Nat → List (Fl R), l 0 = m x ∧
      (∀ k, (l k).length = n ∧ timeSteps (Chol.solveMutVec nd false mt n L x) ord f x k m = .ok (m.setBuf x (l k))) ∧
      Drifts n (Fl.mat A) (fun i => (m.val f i).val) R.u (n * (gam R.u (4 * n + 2) * amax)) 0 fun k i => (val0 (l k) i).val := by
  obtain ⟨y, y0, y1, y2⟩ := run n (fun y r => NearSolves n (Fl.mat A)
    (fun i j => gam R.u (4 * n + 2) * (Real.sqrt (A i i).val * Real.sqrt (A j j).val))
    (fun i => (val0 y i).val) (fun i => (val0 r i).val)) (Chol.solveMutVec nd false mt n L x) f x (fun m hx => by
      obtain ⟨y, hy, e, -, h⟩ := C59_solve_vec nd mt n l L A hl hs h0 hL m x (x + 1) hx (by omega)
      exact ⟨y, hy, e, h⟩) ord ho m hf hx hfx
  refine ⟨y, y0, y1, drift n _ _ _ (fun i hi => ?_) (m f) hf y (fun k => (y1 k).1) y2⟩
  have hp : 0 ≤ amax := by
    have := ha 0 (by omega)
    linarith
  calc ∑ j ∈ range n, gam R.u (4 * n + 2) * (Real.sqrt (A i i).val * Real.sqrt (A j j).val)
      ≤ ∑ j ∈ range n, gam R.u (4 * n + 2) * amax := by
        refine sum_le_sum fun j hj => mul_le_mul_of_nonneg_left ?_ (gam_nonneg R.u_nonneg R.u_lt_one _)
        calc Real.sqrt (A i i).val * Real.sqrt (A j j).val ≤ Real.sqrt amax * Real.sqrt amax :=
              mul_le_mul (Real.sqrt_le_sqrt (ha i hi)) (Real.sqrt_le_sqrt (ha j (mem_range.mp hj))) (Real.sqrt_nonneg _) (Real.sqrt_nonneg _)
          _ = amax := Real.mul_self_sqrt hp
    _ = n * (gam R.u (4 * n + 2) * amax) := by rw [sum_const, card_range, nsmul_eq_mul]

/-- All together for the tri-diagonal solver: the diagonal dominates by `d`. -/
theorem C116_heat (nd : Bool) (a : TriDiag (Fl R)) (n : Nat) (hw : TriWf a n) (hn : 2 ≤ n)
    (hd : ∀ i, i < n → ∑ j ∈ (range n).erase i, |Fl.mat (triFull a) i j| < (1 - R.u) ^ 2 * |Fl.mat (triFull a) i i|) (d S : ℝ) (d0 : 0 < d)
    (hD : DomBy n (Fl.mat (triFull a)) d) (hS : RowLe n (Fl.mat (triFull a)) S) (f x : Nat) (ord : List Nat)
    (ho : ord.Perm (List.range n)) (m : Mem (Fl R)) (hf : m.len f = n) (hx : m.len x = n) (hfx : f ≠ x) :
    ∃ l : Nat → List (Fl R), l 0 = m x ∧
      (∀ k, (l k).length = n ∧ timeSteps (Tdma.solveVec nd a x x) ord f x k m = .ok (m.setBuf x (l k))) ∧
      ∀ v, Evolves n (Fl.mat (triFull a)) (fun i => (m.val f i).val) v → (∀ i, i < n → v 0 i = (m.val x i).val) → ∀ X M,
        (∀ i, i < n → |(m.val f i).val| ≤ M) → ∀ k, (∀ j i, j ≤ k → i < n → |(val0 (l j) i).val| ≤ X) → ∀ i, i < n →
        |(val0 (l k) i).val - v k i| ≤ (∑ j ∈ range k, (1 / d) ^ (j + 1)) * (3 * gam R.u 5 * S * X + R.u * (X + M)) := by
  obtain ⟨l, h0, h1, h2⟩ := C116_tdma nd a n hw hn hd S hS f x ord ho m hf hx hfx
  refine ⟨l, h0, h1, fun v hv v0 X M hM k hX i hi => ?_⟩
  have := C116_error h2 R.u_nonneg (invBound_of_dom d0 hD) hv (fun i hi => by rw [v0 i hi, h0]; rfl) X M hM k (fun j hj i hi => hX j i hj hi) i hi
  simpa using this

end

/-! ## Order -/

section
variable {T : Type} [Zero T] [Add T] [Sub T] [Mul T] [Neg T] [Div T] [CDiv T] [CZero T] [LT T] [Sqrt T] [CSqrt T]

/-- Two runs, for matrices without positive entries off the diagonal: if the data of the first are non-negative and not greater than those
of the second, so are the computed vectors, after any number of steps, as long as those of the second run are finite.  (With the same data
twice: computed vectors are not negative.)  This is about the computed numbers, not about numbers up to errors. -/
theorem C116_order (S : OrdArith T) [DivCases T] (nd : Bool) (a a' : TriDiag T) (n : Nat) (hw : TriWf a n) (hw' : TriWf a' n) (hn : 2 ≤ n)
    (ha : S.MTri n a a') (hp : ∀ i, i < n → S.Pos (triPivot a' i)) (f x : Nat) (hfx : f ≠ x) (ord : List Nat)
    (ho : ord.Perm (List.range n)) (m m' : Mem T) (hf : m.len f = n) (hx : m.len x = n) (hf' : m'.len f = n) (hx' : m'.len x = n)
    (hF : ∀ i, i < n → S.Nn (val0 (m f) i) (val0 (m' f) i)) (hX : ∀ i, i < n → S.Nn (val0 (m x) i) (val0 (m' x) i)) (k : Nat)
    (hfin : ∀ j o, timeSteps (Tdma.solveVec nd a' x x) ord f x j m' = .ok o → ∀ i, i < n →
      (j ≤ k → S.fin (val0 (o x) i)) ∧ (j < k → S.fin (val0 (o x) i + val0 (o f) i))) :
    ∃ l l', timeSteps (Tdma.solveVec nd a x x) ord f x k m = .ok (m.setBuf x l) ∧
      timeSteps (Tdma.solveVec nd a' x x) ord f x k m' = .ok (m'.setBuf x l') ∧ l.length = n ∧ l'.length = n ∧
      ∀ i, i < n → S.Nn (val0 l i) (val0 l' i) := by
  induction k with
  | zero => exact ⟨m x, m' x, by rw [Mem.setBuf_same]; rfl, by rw [Mem.setBuf_same]; rfl, hx, hx', hX⟩
  | succ k ih =>
    obtain ⟨l, l', e, e', hl, hl', hL⟩ := ih fun j o h i hi => ⟨fun hj => (hfin j o h i hi).1 (by omega), fun hj => (hfin j o h i hi).2 (by omega)⟩
    have sum : ∀ (m : Mem T) (l : List T), m.len f = n → l.length = n →
        addDD ord (m.setBuf x l) x f x = .ok (m.setBuf x (List.zipWith (· + ·) l (m f))) ∧
          (List.zipWith (· + ·) l (m f)).length = n ∧ ∀ i, i < n → val0 (List.zipWith (· + ·) l (m f)) i = val0 l i + val0 (m f) i := by
      intro m l hf hl
      have hxx : (m.setBuf x l) x = l := Mem.setBuf_self _ _ _
      have hff : (m.setBuf x l) f = m f := Mem.setBuf_other _ hfx _
      have lf : (m f).length = n := hf
      have ea := addDD_eq (ord := ord) (m := m.setBuf x l) (v1 := x) (v2 := f) (vr := x) (by simpa [Mem.len, hxx, hl] using ho)
        (by simp [Mem.len, hff, hl, lf]) rfl
      rw [hxx, hff, Mem.setBuf_setBuf] at ea
      exact ⟨ea, by simp [hl, lf], fun i hi => by
        rw [val0_of_lt (by simp [hl, lf, hi]), List.getElem_zipWith, ← val0_of_lt, ← val0_of_lt]⟩
    obtain ⟨s1, s2, s3⟩ := sum m l hf hl
    obtain ⟨t1, t2, t3⟩ := sum m' l' hf' hl'
    set r := List.zipWith (· + ·) l (m f)
    set r' := List.zipWith (· + ·) l' (m' f)
    have hr : ∀ (m : Mem T) (r : List T), (m.setBuf x r) x = r := fun m r => Mem.setBuf_self _ _ _
    have hB : ∀ i, i < n → S.Nn (val0 ((m.setBuf x r) x) i) (val0 ((m'.setBuf x r') x) i) := by
      intro i hi
      rw [hr, hr, s3 i hi, t3 i hi]
      refine (hL i hi).add (hF i hi) ?_
      have := (hfin k _ e' i hi).2 (by omega)
      rwa [Mem.setBuf_self, Mem.setBuf_other _ hfx] at this
    have len : ∀ (m : Mem T) (r : List T), r.length = n → (m.setBuf x r).len x = n := fun m r h => by
      show ((m.setBuf x r) x).length = n
      rw [hr, h]
    obtain ⟨-, o, o', eo, eo', -, -, h⟩ := C89_tdma_vec S nd a a' n hw hw' hn x x x x (m.setBuf x r) (m'.setBuf x r') (len m r s2) (len m r s2)
      (len m' r' t2) (len m' r' t2) ha hp hB
    have put : ∀ (a : TriDiag T) (m o : Mem T) (r : List T), TriWf a n → r.length = n → Tdma.solveVec nd a x x (m.setBuf x r) = .ok o →
        o = m.setBuf x (o x) ∧ (o x).length = n := by
      intro a m o r hw hr eo
      have hs : Tdma.Sizes a n 1 (m.setBuf x r) x x := ⟨hn, hw.1, hw.2.1, hw.2.2.1, by rw [len m r hr]; omega, by rw [len m r hr]; omega⟩
      have h := Tdma.tdma_raw hs
      have hd : a.shape.1 = n := hw.1
      have hbx : Tdma.solveVec nd a x x (m.setBuf x r) = noexcept (Tdma.tdma a n 1 x x (m.setBuf x r)) := by
        unfold Tdma.solveVec
        rw [hd, len m r hr]
        simp
      rw [hbx] at eo
      cases e : Tdma.tdma a n 1 x x (m.setBuf x r) with
      | error g =>
        rw [e] at eo
        cases g <;> cases eo
      | ok o₁ =>
        rw [e] at eo h
        obtain rfl := Except.ok.inj eo
        obtain ⟨y, rfl, hy, -⟩ := h
        rw [Mem.setBuf_setBuf, Mem.setBuf_self]
        exact ⟨rfl, by rw [hy, len m r hr]⟩
    obtain ⟨p1, p2⟩ := put a m o r hw s2 eo
    obtain ⟨q1, q2⟩ := put a' m' o' r' hw' t2 eo'
    have run : timeSteps (Tdma.solveVec nd a x x) ord f x (k + 1) m = .ok o := by
      simp only [timeSteps, timeStep, e, Lalib.ok_bind, s1, eo]
    have run' : timeSteps (Tdma.solveVec nd a' x x) ord f x (k + 1) m' = .ok o' := by
      simp only [timeSteps, timeStep, e', Lalib.ok_bind, t1, eo']
    refine ⟨o x, o' x, by rw [← p1]; exact run, by rw [← q1]; exact run', p2, q2, h fun i hi => ?_⟩
    exact (hfin (k + 1) o' run' i hi).1 le_rfl

/-- In rounded arithmetic without overflow: always. -/
theorem C116_order_rounded (R : Rounding) (hR : R.Mono) (nd : Bool) (a a' : TriDiag (Fl R)) (n : Nat) (hw : TriWf a n) (hw' : TriWf a' n)
    (hn : 2 ≤ n) (ha : (Fl.ordArith R hR).MTri n a a') (hp : ∀ i, i < n → 0 < (triPivot a' i).val) (f x : Nat) (hfx : f ≠ x) (ord : List Nat)
    (ho : ord.Perm (List.range n)) (m m' : Mem (Fl R)) (hf : m.len f = n) (hx : m.len x = n) (hf' : m'.len f = n) (hx' : m'.len x = n)
    (hF : ∀ i, i < n → 0 ≤ (m.val f i).val ∧ (m.val f i).val ≤ (m'.val f i).val)
    (hX : ∀ i, i < n → 0 ≤ (m.val x i).val ∧ (m.val x i).val ≤ (m'.val x i).val) (k : Nat) :
    ∃ l l', timeSteps (Tdma.solveVec nd a x x) ord f x k m = .ok (m.setBuf x l) ∧
      timeSteps (Tdma.solveVec nd a' x x) ord f x k m' = .ok (m'.setBuf x l') ∧ l.length = n ∧ l'.length = n ∧
      ∀ i, i < n → 0 ≤ (val0 l i).val ∧ (val0 l i).val ≤ (val0 l' i).val := by
  obtain ⟨l, l', e, e', h1, h2, h3⟩ := C116_order (Fl.ordArith R hR) nd a a' n hw hw' hn ha (fun i hi => ⟨trivial, hp i hi⟩) f x hfx ord ho m m'
    hf hx hf' hx' (fun i hi => ⟨trivial, trivial, (hF i hi).1, (hF i hi).2⟩) (fun i hi => ⟨trivial, trivial, (hX i hi).1, (hX i hi).2⟩) k
    fun _ _ _ _ _ => ⟨fun _ => trivial, fun _ => trivial⟩
  exact ⟨l, l', e, e', h1, h2, fun i hi => ⟨(h3 i hi).nn, (h3 i hi).le⟩⟩

end

/-! ## Cases -/

-- exact steps are steps without errors
example (n : ℕ) (A : ℕ → ℕ → ℝ) (f : ℕ → ℝ) (v : ℕ → ℕ → ℝ) (h : Evolves n A f v) : Drifts n A f 0 0 0 v := fun k =>
  ⟨fun i => v k i + f i, fun _ _ => 0, fun _ => 0, ⟨fun _ _ => 0, fun _ => 0, by simp, by simp, by simpa using h k⟩, by simp, by simp, by simp⟩

-- the largest error in every sum: `x = x + 0` in one dimension, where the numbers grow
example (u : ℝ) (hu : 0 ≤ u) : Drifts 1 (fun _ _ => 1) (fun _ => 0) u 0 0 fun k _ => (1 + u) ^ k := fun k =>
  ⟨fun _ => (1 + u) ^ (k + 1), fun _ _ => 0, fun _ => 0, ⟨fun _ _ => 0, fun _ => 0, by simp, by simp, fun i _ => by simp [mulVec]⟩, by simp, by simp,
    fun i _ => by
      have h : 0 ≤ (1 + u) ^ k := by positivity
      have e : (1 + u) ^ (k + 1) - (1 + u) ^ k = u * (1 + u) ^ k := by ring
      simp only [add_zero, e, abs_of_nonneg (mul_nonneg hu h), abs_of_nonneg h, le_refl]⟩

-- the assumptions of `C116_order_rounded` hold, in every monotone arithmetic, for the unit matrix
example (R : Rounding) (hR : R.Mono) : (Fl.ordArith R hR).MTri 2 (⟨[0], [1, 1], [0]⟩ : TriDiag (Fl R)) ⟨[0], [1, 1], [0]⟩ ∧
    ∀ i, i < 2 → 0 < (triPivot (⟨[0], [1, 1], [0]⟩ : TriDiag (Fl R)) i).val := by
  have h0 : (0 : Fl R).val = 0 := rfl
  have h1 : (1 : Fl R).val = 1 := rfl
  refine ⟨⟨fun i hi => ⟨trivial, trivial, le_rfl⟩, fun i hi => ⟨trivial, trivial, ?_, le_rfl⟩, fun i hi => ⟨trivial, trivial, ?_, le_rfl⟩⟩, fun i hi => ?_⟩
  · obtain rfl : i = 0 := by omega
    exact h0.le
  · obtain rfl : i = 0 := by omega
    exact h0.le
  · obtain rfl | rfl : i = 0 ∨ i = 1 := by omega
    · show 0 < (1 : Fl R).val
      rw [h1]
      exact one_pos
    · show 0 < ((1 : Fl R) + 0 * (-0 / 1)).val
      rw [Fl.val_add, Fl.val_mul, h0, zero_mul, R.rnd_zero, add_zero, h1, R.one]
      exact one_pos

end Lalib.Props
