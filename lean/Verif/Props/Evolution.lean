import Verif.Spec.Evolution
import Verif.Proofs.Stationary
import Verif.Props.Cholesky
import Verif.Props.Tdma

/-! # Property C115: implicit time steps

The program `add(x, f, x); solve_linear(x, x);`, repeated, in exact arithmetic. -/

namespace Lalib.Props

open Lalib Finset

variable {T : Type} [Field T]

/-- The solver works in place on `x`, for the matrix `A`. -/
def InPlace (n : Nat) (A : Nat → Nat → T) (x : Nat) (solve : Mem T → Res (Mem T)) : Prop :=
  ∀ m : Mem T, m.len x = n → ∃ l, l.length = n ∧ solve m = .ok (m.setBuf x l) ∧ Solves n A (val0 l) (m.val x)

/-! ## The run -/

/-- No step fails, only `x` changes, and the contents of `x` evolve as the equations say. -/
theorem C115_run (n : Nat) (A : Nat → Nat → T) (solve : Mem T → Res (Mem T)) (f x : Nat) (hsol : InPlace n A x solve) (ord : List Nat)
    (ho : ord.Perm (List.range n)) (m : Mem T) (hf : m.len f = n) (hx : m.len x = n) (hfx : f ≠ x) :
    ∃ l : Nat → List T, l 0 = m x ∧ (∀ k, (l k).length = n ∧ timeSteps solve ord f x k m = .ok (m.setBuf x (l k))) ∧
      Evolves n A (m.val f) fun k => val0 (l k) := by
  have one : ∀ k l, l.length = n → timeSteps solve ord f x k m = .ok (m.setBuf x l) →
      ∃ l', l'.length = n ∧ timeSteps solve ord f x (k + 1) m = .ok (m.setBuf x l') ∧ Solves n A (val0 l') (fun i => val0 l i + m.val f i) := by
    intro k l hl e
    have hxx : (m.setBuf x l) x = l := Mem.setBuf_self _ _ _
    have hff : (m.setBuf x l) f = m f := Mem.setBuf_other _ hfx _
    have lf : (m f).length = n := hf
    have ea := addDD_eq (ord := ord) (m := m.setBuf x l) (v1 := x) (v2 := f) (vr := x) (by simpa [Mem.len, hxx, hl] using ho)
      (by simp [Mem.len, hff, hl, lf]) rfl
    rw [hxx, hff, Mem.setBuf_setBuf] at ea
    have hz : (m.setBuf x (List.zipWith (· + ·) l (m f))) x = List.zipWith (· + ·) l (m f) := Mem.setBuf_self _ _ _
    obtain ⟨l', hl', e', s'⟩ := hsol (m.setBuf x (List.zipWith (· + ·) l (m f))) (by simp [Mem.len, hl, lf])
    rw [Mem.setBuf_setBuf] at e'
    refine ⟨l', hl', by simp only [timeSteps, timeStep, e, Lalib.ok_bind, ea, e'], fun i hi => (s' i hi).trans ?_⟩
    show val0 ((m.setBuf x (List.zipWith (· + ·) l (m f))) x) i = val0 l i + val0 (m f) i
    rw [hz, val0_of_lt (by simp [hl, lf, hi]), List.getElem_zipWith, ← val0_of_lt, ← val0_of_lt]
  have all : ∀ k, ∃ l, l.length = n ∧ timeSteps solve ord f x k m = .ok (m.setBuf x l) := by
    intro k
    induction k with
    | zero => exact ⟨m x, hx, by rw [Mem.setBuf_same]; rfl⟩
    | succ k ih =>
      obtain ⟨l, h1, h2⟩ := ih
      obtain ⟨l', h1', h2', -⟩ := one k l h1 h2
      exact ⟨l', h1', h2'⟩
  choose l hl he using all
  have inj : ∀ k l₁ l₂, timeSteps solve ord f x k m = .ok (m.setBuf x l₁) → timeSteps solve ord f x k m = .ok (m.setBuf x l₂) → l₁ = l₂ := by
    intro k l₁ l₂ h1 h2
    have := congrFun (Except.ok.inj (h1.symm.trans h2)) x
    rwa [Mem.setBuf_self, Mem.setBuf_self] at this
  refine ⟨l, inj 0 _ _ (he 0) (by rw [Mem.setBuf_same]; rfl), fun k => ⟨hl k, he k⟩, fun k => ?_⟩
  obtain ⟨l', -, h2, h3⟩ := one k (l k) (hl k) (he k)
  show Solves n A (val0 (l (k + 1))) _
  rw [inj (k + 1) _ _ (he (k + 1)) h2]
  exact h3

variable [LinearOrder T] [IsStrictOrderedRing T]

private theorem mm {n : Nat} {A : Nat → Nat → T} {c : T} (h : StepMatrix n A c) (hc : 0 < c) : MMatrix n A fun _ => 1 where
  diag i hi := by
    have h1 := h.row i hi
    rw [← add_sum_erase _ _ (mem_range.mpr hi)] at h1
    have h2 : ∑ j ∈ (range n).erase i, A i j ≤ 0 := sum_nonpos fun j hj => by
      have := mem_erase.mp hj
      exact h.off i j hi (mem_range.mp this.2) (Ne.symm this.1)
    linarith
  off := h.off
  pos _ _ := one_pos
  row i hi := by simpa using hc.trans_le (h.row i hi)

omit [LinearOrder T] [IsStrictOrderedRing T] in
private theorem mulVec_lin {n : Nat} {A : Nat → Nat → T} (u v : Nat → T) (i : Nat) :
    mulVec n A (fun j => u j - v j) i = mulVec n A u i - mulVec n A v i := by
  simp only [mulVec, mul_sub, sum_sub_distrib]

omit [LinearOrder T] [IsStrictOrderedRing T] in
private theorem mulVec_const {n : Nat} {A : Nat → Nat → T} (c : T) (i : Nat) : mulVec n A (fun _ => c) i = (∑ j ∈ range n, A i j) * c := by
  simp only [mulVec, sum_mul]

/-! ## What the vectors do -/

/-- Order: a smaller start and a smaller source give smaller values, at all times. -/
theorem C115_order {n : Nat} {A : Nat → Nat → T} (hA : StepMatrix n A 1) {f g : Nat → T} {u v : Nat → Nat → T} (hu : Evolves n A f u)
    (hv : Evolves n A g v) (hfg : ∀ i, i < n → f i ≤ g i) (h0 : ∀ i, i < n → u 0 i ≤ v 0 i) (k : Nat) : ∀ i, i < n → u k i ≤ v k i := by
  induction k with
  | zero => exact h0
  | succ k ih =>
    intro i hi
    have := (mm hA one_pos).nonneg (y := fun j => v (k + 1) j - u (k + 1) j) (fun j hj => by
      rw [mulVec_lin, hu k j hj, hv k j hj]
      have h1 := ih j hj
      have h2 := hfg j hj
      simp only
      linarith) i hi
    linarith

/-- Lower bounds: with rows that add up to 1, or bounds that are not positive. -/
theorem C115_lower {n : Nat} {A : Nat → Nat → T} (hA : StepMatrix n A 1) {f : Nat → T} {u : Nat → Nat → T} (hu : Evolves n A f u) (lo flo : T)
    (h : (∀ i, i < n → ∑ j ∈ range n, A i j = 1) ∨ lo ≤ 0 ∧ flo ≤ 0) (hf : ∀ i, i < n → flo ≤ f i) (h0 : ∀ i, i < n → lo ≤ u 0 i) (k : Nat) :
    ∀ i, i < n → lo + k * flo ≤ u k i := by
  induction k with
  | zero => simpa using h0
  | succ k ih =>
    intro i hi
    have := (mm hA one_pos).nonneg (y := fun j => u (k + 1) j - (lo + (k + 1 : ℕ) * flo)) (fun j hj => by
      rw [mulVec_lin, hu k j hj, mulVec_const]
      have h1 := ih j hj
      have h2 := hf j hj
      have h3 := hA.row j hj
      push_cast
      rcases h with h | ⟨h, h'⟩
      · rw [h j hj]
        linarith
      · have k0 : (0 : T) ≤ k := Nat.cast_nonneg k
        have h4 : lo + (k + 1) * flo ≤ 0 := by nlinarith
        nlinarith) i hi
    linarith

/-- Upper bounds. -/
theorem C115_upper {n : Nat} {A : Nat → Nat → T} (hA : StepMatrix n A 1) {f : Nat → T} {u : Nat → Nat → T} (hu : Evolves n A f u) (hi fhi : T)
    (h : (∀ i, i < n → ∑ j ∈ range n, A i j = 1) ∨ 0 ≤ hi ∧ 0 ≤ fhi) (hf : ∀ i, i < n → f i ≤ fhi) (h0 : ∀ i, i < n → u 0 i ≤ hi) (k : Nat) :
    ∀ i, i < n → u k i ≤ hi + k * fhi := by
  have hn : Evolves n A (fun i => -f i) fun k i => -u k i := fun k i hi => by
    have := hu k i hi
    simp only [mulVec, mul_neg, sum_neg_distrib] at this ⊢
    rw [this]
    ring
  intro i hi'
  have := C115_lower hA hn (-hi) (-fhi) (h.imp id fun h => ⟨by linarith [h.1], by linarith [h.2]⟩) (fun j hj => neg_le_neg (hf j hj))
    (fun j hj => neg_le_neg (h0 j hj)) k i hi'
  linarith

/-- Content: with columns that add up to 1 a step adds the sum of the source, and nothing gets lost. -/
theorem C115_content {n : Nat} {A : Nat → Nat → T} (hc : ∀ j, j < n → ∑ i ∈ range n, A i j = 1) {f : Nat → T} {u : Nat → Nat → T}
    (hu : Evolves n A f u) (k : Nat) : ∑ i ∈ range n, u k i = ∑ i ∈ range n, u 0 i + k * ∑ i ∈ range n, f i := by
  induction k with
  | zero => simp
  | succ k ih =>
    have e : ∑ i ∈ range n, u (k + 1) i = ∑ i ∈ range n, mulVec n A (u (k + 1)) i := by
      simp only [mulVec]
      rw [sum_comm]
      refine sum_congr rfl fun j hj => ?_
      rw [← sum_mul, hc j (mem_range.mp hj), one_mul]
    rw [e, sum_congr rfl fun i hi => hu k i (mem_range.mp hi), sum_add_distrib, ih]
    push_cast
    ring

/-- Steady state: two evolutions with the same source approach each other by the factor `1 / c` in each step, where every row adds up to `c` or
more; so does one evolution its steady state `A s = s + f`. -/
theorem C115_decay {n : Nat} {A : Nat → Nat → T} {c : T} (hA : StepMatrix n A c) (hc : 0 < c) {f : Nat → T} {u v : Nat → Nat → T}
    (hu : Evolves n A f u) (hv : Evolves n A f v) (e : T) (h0 : ∀ i, i < n → |u 0 i - v 0 i| ≤ e) (k : Nat) :
    ∀ i, i < n → c ^ k * |u k i - v k i| ≤ e := by
  have key : ∀ {u v : Nat → Nat → T}, Evolves n A f u → Evolves n A f v → (∀ i, i < n → u 0 i - v 0 i ≤ e) → 0 ≤ e → ∀ k i, i < n →
      c ^ k * (u k i - v k i) ≤ e := by
    intro u v hu hv h0 e0 k
    induction k with
    | zero => simpa using h0
    | succ k ih =>
      intro i hi
      have ck := pow_pos hc (k + 1)
      have := (mm hA hc).nonneg (y := fun j => e / c ^ (k + 1) - (u (k + 1) j - v (k + 1) j)) (fun j hj => by
        rw [mulVec_lin, mulVec_lin, mulVec_const, hu k j hj, hv k j hj]
        have h1 : u k j - v k j ≤ e / c ^ k := by
          rw [le_div_iff₀ (pow_pos hc k), mul_comm]; exact ih j hj
        have h2 : e / c ^ k = c * (e / c ^ (k + 1)) := by
          rw [pow_succ]; field_simp
        have h3 := mul_le_mul_of_nonneg_right (hA.row j hj) (div_nonneg e0 ck.le)
        simp only
        linarith) i hi
      rw [mul_comm, ← le_div_iff₀ ck]
      linarith
  intro i hi
  have e0 : 0 ≤ e := (abs_nonneg _).trans (h0 i hi)
  have h1 := key hu hv (fun j hj => (le_abs_self _).trans (h0 j hj)) e0 k i hi
  have h2 := key hv hu (fun j hj => by
    have := h0 j hj
    rw [abs_sub_comm] at this
    exact (le_abs_self _).trans this) e0 k i hi
  rcases abs_cases (u k i - v k i) with ⟨h, -⟩ | ⟨h, -⟩ <;> rw [h]
  · exact h1
  · rwa [neg_sub]

/-! ## Solvers for which this holds -/

/-- The tri-diagonal solver, for all matrices of this kind. -/
theorem C115_tdma (nd : Bool) (a : TriDiag T) (n : Nat) (hw : TriWf a n) (hn : 2 ≤ n) (c : T) (hc : 0 < c) (hA : StepMatrix n (triFull a) c)
    (x : Nat) : InPlace n (triFull a) x (Tdma.solveVec nd a x x) := by
  intro m hx
  have hd : DiagDom (triFull a) n := fun i hi => by
    have h1 := hA.row i hi
    rw [← add_sum_erase _ _ (mem_range.mpr hi)] at h1
    rw [sum_congr rfl fun j hj => abs_of_nonpos (hA.off i j hi (mem_range.mp (mem_erase.mp hj).2) (Ne.symm (mem_erase.mp hj).1)),
      abs_of_pos ((mm hA hc).diag i hi), sum_neg_distrib]
    linarith
  obtain ⟨l, m', e, hs, hl, hsol⟩ := C34_vec_partial nd a n hw hn x x m hx hx (C34_dominant a n hd)
  exact ⟨l, hl, hs.eq ▸ e, hsol⟩

/-- Cholesky, for positive definite matrices. -/
theorem C115_chol [Sqrt T] [LawfulSqrt T] (nd : Bool) (mt : MemType) (n : Nat) (l L : List T) (A : Nat → Nat → T) (hl : Lower mt n l A)
    (hs : Symm n A) (hp : PosDef n A) (hL : Chol.new mt n l = .ok L) (x : Nat) : InPlace n A x (Chol.solveMutVec nd false mt n L x) := by
  intro m hx
  obtain ⟨y, hy, sy, e, -⟩ := C37_vec nd mt n l L A hl hs hp hL m x (x + 1) hx (by omega)
  exact ⟨y, hy, e, sy⟩

omit [LinearOrder T] [IsStrictOrderedRing T] in
/-- Modified Cholesky, for every symmetric matrix which it accepts. -/
theorem C115_mod [DecidableEq T] (nd : Bool) (mt : MemType) (n : Nat) (l L : List T) (A : Nat → Nat → T) (hl : Lower mt n l A)
    (hs : Symm n A) (hL : Chol.modNew mt n l = .ok L) (x : Nat) : InPlace n A x (Chol.solveMutVec nd true mt n L x) := by
  intro m hx
  obtain ⟨y, hy, sy, e, -⟩ := C39_vec nd mt n l L A hl hs hL m x (x + 1) hx (by omega)
  exact ⟨y, hy, e, sy⟩

/-- All together for the tri-diagonal solver: no step fails; bounds are kept if the rows add up to 1 or the bounds enclose 0; the content
changes by the source only if the columns add up to 1; and the steady state, if there is one, is approached. -/
theorem C115_heat (nd : Bool) (a : TriDiag T) (n : Nat) (hw : TriWf a n) (hn : 2 ≤ n) (hA : StepMatrix n (triFull a) 1) (f x : Nat)
    (ord : List Nat) (ho : ord.Perm (List.range n)) (m : Mem T) (hf : m.len f = n) (hx : m.len x = n) (hfx : f ≠ x) (k : Nat) :
    ∃ y, y.length = n ∧ timeSteps (Tdma.solveVec nd a x x) ord f x k m = .ok (m.setBuf x y) ∧
      (∀ lo flo, (∀ i, i < n → ∑ j ∈ range n, triFull a i j = 1) ∨ lo ≤ 0 ∧ flo ≤ 0 → (∀ i, i < n → flo ≤ m.val f i) →
        (∀ i, i < n → lo ≤ m.val x i) → ∀ i, i < n → lo + k * flo ≤ val0 y i) ∧
      (∀ hi fhi, (∀ i, i < n → ∑ j ∈ range n, triFull a i j = 1) ∨ 0 ≤ hi ∧ 0 ≤ fhi → (∀ i, i < n → m.val f i ≤ fhi) →
        (∀ i, i < n → m.val x i ≤ hi) → ∀ i, i < n → val0 y i ≤ hi + k * fhi) ∧
      ((∀ j, j < n → ∑ i ∈ range n, triFull a i j = 1) →
        ∑ i ∈ range n, val0 y i = ∑ i ∈ range n, m.val x i + k * ∑ i ∈ range n, m.val f i) ∧
      ∀ c, 0 < c → StepMatrix n (triFull a) c → ∀ s, Solves n (triFull a) s (fun i => s i + m.val f i) → ∀ e,
        (∀ i, i < n → |m.val x i - s i| ≤ e) → ∀ i, i < n → c ^ k * |val0 y i - s i| ≤ e := by
  obtain ⟨l, h0, h1, h2⟩ := C115_run n (triFull a) _ f x (C115_tdma nd a n hw hn 1 one_pos hA x) ord ho m hf hx hfx
  have h0' : ∀ i, val0 (l 0) i = m.val x i := fun i => by rw [h0]; rfl
  refine ⟨l k, (h1 k).1, (h1 k).2, fun lo flo h hb hs => C115_lower hA h2 lo flo h hb (fun i hi => (hs i hi).trans_eq (h0' i).symm) k,
    fun hi fhi h hb hs => C115_upper hA h2 hi fhi h hb (fun i hi' => (h0' i).trans_le (hs i hi')) k, fun hc => ?_, fun c c0 hc s hs e he => ?_⟩
  · rw [C115_content hc h2 k, sum_congr rfl fun i _ => h0' i]
  · exact C115_decay hc c0 h2 (v := fun _ => s) (fun _ => hs) e (fun i hi => by rw [h0' i]; exact he i hi) k

/-! ## Cases -/

-- two steps of the heat equation on three points with closed ends: the bounds hold, and the content stays 9
example : (timeSteps (Tdma.solveVec true (⟨[-1, -1], [2, 3, 2], [-1, -1]⟩ : TriDiag ℚ) 1 1) [0, 1, 2] 0 1 2
    (Mem.ofList [[0, 0, 0], [9, 0, 0]])).map (· 1) = .ok [135 / 32, 45 / 16, 63 / 32] := by decide +kernel

-- its matrix is of the kind that is meant
example : StepMatrix 3 (triFull (⟨[-1, -1], [2, 3, 2], [-1, -1]⟩ : TriDiag ℚ)) 1 := by
  have h1 : ∀ i, i < 3 → ∀ j, j < 3 → i ≠ j → triFull (⟨[-1, -1], [2, 3, 2], [-1, -1]⟩ : TriDiag ℚ) i j ≤ 0 := by decide +kernel
  exact ⟨fun i j hi hj => h1 i hi j hj, by decide +kernel⟩

end Lalib.Props
