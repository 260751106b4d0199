import Verif.Proofs.IeeeGmres
import Verif.Props.IeeeSolve

/-! # Property C69: GMRES over IEEE 754 numbers

For dense and CSR matrices (`GKind`), with the ILU(0) preconditioner of the constructor. -/

namespace Lalib.Props

open Lalib

variable {F : Fmt} {M : Type} {ops : Bool → GOps M (Fp F)} {ok : M → Prop}
  {prod : Nat → M → (Nat → Fp F) → (Nat → Fp F) → Prop}

/-- Whatever the numbers are, `solve` stops after at most `n` iterations and returns the vector described by `GmresRec`;
the only exception is the one of the factorisation in the constructor. -/
theorem C69_run (hst : GKind ops ok prod) (nd : Bool) {rt : Nat → Nat} (hrt : SqrtExact rt) (n : Nat) (a : M)
    (A : Nat → Nat → Fp F) (hok : ok a) (hA : Shows (ops nd).toMatOps n a A) (tol : Fp F) :
    Gmres.new (ops nd) a tol = .error (.throw .runtimeError) ∨
    ∃ g G, Gmres.new (ops nd) a tol = .ok g ∧ IluRec n A G ∧ ∀ b : List (Fp F), b.length = n →
      ∃ x, Gmres.solve rt nd (ops nd) g b = .ok x ∧ x.length = n ∧ ∃ b', IluSolveRec n G (val0 b) b' ∧
        ∃ k q H h R c s γ y, GmresRec n (GOp prod n a G) tol b' (val0 x) k q H h R c s γ y := by
  rcases C68_ilu (hst.storage nd) (hst.storage nd) n a a A hok hok hA hA with ⟨e, _⟩ | ⟨f, _, G, e, _, hok', _, hG, _, hI⟩
  · left
    unfold Gmres.new
    rw [e]; rfl
  · refine .inr ⟨⟨a, f, tol⟩, G, by unfold Gmres.new; rw [e]; rfl, hI, fun b hb => ?_⟩
    obtain ⟨R, hR, h1, _⟩ := storage_rep (hst.storage nd) n
    have hsol : ∀ w : List (Fp F), w.length = n → ∃ y, Ilu.solve (ops nd).toMatOps f w = .ok y ∧ y.length = n ∧
        IluSolveRec n G (val0 w) (val0 y) := fun w hw => Ilu.solve_raw hR (h1 f G hok' hG) (fun i _ => Fp.divAt _) hw
    obtain ⟨b', eb, lb, hb'⟩ := hsol b hb
    have hS : Gmres.Does n (GOp prod n a G) (ops nd) (⟨a, f, tol⟩ : Gmres M (Fp F)) := by
      intro l hl
      obtain ⟨w, ew, lw, hw⟩ := hst.prod nd hok hA hl
      obtain ⟨y, ey, ly, hy⟩ := hsol w lw
      exact ⟨w, y, ew, ey, ly, val0 w, hw, hy⟩
    obtain ⟨x, ex, lx, hx⟩ := Gmres.solve_raw nd hrt Fp.divAt Fp.sqrtC_eq hS hA.1 eb lb
    exact ⟨x, ex, lx, val0 b', hb', hx⟩

/-- The parts of `C69_run` for a solver and a result at hand. -/
theorem gmres_of (hst : GKind ops ok prod) (nd : Bool) {rt : Nat → Nat} (hrt : SqrtExact rt) {n : Nat} {a : M}
    {A : Nat → Nat → Fp F} (hok : ok a) (hA : Shows (ops nd).toMatOps n a A) {tol : Fp F} {g : Gmres M (Fp F)}
    (hg : Gmres.new (ops nd) a tol = .ok g) {b x : List (Fp F)} (hb : b.length = n)
    (hx : Gmres.solve rt nd (ops nd) g b = .ok x) :
    ∃ G b', IluRec n A G ∧ IluSolveRec n G (val0 b) b' ∧
      ∃ k q H h R c s γ y, GmresRec n (GOp prod n a G) tol b' (val0 x) k q H h R c s γ y := by
  rcases C69_run hst nd hrt n a A hok hA tol with e | ⟨g', G, e, hI, hs⟩
  · rw [hg] at e; cases e
  · rw [hg] at e
    injection e with e
    subst e
    obtain ⟨x', ex, _, b', h1, h2⟩ := hs b hb
    rw [hx] at ex
    injection ex with ex
    subst ex
    exact ⟨G, b', hI, h1, h2⟩

/-- One finite component of the result certifies that every number of the system is finite and that no diagonal entry
is zero. -/
theorem C69_finite (hst : GKind ops ok prod) (nd : Bool) {rt : Nat → Nat} (hrt : SqrtExact rt) (n : Nat) (a : M)
    (A : Nat → Nat → Fp F) (hok : ok a) (hA : Shows (ops nd).toMatOps n a A) (tol : Fp F) (g : Gmres M (Fp F))
    (hg : Gmres.new (ops nd) a tol = .ok g) (b x : List (Fp F)) (hb : b.length = n)
    (hx : Gmres.solve rt nd (ops nd) g b = .ok x) (l : Nat) (hl : l < n) (hf : (val0 x l).IsFin) :
    (∀ i, i < n → (val0 b i).IsFin) ∧ (∀ i j, i < n → j < n → (A i j).IsFin) ∧ ∀ i, i < n → ¬ IsZ (A i i) := by
  obtain ⟨G, b', hI, h1, k, q, H, h, R, c, s, γ, y, hr⟩ := gmres_of hst nd hrt hok hA hg hb hx
  obtain ⟨f1, _, _, _, f5⟩ := hr.fin hl hf
  obtain ⟨g1, g2⟩ := h1.fin (show 0 < n by omega) (f1 0 (by omega))
  obtain ⟨v, ⟨w, hw, hv⟩, fv⟩ := f5 0 (hr.pos (by omega))
  obtain ⟨g3, _⟩ := hv.fin (show 0 < n by omega) (fv 0 (by omega))
  refine ⟨fun i hi => (g1 i hi).1, fun i j hi hj => (hst.row hok hA hw hi hj).1 (g3 i hi).1, fun i hi hz => ?_⟩
  have := (g2 i (Nat.zero_le _) hi).2.2.1
  rw [(hI i i hi hi).1 hz] at this
  exact this hz

/-- One NaN in the matrix or in the right-hand side makes every component NaN. -/
theorem C69_nan (hst : GKind ops ok prod) (nd : Bool) {rt : Nat → Nat} (hrt : SqrtExact rt) (n : Nat) (a : M)
    (A : Nat → Nat → Fp F) (hok : ok a) (hA : Shows (ops nd).toMatOps n a A) (tol : Fp F) (g : Gmres M (Fp F))
    (hg : Gmres.new (ops nd) a tol = .ok g) (b x : List (Fp F)) (hb : b.length = n)
    (hx : Gmres.solve rt nd (ops nd) g b = .ok x) (i j : Nat) (hi : i < n) (hj : j < n)
    (hn : val0 b i = .nan ∨ A i j = .nan) (l : Nat) (hl : l < n) : val0 x l = .nan := by
  by_contra hf
  obtain ⟨G, b', hI, h1, k, q, H, h, R, c, s, γ, y, hr⟩ := gmres_of hst nd hrt hok hA hg hb hx
  obtain ⟨f1, _, _, v, ⟨w, hw, hv⟩, fv⟩ := hr.nn hl hf
  rcases hn with hn | hn
  · exact ((h1.nn (show 0 < n by omega) (f1 0 (by omega))).1 i hi).1 hn
  · exact (hst.row hok hA hw hi hj).2 ((hv.nn (show 0 < n by omega) (fv 0 (by omega))).1 i hi).1 hn

/-- The system with right-hand side zero is not solved: every component of the result is NaN, for every matrix. -/
theorem C69_zero (hst : GKind ops ok prod) (nd : Bool) {rt : Nat → Nat} (hrt : SqrtExact rt) (n : Nat) (a : M)
    (A : Nat → Nat → Fp F) (hok : ok a) (hA : Shows (ops nd).toMatOps n a A) (tol : Fp F) (g : Gmres M (Fp F))
    (hg : Gmres.new (ops nd) a tol = .ok g) (b x : List (Fp F)) (hb : b.length = n)
    (hx : Gmres.solve rt nd (ops nd) g b = .ok x) (hz : ∀ i, i < n → IsZ (val0 b i)) (l : Nat) (hl : l < n) :
    val0 x l = .nan := by
  by_contra hf
  obtain ⟨G, b', hI, h1, k, q, H, h, R, c, s, γ, y, hr⟩ := gmres_of hst nd hrt hok hA hg hb hx
  exact hf (hr.zero (h1.zero hz (hr.nn hl hf).1) hl)

/-- With a tolerance that is not positive (zero, negative or NaN) the iteration never stops early: `k = n`.  Then, and in
general, a finite component tells that no basis vector vanished before the last iteration: if the Krylov space is
exhausted early (`h i` is zero), the result has no finite component. -/
theorem C69_breakdown (hst : GKind ops ok prod) (nd : Bool) {rt : Nat → Nat} (hrt : SqrtExact rt) (n : Nat) (a : M)
    (A : Nat → Nat → Fp F) (hok : ok a) (hA : Shows (ops nd).toMatOps n a A) (tol : Fp F) (g : Gmres M (Fp F))
    (hg : Gmres.new (ops nd) a tol = .ok g) (b x : List (Fp F)) (hb : b.length = n)
    (hx : Gmres.solve rt nd (ops nd) g b = .ok x) :
    ∃ G b', IluRec n A G ∧ IluSolveRec n G (val0 b) b' ∧
      ∃ k q H h R c s γ y, GmresRec n (GOp prod n a G) tol b' (val0 x) k q H h R c s γ y ∧
        (¬ (0 : Fp F) < tol → k = n) ∧
        ∀ l, l < n → (val0 x l).IsFin → ∀ i, i < k → (γ i).IsFin ∧ (h i).IsFin ∧ (i + 1 < k → ¬ IsZ (h i)) := by
  obtain ⟨G, b', hI, h1, k, q, H, h, R, c, s, γ, y, hr⟩ := gmres_of hst nd hrt hok hA hg hb hx
  exact ⟨G, b', hI, h1, k, q, H, h, R, c, s, γ, y, hr, hr.all, fun l hl hf => (hr.fin hl hf).2.2.2.1⟩

/-! ## Concrete cases -/

/-- A finite number of value `r`. -/
def Fp.Has (a : Fp F) (r : ℝ) : Prop := a.IsFin ∧ a.val = r

namespace Fp.Has

theorem one : Fp.Has (1 : Fp F) 1 := ⟨Fp.isFin_one, Fp.val_one⟩
theorem zero : Fp.Has (0 : Fp F) 0 := ⟨Fp.isFin_zero, Fp.val_zero⟩

theorem neg {a : Fp F} {r : ℝ} (ha : Fp.Has a r) : Fp.Has (-a) (-r) :=
  ⟨(Fp.isFin_neg a).mpr ha.1, by rw [Fp.val_neg, ha.2]⟩

theorem small {r : ℝ} (h : r = 0 ∨ r = 1 ∨ r = -1) : F.rnd r = r ∧ F.rnd |r| < F.top := by
  rcases h with rfl | rfl | rfl
  · rw [abs_zero]; exact ⟨F.rnd_zero, by rw [F.rnd_zero]; exact F.top_pos⟩
  · rw [abs_one]; exact ⟨F.isMag_one.2.1, by rw [F.isMag_one.2.1]; exact F.isMag_one.2.2⟩
  · rw [abs_neg, abs_one, F.rnd_neg]
    exact ⟨by rw [F.isMag_one.2.1], by rw [F.isMag_one.2.1]; exact F.isMag_one.2.2⟩

theorem add {a b : Fp F} {r s t : ℝ} (ha : Fp.Has a r) (hb : Fp.Has b s) (ht : t = 0 ∨ t = 1 ∨ t = -1)
    (e : r + s = t) : Fp.Has (a + b) t := by
  subst e
  have h : (a + b).IsFin := (Fp.isFin_add a b).mpr ⟨ha.1, hb.1, by rw [ha.2, hb.2]; exact (small ht).2⟩
  exact ⟨h, by rw [Fp.val_add h, ha.2, hb.2]; exact (small ht).1⟩

theorem mul {a b : Fp F} {r s t : ℝ} (ha : Fp.Has a r) (hb : Fp.Has b s) (ht : t = 0 ∨ t = 1 ∨ t = -1)
    (e : r * s = t) : Fp.Has (a * b) t := by
  subst e
  have h : (a * b).IsFin := (Fp.isFin_mul a b).mpr ⟨ha.1, hb.1, by rw [ha.2, hb.2]; exact (small ht).2⟩
  exact ⟨h, by rw [Fp.val_mul h, ha.2, hb.2]; exact (small ht).1⟩

theorem div {a b : Fp F} {r : ℝ} (ha : Fp.Has a r) (hb : Fp.Has b 1) (hr : r = 0 ∨ r = 1 ∨ r = -1) :
    Fp.Has (a / b) r := by
  have h : (a / b).IsFin := (Fp.isFin_div a b).mpr ⟨ha.1, fun e => by rw [e] at hb; exact hb.1,
    fun z => by have := ((Fp.isZ_iff b).mp z).2; rw [hb.2] at this; exact one_ne_zero this,
    fun _ => by rw [ha.2, hb.2, div_one]; exact (small hr).2⟩
  exact ⟨h, by rw [Fp.val_div h hb.1, ha.2, hb.2, div_one]; exact (small hr).1⟩

theorem sqrt {a : Fp F} {r : ℝ} (ha : Fp.Has a r) (hr : r = 0 ∨ r = 1) : Fp.Has (Sqrt.sqrt a) r := by
  have h : (Sqrt.sqrt a).IsFin := (Fp.isFin_sqrt a).mpr ⟨ha.1, by rw [ha.2]; rcases hr with rfl | rfl <;> norm_num⟩
  refine ⟨h, ?_⟩
  rw [Fp.val_sqrt h, ha.2]
  rcases hr with rfl | rfl
  · rw [Real.sqrt_zero]; exact F.rnd_zero
  · rw [Real.sqrt_one]; exact F.isMag_one.2.1

end Fp.Has

theorem one_shows : Shows (dGOps false).toMatOps 1 (⟨1, 1, [1]⟩ : DMat (Fp F)) (fun _ _ => 1) := by
  refine ⟨rfl, fun i j hi hj => ?_⟩
  obtain rfl : i = 0 := by omega
  obtain rfl : j = 0 := by omega
  rfl

theorem one_not_isZ : ¬ IsZ (1 : Fp F) := fun z => by
  have := ((Fp.isZ_iff _).mp z).2
  rw [Fp.val_one] at this
  exact one_ne_zero this

theorem one_new (tol : Fp F) : ∃ g, Gmres.new (dGOps false) (⟨1, 1, [1]⟩ : DMat (Fp F)) tol = .ok g := by
  refine ⟨⟨⟨1, 1, [1]⟩, ⟨1, 1, [1]⟩, tol⟩, ?_⟩
  have e : Ilu.upCell dOps 0 0 (⟨1, 1, [1]⟩ : DMat (Fp F)) = .ok ⟨1, 1, [1]⟩ := by
    show (if ¬ IsZ (1 : Fp F) then _ else _) = _
    rw [if_pos one_not_isZ]
    rfl
  have e' : Ilu.row dOps 1 0 (⟨1, 1, [1]⟩ : DMat (Fp F)) = .ok (Sum.inl ⟨1, 1, [1]⟩) := by
    simp only [Ilu.row, forRange, forUp, forRet, Nat.sub_self, Nat.sub_zero, forUpRet, bind, Except.bind, e]
  have e2 : Ilu.new dOps (⟨1, 1, [1]⟩ : DMat (Fp F)) = .ok ⟨1, 1, [1]⟩ := by
    have e3 : (dOps (T := Fp F)).shape ⟨1, 1, [1]⟩ = .ok (1, 1) := rfl
    simp only [Ilu.new, Ilu.decomp, e3, forRet, Nat.sub_zero, forUpRet, bind, Except.bind, e']
    rfl
  unfold Gmres.new
  show (Ilu.new dOps (⟨1, 1, [1]⟩ : DMat (Fp F)) >>= _) = _
  rw [e2]; rfl

/-- `1 * x = 1` is solved: the finite results of `C69_finite` exist. -/
theorem one_solved (tol : Fp F) (g : Gmres (DMat (Fp F)) (Fp F))
    (hg : Gmres.new (dGOps false) (⟨1, 1, [1]⟩ : DMat (Fp F)) tol = .ok g) (x : List (Fp F))
    (hx : Gmres.solve Nat.sqrt false (dGOps false) g [1] = .ok x) : Fp.Has (val0 x 0) 1 := by
  obtain ⟨G, b', hI, ⟨z, hz, hb⟩, k, q, H, h, R, c, s, γ, y, hr⟩ :=
    gmres_of (F := F) .dense false sqrtExact_natSqrt rfl one_shows hg rfl hx
  have hk : k = 1 := le_antisymm hr.le (hr.pos (by omega))
  subst hk
  have G0 : Fp.Has (G 0 0) 1 := by rw [(hI 0 0 (by omega) (by omega)).2.2 le_rfl one_not_isZ]; exact .one
  have z0 : Fp.Has (z 0) 1 := by rw [hz 0 (by omega)]; exact .one
  have b0 : Fp.Has (b' 0) 1 := by rw [hb 0 (by omega)]; exact z0.div G0 (by simp)
  have γ0 : Fp.Has (γ 0) 1 := by
    rw [hr.beta]; exact ((Fp.Has.zero).add (b0.mul b0 (by simp) (one_mul 1)) (by simp) (zero_add 1)).sqrt (by simp)
  have q0 : Fp.Has (q 0 0) 1 := by
    rw [hr.first 0 (by omega)]; exact (Fp.Has.one.div γ0 (by simp)).mul b0 (by simp) (one_mul 1)
  obtain ⟨v, ρ, hc⟩ := hr.cols 0 (by omega)
  obtain ⟨w, hw, u, hu, hv⟩ := hc.op
  have w0 : Fp.Has (w 0) 1 := by
    rw [hw 0 (by omega)]
    exact (Fp.Has.zero.mul .zero (by simp) (zero_mul 0)).add
      ((Fp.Has.one.mul .one (by simp) (one_mul 1)).mul q0 (by simp) (one_mul 1)) (by simp) (zero_add 1)
  have u0 : Fp.Has (u 0) 1 := by rw [hu 0 (by omega)]; exact w0
  have v0 : Fp.Has (v 0) 1 := by rw [hv 0 (by omega)]; exact u0.div G0 (by simp)
  have H0 : Fp.Has (H 0 0) 1 := by rw [hc.proj 0 le_rfl]; exact q0.mul v0 (by simp) (one_mul 1)
  have t0 : Fp.Has (-1 * (H 0 0 * q 0 0) + v 0) 0 :=
    (Fp.Has.one.neg.mul (H0.mul q0 (by simp) (one_mul 1)) (by simp) (mul_one _)).add v0 (by simp) (by norm_num)
  have h0 : Fp.Has (h 0) 0 := by
    rw [hc.norm]; exact (Fp.Has.zero.add (t0.mul t0 (by simp) (zero_mul 0)) (by simp) (zero_add 0)).sqrt (by simp)
  have ρ0 : Fp.Has (ρ 0) 1 := by rw [hc.rot0]; exact H0
  have d0 : Fp.Has (Sqrt.sqrt (ρ 0 * ρ 0 + h 0 * h 0)) 1 :=
    ((ρ0.mul ρ0 (by simp) (one_mul 1)).add (h0.mul h0 (by simp) (zero_mul 0)) (by simp) (add_zero 1)).sqrt (by simp)
  have s0 : Fp.Has (s 0) 0 := by rw [hc.sin]; exact h0.div d0 (by simp)
  have c0 : Fp.Has (c 0) 1 := by rw [hc.cos]; exact ρ0.div d0 (by simp)
  have R0 : Fp.Has (R 0 0) 1 := by
    rw [hc.diag]; exact (c0.mul ρ0 (by simp) (one_mul 1)).add (s0.mul h0 (by simp) (zero_mul 0)) (by simp) (add_zero 1)
  have y0 : Fp.Has (y 0) 1 := by rw [hr.tri 0 (by omega)]; exact (c0.mul γ0 (by simp) (one_mul 1)).div R0 (by simp)
  rw [hr.comb 0 (by omega)]
  exact (Fp.Has.one.mul (y0.mul q0 (by simp) (one_mul 1)) (by simp) (one_mul 1)).add .zero (by simp) (add_zero 1)

-- with it, a solver exists, a finite result exists, and for the right-hand side zero the result is NaN
example (tol : Fp F) : ∃ g x z, Gmres.new (dGOps false) (⟨1, 1, [1]⟩ : DMat (Fp F)) tol = .ok g ∧
    Gmres.solve Nat.sqrt false (dGOps false) g [1] = .ok x ∧ (val0 x 0).IsFin ∧ (val0 x 0).val = 1 ∧
    Gmres.solve Nat.sqrt false (dGOps false) g [0] = .ok z ∧ val0 z 0 = .nan := by
  rcases C69_run .dense false sqrtExact_natSqrt 1 (⟨1, 1, [1]⟩ : DMat (Fp F)) (fun _ _ => 1) rfl one_shows tol with
    e | ⟨g, G, e, _, hs⟩
  · obtain ⟨g, hg⟩ := one_new tol
    rw [hg] at e; cases e
  · obtain ⟨x, hx, _⟩ := hs [1] rfl
    obtain ⟨z, hz, _⟩ := hs [0] rfl
    have := one_solved tol g e x hx
    refine ⟨g, x, z, e, hx, this.1, this.2, hz, ?_⟩
    refine C69_zero .dense false sqrtExact_natSqrt 1 _ _ rfl one_shows tol g e [0] z rfl hz (fun i hi => ?_) 0 (by omega)
    obtain rfl : i = 0 := by omega
    exact Fp.isZ_zero

end Lalib.Props
