import Verif.Props.ScalingUse
import Verif.Proofs.GmresRaw
import Verif.Proofs.GmresShapes
import Verif.Proofs.Twin
import Verif.Proofs.SparseCsr

/-! # Property C88, continued: GMRES

Rows of the system multiplied by factors that commute with rounding, right-hand side and tolerance by one more: the
preconditioner absorbs the row factors, and the run is the same one, in other units. -/

namespace Lalib.Props

open Lalib

section gmres

variable {R : Rounding}

local notation "Sc" => Fl.scaling R

theorem times_one {a b : Fl R} : Fl.Times 1 a b ↔ b = a := by
  unfold Fl.Times
  rw [one_mul]
  exact ⟨fun h => Fl.ext h, fun h => by rw [h]⟩

/-- Division of rounded numbers, by zero too. -/
theorem scaling_div {c d : ℝ} (hc : R.Scale c) (hd : R.Scale d) {a a' b b' : Fl R} (ha : Fl.Times c a a')
    (hb : Fl.Times d b b') : SameOut (Fl.Times (c / d)) (divC a b) (divC a' b') := by
  have hz : b = 0 ↔ b' = 0 := (Sc).isZ hd hb
  by_cases h : b = 0
  · rw [h, hz.mp h, divC_zero, divC_zero]; rfl
  · rw [divC_ok h, divC_ok fun k => h (hz.mpr k)]
    exact (Sc).div hc hd h ha hb

/-- Vectors of `n` numbers, the second one `c` times the first. -/
def Vecs (n : Nat) (c : ℝ) (x x' : List (Fl R)) : Prop := x.length = n ∧ (Sc).Buf (fun _ => c) x x'

theorem bufs_of2 {c d : ℝ} {x x' y y' : List (Fl R)} (hx : (Sc).Buf (fun _ => c) x x') (hy : (Sc).Buf (fun _ => d) y y') :
    (Sc).Bufs (fun p => p = 0 ∨ p = 1) (fun p _ => if p = 0 then c else d) (Mem.ofList [x, y]) (Mem.ofList [x', y']) := by
  rintro p (rfl | rfl)
  · exact hx
  · exact hy

theorem ok_of2 {c d : ℝ} (hc : R.Scale c) (hd : R.Scale d) (p : Nat) :
    R.Scale (if p = 0 then c else d) := by
  split
  · exact hc
  · exact hd

theorem scaling_gdot {n : Nat} {c d : ℝ} (hc : R.Scale c) (hd : R.Scale d) {x x' y y' : List (Fl R)} (hx : Vecs n c x x')
    (hy : Vecs n d y y') : SameOut (Fl.Times (c * d)) (Gmres.dot x y) (Gmres.dot x' y') :=
  (C88_dot (Sc) (bufs_of2 hx.2 hy.2) (fun p _ _ => ok_of2 hc hd p) 0 1 (.inl rfl) (.inr rfl) (c * d) (fun _ => rfl) 0).2.1

theorem scaling_gaxpy {n : Nat} {e c d : ℝ} (he : R.Scale e) (hc : R.Scale c) (hd : R.Scale d) (hcd : e * c = d) {a a' : Fl R}
    (ha : Fl.Times e a a') {x x' y y' : List (Fl R)} (hx : Vecs n c x x') (hy : Vecs n d y y') :
    SameOut (Vecs n d) (Gmres.axpy a x y) (Gmres.axpy a' x' y') := by
  have hl : (List.zipWith (fun u v => a * u + v) x y).length = n := by simp [hx.1, hy.1]
  have h := (C88_axpy (Sc) (bufs_of2 hx.2 hy.2) (fun p _ _ => ok_of2 hc hd p) 0 1 (.inl rfl) (.inr rfl) e he (fun _ => hcd) a a' ha 0).1
  have e1 : Gmres.axpy a x y = .ok (List.zipWith (fun u v => a * u + v) x y) := by
    unfold Gmres.axpy
    rw [axpyD_eq (by exact hy.1.trans hx.1.symm), ok_bind, Mem.setBuf_self]
    rfl
  have k : SameOut ((Sc).Buf fun _ => d) (Gmres.axpy a x y) (Gmres.axpy a' x' y') :=
    h.bind fun _ _ h => h 1 (.inr rfl)
  rw [e1] at k ⊢
  obtain ⟨z, hz, hb⟩ := k.ok_left rfl
  rw [hz]
  exact ⟨hl, hb⟩

theorem scaling_smul {n : Nat} {e c : ℝ} (he : R.Scale e) (hc : R.Scale c) {a a' : Fl R}
    (ha : Fl.Times e a a') {x x' : List (Fl R)} (hx : Vecs n c x x') :
    SameOut (Vecs n (e * c)) (smulOp a x) (smulOp a' x') := by
  rw [smulOp_eq, smulOp_eq]
  exact ⟨by simpa using hx.1, hx.2.map fun _ _ _ _ h => (Sc).mul he hc ha h⟩

theorem scaling_gnorm {n : Nat} {c : ℝ} (hc : R.Scale c) {x x' : List (Fl R)} (hx : Vecs n c x x') :
    SameOut (Fl.Times |c|) (Gmres.norm2 x) (Gmres.norm2 x') := by
  have hb : (Sc).Bufs (fun p => p = 0) (fun _ _ => c) (Mem.ofList [x]) (Mem.ofList [x']) := by
    rintro p rfl
    exact hx.2
  exact (C88_norm2 (Sc) hb (fun _ _ _ => hc) 0 rfl c hc (fun _ => rfl) .zero).1

/-- Basis vectors. -/
def ScQ (n : Nat) (c : ℝ) : List (Option (List (Fl R))) → List (Option (List (Fl R))) → Prop :=
  List.Forall₂ (Option.Rel (Vecs n c))

theorem scaling_qAt {n : Nat} {c : ℝ} {q q' : List (Option (List (Fl R)))} (h : ScQ n c q q') (i : Nat) :
    SameOut (Vecs n c) (Gmres.qAt q i) (Gmres.qAt q' i) := by
  unfold ScQ at h
  induction h generalizing i with
  | nil => exact SameOut.error _
  | cons ha _ ih =>
    cases i with
    | zero =>
      cases ha with
      | some ha => exact ha
      | none => exact .error _
    | succ i => exact ih i

theorem scaling_normalised {n : Nat} {c : ℝ} (hc : R.Scale c) {a a' : Fl R} (ha : Fl.Times |c| a a') {x x' : List (Fl R)}
    (hx : Vecs n c x x') : SameOut (Option.Rel (Vecs n (c / |c|))) (Gmres.normalised a x) (Gmres.normalised a' x') := by
  unfold Gmres.normalised
  rcases (scaling_div Rounding.Scale.one hc.abs ((Sc).refl 1) ha).cases with ⟨e, h1, h2⟩ | ⟨f, f', h1, h2, hf⟩
  · rw [h1, h2]; exact Option.Rel.none
  · rw [h1, h2]
    exact (scaling_smul ((Sc).ok_div Rounding.Scale.one hc.abs) hc hf hx).bind fun _ _ h => Option.Rel.some
      ⟨h.1, h.2.congr fun _ _ => by ring⟩

/-- The local variables of `solve` in the two runs: the basis vectors have the factor `s`, the residuals `p`, and the
rest is the same. -/
structure ScSt (n : Nat) (s p : ℝ) (t t' : Gmres.St (Fl R)) : Prop where
  q : ScQ n s t.q t'.q
  hess : t'.hess = t.hess
  h : t'.h = t.h
  s : t'.s = t.s
  c : t'.c = t.c
  r : t'.r = t.r
  beta : (Sc).Buf (fun _ => p) t.beta t'.beta

/-- What the two solver objects have to do with one another: the products and the preconditioner. -/
structure ScG {M M' : Type} (n : Nat) (r : Nat → ℝ) (p : ℝ) (ops : GOps M (Fl R)) (ops' : GOps M' (Fl R)) (g : Gmres M (Fl R))
    (g' : Gmres M' (Fl R)) : Prop where
  shape : ops.shape g.mat = .ok (n, n)
  shape' : ops'.shape g'.mat = .ok (n, n)
  mul : ∀ {s : ℝ} {x x' : List (Fl R)}, R.Scale s → Vecs n s x x' →
    SameOut (fun y y' => y.length = n ∧ (Sc).Buf (fun i => r i * s) y y') (ops.mul g.mat x) (ops'.mul g'.mat x')
  get : ∀ i j, i < n → j < n → SameOut (Fl.Times (iluUnit r (fun _ => 1) i j)) (ops.get g.lu i j) (ops'.get g'.lu i j)
  tol : Fl.Times p g.tol g'.tol

variable {M M' : Type} {ops : GOps M (Fl R)} {ops' : GOps M' (Fl R)} {g : Gmres M (Fl R)} {g' : Gmres M' (Fl R)} {n : Nat}
  {r : Nat → ℝ} {p : ℝ}

theorem scaling_precond (hr : ∀ i, R.Scale (r i)) (hg : ScG n r p ops ops' g g') {s : ℝ} (hs : R.Scale s) {b b' : List (Fl R)}
    (hl : b.length = n) (hb : (Sc).Buf (fun i => r i * s) b b') :
    SameOut (Vecs n s) (Ilu.solve ops.toMatOps g.lu b) (Ilu.solve ops'.toMatOps g'.lu b') := by
  have hl' : b'.length = n := hb.1.symm.trans hl
  have hrs : ∀ i, R.Scale (r i * s) := fun i => (hr i).mul hs
  have h0 : ∀ i, r i ≠ 0 := fun i => (hr i).1
  unfold Ilu.solve
  rw [hl, hl']
  refine SameOut.noexcept (SameOut.bind (P := (Sc).Buf (fun i => r i * s)) (SameOut.forRange'
    (Scaling.Buf.zeros _ fun i _ => hrs i) fun i y y' _ hi hy => ?_) fun y y' hy => ?_)
  · unfold Ilu.fwdRow
    refine (hb.lrd i).bind fun _ _ k0 => SameOut.bind (P := Fl.Times (r i * s)) (SameOut.forRange' k0 fun j _ _ _ hj hv => ?_)
      fun _ _ hv => hy.lwr i hv
    refine (hg.get i j hi (by omega)).bind fun _ _ k1 => (hy.lrd j).bind fun _ _ k2 => (Sc).sub (hrs i) hv ?_
    rw [iluUnit, if_pos hj] at k1
    exact (Sc).cast (by have := h0 j; field_simp) ((Sc).mul ((Sc).ok_div (hr i) (hr j)) (hrs j) k1 k2)
  · refine SameOut.forDown (I := Vecs n s) ⟨by simp, Scaling.Buf.zeros _ fun i _ => hs⟩ fun i x x' hi hx => ?_
    unfold Ilu.bwdRow
    refine (hy.lrd i).bind fun _ _ k0 => SameOut.bind (P := Fl.Times (r i * s)) (SameOut.forRange' k0 fun j _ _ hj hjn hv => ?_)
      fun _ _ hv => ?_
    · refine (hg.get i j hi hjn).bind fun _ _ k1 => (hx.2.lrd j).bind fun _ _ k2 => (Sc).sub (hrs i) hv ?_
      rw [iluUnit, if_neg (by omega), mul_one] at k1
      exact (Sc).mul (hr i) hs k1 k2
    · refine (hg.get i i hi hi).bind fun _ _ k1 => ?_
      rw [iluUnit, if_neg (by omega), mul_one] at k1
      refine (scaling_div (hrs i) (hr i) hv k1).bind fun q q' hq => ?_
      have hq : Fl.Times s q q' := (Sc).cast (by have := h0 i; field_simp) hq
      have k := hx.2.lwr i (x := q) (x' := q') hq
      rw [lwr_ok (by rw [hx.1]; exact hi)] at k ⊢
      obtain ⟨z, e, hz⟩ := k.ok_left rfl
      rw [e]
      exact ⟨by simpa using hx.1, hz⟩

theorem scaling_arnoldi (hr : ∀ i, R.Scale (r i)) (hg : ScG n r p ops ops' g g') {s : ℝ} (hs : R.Scale s) (hss : s * s = 1)
    (nd : Bool) {st st' : Gmres.St (Fl R)} (h : ScSt n s p st st') :
    SameOut (ScSt n s p) (Gmres.arnoldi nd ops g st) (Gmres.arnoldi nd ops' g' st') := by
  have habs : |s| = 1 := by
    have := abs_mul_abs_self s
    rw [hss] at this
    nlinarith [abs_nonneg s]
  unfold Gmres.arnoldi
  have hl : st'.q.length = st.q.length := (List.Forall₂.length_eq h.q).symm
  rw [hl, h.hess, h.h]
  dsimp only
  refine .same rfl fun H _ => .same rfl fun H _ => .check rfl ((scaling_qAt h.q _).bind fun qi qi' hqi => ?_)
  refine (hg.mul hs hqi).bind fun y y' hy => (scaling_precond hr hg hs hy.1 hy.2).bind fun v v' hv => ?_
  have hproj : Gmres.project st'.q (st.q.length - 1) v' H = Gmres.project st.q (st.q.length - 1) v H := by
    refine (SameOut.eq_of ?_).symm
    unfold Gmres.project
    refine SameOut.forRange' rfl fun j H H' _ _ hH => ?_
    subst hH
    refine (scaling_qAt h.q j).bind fun _ _ hq => (scaling_gdot hs hs hq hv).bind fun d d' hd => ?_
    rw [hss] at hd
    rw [times_one.mp hd]
    exact .of_eq rfl
  rw [hproj]
  refine .same rfl fun H _ => SameOut.bind (P := Vecs n s) ?_ fun v v' hv => ?_
  · unfold Gmres.subtract
    refine SameOut.forRange' hv fun j v v' _ _ hv => .same rfl fun a _ => (scaling_qAt h.q j).bind fun _ _ hq =>
      (scaling_smul Rounding.Scale.one hs ((Sc).refl a) hq).bind fun _ _ hw => ?_
    rw [one_mul] at hw
    exact scaling_gaxpy Rounding.Scale.one hs hs (one_mul s) ((Sc).refl (-1)) hw hv
  · refine (scaling_gnorm hs hv).bind fun a a' ha => (scaling_normalised hs ha hv).bind fun qn qn' hqn => ?_
    rw [habs] at ha hqn
    rw [div_one] at hqn
    exact ⟨List.rel_append h.q (.cons hqn .nil), rfl, times_one.mp ha, h.s, h.c, h.r, h.beta⟩

theorem buf_append {u : ℝ} {l l' k k' : List (Fl R)} (h : (Sc).Buf (fun _ => u) l l') (h' : (Sc).Buf (fun _ => u) k k') :
    (Sc).Buf (fun _ => u) (l ++ k) (l' ++ k') := by
  refine ⟨by rw [List.length_append, List.length_append, h.1, h'.1], fun i hi => ?_⟩
  rw [val0_append, val0_append, ← h.1]
  rw [List.length_append] at hi
  split
  · exact h.2 i ‹_›
  · exact h'.2 _ (by omega)

theorem buf_take {u : ℝ} {l l' : List (Fl R)} (h : (Sc).Buf (fun _ => u) l l') (k : Nat) :
    (Sc).Buf (fun _ => u) (l.take k) (l'.take k) := by
  have hl := h.1
  refine ⟨by rw [List.length_take, List.length_take, hl], fun i hi => ?_⟩
  rw [List.length_take] at hi
  have := h.2 i (by omega)
  rw [val0_of_lt (by omega), val0_of_lt (by omega)] at this
  rw [val0_of_lt (by rw [List.length_take]; omega), val0_of_lt (by rw [List.length_take]; omega)]
  simpa using this

theorem buf_drop {u : ℝ} {l l' : List (Fl R)} (h : (Sc).Buf (fun _ => u) l l') (k : Nat) :
    (Sc).Buf (fun _ => u) (l.drop k) (l'.drop k) := by
  have hl := h.1
  refine ⟨by rw [List.length_drop, List.length_drop, hl], fun i hi => ?_⟩
  rw [List.length_drop] at hi
  have := h.2 (k + i) (by omega)
  rw [val0_of_lt (by omega), val0_of_lt (by omega)] at this
  rw [val0_of_lt (by rw [List.length_drop]; omega), val0_of_lt (by rw [List.length_drop]; omega)]
  simpa using this

theorem scaling_givens (hp : R.Scale p) {s : ℝ} (nd : Bool) {st st' : Gmres.St (Fl R)} (h : ScSt n s p st st') :
    SameOut (ScSt n s p) (Gmres.givensRot nd st) (Gmres.givensRot nd st') := by
  unfold Gmres.givensRot
  rw [h.hess, h.h, h.s, h.c, h.r]
  dsimp only
  have hb : (Sc).Buf (fun _ => p) (st.beta ++ [0]) (st'.beta ++ [0]) :=
    buf_append h.beta ⟨rfl, fun i hi => by
      obtain rfl : i = 0 := by simpa using hi
      exact (Sc).zero hp⟩
  rw [← hb.1]
  refine .same rfl fun _ _ => .same rfl fun _ _ => .check rfl (.check rfl (.same rfl fun _ _ => .same rfl fun _ _ =>
    .same rfl fun _ _ => .same rfl fun _ _ => .same rfl fun _ _ => .check rfl (.check rfl (.same rfl fun sl _ =>
    .same rfl fun cl _ => ?_))))
  refine (hb.lrd _).bind fun _ _ k3 => ?_
  refine (hb.lwr _ ((Sc).cast (one_mul p) ((Sc).mul Rounding.Scale.one hp ((Sc).refl (-sl)) k3))).bind fun _ _ hb => ?_
  refine (hb.lwr _ ((Sc).cast (one_mul p) ((Sc).mul Rounding.Scale.one hp ((Sc).refl cl) k3))).bind fun _ _ hb => ?_
  exact .same rfl fun _ _ => ⟨h.q, rfl, rfl, rfl, rfl, rfl, hb⟩

/-- The core: `solve` on two solver objects in other units. -/
theorem scaling_gsolve (hr : ∀ i, R.Scale (r i)) {t : ℝ} (ht : R.Scale t) (hg : ScG n r |t| ops ops' g g') (rt : Nat → Nat)
    (nd : Bool) {b b' : List (Fl R)} (hl : b.length = n) (hb : (Sc).Buf (fun i => r i * t) b b') :
    SameOut (Vecs n t) (Gmres.solve rt nd ops g b) (Gmres.solve rt nd ops' g' b') := by
  have hs : R.Scale (t / |t|) := (Sc).ok_div ht ht.abs
  have ht0 : |t| ≠ 0 := abs_ne_zero.mpr ht.1
  have hss : t / |t| * (t / |t|) = 1 := by
    rw [div_mul_div_comm, abs_mul_abs_self, div_self (mul_ne_zero ht.1 ht.1)]
  have hst : SameOut (ScSt n (t / |t|) |t|) (Gmres.start rt ops g n b) (Gmres.start rt ops' g' n b') := by
    unfold Gmres.start
    refine (scaling_precond hr hg ht hl hb).bind fun x x' hx => (scaling_gnorm ht hx).bind fun a a' ha =>
      (scaling_normalised ht ha hx).bind fun q q' hq => .same rfl fun _ _ => .same rfl fun _ _ => ?_
    exact ⟨.cons hq .nil, rfl, rfl, rfl, rfl, rfl, rfl, fun i hi => by
      obtain rfl : i = 0 := by simpa using hi
      exact ha⟩
  have hit : ∀ i (u u' : Gmres.St (Fl R)), ScSt n (t / |t|) |t| u u' →
      SameOut (SameOut.Both (ScSt n (t / |t|) |t|) (ScSt n (t / |t|) |t|)) (Gmres.iterate nd ops g i u)
        (Gmres.iterate nd ops' g' i u') := by
    intro i u u' h
    unfold Gmres.iterate
    refine (scaling_arnoldi hr hg hs hss nd h).bind fun _ _ h => (scaling_givens ht.abs nd h).bind fun u u' h => ?_
    unfold Gmres.check
    rw [← h.beta.1]
    refine (h.beta.lrd _).bind fun v v' hv => ?_
    have habs : Fl.Times |t| (Gmres.abs' v) (Gmres.abs' v') := by
      have h0 : v < 0 ↔ v' < 0 := (Sc).lt ht hv ((Sc).zero ht.abs)
      unfold Gmres.abs'
      by_cases e : v < 0
      · rw [if_pos e, if_pos (h0.mp e)]; exact (Sc).neg ht.abs hv
      · rw [if_neg e, if_neg (fun k => e (h0.mpr k))]; exact hv
    exact .ite ((Sc).lt ht habs hg.tol) (fun _ => h) fun _ => h
  unfold Gmres.solve
  rw [hg.shape, hg.shape']
  simp only [ok_bind]
  refine hst.bind fun s s' h => (SameOut.forRet h fun i s s' _ _ h => hit i s s' h).bind fun u u' hu => ?_
  have ha : ScSt n (t / |t|) |t| (Gmres.after u) (Gmres.after u') := by
    match u, u', hu with
    | .inl _, .inl _, hu => exact hu
    | .inr _, .inr _, hu => exact hu
  rw [← ha.beta.1, ha.r]
  have hback : SameOut ((Sc).Buf fun _ => |t|) ((Gmres.after u).r.backSub ((Gmres.after u).beta.take ((Gmres.after u).beta.length - 1)))
      ((Gmres.after u).r.backSub ((Gmres.after u').beta.take ((Gmres.after u).beta.length - 1))) := by
    have hb := buf_take ha.beta ((Gmres.after u).beta.length - 1)
    unfold UTri.backSub UTri.backSubLoop
    rw [hb.1]
    refine .check rfl (SameOut.forDown hb fun k s s' _ hs => ?_)
    refine SameOut.bind (P := (Sc).Buf fun _ => |t|) (SameOut.forRange' hs fun j s s' _ _ hs => ?_) fun s s' hs => ?_
    · exact (hs.lrd k).bind fun _ _ h1 => .same rfl fun a _ => (hs.lrd j).bind fun _ _ h3 =>
        hs.lwr k ((Sc).sub ht.abs h1 ((Sc).cast (one_mul _) ((Sc).mul Rounding.Scale.one ht.abs ((Sc).refl a) h3)))
    · exact (hs.lrd k).bind fun _ _ h1 => .same rfl fun a _ =>
        (scaling_div ht.abs Rounding.Scale.one h1 ((Sc).refl a)).bind fun _ _ h3 => hs.lwr k ((Sc).cast (div_one _) h3)
  refine hback.bind fun y y' hy => ?_
  have hby := buf_append hy (buf_drop ha.beta ((Gmres.after u).beta.length - 1))
  unfold Gmres.combine
  refine SameOut.forRange' ⟨by simp, Scaling.Buf.zeros _ fun i _ => ht⟩ fun i _ _ _ _ hx => (hby.lrd i).bind fun _ _ h1 =>
      (scaling_qAt ha.q i).bind fun _ _ h2 => (scaling_smul ht.abs hs h1 h2).bind fun _ _ h3 => ?_
  rw [mul_div_cancel₀ t ht0] at h3
  exact scaling_gaxpy Rounding.Scale.one ht ht (one_mul t) ((Sc).refl 1) h3 hx

/-! ## The matrix classes -/

/-- The two matrix classes with which the solver compiles, the invariant of their objects, and when two objects store the
same positions in the same order. -/
inductive Alike {T : Type} [Zero T] [One T] [Add T] [Mul T] :
    {M : Type} → (Bool → GOps M T) → (M → Prop) → (M → M → Prop) → Prop
  | dense : Alike dGOps (fun a => a.elems.length = a.n * a.m) (fun _ _ => True)
  | csr : Alike csrGOps (fun a => a.Wf ∧ a.Distinct) (fun a a' => a'.rowPtr = a.rowPtr ∧ a'.col = a.col)

theorem Alike.storage {T : Type} [Zero T] [One T] [Add T] [Mul T] {ops : Bool → GOps M T} {ok : M → Prop}
    {same : M → M → Prop} (h : Alike ops ok same) (nd : Bool) : Storage (ops nd).toMatOps ok := by
  cases h with
  | dense => exact .dense
  | csr => exact .csr

theorem Alike.mul {ops : Bool → GOps M (Fl R)} {ok : M → Prop} {same : M → M → Prop} (h : Alike ops ok same) (nd : Bool)
    {a a' : M} {A A' : Nat → Nat → Fl R} (hok : ok a) (hok' : ok a') (hA : Shows (ops nd).toMatOps n a A)
    (hA' : Shows (ops nd).toMatOps n a' A') (hsame : same a a') (hr : ∀ i, R.Scale (r i))
    (hAA : (Sc).Mat n n r (fun _ => 1) A A') {s : ℝ} (hs : R.Scale s) {x x' : List (Fl R)} (hx : Vecs n s x x') :
    SameOut (fun y y' => y.length = n ∧ (Sc).Buf (fun i => r i * s) y y') ((ops nd).mul a x) ((ops nd).mul a' x') := by
  have hx' : x'.length = n := hx.2.1.symm.trans hx.1
  have hone : ∀ v : Fl R, Fl.Times 1 v v := (Sc).refl
  cases h with
  | dense =>
    obtain ⟨w, e, hl, hw⟩ := GKind.dense.prod nd hok hA hx.1
    obtain ⟨w', e', hl', hw'⟩ := GKind.dense.prod nd hok' hA' hx'
    rw [e, e']
    refine ⟨hl, hl.trans hl'.symm, fun i hi => ?_⟩
    rw [hl] at hi
    rw [hw i hi, hw' i hi]
    refine (Sc).addUp ((hr i).mul hs) (fun k _ hk => ?_) ?_
    · have g1 : ∀ {a : DMat (Fl R)} {A : Nat → Nat → Fl R}, a.elems.length = a.n * a.m → Shows (dGOps nd).toMatOps n a A →
          val0 a.elems (i * n + k) = A i k := by
        intro a A hok hA
        have h1 := hA.1
        injection h1 with h1
        injection h1 with h1 h2
        have hg : lrd a.elems (i * a.m + k) = .ok (A i k) := hA.2 i k hi hk
        rw [lrd_val (by rw [hok, h1, h2]; exact cell_lt hi hk), h2] at hg
        injection hg
      rw [g1 hok hA, g1 hok' hA']
      exact (Sc).cast (by ring) ((Sc).mul ((Sc).ok_mul Rounding.Scale.one ((Sc).ok_mul (hr i) Rounding.Scale.one)) hs
        ((Sc).mul Rounding.Scale.one ((Sc).ok_mul (hr i) Rounding.Scale.one) (hone 1) (hAA i k hi hk))
        (hx.2.2 k (by rw [hx.1]; exact hk)))
    · have := (Sc).mul Rounding.Scale.one ((hr i).mul hs) (hone 0) ((Sc).zero ((hr i).mul hs))
      rwa [one_mul] at this
  | csr =>
    obtain ⟨w, e, hl, hw⟩ := GKind.csr.prod nd hok hA hx.1
    obtain ⟨w', e', hl', hw'⟩ := GKind.csr.prod nd hok' hA' hx'
    rw [e, e']
    refine ⟨hl, hl.trans hl'.symm, fun i hi => ?_⟩
    rw [hl] at hi
    rw [hw i hi, hw' i hi, hsame.1, hsame.2]
    have hrow : a.nrows = n := by
      obtain ⟨g1, -⟩ := Csr.stored_last hok.1 hA.1
      exact g1
    have hrow' : a'.nrows = n := by unfold Csr.nrows; rw [hsame.1]; exact hrow
    refine (Sc).addUp ((hr i).mul hs) (fun k hk1 hk => ?_) ?_
    · obtain ⟨g1, g2, g3⟩ := hok.1.ptr_le (show i < a.nrows by omega)
      have hkv : k < a.val.length := by omega
      have hkc : k < a.col.length := by rw [hok.1.len]; omega
      have hst : a.StoredAt i (a.col.getD k 0) k := ⟨hk1, hk, by simp [List.getD_eq_getElem?_getD, hkc]⟩
      have hst' : a'.StoredAt i (a.col.getD k 0) k := by unfold Csr.StoredAt; rw [hsame.1, hsame.2]; exact hst
      have hc : a.col.getD k 0 < n := Csr.col_lt hok.1 hA.1 _ (by
        rw [show a.col.getD k 0 = a.col[k] by simp [List.getD_eq_getElem?_getD, hkc]]
        exact List.getElem_mem _)
      have v1 := hA.2 i _ hi hc
      have v2 := hA'.2 i _ hi hc
      have v1 : a.get i (a.col.getD k 0) = _ := v1
      have v2 : a'.get i (a.col.getD k 0) = _ := v2
      rw [Csr.get_stored hok.1 hok.2 (by omega) hst] at v1
      rw [Csr.get_stored hok'.1 hok'.2 (by omega) hst'] at v2
      injection v1 with v1
      injection v2 with v2
      rw [val0_of_lt hkv, v1, val0_of_lt (hst'.lt hok'.1), v2]
      exact (Sc).cast (by ring) ((Sc).mul ((Sc).ok_mul Rounding.Scale.one ((Sc).ok_mul (hr i) Rounding.Scale.one)) hs
        ((Sc).mul Rounding.Scale.one ((Sc).ok_mul (hr i) Rounding.Scale.one) (hone 1) (hAA i _ hi hc))
        (hx.2.2 _ (by rw [hx.1]; exact hc)))
    · have := (Sc).mul Rounding.Scale.one ((hr i).mul hs) (hone 0) ((Sc).zero ((hr i).mul hs))
      rwa [one_mul] at this

/-- GMRES: row `i` of the matrix multiplied by `r i`, the right-hand side by `t r i`, the tolerance by `|t|`.  The
constructor takes the same decision; every call of `solve` fails in the same way or
returns `t` times the result. -/
theorem C88_gmres {ops : Bool → GOps M (Fl R)} {ok : M → Prop} {same : M → M → Prop} (hst : Alike ops ok same) (nd : Bool)
    (rt : Nat → Nat) (n : Nat) (a a' : M) (A A' : Nat → Nat → Fl R) (hok : ok a) (hok' : ok a')
    (hA : Shows (ops nd).toMatOps n a A) (hA' : Shows (ops nd).toMatOps n a' A') (hsame : same a a')
    (r : Nat → ℝ) (t : ℝ) (hr : ∀ i, R.Scale (r i)) (ht : R.Scale t)
    (hAA : ∀ i j, i < n → j < n → (A' i j).val = r i * (A i j).val) (tol tol' : Fl R) (htol : tol'.val = |t| * tol.val) :
    (Gmres.new (ops nd) a tol = .error (.throw .runtimeError) ∧ Gmres.new (ops nd) a' tol' = .error (.throw .runtimeError)) ∨
    ∃ g g', Gmres.new (ops nd) a tol = .ok g ∧ Gmres.new (ops nd) a' tol' = .ok g' ∧
      ∀ b b' : List (Fl R), b.length = n → b'.length = n → (∀ i, i < n → (val0 b' i).val = t * r i * (val0 b i).val) →
        SameOut (fun x x' => x.length = n ∧ x'.length = n ∧ ∀ i, i < n → (val0 x' i).val = t * (val0 x i).val)
          (Gmres.solve rt nd (ops nd) g b) (Gmres.solve rt nd (ops nd) g' b') := by
  have hM : (Sc).Mat n n r (fun _ => 1) A A' := fun i j hi hj => by
    show (A' i j).val = _
    rw [mul_one]; exact hAA i j hi hj
  have hs := hst.storage nd
  unfold Gmres.new
  rcases C88_ilu (Sc) hs hs n a a' A A' hok hok' hA hA' r (fun _ => 1) (fun i _ => hr i) (fun _ _ => Rounding.Scale.one) hM with
    ⟨e, e'⟩ | ⟨f, f', F, F', e, e', hf, hf', hF, hF', -, -, hFF⟩
  · left
    rw [e, e']
    exact ⟨rfl, rfl⟩
  · right
    rw [e, e']
    refine ⟨_, _, rfl, rfl, fun b b' hb hb' hB => ?_⟩
    refine (scaling_gsolve (n := n) (r := r) (g := ⟨a, f, tol⟩) (g' := ⟨a', f', tol'⟩) hr ht ⟨hA.1, hA'.1, fun h1 h2 => hst.mul nd hok hok' hA hA' hsame hr hM h1 h2,
      fun i j hi hj => ?_, htol⟩ rt nd hb ⟨hb.trans hb'.symm, fun i hi => ?_⟩).mono fun x x' hx =>
        ⟨hx.1, hx.2.1.symm.trans hx.1, fun i hi => hx.2.2 i (by rw [hx.1]; exact hi)⟩
    · rw [hF.2 i j hi hj, hF'.2 i j hi hj]
      exact hFF i j hi hj
    · show (val0 b' i).val = _
      rw [hB i (by omega)]
      ring

end gmres

/-- Numbers of `p` bits: rows multiplied by powers of two, right-hand side and tolerance by one more.  The same decision of
the constructor, the same failures, and `2^e` times the result, bit for bit. -/
theorem C88_gmres_powers (p : ℕ) (hp : 1 ≤ p) {M : Type} {ops : Bool → GOps M (Fl (binary p hp))} {ok : M → Prop}
    {same : M → M → Prop} (hst : Alike ops ok same) (nd : Bool) (rt : Nat → Nat) (n : Nat) (a a' : M)
    (A A' : Nat → Nat → Fl (binary p hp)) (hok : ok a) (hok' : ok a') (hA : Shows (ops nd).toMatOps n a A)
    (hA' : Shows (ops nd).toMatOps n a' A') (hsame : same a a') (r : Nat → ℤ) (e : ℤ)
    (hAA : ∀ i j, i < n → j < n → (A' i j).val = 2 ^ r i * (A i j).val) (tol tol' : Fl (binary p hp))
    (htol : tol'.val = 2 ^ e * tol.val) :
    (Gmres.new (ops nd) a tol = .error (.throw .runtimeError) ∧ Gmres.new (ops nd) a' tol' = .error (.throw .runtimeError)) ∨
    ∃ g g', Gmres.new (ops nd) a tol = .ok g ∧ Gmres.new (ops nd) a' tol' = .ok g' ∧
      ∀ b b' : List (Fl (binary p hp)), b.length = n → b'.length = n →
        (∀ i, i < n → (val0 b' i).val = 2 ^ e * 2 ^ r i * (val0 b i).val) →
        SameOut (fun x x' => x.length = n ∧ x'.length = n ∧ ∀ i, i < n → (val0 x' i).val = 2 ^ e * (val0 x i).val)
          (Gmres.solve rt nd (ops nd) g b) (Gmres.solve rt nd (ops nd) g' b') :=
  C88_gmres hst nd rt n a a' A A' hok hok' hA hA' hsame (fun i => 2 ^ r i) (2 ^ e) (fun i => two_zpow_ok p hp _)
    (two_zpow_ok p hp _) hAA tol tol' (by rw [htol, abs_of_pos (by positivity)])

/-- A number times a power of two. -/
noncomputable def timesPow (p : ℕ) (hp : 1 ≤ p) (e : ℤ) (a : Fl (binary p hp)) : Fl (binary p hp) :=
  ⟨2 ^ e * a.val, by rw [(two_zpow_ok p hp e : (binary p hp).Scale _).2.1 a.val, a.rep]⟩

/-- Every dense system has a second one as in `C88_gmres_powers`. -/
example (p : ℕ) (hp : 1 ≤ p) (n : Nat) (l : List (Fl (binary p hp))) (hl : l.length = n * n) (e : ℤ) :
    ∃ (a a' : DMat (Fl (binary p hp))) (A A' : Nat → Nat → Fl (binary p hp)), a = ⟨n, n, l⟩ ∧ a'.elems.length = n * n ∧
      Shows (dGOps true).toMatOps n a A ∧ Shows (dGOps true).toMatOps n a' A' ∧
      ∀ i j, i < n → j < n → (A' i j).val = 2 ^ e * (A i j).val := by
  refine ⟨⟨n, n, l⟩, ⟨n, n, l.map (timesPow p hp e)⟩, entry n l, entry n (l.map (timesPow p hp e)), rfl, by simpa using hl,
    ⟨rfl, fun i j hi hj => ?_⟩, ⟨rfl, fun i j hi hj => ?_⟩, fun i j hi hj => ?_⟩
  · exact lrd_val (by rw [hl]; exact cell_lt hi hj)
  · exact lrd_val (by rw [List.length_map, hl]; exact cell_lt hi hj)
  · unfold entry
    rw [val0_map (by rw [hl]; exact cell_lt hi hj)]
    rfl

end Lalib.Props
