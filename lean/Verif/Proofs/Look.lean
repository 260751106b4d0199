import Verif.Spec.Clients
import Verif.Proofs.Threads
import Verif.Proofs.Views
import Verif.Proofs.Failure
import Verif.Props.Threads

/-! # Reading computations: what they give without other threads -/

namespace Lalib.Look

open Lalib

variable {T α β σ ρ : Type} {m : Mem T}

theorem run_bind : ∀ (x : Look T α) (f : α → Look T β), (x.bind f).run m = x.run m >>= fun a => (f a).run m
  | ret _, _ => rfl
  | fail _, _ => rfl
  | load p c k, f => by
    simp only [bind, run]
    cases m.rd p c with
    | error e => rfl
    | ok v => exact run_bind (k v) f

theorem run_bind' (x : Look T α) (f : α → Look T β) : (x >>= f).run m = x.run m >>= fun a => (f a).run m := run_bind x f

theorem run_pure (a : α) : (pure a : Look T α).run m = .ok a := rfl

theorem run_lift : ∀ (r : Res α), (lift r : Look T α).run m = r
  | .ok _ => rfl
  | .error _ => rfl

theorem run_elem (p c : Nat) : (elem p c : Look T T).run m = m.rd p c := by
  simp only [elem, run]
  cases m.rd p c <;> rfl

theorem run_sealed : ∀ (x : Look T α), x.sealed.run m = noexcept (x.run m)
  | ret _ => rfl
  | fail (.throw _) => rfl
  | fail (.ub _) => rfl
  | fail .terminate => rfl
  | fail .assertFail => rfl
  | fail .nonFinite => rfl
  | fail .blasParam => rfl
  | fail .diverge => rfl
  | load p c k => by
    simp only [sealed, run]
    cases h : m.rd p c with
    | error e =>
      have : noexcept (Except.error e : Res α) = .error e := by
        have : Quiet (fun _ => True) (m.rd p c) := lrd_quiet _ _
        rw [h] at this
        cases e with
        | throw e => exact absurd rfl (this e)
        | _ => rfl
      exact this.symm
    | ok v => exact run_sealed (k v)

theorem run_loop {f : Nat → σ → Look T σ} {g : Nat → σ → Res σ} (h : ∀ i s, (f i s).run m = g i s) :
    ∀ (n lo : Nat) (s : σ), (loop f lo n s).run m = forUp g lo n s
  | 0, _, _ => rfl
  | n + 1, lo, s => by
    simp only [loop, forUp, run_bind, h]
    congr 1
    funext s
    exact run_loop h n (lo + 1) s

theorem run_down {f : Nat → σ → Look T σ} {g : Nat → σ → Res σ} (h : ∀ i s, (f i s).run m = g i s) :
    ∀ (n : Nat) (s : σ), (down f n s).run m = forDown g n s
  | 0, _ => rfl
  | n + 1, s => by
    simp only [down, forDown, run_bind, h]
    congr 1
    funext s
    exact run_down h n s

theorem run_loopRet {f : Nat → σ → Look T (σ ⊕ ρ)} {g : Nat → σ → Res (σ ⊕ ρ)} (h : ∀ i s, (f i s).run m = g i s) :
    ∀ (n lo : Nat) (s : σ), (loopRet f lo n s).run m = forUpRet g lo n s
  | 0, _, _ => rfl
  | n + 1, lo, s => by
    simp only [loopRet, forUpRet, run_bind, h]
    congr 1
    funext s
    cases s with
    | inl s => exact run_loopRet h n (lo + 1) s
    | inr r => rfl

theorem run_ilu [Zero T] [Sub T] [Mul T] [CDiv T] {M : Type} {ops : MatOps M T} {a : M} {f : Nat → Nat → Look T T}
    (hf : ∀ i j, (f i j).run m = ops.get a i j) {b : List T} {rhs : Nat → Look T T} (hb : ∀ i, (rhs i).run m = lrd b i) :
    (ilu f b.length rhs).run m = Ilu.solve ops a b := by
  unfold ilu Ilu.solve
  rw [run_sealed, run_bind']
  congr 1
  unfold forRange
  rw [run_loop (g := Ilu.fwdRow ops a b) fun i y => ?_, Nat.sub_zero]
  · congr 1
    funext y
    refine run_down (fun i x => ?_) _ _
    simp only [Ilu.bwdRow, run_bind', run_lift, hf, forRange]
    congr 1; funext v
    rw [run_loop (g := fun j sum => do
      let u ← ops.get a i j
      let xj ← lrd x j
      .ok (sum - u * xj)) fun j sum => ?_]
    simp only [run_bind', run_lift, hf, run_pure]
  · simp only [Ilu.fwdRow, run_bind', run_lift, hb, forRange, Nat.sub_zero]
    congr 1; funext v
    rw [run_loop (g := fun j sum => do
      let l ← ops.get a i j
      let yj ← lrd y j
      .ok (sum - l * yj)) fun j sum => ?_]
    simp only [run_bind', run_lift, hf, run_pure]

theorem forUp_buf {f : Nat → Mem T → Res (Mem T)} {g : Nat → List T → Res (List T)} {s : Mem T} {r : Nat}
    (h : ∀ i y, f i (s.setBuf r y) = g i y >>= fun y => .ok (s.setBuf r y)) :
    ∀ (n lo : Nat) (y : List T), forUp f lo n (s.setBuf r y) = forUp g lo n y >>= fun y => .ok (s.setBuf r y)
  | 0, _, _ => rfl
  | n + 1, lo, y => by
    simp only [forUp, h]
    cases g lo y with
    | error e => rfl
    | ok y => exact forUp_buf h n (lo + 1) y

theorem wr_setBuf (s : Mem T) (r : Nat) (y : List T) (i : Nat) (v : T) :
    (s.setBuf r y).wr r i v = lwr y i v >>= fun y => .ok (s.setBuf r y) := by
  simp only [Mem.wr, lwr, Mem.setBuf_self, Mem.upd_eq_setBuf, Mem.setBuf_setBuf]
  split <;> rfl

theorem assoc_res {γ : Type} (r : Res α) (f : α → Res β) (g : β → Res γ) : (r >>= f >>= g) = r >>= fun a => f a >>= g := by
  cases r <;> rfl

theorem noexcept_buf (r : Res (List T)) (s : Mem T) (p : Nat) :
    noexcept r = noexcept (r >>= fun y => .ok (s.setBuf p y)) >>= fun s => .ok (s p) := by
  cases r with
  | ok y => simp
  | error e => cases e <;> rfl

theorem run_matVec [Zero T] [One T] [Add T] [Mul T] (nd : Bool) (a : MatRef) (v : List T) :
    (matVec nd a v).run m = Lalib.matVec nd ⟨a.n, a.m, m a.buf⟩ v := by
  unfold matVec Lalib.matVec matVecAt
  rw [run_sealed, run_bind', run_lift]
  simp only [gemvCore, if_neg (show (1 : Nat) ≠ 2 by omega)]
  have hlen : (Mem.ofList [m a.buf, v]).len 1 = v.length := rfl
  rw [hlen]
  cases hc : cassert nd (a.m == v.length) with
  | error e =>
    have : e = .assertFail := by
      unfold cassert at hc
      split at hc
      · cases hc
      · cases hc; rfl
    subst this; rfl
  | ok u =>
    simp only [ok_bind, forRange, Nat.sub_zero]
    rw [run_loop (g := fun i y => do
      let yi ← lrd y i
      let y ← lwr y i (0 * yi)
      forUp (fun k y => do
        let t ← lrd y i
        let aik ← m.rd a.buf (i * a.m + k)
        let xk ← lrd v k
        lwr y i (t + 1 * aik * xk)) 0 a.m y) fun i y => ?_]
    · rw [forUp_buf (g := fun i y => do
        let yi ← lrd y i
        let y ← lwr y i (0 * yi)
        forUp (fun k y => do
          let t ← lrd y i
          let aik ← m.rd a.buf (i * a.m + k)
          let xk ← lrd v k
          lwr y i (t + 1 * aik * xk)) 0 a.m y) fun i y => ?_]
      · exact noexcept_buf _ _ _
      · simp only [wr_setBuf, assoc_res, ok_bind]
        have : (Mem.setBuf (Mem.ofList [m a.buf, v]) 2 y).rd 2 i = lrd y i := by simp [Mem.rd]
        rw [this]
        congr 1; funext yi
        congr 1; funext y
        refine forUp_buf (fun k y => ?_) _ _ _
        simp only [wr_setBuf, assoc_res]
        rfl
    · simp only [run_bind', run_lift]
      congr 1; funext yi
      congr 1; funext y
      refine run_loop (fun k y => ?_) _ _ _
      simp only [run_bind', run_lift, run_elem]

section
variable [Zero T] [One T] [Add T] [Sub T] [Mul T] [Neg T] [CDiv T] [CZero T] [CSqrt T] [LT T] [DecidableLT T]

omit [CZero T] in
theorem run_gmres {M : Type} {rt : Nat → Nat} {nd : Bool} {ops : GOps M T} {o : Gmres M T} {g : Members T}
    (hs : g.shape.run m = ops.shape o.mat) (hm : ∀ v, (g.mul v).run m = ops.mul o.mat v)
    (hl : ∀ i j, (g.lu i j).run m = ops.get o.lu i j) (ht : g.tol = o.tol) {b : List T} {rhs : Nat → Look T T}
    (hb : ∀ i, (rhs i).run m = lrd b i) : (gmres rt nd g b.length rhs).run m = Gmres.solve rt nd ops o b := by
  unfold gmres Gmres.solve Gmres.start
  simp only [run_bind', run_lift, hs, run_ilu hl hb, assoc_res, ok_bind]
  congr 1; funext sh
  congr 1; funext b'
  congr 1; funext nb
  congr 1; funext q0
  congr 1; funext r
  congr 1; funext hess
  unfold forRet
  rw [run_loopRet (g := Gmres.iterate nd ops o) fun i st => ?_, Nat.sub_zero]
  simp only [Gmres.iterate, run_bind', run_lift, ht, arnoldi, Gmres.arnoldi, hm, run_pure, assoc_res, ok_bind]
  congr 1; funext hess
  congr 1; funext hess
  congr 1; funext _
  congr 1; funext qi
  congr 1; funext v
  rw [run_ilu hl fun i => run_lift _]

end

/-! ## Threads -/

theorem run_thread {k : α → Thread T} : ∀ (x : Look T α), (x.thread k).run m =
    match x.run m with
    | .ok a => (k a).run m
    | .error (.throw _) => .ok m
    | .error e => .error e
  | ret _ => rfl
  | fail (.throw _) => rfl
  | fail (.ub _) => rfl
  | fail .terminate => rfl
  | fail .assertFail => rfl
  | fail .nonFinite => rfl
  | fail .blasParam => rfl
  | fail .diverge => rfl
  | load p c g => by
    have hq : Quiet (fun _ => True) (m.rd p c) := lrd_quiet _ _
    simp only [thread, run, Thread.run_load]
    cases h : m.rd p c with
    | ok v => exact run_thread (g v)
    | error e =>
      rw [h] at hq
      cases e with
      | throw e => exact absurd rfl (hq e)
      | _ => rfl

theorem polite_thread {W : Nat → Nat → Nat → Prop} {i : Nat} {ps : List Nat} (hp : ∀ p ∈ ps, ∀ c j, j ≠ i → ¬ W j p c)
    {k : α → Thread T} (hk : ∀ a, (k a).Polite W i) : ∀ {x : Look T α}, x.Within ps → (x.thread k).Polite W i
  | ret a, _ => hk a
  | load p c _, h => ⟨hp p h.1 c, fun v => polite_thread hp hk (h.2 v)⟩
  | fail (.throw _), _ => trivial
  | fail (.ub _), _ => trivial
  | fail .terminate, _ => trivial
  | fail .assertFail, _ => trivial
  | fail .nonFinite, _ => trivial
  | fail .blasParam, _ => trivial
  | fail .diverge, _ => trivial

variable {ps : List Nat}

theorem within_bind {f : α → Look T β} (hf : ∀ a, (f a).Within ps) : ∀ {x : Look T α}, x.Within ps → (x.bind f).Within ps
  | ret a, _ => hf a
  | fail _, _ => trivial
  | load _ _ _, h => ⟨h.1, fun v => within_bind hf (h.2 v)⟩

theorem within_bind' {x : Look T α} {f : α → Look T β} (hx : x.Within ps) (hf : ∀ a, (f a).Within ps) : (x >>= f).Within ps :=
  within_bind hf hx

theorem within_pure (a : α) : (pure a : Look T α).Within ps := trivial

theorem within_lift : ∀ (r : Res α), (lift r : Look T α).Within ps
  | .ok _ => trivial
  | .error _ => trivial

theorem within_elem {p : Nat} (h : p ∈ ps) (c : Nat) : (elem p c : Look T T).Within ps := ⟨h, fun _ => trivial⟩

theorem within_sealed : ∀ {x : Look T α}, x.Within ps → x.sealed.Within ps
  | ret _, _ => trivial
  | load _ _ _, h => ⟨h.1, fun v => within_sealed (h.2 v)⟩
  | fail (.throw _), _ => trivial
  | fail (.ub _), _ => trivial
  | fail .terminate, _ => trivial
  | fail .assertFail, _ => trivial
  | fail .nonFinite, _ => trivial
  | fail .blasParam, _ => trivial
  | fail .diverge, _ => trivial

theorem within_loop {f : Nat → σ → Look T σ} (h : ∀ i s, (f i s).Within ps) : ∀ (n lo : Nat) (s : σ), (loop f lo n s).Within ps
  | 0, _, _ => trivial
  | n + 1, lo, s => within_bind (fun s => within_loop h n (lo + 1) s) (h lo s)

theorem within_down {f : Nat → σ → Look T σ} (h : ∀ i s, (f i s).Within ps) : ∀ (n : Nat) (s : σ), (down f n s).Within ps
  | 0, _ => trivial
  | n + 1, s => within_bind (fun s => within_down h n s) (h n s)

theorem within_loopRet {f : Nat → σ → Look T (σ ⊕ ρ)} (h : ∀ i s, (f i s).Within ps) :
    ∀ (n lo : Nat) (s : σ), (loopRet f lo n s).Within ps
  | 0, _, _ => trivial
  | n + 1, lo, s => within_bind (fun r => by
      cases r with
      | inl s => exact within_loopRet h n (lo + 1) s
      | inr r => trivial) (h lo s)

theorem within_ilu [Zero T] [Sub T] [Mul T] [CDiv T] {f : Nat → Nat → Look T T} (hf : ∀ i j, (f i j).Within ps) {n : Nat}
    {rhs : Nat → Look T T} (hb : ∀ i, (rhs i).Within ps) : (ilu f n rhs).Within ps := by
  refine within_sealed (within_bind' (within_loop (fun i y => within_bind' (hb i) fun b => within_bind' (within_loop (fun j s =>
    within_bind' (hf i j) fun l => within_bind' (within_lift _) fun _ => within_pure _) _ _ _) fun s => within_lift _) _ _ _) fun y =>
    within_down (fun i x => within_bind' (within_lift _) fun v => within_bind' (within_loop (fun j s =>
      within_bind' (hf i j) fun l => within_bind' (within_lift _) fun _ => within_pure _) _ _ _) fun s =>
        within_bind' (hf i i) fun d => within_bind' (within_lift _) fun q => within_lift _) _ _)

theorem within_matVec [Zero T] [One T] [Add T] [Mul T] {nd : Bool} {a : MatRef} (ha : a.buf ∈ ps) (v : List T) :
    (matVec nd a v).Within ps := by
  refine within_sealed (within_bind' (within_lift _) fun _ => within_loop (fun i y => within_bind' (within_lift _) fun _ =>
    within_bind' (within_lift _) fun y => within_loop (fun k y => within_bind' (within_lift _) fun t => within_bind' ?_ fun _ =>
      within_bind' (within_lift _) fun _ => within_lift _) _ _ _) _ _ _)
  exact ⟨ha, fun _ => trivial⟩

section
variable [Zero T] [One T] [Add T] [Sub T] [Mul T] [Neg T] [CDiv T] [CSqrt T] [LT T] [DecidableLT T]

theorem within_gmres {rt : Nat → Nat} {nd : Bool} {g : Members T} (hs : g.shape.Within ps) (hm : ∀ v, (g.mul v).Within ps)
    (hl : ∀ i j, (g.lu i j).Within ps) {n : Nat} {rhs : Nat → Look T T} (hb : ∀ i, (rhs i).Within ps) :
    (gmres rt nd g n rhs).Within ps := by
  refine within_bind' hs fun sh => within_bind' (within_ilu hl hb) fun b => within_bind' (within_lift _) fun nb =>
    within_bind' (within_lift _) fun q => within_bind' (within_lift _) fun r => within_bind' (within_lift _) fun h =>
      within_bind' (within_loopRet (fun _ st => within_bind' ?_ fun st => within_bind' (within_lift _) fun st => within_lift _) _ _ _)
        fun st => within_bind' (within_lift _) fun y => within_lift _
  exact within_bind' (within_lift _) fun _ => within_bind' (within_lift _) fun _ => within_bind' (within_lift _) fun _ =>
    within_bind' (within_lift _) fun _ => within_bind' (hm _) fun _ => within_bind' (within_ilu hl fun _ => within_lift _) fun _ =>
    within_bind' (within_lift _) fun _ => within_bind' (within_lift _) fun _ => within_bind' (within_lift _) fun _ =>
      within_bind' (within_lift _) fun _ => trivial

end

end Lalib.Look
