import Verif.Spec.Clients
import Verif.Proofs.Look
import Verif.Proofs.Threads
import Verif.Proofs.Views
import Verif.Proofs.Failure
import Verif.Props.Threads

/-! # Threads built from calls -/

namespace Lalib

variable {T : Type}

namespace Thread

variable {W : Nat → Nat → Nat → Prop} {i : Nat}

theorem run_andThen (u : Thread T) : ∀ (t : Thread T) (m : Mem T), (t.andThen u).run m = t.run m >>= u.run
  | .stop, _ => rfl
  | .fail _, _ => rfl
  | .load p c k, m => by
    simp only [andThen, run_load]
    cases m.rd p c with
    | error e => rfl
    | ok v => exact run_andThen u (k v) m
  | .store p c v t, m => by
    simp only [andThen, run_store]
    cases m.wr p c v with
    | error e => rfl
    | ok m => exact run_andThen u t m

theorem polite_andThen {u : Thread T} (hu : u.Polite W i) : ∀ {t : Thread T}, t.Polite W i → (t.andThen u).Polite W i
  | .stop, _ => hu
  | .fail _, _ => trivial
  | .load _ _ _, h => ⟨h.1, fun v => polite_andThen hu (h.2 v)⟩
  | .store _ _ _ _, h => ⟨h.1, h.2.1, polite_andThen hu h.2.2⟩

theorem run_seq (th : Nat → Thread T) : ∀ (l : List Nat) (m : Mem T), (seq th l).run m = forOrder (fun i m => (th i).run m) l m
  | [], _ => rfl
  | j :: l, m => by
    simp only [seq, run_andThen, forOrder]
    cases (th j).run m with
    | error e => rfl
    | ok m => exact run_seq th l m

theorem polite_seq {th : Nat → Thread T} (h : ∀ j, (th j).Polite W i) : ∀ l, (seq th l).Polite W i
  | [] => trivial
  | j :: l => polite_andThen (polite_seq h l) (h j)

theorem run_range (th : Nat → Thread T) (n : Nat) (m : Mem T) :
    (seq th (List.range n)).run m = forRange 0 n (fun i m => (th i).run m) m := by
  rw [run_seq, forRange_eq_forOrder]

theorem run_team : ∀ (l : List Nat) (th : Nat → Thread T) (m : Mem T),
    (team l th).run m = (Pool.exec l ⟨m, th⟩).map fun s => s.mem
  | [], _, _ => rfl
  | j :: l, th, m => by
    cases h : th j with
    | stop =>
      have e : (fun k => if k = j then stop else th k) = th := by
        funext k
        by_cases hk : k = j
        · simp only [hk, if_true, h]
        · simp [hk]
      simp only [team, Pool.exec, Pool.step, h, step, ok_bind, e]
      exact run_team l th m
    | fail e => simp only [team, Pool.exec, Pool.step, h]; rfl
    | load p c k =>
      simp only [team, Pool.exec, Pool.step, h, run_load, step_load]
      cases m.rd p c with
      | error e => rfl
      | ok v => exact run_team l _ m
    | store p c v t =>
      simp only [team, Pool.exec, Pool.step, h, run_store, step_store]
      cases m.wr p c v with
      | error e => rfl
      | ok m => exact run_team l _ m

theorem polite_team : ∀ (l : List Nat) {th : Nat → Thread T}, (∀ j, (th j).Polite W i) → (team l th).Polite W i
  | [], _, _ => trivial
  | j :: l, th, h => by
    unfold team
    have hj := h j
    revert hj
    cases th j with
    | stop => exact fun _ => polite_team l h
    | fail e => exact fun _ => trivial
    | load p c k =>
      refine fun hj => ⟨hj.1, fun v => polite_team l fun q => ?_⟩
      by_cases hq : q = j
      · simp only [hq, if_true]; exact hj.2 v
      · simp only [hq, if_false]; exact h q
    | store p c v t =>
      refine fun hj => ⟨hj.1, hj.2.1, polite_team l fun q => ?_⟩
      by_cases hq : q = j
      · simp only [hq, if_true]; exact hj.2.2
      · simp only [hq, if_false]; exact h q

theorem run_fold {σ : Type} {body : Nat → σ → (σ → Thread T) → Thread T} {f : Nat → σ → Res σ} {m : Mem T}
    (h : ∀ i s k, (body i s k).run m = f i s >>= fun s => (k s).run m) (k : σ → Thread T) :
    ∀ (n lo : Nat) (s : σ), (fold body lo n s k).run m = forUp f lo n s >>= fun s => (k s).run m
  | 0, _, _ => rfl
  | n + 1, lo, s => by
    simp only [fold, forUp, h]
    cases f lo s with
    | error e => rfl
    | ok s => exact run_fold h k n (lo + 1) s

theorem polite_fold {σ : Type} {body : Nat → σ → (σ → Thread T) → Thread T}
    (h : ∀ j s k, (∀ s, (k s).Polite W i) → (body j s k).Polite W i) {k : σ → Thread T} (hk : ∀ s, (k s).Polite W i) :
    ∀ (n lo : Nat) (s : σ), (fold body lo n s k).Polite W i
  | 0, _, s => hk s
  | n + 1, lo, s => h lo s _ fun s => polite_fold h hk n (lo + 1) s

theorem polite_guard {r : Res Unit} {t : Thread T} (h : t.Polite W i) : (guard r t).Polite W i := by
  unfold guard
  split
  · exact h
  · trivial
  · trivial

/-! ## Teams come to an end -/

/-- At most `d` accesses are left, and none fails by itself. -/
def Within : Nat → Thread T → Prop
  | _, .stop => True
  | 0, _ => False
  | d + 1, .load _ _ k => ∀ v, (k v).Within d
  | d + 1, .store _ _ _ t => t.Within d
  | _ + 1, .fail _ => False

theorem within_zero {t : Thread T} (h : t.Within 0) : t = .stop := by
  cases t with
  | stop => rfl
  | load p c k => exact h.elim
  | store p c v t => exact h.elim
  | fail e => exact h.elim

theorem Within.step {d : Nat} {t t' : Thread T} {m m' : Mem T} (h : t.Within d) (he : t.step m = .ok (t', m')) :
    t'.Within (d - 1) := by
  cases t with
  | stop => cases he; unfold Within; trivial
  | load p c k =>
    cases d with
    | zero => exact h.elim
    | succ d =>
      simp only [step_load] at he
      cases hr : m.rd p c with
      | error e => rw [hr] at he; cases he
      | ok v => rw [hr] at he; cases he; exact h v
  | store p c v t =>
    cases d with
    | zero => exact h.elim
    | succ d =>
      simp only [step_store] at he
      cases hr : m.wr p c v with
      | error e => rw [hr] at he; cases he
      | ok v => rw [hr] at he; cases he; exact h
  | fail e => cases he

end Thread

theorem Pool.exec_within {i : Nat} : ∀ (l : List Nat) {d : Nat} {s s' : Pool T}, (s.th i).Within d →
    Pool.exec l s = .ok s' → (s'.th i).Within (d - l.count i)
  | [], d, s, s', h, he => by cases he; simpa using h
  | j :: l, d, s, s', h, he => by
    unfold exec at he
    cases hr : s.step j with
    | error e => rw [hr] at he; cases he
    | ok s1 =>
      rw [hr] at he
      unfold Pool.step at hr
      cases hs : (s.th j).step s.mem with
      | error e => rw [hs] at hr; cases hr
      | ok r =>
        rw [hs] at hr
        cases hr
        by_cases hij : j = i
        · subst hij
          have h1 := Thread.Within.step h (t' := r.1) (m' := r.2) hs
          have := exec_within (i := j) l (d := d - 1) (s := ⟨r.2, fun k => if k = j then r.1 else s.th k⟩) (by simpa using h1) he
          rw [List.count_cons_self, show d - (l.count j + 1) = d - 1 - l.count j by omega]
          exact this
        · have := exec_within (i := i) l (d := d) (s := ⟨r.2, fun k => if k = j then r.1 else s.th k⟩)
            (by simp only [if_neg (Ne.symm hij)]; exact h) he
          rw [List.count_cons_of_ne (fun e => hij (by simpa using e))]
          exact this

/-- A team works through a loop whose iterations keep to their own cells. -/
theorem run_team_polite {W : Nat → Nat → Nat → Prop} {n d : Nat} {th : Nat → Thread T} {l : List Nat} {m m' : Mem T}
    (hp : ∀ i, (th i).Polite W i) (hd : ∀ i, (th i).Within d) (hl : ∀ i ∈ l, i < n) (hc : ∀ i, i < n → d ≤ l.count i)
    (h : forRange 0 n (fun i m => (th i).run m) m = .ok m') : (Thread.team l th).run m = .ok m' := by
  have hC := concurrent_of_polite n th m hp l hl
  obtain ⟨ext, s2, _, h2, _⟩ := hC.2 m' h
  rw [Pool.exec_append] at h2
  cases h1 : Pool.exec l ⟨m, th⟩ with
  | error e => rw [h1] at h2; cases h2
  | ok s =>
    have hf : s.Finished n := by
      intro i hi
      have := Pool.exec_within l (s := ⟨m, th⟩) (hd i) h1
      rw [show d - l.count i = 0 by have := hc i hi; omega] at this
      exact Thread.within_zero this
    rw [Thread.run_team, h1]
    exact ((hC.1 s h1).2 hf).symm.trans h |>.symm ▸ rfl


/-! ## Sizes and foreign buffers -/

theorem Thread.polite_any (i : Nat) : ∀ t : Thread T, t.Polite (fun j _ _ => j = i) i
  | .stop => trivial
  | .fail _ => trivial
  | .load _ _ k => ⟨fun _ h => h, fun v => polite_any i (k v)⟩
  | .store _ _ _ t => ⟨rfl, fun _ h => h, polite_any i t⟩

theorem Thread.run_len {t : Thread T} {m m1 : Mem T} (h : t.run m = .ok m1) : m1.len = m.len :=
  funext (run_frame (polite_any 0 t) h).1

/-- A thread that keeps to the buffers it owns and to those nobody owns does the same in every memory which agrees on
these. -/
theorem Thread.run_local {own : Nat → Option Nat} {i : Nat} : ∀ {t : Thread T},
    t.Polite (fun j p _ => own p = some j) i → ∀ {m m1 u : Mem T},
    (∀ p, (∀ j, j ≠ i → own p ≠ some j) → u p = m p) → t.run m = .ok m1 →
    ∃ u1, t.run u = .ok u1 ∧ (∀ p, own p = some i → u1 p = m1 p) ∧ ∀ p, own p ≠ some i → u1 p = u p
  | .stop, _, m, m1, u, hu, h => by
    cases h
    refine ⟨u, rfl, fun p hp => hu p fun j hj e => hj ?_, fun _ _ => rfl⟩
    rw [hp] at e
    exact (Option.some.inj e).symm
  | .fail _, _, _, _, _, _, h => by cases h
  | .load p c k, hp, m, m1, u, hu, h => by
    simp only [run_load] at h ⊢
    have : u.rd p c = m.rd p c := by unfold Mem.rd; rw [hu p hp.1]
    rw [this]
    cases hr : m.rd p c with
    | error e => rw [hr] at h; cases h
    | ok v => rw [hr] at h; exact run_local (hp.2 v) hu h
  | .store p c v t, hp, m, m1, u, hu, h => by
    simp only [run_store] at h ⊢
    have hup := hu p hp.2.1
    by_cases hc : c < m.len p
    · have hc' : c < u.len p := by unfold Mem.len; rw [hup]; exact hc
      rw [Mem.wr_ok hc] at h
      rw [Mem.wr_ok hc']
      obtain ⟨u1, h1, h2, h3⟩ := run_local hp.2.2 (u := u.upd p c v) (fun q hq => by
        by_cases hqp : q = p
        · subst hqp; rw [Mem.upd_same_buf, Mem.upd_same_buf, hup]
        · rw [Mem.upd_other _ hqp, Mem.upd_other _ hqp, hu q hq]) h
      refine ⟨u1, h1, h2, fun q hq => ?_⟩
      rw [h3 q hq, Mem.upd_other]
      rintro rfl
      exact hq hp.1
    · rw [Mem.wr_oob (by omega)] at h; cases h

/-! ## Calls -/

/-- In a `try` block. -/
def tried (m : Mem T) : Res (Mem T) → Res (Mem T)
  | .error (.throw _) => .ok m
  | r => r

theorem tried_noexcept {m m' : Mem T} {r : Res (Mem T)} (h : tried m (noexcept r) = .ok m') : r = .ok m' := by
  match r, h with
  | .ok _, h => exact h

theorem bind_eq_ok {α β : Type} {r : Res α} {f : α → Res β} {b : β} (h : (r >>= f) = .ok b) : ∃ a, r = .ok a ∧ f a = .ok b := by
  cases r with
  | error e => cases h
  | ok a => exact ⟨a, rfl, h⟩

theorem tried_check {n k : Nat} {m m' : Mem T} {r : Res (Mem T)} {t : Thread T} (hq : r ≠ .ok m' → tried m r ≠ .ok m')
    (h : tried m (checkSize n k >>= fun _ => r) = .ok m') (ht : r = .ok m' → t.run m = .ok m') :
    (Thread.guard (checkSize n k) t).run m = .ok m' := by
  unfold checkSize throwIf at *
  split at h
  · rw [if_pos ‹_›]; exact h
  · rw [if_neg ‹_›]
    by_cases e : r = .ok m'
    · exact ht e
    · exact absurd h (hq e)

theorem tried_quiet {P : Mem T → Prop} {m m' : Mem T} {r : Res (Mem T)} (hq : Quiet P r) (h : r ≠ .ok m') : tried m r ≠ .ok m' := by
  match r, hq with
  | .ok _, _ => exact h
  | .error (.throw e), hq => exact absurd rfl (hq e)
  | .error (.ub _), _ => exact h
  | .error .terminate, _ => exact h
  | .error .assertFail, _ => exact h
  | .error .nonFinite, _ => exact h
  | .error .blasParam, _ => exact h
  | .error .diverge, _ => exact h

theorem rd_quiet (m : Mem T) (p i : Nat) : Quiet (fun _ => True) (m.rd p i) := lrd_quiet _ _

theorem wr_quiet (m : Mem T) (p i : Nat) (v : T) : Quiet (fun _ => True) (m.wr p i v) := by
  by_cases h : i < m.len p
  · rw [Mem.wr_ok h]; trivial
  · rw [Mem.wr_oob (by omega)]; exact noThrow_ub _

theorem forOrder_quiet {σ : Type} {f : Nat → σ → Res σ} (h : ∀ i s, Quiet (fun _ => True) (f i s)) :
    ∀ (l : List Nat) (s : σ), Quiet (fun _ => True) (forOrder f l s)
  | [], _ => trivial
  | i :: l, s => (h i s).bind fun s _ => forOrder_quiet h l s

theorem elem2_quiet (f : T → T → T) (v w r i : Nat) (m : Mem T) : Quiet (fun _ => True) (elem2 f v w r i m) :=
  (rd_quiet _ _ _).bind fun _ _ => (rd_quiet _ _ _).bind fun _ _ => wr_quiet _ _ _ _

theorem sumThread_run {f : T → T → T} {sched : Nat → List Nat} (hs : LawfulSched sched) {v w r n : Nat} {m m' : Mem T}
    (h : forOrder (elem2 f v w r) (List.range n) m = .ok m') : (sumThread f sched v w r n).run m = .ok m' := by
  unfold sumThread
  rw [← Props.elem2_run] at h
  split
  · rw [Thread.run_seq]; exact h
  · refine run_team_polite (W := Props.OwnCell r) (d := 3) (Props.elem2_polite f v w r) (fun i => ?_) (hs n).1 (hs n).2 ?_
    · exact fun _ _ => trivial
    · rw [forRange_eq_forOrder]; exact h

theorem addCore_range [Add T] (m : Mem T) (v w r n : Nat) :
    addCore (List.range n) m v w r n = forOrder (elem2 (· + ·) v w r) (List.range n) m := by
  unfold addCore addCoreSimd addCoreParallel
  split
  · rw [forRange_eq_forOrder]
  · rfl

theorem subCore_range [Sub T] (m : Mem T) (v w r n : Nat) :
    subCore (List.range n) m v w r n = forOrder (elem2 (· - ·) v w r) (List.range n) m := by
  unfold subCore subCoreSimd subCoreParallel
  split
  · rw [forRange_eq_forOrder]
  · rfl

theorem bind_assoc_res {α β γ : Type} (r : Res α) (f : α → Res β) (g : β → Res γ) :
    (r >>= f) >>= g = r >>= fun a => f a >>= g := by cases r <;> rfl

theorem dotThread_run [Add T] [Mul T] (v w n : Nat) (k : T → Thread T) (m : Mem T) :
    (dotThread v w n k).run m = dotCore m v w n >>= fun s => (k s).run m := by
  unfold dotThread dotCore
  simp only [Thread.run_load, bind_assoc_res]
  congr 1; funext a; congr 1; funext b
  exact Thread.run_fold (fun i s k => by simp only [Thread.run_load, bind_assoc_res, ok_bind]) k (n - 1) 1 (a * b)

theorem copyThread_run (tmp : List T) (n dst : Nat) (m : Mem T) : (copyThread tmp n dst).run m = copyTo tmp n dst m := by
  unfold copyThread copyTo
  rw [Thread.run_range]
  simp only [Props.run_ofRes, Thread.run, Props.bind_ok_res]

theorem gemvAll_run [Zero T] [Add T] [Mul T] (n m : Nat) (alpha : T) (mat x : Nat) (beta : T) (y : Nat) (s : Mem T) :
    (gemvAll n m alpha mat x beta y).run s = gemvCore n m alpha mat x beta y s := by
  unfold gemvAll gemvCore
  split
  · simp only [← copyThread_run]
    refine Thread.run_fold (fun i tmp k => ?_) _ n 0 _
    simp only [Thread.run_load, Props.run_ofRes, bind_assoc_res]
    congr 1; funext yi; congr 1; funext tmp
    refine Thread.run_fold (fun q tmp k => ?_) k m 0 tmp
    simp only [Thread.run_load, Props.run_ofRes, bind_assoc_res]
  · rw [Thread.run_range]
    simp only [gemvThread, Thread.run_load, Thread.run_store, Props.gemvLoop_run]
    rfl

theorem csrAll_run [Add T] [Mul T] (n : Nat) (a : Csr T) (alpha : T) (x : Nat) (beta : T) (y : Nat) (s : Mem T) :
    (Thread.seq (csrThread a alpha x beta y) (List.range n)).run s = Csr.mulCore n a alpha x beta y s := by
  rw [Thread.run_range]
  simp only [csrThread, Thread.run_load, Thread.run_store, Props.run_ofRes, Props.csrLoop_run]
  rfl

theorem gemmAll_run [Zero T] [Add T] [Mul T] (n m o : Nat) (alpha : T) (a b : Nat) (beta : T) (c : Nat) (s : Mem T) :
    (gemmAll n m o alpha a b beta c).run s = gemmCore n m o alpha a b beta c s := by
  unfold gemmAll gemmCore
  split
  · simp only [← copyThread_run]
    refine Thread.run_fold (fun i tmp k => ?_) _ n 0 _
    refine Thread.run_fold (fun j tmp k => ?_) k m 0 tmp
    simp only [Thread.run_load, Props.run_ofRes, bind_assoc_res]
    congr 1; funext yi; congr 1; funext tmp
    refine Thread.run_fold (fun q tmp k => ?_) k o 0 tmp
    simp only [Thread.run_load, Props.run_ofRes, bind_assoc_res]
  · simp only [Thread.run_range, Thread.run, Props.bind_ok_res]

theorem guard_ok {r : Res Unit} {u : Unit} (h : r = .ok u) (t : Thread T) : Thread.guard (noexcept r) t = t := by
  rw [h]; rfl

/-! ## Threads of solvers -/

set_option linter.unusedSectionVars false

/-- Stores go to one buffer. -/
abbrev Only (x : Nat) (t : Thread T) : Prop := t.Polite (fun j p _ => j = 0 ∧ p = x) 0

theorem Only.run {x : Nat} {t : Thread T} (h : Only x t) {m m1 : Mem T} (hr : t.run m = .ok m1) {p : Nat} (hp : p ≠ x) :
    m1 p = m p :=
  List.ext_getElem? fun c => (Thread.run_frame h hr).2 p c fun e => hp e.2

theorem only_load {x p c : Nat} {k : T → Thread T} (h : ∀ v, Only x (k v)) : Only x (.load p c k) :=
  ⟨fun _ hj e => hj e.1, h⟩

theorem only_store {x c : Nat} {v : T} {t : Thread T} (h : Only x t) : Only x (.store x c v t) :=
  ⟨⟨rfl, rfl⟩, fun _ hj e => hj e.1, h⟩

theorem seq_inv {I : Mem T → Prop} {th : Nat → Thread T} {f : Nat → Mem T → Res (Mem T)}
    (h : ∀ i m, I m → (th i).run m = f i m) (hp : ∀ i m m', I m → (th i).run m = .ok m' → I m') :
    ∀ (l : List Nat) (m : Mem T), I m → (Thread.seq th l).run m = forOrder f l m
  | [], _, _ => rfl
  | i :: l, m, hm => by
    simp only [Thread.seq, Thread.run_andThen, forOrder]
    rw [← h i m hm]
    cases hr : (th i).run m with
    | error e => rfl
    | ok m' => exact seq_inv h hp l m' (hp i m m' hm hr)

theorem forDown_eq_forOrder {σ : Type} (f : Nat → σ → Res σ) : ∀ (n : Nat) (s : σ),
    forDown f n s = forOrder f (List.range n).reverse s
  | 0, _ => rfl
  | n + 1, s => by
    rw [List.range_succ, List.reverse_append]
    simp only [List.reverse_cons, List.reverse_nil, List.nil_append, List.singleton_append, forDown, forOrder]
    congr 1; funext s
    exact forDown_eq_forOrder f n s

section
variable [Zero T] [Add T] [Sub T] [Mul T] [Neg T] [CDiv T]

theorem tdmaFwd_run (dl d du n nrow b col : Nat) (k : List T × List T → Thread T) (m : Mem T) :
    (tdmaFwd dl d du n nrow b col k).run m = Tdma.fwd ⟨m dl, m d, m du⟩ m n nrow b col >>= fun pq => (k pq).run m := by
  unfold tdmaFwd Tdma.fwd
  simp only [Thread.run_load, Props.run_ofRes, bind_assoc_res]
  unfold Mem.rd
  congr 1; funext u0; congr 1; funext d0; congr 1; funext p0; congr 1; funext b0; congr 1; funext q0
  refine Thread.run_fold (fun i pq k => ?_) k (n - 1 - 1) 1 _
  simp only [Tdma.fwdStep, Thread.run_load, Props.run_ofRes, bind_assoc_res, Mem.rd, ok_bind]

theorem tdmaBack_run (nrow x col : Nat) (pq : List T × List T) :
    (fun i m => (tdmaBack nrow x col pq i).run m) = Tdma.backStep nrow x col pq := by
  funext i m
  simp only [tdmaBack, Tdma.backStep, Props.run_ofRes, Thread.run, Props.bind_ok_res]

theorem tdmaColumn_run {dl d du n nrow b x col : Nat} {m : Mem T} :
    (tdmaFwd dl d du n nrow b col fun pq => (tdmaTail dl d n nrow b x col pq).andThen
      (.seq (tdmaBack nrow x col pq) (List.range (n - 1)).reverse)).run m =
    Tdma.column ⟨m dl, m d, m du⟩ n nrow b x col m := by
  rw [tdmaFwd_run]
  unfold Tdma.column
  congr 1; funext pq
  rw [Thread.run_andThen]
  simp only [tdmaTail, Tdma.tailStep, Thread.run_load, Props.run_ofRes, Thread.run, Props.bind_ok_res, Mem.rd]
  congr 1; funext m
  rw [Thread.run_seq, tdmaBack_run, forDown_eq_forOrder]

theorem tdmaColumn_only (dl d du n nrow b x col : Nat) :
    Only x (tdmaFwd dl d du n nrow b col fun pq => (tdmaTail dl d n nrow b x col pq).andThen
      (.seq (tdmaBack nrow x col pq) (List.range (n - 1)).reverse) : Thread T) := by
  refine only_load fun _ => only_load fun _ => Thread.polite_ofRes fun _ => only_load fun _ => Thread.polite_ofRes fun _ =>
    Thread.polite_fold ?_ ?_ _ _ _
  · exact fun _ _ _ h => only_load fun _ => only_load fun _ => Thread.polite_ofRes fun _ => only_load fun _ =>
      Thread.polite_ofRes fun _ => only_load fun _ => Thread.polite_ofRes fun _ => Thread.polite_ofRes fun _ => h _
  · refine fun _ => Thread.polite_andThen (Thread.polite_seq (fun _ => ?_) _) ?_
    · exact Thread.polite_ofRes fun _ => only_load fun _ => Thread.polite_ofRes fun _ => only_store trivial
    · exact only_load fun _ => only_load fun _ => Thread.polite_ofRes fun _ => only_load fun _ => Thread.polite_ofRes fun _ =>
        Thread.polite_ofRes fun _ => only_store trivial

theorem tdmaThread_run {dl d du n nrow b x : Nat} (h1 : dl ≠ x) (h2 : d ≠ x) (h3 : du ≠ x) (m : Mem T) :
    (tdmaThread dl d du n nrow b x).run m = Tdma.tdma ⟨m dl, m d, m du⟩ n nrow b x m := by
  unfold tdmaThread Tdma.tdma
  rw [forRange_eq_forOrder]
  refine seq_inv (I := fun u => u dl = m dl ∧ u d = m d ∧ u du = m du) (fun col u hu => ?_) (fun col u u' hu hr => ?_) _ m
    ⟨rfl, rfl, rfl⟩
  · rw [tdmaColumn_run, hu.1, hu.2.1, hu.2.2]
  · have ho := tdmaColumn_only (T := T) dl d du n nrow b x col
    rw [ho.run hr h1, ho.run hr h2, ho.run hr h3]
    exact hu

end

section
variable [Zero T] [Sub T] [Mul T] [CDiv T] [CZero T]

theorem subCell_run {x at' p : Nat} {c : (T → Thread T) → Thread T} {r : Res T} {m : Mem T}
    (hc : ∀ k, (c k).run m = r >>= fun v => (k v).run m) : (subCellThread x at' p c).run m = Chol.subCell x at' p r m := by
  unfold subCellThread Chol.subCell
  simp only [hc, Thread.run, Props.bind_ok_res]

theorem divCell_run {x at' l q : Nat} {m : Mem T} : (divCellThread x at' l q).run m = Chol.divCell x at' (m l) q m := by
  unfold divCellThread Chol.divCell
  simp only [Props.run_ofRes, Thread.run, Props.bind_ok_res, Mem.rd]

omit [Zero T] [CZero T] in
theorem subCell_only {x at' p : Nat} {c : (T → Thread T) → Thread T} (hc : ∀ k, (∀ v, Only x (k v)) → Only x (c k)) :
    Only x (subCellThread x at' p c) :=
  only_load fun _ => hc _ fun _ => only_load fun _ => only_store trivial

omit [Zero T] [Sub T] [Mul T] [CZero T] in
theorem divCell_only {x at' l q : Nat} : Only x (divCellThread x at' l q : Thread T) :=
  only_load fun _ => only_load fun _ => Thread.polite_ofRes fun _ => only_store trivial

omit [Zero T] [CZero T] in
theorem fwdRow_only (md : Bool) (ix : Nat → Nat → Nat) (nrow l rhs x col i : Nat) :
    Only x (fwdRowThread md ix nrow l rhs x col i : Thread T) := by
  refine only_load fun _ => only_store ?_
  split
  · exact Thread.polite_seq (fun _ => subCell_only fun _ h => only_load fun _ => only_load fun _ => Thread.polite_ofRes h) _
  · exact Thread.polite_andThen divCell_only (Thread.polite_seq (fun _ => subCell_only fun _ h => only_load h) _)

omit [Zero T] [CZero T] in
theorem bwdRow_only (ix : Nat → Nat → Nat) (n nrow l x col i : Nat) :
    Only x (bwdRowThread ix n nrow l x col i : Thread T) :=
  Thread.polite_andThen divCell_only (Thread.polite_seq (fun _ => subCell_only fun _ h => only_load h) _)

/-- The forward process of either kind. -/
def fwdKind (md : Bool) (ix : Nat → Nat → Nat) (nrow : Nat) (l : List T) (rhs x k i : Nat) (m : Mem T) : Res (Mem T) :=
  if md then Chol.modFwdRow ix nrow l rhs x k i m else Chol.fwdRow ix nrow l rhs x k i m

theorem fwdRow_run {md : Bool} {ix : Nat → Nat → Nat} {nrow l rhs x col i : Nat} (hl : l ≠ x) (m : Mem T) :
    (fwdRowThread md ix nrow l rhs x col i).run m = fwdKind md ix nrow (m l) rhs x col i m := by
  unfold fwdRowThread fwdKind
  cases md with
  | true =>
    unfold Chol.modFwdRow
    simp only [Thread.run_load, Thread.run_store, if_true]
    congr 1; funext b
    by_cases hb : i * nrow + col < m.len x
    · rw [Mem.wr_ok hb]
      simp only [ok_bind, forRange_eq_forOrder]
      refine seq_inv (I := fun u => u l = m l) (fun j u hu => ?_) (fun j u u' hu hr => ?_) _ _ (Mem.upd_other _ hl _ _)
      · refine subCell_run fun k => ?_
        simp only [Thread.run_load, Props.run_ofRes, bind_assoc_res, Mem.rd, hu]
      · rw [(subCell_only fun _ h => only_load fun _ => only_load fun _ => Thread.polite_ofRes h).run hr hl, hu]
    · rw [Mem.wr_oob (by omega)]; rfl
  | false =>
    unfold Chol.fwdRow
    simp only [Thread.run_load, Thread.run_store, Bool.false_eq_true, if_false]
    congr 1; funext b
    by_cases hb : i * nrow + col < m.len x
    · rw [Mem.wr_ok hb]
      simp only [ok_bind, forRange_eq_forOrder, Thread.run_andThen]
      have hI : (m.upd x (i * nrow + col) b) l = m l := Mem.upd_other _ hl _ _
      have ho : ∀ j, Only x (subCellThread x (i * nrow + col) (j * nrow + col) fun k => .load l (ix i j) k : Thread T) :=
        fun j => subCell_only fun _ h => only_load h
      rw [seq_inv (f := fun j m' => Chol.subCell x (i * nrow + col) (j * nrow + col) (lrd (m l) (ix i j)) m')
        (I := fun u => u l = m l) (fun j u hu => by
          refine subCell_run fun k => ?_
          simp only [Thread.run_load, Mem.rd, hu]) (fun j u u' hu hr => by rw [(ho j).run hr hl, hu]) _ _ hI]
      cases hr : forOrder (fun j m' => Chol.subCell x (i * nrow + col) (j * nrow + col) (lrd (m l) (ix i j)) m')
        (List.range i) (m.upd x (i * nrow + col) b) with
      | error e => rfl
      | ok u =>
        have hu : u l = m l := by
          rw [← seq_inv (th := fun j => subCellThread x (i * nrow + col) (j * nrow + col) fun k => .load l (ix i j) k)
            (I := fun u => u l = m l) (fun j u hu => by
              refine subCell_run fun k => ?_
              simp only [Thread.run_load, Mem.rd, hu]) (fun j u u' hu hr => by rw [(ho j).run hr hl, hu]) _ _ hI] at hr
          rw [Only.run (Thread.polite_seq ho _) hr hl, hI]
        simp only [ok_bind, divCell_run, hu]
    · rw [Mem.wr_oob (by omega)]; rfl

theorem bwdRow_run {ix : Nat → Nat → Nat} {n nrow l x col i : Nat} (hl : l ≠ x) (m : Mem T) :
    (bwdRowThread ix n nrow l x col i).run m = Chol.bwdRow ix n nrow (m l) x col i m := by
  unfold bwdRowThread Chol.bwdRow forRange
  rw [Thread.run_andThen, forUp_eq_forOrder]
  have ho : ∀ j, Only x (subCellThread x (i * nrow + col) (j * nrow + col) fun k => .load l (ix j i) k : Thread T) :=
    fun j => subCell_only fun _ h => only_load h
  rw [← seq_inv (th := fun j => subCellThread x (i * nrow + col) (j * nrow + col) fun k => .load l (ix j i) k)
    (I := fun u => u l = m l) (fun j u hu => by
      refine subCell_run fun k => ?_
      simp only [Thread.run_load, Mem.rd, hu]) (fun j u u' hu hr => by rw [(ho j).run hr hl, hu]) _ _ rfl]
  cases hr : (Thread.seq (fun j => subCellThread x (i * nrow + col) (j * nrow + col) fun k => .load l (ix j i) k)
    (List.range' (i + 1) (n - (i + 1)))).run m with
  | error e => rfl
  | ok u =>
    simp only [ok_bind, divCell_run]
    rw [Only.run (Thread.polite_seq ho _) hr hl]

theorem kernel_eq (md : Bool) (mt : MemType) (n nrow : Nat) (l : List T) (rhs x : Nat) (m : Mem T) :
    Chol.kernel md mt n nrow l rhs x m = forOrder (fun k m =>
      forOrder (fwdKind md (cIndex mt n) nrow l rhs x k) (List.range n) m >>=
        forOrder (Chol.bwdRow (cIndex mt n) n nrow l x k) (List.range n).reverse) (List.range nrow) m := by
  unfold Chol.kernel
  cases md
  · simp only [Bool.false_eq_true, if_false, Chol.linear, forRange_eq_forOrder, forDown_eq_forOrder]
    rfl
  · simp only [if_true, Chol.modLinear, forRange_eq_forOrder, forDown_eq_forOrder]
    rfl

theorem cholThread_run {md : Bool} {mt : MemType} {n nrow l rhs x : Nat} (hl : l ≠ x) (m : Mem T) :
    (cholThread md mt n nrow l rhs x).run m = Chol.kernel md mt n nrow (m l) rhs x m := by
  rw [kernel_eq]
  have hf : ∀ col j, Only x (fwdRowThread md (cIndex mt n) nrow l rhs x col j : Thread T) := fun _ _ => fwdRow_only _ _ _ _ _ _ _ _
  have hb : ∀ col j, Only x (bwdRowThread (cIndex mt n) n nrow l x col j : Thread T) := fun _ _ => bwdRow_only _ _ _ _ _ _ _
  unfold cholThread
  refine seq_inv (I := fun u => u l = m l) (fun col u hu => ?_) (fun col u u' hu hr => ?_) _ _ rfl
  · rw [Thread.run_andThen, ← seq_inv (I := fun u => u l = m l) (fun j u hu => by rw [fwdRow_run hl, hu])
      (fun j u u' hu hr => by rw [(hf col j).run hr hl, hu]) _ _ hu]
    cases hr : (Thread.seq (fwdRowThread md (cIndex mt n) nrow l rhs x col) (List.range n)).run u with
    | error e => rfl
    | ok u1 =>
      simp only [ok_bind]
      refine seq_inv (I := fun u => u l = m l) (fun j u hu => by rw [bwdRow_run hl, hu])
        (fun j u u' hu hr => by rw [(hb col j).run hr hl, hu]) _ _ ?_
      rw [Only.run (Thread.polite_seq (hf col) _) hr hl, hu]
  · rw [Only.run (Thread.polite_andThen (Thread.polite_seq (hb col) _) (Thread.polite_seq (hf col) _)) hr hl, hu]

end

/-! ## Threads that throw nothing -/

/-- No exception comes from the thread itself. -/
def Thread.Calm : Thread T → Prop
  | .stop => True
  | .load _ _ k => ∀ v, (k v).Calm
  | .store _ _ _ t => t.Calm
  | .fail e => Fault.NoThrow e

theorem Thread.Calm.run : ∀ {t : Thread T}, t.Calm → ∀ (m : Mem T), Quiet (fun _ => True) (t.run m)
  | .stop, _, _ => trivial
  | .fail _, h, _ => h
  | .load p c _, h, m => (rd_quiet m p c).bind fun v _ => (h v).run m
  | .store p c v t, h, m => (wr_quiet m p c v).bind fun m _ => Calm.run (t := t) h m

theorem calm_ofRes {α : Type} {P : α → Prop} {r : Res α} (hr : Quiet P r) {k : α → Thread T} (h : ∀ a, (k a).Calm) :
    (Thread.ofRes r k).Calm := by
  cases r with
  | ok a => exact h a
  | error e => exact hr

theorem calm_andThen {u : Thread T} (hu : u.Calm) : ∀ {t : Thread T}, t.Calm → (t.andThen u).Calm
  | .stop, _ => hu
  | .fail _, h => h
  | .load _ _ _, h => fun v => calm_andThen hu (h v)
  | .store _ _ _ t, h => calm_andThen hu (t := t) h

theorem calm_seq {th : Nat → Thread T} (h : ∀ i, (th i).Calm) : ∀ l, (Thread.seq th l).Calm
  | [] => trivial
  | i :: l => calm_andThen (calm_seq h l) (h i)

theorem div_quiet [CDiv T] (hd : ∀ (a b : T) (e : Exn), divC a b ≠ .error (.throw e)) (a b : T) :
    Quiet (fun _ => True) (divC a b) := by
  cases h : divC a b with
  | ok c => trivial
  | error f => exact fun e he => hd a b e (by rw [h, he])

theorem chol_calm [Sub T] [Mul T] [CDiv T] (hd : ∀ a b : T, Quiet (fun _ => True) (divC a b)) (md : Bool) (mt : MemType)
    (n nrow l rhs x : Nat) : (cholThread md mt n nrow l rhs x : Thread T).Calm := by
  have hdc : ∀ at' q, (divCellThread x at' l q : Thread T).Calm := fun at' q _ _ => calm_ofRes (hd _ _) fun _ => trivial
  refine calm_seq (fun col => calm_andThen (calm_seq (fun i => ?_) _) (calm_seq (fun i => ?_) _)) _
  · refine calm_andThen (hdc _ _) (calm_seq (fun j => ?_) _)
    exact fun _ _ _ => trivial
  · intro b
    show Thread.Calm _
    unfold Thread.Calm
    split
    · refine calm_seq (fun j => ?_) _
      exact fun _ _ _ => calm_ofRes (hd _ _) fun _ _ => trivial
    · refine calm_andThen (hdc _ _) (calm_seq (fun j => ?_) _)
      exact fun _ _ _ => trivial

theorem tried_assert {nd c : Bool} {m m' : Mem T} {r : Res (Mem T)} {t : Thread T} (hc : t.Calm) (ht : t.run m = r)
    (h : tried m (cassert nd c >>= fun _ => r) = .ok m') : (Thread.guard (cassert nd c) t).run m = .ok m' := by
  unfold cassert at *
  split at h
  · rw [if_pos ‹_›]
    show t.run m = .ok m'
    rw [ht]
    by_cases e : r = .ok m'
    · exact e
    · exact absurd h (tried_quiet (by rw [← ht]; exact hc.run m) e)
  · cases h

namespace Job

variable [Zero T] [Add T] [Sub T] [Mul T] [Neg T] [CDiv T] [CZero T]

/-- What a call does without other threads is what its accesses do. -/
theorem thread_run (hd : ∀ a b : T, Quiet (fun _ => True) (divC a b)) {nd : Bool} {sched : Nat → List Nat}
    (hs : LawfulSched sched) {m m' : Mem T} : ∀ {c : Job T}, c.target ∉ c.arrays → tried m (c.act nd m) = .ok m' → (c.thread nd m.len sched).run m = .ok m'
  | .neg v r, _, h => by
    obtain ⟨_, h1, h2⟩ := bind_eq_ok (tried_noexcept h)
    simp only [thread, guard_ok h1]
    rw [Thread.run_range, Props.elem1_run]; exact h2
  | .add v w r, _, h => by
    refine tried_check (fun e => tried_quiet (P := fun _ => True) ?_ e) h fun e => sumThread_run hs ?_
    · rw [addCore_range]; exact forOrder_quiet (fun _ _ => elem2_quiet _ _ _ _ _ _) _ _
    · rw [← addCore_range]; exact e
  | .sub v w r, _, h => by
    refine tried_check (fun e => tried_quiet (P := fun _ => True) ?_ e) h fun e => sumThread_run hs ?_
    · rw [subCore_range]; exact forOrder_quiet (fun _ _ => elem2_quiet _ _ _ _ _ _) _ _
    · rw [← subCore_range]; exact e
  | .axpy alpha x y, _, h => by
    obtain ⟨_, h1, h2⟩ := bind_eq_ok (tried_noexcept h)
    simp only [thread, guard_ok h1]
    rw [Thread.run_range, Props.elem2_run]; exact h2
  | .scale alpha x, _, h => by
    have h := tried_noexcept h
    simp only [thread]
    rw [Thread.run_range, Props.elem1_run]; exact h
  | .dot x y r i, _, h => by
    have e : (Job.dot x y r i : Job T).act nd m = (checkSize (m.len x) (m.len y) >>= fun _ =>
        dotCore m x y (m.len x) >>= fun s => m.wr r i s) := by
      simp only [act, dynDot, bind_assoc_res]
    rw [e] at h
    refine tried_check (fun e => tried_quiet (P := fun _ => True) ?_ e) h fun e => ?_
    · refine Sat.bind (P := fun _ => True) ?_ fun s _ => wr_quiet _ _ _ _
      unfold dotCore forRange
      refine (rd_quiet _ _ _).bind fun a _ => (rd_quiet _ _ _).bind fun b _ => ?_
      generalize m.len x - 1 = n
      generalize 1 = lo
      generalize a * b = s
      induction n generalizing lo s with
      | zero => trivial
      | succ n ih => exact Sat.bind (P := fun _ => True) ((rd_quiet _ _ _).bind fun a _ => (rd_quiet _ _ _).bind fun b _ => trivial) fun s _ => ih _ s
    · rw [dotThread_run]
      simpa only [Thread.run, Props.bind_ok_res] using e
  | .gemv alpha a x beta y, _, h => by
    obtain ⟨_, h1, h2⟩ := bind_eq_ok (tried_noexcept h)
    obtain ⟨_, h2, h3⟩ := bind_eq_ok h2
    simp only [thread]
    rw [guard_ok (u := ()) (by rw [h1]; exact h2), gemvAll_run]; exact h3
  | .spmv alpha a x beta y, _, h => by
    obtain ⟨sh, h0, h1⟩ := bind_eq_ok (tried_noexcept h)
    obtain ⟨_, h1, h2⟩ := bind_eq_ok h1
    obtain ⟨_, h2, h3⟩ := bind_eq_ok h2
    simp only [thread, h0, Lalib.noexcept_ok, Thread.ofRes]
    rw [guard_ok (u := ()) (by rw [h1]; exact h2), csrAll_run]; exact h3
  | .gemm alpha a b beta c, _, h => by
    obtain ⟨_, h1, h2⟩ := bind_eq_ok (tried_noexcept h)
    obtain ⟨_, h2, h3⟩ := bind_eq_ok h2
    obtain ⟨_, h3, h4⟩ := bind_eq_ok h3
    simp only [thread]
    rw [guard_ok (u := ()) (by rw [h1, h2]; exact h3), gemmAll_run]; exact h4
  | .matAdd a b c, _, h => by
    obtain ⟨_, h1, h2⟩ := bind_eq_ok (tried_noexcept h)
    obtain ⟨_, h2, h3⟩ := bind_eq_ok h2
    simp only [thread]
    rw [guard_ok (u := ()) (by rw [h1]; exact h2)]
    rw [addCore_range] at h3
    exact sumThread_run hs h3
  | .matSub a b c, _, h => by
    obtain ⟨_, h1, h2⟩ := bind_eq_ok (tried_noexcept h)
    obtain ⟨_, h2, h3⟩ := bind_eq_ok h2
    simp only [thread]
    rw [guard_ok (u := ()) (by rw [h1]; exact h2)]
    rw [subCore_range] at h3
    exact sumThread_run hs h3

  | .triVec dl d du b x, ha, h => by
    simp only [target, arrays, List.mem_cons, List.not_mem_nil, or_false, not_or] at ha
    obtain ⟨_, h1, h2⟩ := bind_eq_ok (tried_noexcept h)
    simp only [thread]
    rw [guard_ok (u := ()) (show cassert nd (m.len d == m.len b) = _ from h1), tdmaThread_run (Ne.symm ha.1) (Ne.symm ha.2.1) (Ne.symm ha.2.2)]
    exact h2
  | .triMat dl d du b x, ha, h => by
    simp only [target, arrays, List.mem_cons, List.not_mem_nil, or_false, not_or] at ha
    obtain ⟨_, h1, h2⟩ := bind_eq_ok (tried_noexcept h)
    obtain ⟨_, h2, h3⟩ := bind_eq_ok h2
    simp only [thread]
    rw [guard_ok (u := ()) (by simp only [TriDiag.shape] at h1; unfold Mem.len; rw [h1]; exact h2),
      tdmaThread_run (Ne.symm ha.1) (Ne.symm ha.2.1) (Ne.symm ha.2.2)]
    exact h3
  | .cholVec md mt n0 l rhs, ha, h => by
    simp only [target, arrays, List.mem_cons, List.not_mem_nil, or_false] at ha
    refine tried_assert (chol_calm hd _ _ _ _ _ _ _) ?_ h
    rw [cholThread_run (Ne.symm ha)]
  | .cholMat md mt n0 l rhs, ha, h => by
    simp only [target, arrays, List.mem_cons, List.not_mem_nil, or_false] at ha
    refine tried_assert (chol_calm hd _ _ _ _ _ _ _) ?_ h
    rw [cholThread_run (Ne.symm ha)]
  | .look ps f x, _, h => by
    simp only [thread, act] at h ⊢
    rw [Look.run_thread]
    match hr : (f m.len).run m with
    | .ok r =>
      rw [hr, ok_bind] at h
      show (copyThread r r.length x).run m = .ok m'
      rw [copyThread_run]
      by_cases e : copyTo r r.length x m = .ok m'
      · exact e
      · refine absurd h (tried_quiet (P := fun _ => True) ?_ e)
        unfold copyTo
        rw [forRange_eq_forOrder]
        exact forOrder_quiet (fun _ _ => Sat.bind (P := fun _ => True) (lrd_quiet _ _) fun _ _ => wr_quiet _ _ _ _) _ _
    | .error (.throw e) => rw [hr] at h; exact h
    | .error (.ub _) => rw [hr] at h; cases h
    | .error .terminate => rw [hr] at h; cases h
    | .error .assertFail => rw [hr] at h; cases h
    | .error .nonFinite => rw [hr] at h; cases h
    | .error .blasParam => rw [hr] at h; cases h
    | .error .diverge => rw [hr] at h; cases h

theorem runAll_cons (nd : Bool) (c : Job T) (cs : List (Job T)) (m : Mem T) :
    runAll nd (c :: cs) m = tried m (c.act nd m) >>= runAll nd cs := by
  unfold runAll
  match c.act nd m with
  | .ok m => rfl
  | .error (.throw e) => rfl
  | .error (.ub _) => rfl
  | .error .terminate => rfl
  | .error .assertFail => rfl
  | .error .nonFinite => rfl
  | .error .blasParam => rfl
  | .error .diverge => rfl

theorem threads_run (hd : ∀ a b : T, Quiet (fun _ => True) (divC a b)) {nd : Bool} {sched : Nat → Nat → List Nat}
    (hs : ∀ k, LawfulSched (sched k)) : ∀ {cs : List (Job T)} {k : Nat} {m m' : Mem T},
    (∀ c ∈ cs, c.target ∉ c.arrays) → runAll nd cs m = .ok m' → (threads nd m.len sched k cs).run m = .ok m'
  | [], _, _, _, _, h => h
  | c :: cs, k, m, m', hc, h => by
    rw [runAll_cons] at h
    obtain ⟨m1, h1, h2⟩ := bind_eq_ok h
    have h3 := thread_run hd (hs k) (hc c (by simp)) h1
    unfold threads
    rw [Thread.run_andThen, h3, ← Thread.run_len h3]
    exact threads_run hd hs (fun c h => hc c (by simp [h])) h2

end Job

section polite

variable {W : Nat → Nat → Nat → Prop} {i : Nat}

open Thread

/-- Nobody else stores to the buffer. -/
abbrev Mine (W : Nat → Nat → Nat → Prop) (i p : Nat) : Prop := ∀ c j, j ≠ i → ¬ W j p c

/-- The thread stores to the buffer. -/
abbrev Own (W : Nat → Nat → Nat → Prop) (i p : Nat) : Prop := ∀ c, W i p c

theorem e1_polite {f : T → T} {v r : Nat} (hv : Mine W i v) (hr : Mine W i r) (ho : Own W i r) (k : Nat) :
    (elem1Thread f v r k).Polite W i := ⟨hv _, fun _ => ⟨ho _, hr _, trivial⟩⟩

theorem e2_polite {f : T → T → T} {v w r : Nat} (hv : Mine W i v) (hw : Mine W i w) (hr : Mine W i r) (ho : Own W i r) (k : Nat) :
    (elem2Thread f v w r k).Polite W i := ⟨hv _, fun _ => ⟨hw _, fun _ => ⟨ho _, hr _, trivial⟩⟩⟩

theorem sum_polite {f : T → T → T} {sched : Nat → List Nat} {v w r n : Nat} (hv : Mine W i v) (hw : Mine W i w) (hr : Mine W i r)
    (ho : Own W i r) : (sumThread f sched v w r n).Polite W i := by
  unfold sumThread
  split
  · exact polite_seq (e2_polite hv hw hr ho) _
  · exact polite_team _ (e2_polite hv hw hr ho)

theorem dot_polite [Add T] [Mul T] {v w n : Nat} {k : T → Thread T} (hv : Mine W i v) (hw : Mine W i w)
    (hk : ∀ s, (k s).Polite W i) : (dotThread v w n k).Polite W i := by
  refine ⟨hv _, fun _ => ⟨hw _, fun _ => polite_fold ?_ hk _ _ _⟩⟩
  exact fun _ _ _ h => ⟨hv _, fun _ => ⟨hw _, fun _ => h _⟩⟩

theorem copy_polite {tmp : List T} {n r : Nat} (hr : Mine W i r) (ho : Own W i r) : (copyThread tmp n r).Polite W i := by
  refine polite_seq (fun _ => polite_ofRes ?_) _
  exact fun _ => ⟨ho _, hr _, trivial⟩

theorem gemvL_polite [Add T] [Mul T] {m : Nat} {alpha : T} {mat x r q : Nat} (hm : Mine W i mat) (hx : Mine W i x) (hr : Mine W i r)
    (ho : Own W i r) : ∀ (n k : Nat), (gemvLoop m alpha mat x r q k n).Polite W i
  | 0, _ => trivial
  | n + 1, k => ⟨hr _, fun _ => ⟨hm _, fun _ => ⟨hx _, fun _ => ⟨ho _, hr _, gemvL_polite hm hx hr ho n (k + 1)⟩⟩⟩⟩

theorem gemvAll_polite [Zero T] [Add T] [Mul T] {n m : Nat} {alpha beta : T} {mat x y : Nat} (hm : Mine W i mat)
    (hx : Mine W i x) (hr : Mine W i y) (ho : Own W i y) : (gemvAll n m alpha mat x beta y).Polite W i := by
  unfold gemvAll
  split
  · refine polite_fold ?_ (fun _ => copy_polite hr ho) _ _ _
    refine fun _ _ _ h => ⟨hr _, fun _ => polite_ofRes fun _ => polite_fold ?_ h _ _ _⟩
    refine fun _ _ _ h => polite_ofRes ?_
    exact fun _ => ⟨hm _, fun _ => ⟨hx _, fun _ => polite_ofRes h⟩⟩
  · refine polite_seq ?_ _
    exact fun _ => ⟨hr _, fun _ => ⟨ho _, hr _, gemvL_polite hm hx hr ho _ _⟩⟩

theorem csrL_polite [Add T] [Mul T] {a : Csr T} {alpha : T} {x r q : Nat} (hx : Mine W i x) (hr : Mine W i r)
    (ho : Own W i r) : ∀ (n k : Nat), (csrLoop a alpha x r q k n).Polite W i
  | 0, _ => trivial
  | n + 1, k => ⟨hr _, fun _ => polite_ofRes fun _ => polite_ofRes fun _ => ⟨hx _, fun _ =>
      ⟨ho _, hr _, csrL_polite hx hr ho n (k + 1)⟩⟩⟩

theorem csrT_polite [Add T] [Mul T] {a : Csr T} {alpha beta : T} {x r q : Nat} (hx : Mine W i x) (hr : Mine W i r)
    (ho : Own W i r) : (csrThread a alpha x beta r q).Polite W i :=
  ⟨hr _, fun _ => ⟨ho _, hr _, polite_ofRes fun _ => polite_ofRes fun _ => csrL_polite hx hr ho _ _⟩⟩

theorem gemmAll_polite [Zero T] [Add T] [Mul T] {n m o : Nat} {alpha beta : T} {a b c : Nat} (ha : Mine W i a) (hb : Mine W i b)
    (hr : Mine W i c) (ho : Own W i c) : (gemmAll n m o alpha a b beta c).Polite W i := by
  unfold gemmAll
  split
  · refine polite_fold ?_ (fun _ => copy_polite hr ho) _ _ _
    refine fun _ _ _ h => polite_fold ?_ h _ _ _
    refine fun _ _ _ h => ⟨hr _, fun _ => polite_ofRes fun _ => polite_fold ?_ h _ _ _⟩
    refine fun _ _ _ h => polite_ofRes ?_
    exact fun _ => ⟨ha _, fun _ => ⟨hb _, fun _ => polite_ofRes h⟩⟩
  · refine polite_seq (fun _ => polite_seq ?_ _) _
    refine fun _ => ⟨hr _, fun _ => ⟨ho _, hr _, polite_seq ?_ _⟩⟩
    exact fun _ => ⟨hr _, fun _ => ⟨ha _, fun _ => ⟨hb _, fun _ => ⟨ho _, hr _, trivial⟩⟩⟩⟩

theorem tdmaThread_polite [Zero T] [Add T] [Sub T] [Mul T] [Neg T] [CDiv T] {dl d du n nrow b x : Nat} (h1 : Mine W i dl)
    (h2 : Mine W i d) (h3 : Mine W i du) (hb : Mine W i b) (hr : Mine W i x) (ho : Own W i x) :
    (tdmaThread dl d du n nrow b x : Thread T).Polite W i := by
  refine polite_seq (fun col => ?_) _
  refine ⟨h3 _, fun _ => ⟨h2 _, fun _ => polite_ofRes ?_⟩⟩
  refine fun _ => ⟨hb _, fun _ => polite_ofRes fun _ => polite_fold ?_ ?_ _ _ _⟩
  · refine fun _ _ _ h => ⟨h2 _, fun _ => ⟨h1 _, fun _ => polite_ofRes ?_⟩⟩
    refine fun _ => ⟨h3 _, fun _ => polite_ofRes ?_⟩
    exact fun _ => ⟨hb _, fun _ => polite_ofRes fun _ => polite_ofRes fun _ => h _⟩
  · refine fun _ => polite_andThen (polite_seq (fun _ => polite_ofRes ?_) _) ?_
    · refine fun _ => ⟨hr _, fun _ => polite_ofRes ?_⟩
      exact fun _ => ⟨ho _, hr _, trivial⟩
    · refine ⟨hb _, fun _ => ⟨h1 _, fun _ => polite_ofRes ?_⟩⟩
      refine fun _ => ⟨h2 _, fun _ => polite_ofRes fun _ => polite_ofRes ?_⟩
      exact fun _ => ⟨ho _, hr _, trivial⟩

theorem cholThread_polite [Sub T] [Mul T] [CDiv T] {md : Bool} {mt : MemType} {n nrow l rhs x : Nat} (hl : Mine W i l)
    (hb : Mine W i rhs) (hr : Mine W i x) (ho : Own W i x) : (cholThread md mt n nrow l rhs x : Thread T).Polite W i := by
  have hs : ∀ {at' p : Nat} {c : (T → Thread T) → Thread T}, (∀ k, (∀ v, (k v).Polite W i) → (c k).Polite W i) →
      (subCellThread x at' p c).Polite W i := fun hc => ⟨hr _, fun _ => hc _ fun _ => ⟨hr _, fun _ => ⟨ho _, hr _, trivial⟩⟩⟩
  have hdc : ∀ {at' q : Nat}, (divCellThread x at' l q : Thread T).Polite W i := by
    refine ⟨hr _, fun _ => ⟨hl _, fun _ => polite_ofRes ?_⟩⟩
    exact fun _ => ⟨ho _, hr _, trivial⟩
  refine polite_seq (fun col => polite_andThen (polite_seq (fun i => ?_) _) (polite_seq (fun i => ?_) _)) _
  · refine polite_andThen hdc (polite_seq (fun j => hs ?_) _)
    exact fun _ h => ⟨hl _, h⟩
  · refine ⟨hb _, fun _ => ⟨ho _, hr _, ?_⟩⟩
    split
    · refine polite_seq (fun j => hs ?_) _
      exact fun _ h => ⟨hl _, fun _ => ⟨hl _, fun _ => polite_ofRes h⟩⟩
    · refine polite_andThen hdc (polite_seq (fun j => hs ?_) _)
      exact fun _ h => ⟨hl _, h⟩

theorem Job.thread_polite [Zero T] [Add T] [Sub T] [Mul T] [Neg T] [CDiv T] {own : Nat → Option Nat} {t : Nat} {nd : Bool} {sz : Nat → Nat} {sched : Nat → List Nat}
    {c : Job T} (h : c.Fits own t) : (c.thread nd sz sched).Polite (fun j p _ => own p = some j) t := by
  have ho : Own (fun j p _ => own p = some j) t c.target := fun _ => h.1
  have hr : Mine (fun j p _ => own p = some j) t c.target := fun _ j hj e => hj
    (Option.some.inj (Eq.trans h.1.symm e)).symm
  have hv : ∀ p ∈ c.operands ++ c.arrays, Mine (fun j p _ => own p = some j) t p := fun p hp _ j hj e => by
    rcases h.2.1 p hp with h | h
    · exact hj (Option.some.inj (Eq.trans h.symm e)).symm
    · exact nomatch Eq.trans h.symm e
  cases c with
  | neg v r => exact polite_guard (polite_seq (e1_polite (hv v (by simp [operands, arrays])) hr ho) _)
  | add v w r => exact polite_guard (sum_polite (hv v (by simp [operands, arrays])) (hv w (by simp [operands, arrays])) hr ho)
  | sub v w r => exact polite_guard (sum_polite (hv v (by simp [operands, arrays])) (hv w (by simp [operands, arrays])) hr ho)
  | axpy alpha x y => exact polite_guard (polite_seq (e2_polite (hv x (by simp [operands, arrays])) hr hr ho) _)
  | scale alpha x => exact polite_seq (e1_polite hr hr ho) _
  | dot x y r k => exact polite_guard (dot_polite (hv x (by simp [operands, arrays])) (hv y (by simp [operands, arrays]))
      fun _ => ⟨ho k, hr k, trivial⟩)
  | gemv alpha a x beta y => exact polite_guard (gemvAll_polite (hv a.buf (by simp [operands, arrays])) (hv x (by simp [operands, arrays])) hr ho)
  | spmv alpha a x beta y => exact polite_ofRes fun _ => polite_guard (polite_seq (fun _ => csrT_polite (hv x (by simp [operands, arrays])) hr ho) _)
  | gemm alpha a b beta c => exact polite_guard (gemmAll_polite (hv a.buf (by simp [operands, arrays])) (hv b.buf (by simp [operands, arrays])) hr ho)
  | matAdd a b c => exact polite_guard (sum_polite (hv a.buf (by simp [operands, arrays])) (hv b.buf (by simp [operands, arrays])) hr ho)
  | matSub a b c => exact polite_guard (sum_polite (hv a.buf (by simp [operands, arrays])) (hv b.buf (by simp [operands, arrays])) hr ho)
  | triVec dl d du b x => exact polite_guard (tdmaThread_polite (hv dl (by simp [operands, arrays])) (hv d (by simp [operands, arrays]))
      (hv du (by simp [operands, arrays])) (hv b (by simp [operands, arrays])) hr ho)
  | triMat dl d du b x => exact polite_guard (tdmaThread_polite (hv dl (by simp [operands, arrays])) (hv d (by simp [operands, arrays]))
      (hv du (by simp [operands, arrays])) (hv b.buf (by simp [operands, arrays])) hr ho)
  | cholVec md mt n0 l rhs => exact polite_guard (cholThread_polite (hv l (by simp [operands, arrays])) hr hr ho)
  | cholMat md mt n0 l rhs => exact polite_guard (cholThread_polite (hv l (by simp [operands, arrays])) hr hr ho)
  | look ps f x => exact Look.polite_thread (fun p hp => hv p (by simp [operands, hp])) (fun _ => copy_polite hr ho) (h.2.2.2 sz)

theorem Job.threads_polite [Zero T] [Add T] [Sub T] [Mul T] [Neg T] [CDiv T] {own : Nat → Option Nat} {t : Nat} {nd : Bool} {sz : Nat → Nat}
    {sched : Nat → Nat → List Nat} : ∀ {cs : List (Job T)} {k : Nat}, (∀ c ∈ cs, c.Fits own t) →
    (Job.threads nd sz sched k cs).Polite (fun j p _ => own p = some j) t
  | [], _, _ => trivial
  | c :: cs, k, h => polite_andThen (threads_polite fun c hc => h c (by simp [hc])) (thread_polite (h c (by simp)))

end polite

theorem forOrder_append {σ : Type} (f : Nat → σ → Res σ) : ∀ (l l' : List Nat) (s : σ),
    forOrder f (l ++ l') s = forOrder f l s >>= forOrder f l'
  | [], _, _ => rfl
  | i :: l, l', s => by
    simp only [List.cons_append, forOrder]
    cases f i s with
    | error e => rfl
    | ok s => exact forOrder_append f l l' s

/-- Threads one after the other, each of which keeps to its buffers. -/
theorem seq_local {own : Nat → Option Nat} {th : Nat → Thread T} {m : Mem T} {alone : Nat → Mem T}
    (hp : ∀ t, (th t).Polite (fun j p _ => own p = some j) t) (n : Nat) (ha : ∀ t, t < n → (th t).run m = .ok (alone t)) :
    ∃ m', seqRun th (List.range n) m = .ok m' ∧ (∀ b t, t < n → own b = some t → m' b = alone t b) ∧
      ∀ b, (∀ t, t < n → own b ≠ some t) → m' b = m b := by
  induction n with
  | zero => exact ⟨m, rfl, fun _ _ h => absurd h (by omega), fun _ _ => rfl⟩
  | succ n ih =>
    obtain ⟨u, h1, h2, h3⟩ := ih fun t ht => ha t (by omega)
    obtain ⟨u1, h4, h5, h6⟩ := Thread.run_local (hp n) (m := m) (u := u) (fun p hp => h3 p fun t ht => hp t (by omega)) (ha n (by omega))
    refine ⟨u1, ?_, fun b t ht hb => ?_, fun b hb => ?_⟩
    · unfold seqRun at h1 ⊢
      rw [List.range_succ, forOrder_append, h1]
      simp only [ok_bind, forOrder, h4]
    · by_cases e : t = n
      · subst e; exact h5 b hb
      · rw [h6 b (by rw [hb]; exact fun h => e (Option.some.inj h)), h2 b t (by omega) hb]
    · rw [h6 b (hb n (by omega)), h3 b fun t ht => hb t (by omega)]

end Lalib
