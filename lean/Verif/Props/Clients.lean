import Verif.Proofs.Clients
import Verif.Spec.Ieee
import Verif.Spec.SoftFloat
import Mathlib.Algebra.Order.Ring.Rat

/-! # Property C102: calls made by several threads -/

namespace Lalib.Props

open Lalib

variable {T : Type} [Zero T] [Add T] [Sub T] [Mul T] [Neg T] [CDiv T] [CZero T]

/-- Threads that write only to objects of their own and read only these and objects nobody writes to: whatever the
order of their accesses, nothing fails, there is no race, the program can be finished, and then every object has the
value which its thread gives it when it runs alone. -/
theorem C102_threads (hd : ∀ (a b : T) (e : Exn), divC a b ≠ .error (.throw e)) {nd : Bool} {sched : Nat → Nat → Nat → List Nat} (hs : ∀ t k, LawfulSched (sched t k))
    {progs : List (List (Job T))} {own : Nat → Option Nat} {m : Mem T} {alone : Nat → Mem T}
    (hf : ∀ (t : Nat) (cs : List (Job T)), progs[t]? = some cs → ∀ c ∈ cs, c.Fits own t)
    (ha : ∀ (t : Nat) (cs : List (Job T)), progs[t]? = some cs → Job.runAll nd cs m = .ok (alone t))
    {order : List Nat} (ho : ∀ t ∈ order, t < progs.length) :
    ∃ s, Pool.exec order (Job.start nd sched progs m) = .ok s ∧ ¬ s.Race progs.length ∧
      (s.Finished progs.length → (∀ b t, t < progs.length → own b = some t → s.mem b = alone t b) ∧
        ∀ b, (∀ t, t < progs.length → own b ≠ some t) → s.mem b = m b) ∧
      ∃ ext s', (∀ t ∈ ext, t < progs.length) ∧ Pool.exec ext s = .ok s' ∧ s'.Finished progs.length := by
  have hp : ∀ t, ((Job.start nd sched progs m).th t).Polite (fun j p _ => own p = some j) t := by
    intro t
    refine Job.threads_polite ?_
    cases h : progs[t]? with
    | none => intro c hc; cases hc
    | some cs => exact hf t cs h
  obtain ⟨m', h1, h2, h3⟩ := seq_local hp progs.length (m := m) (alone := alone) (fun t ht => by
    have e : progs[t]? = some progs[t] := List.getElem?_eq_getElem ht
    have := Job.threads_run (div_quiet hd) (hs t) (k := 0) (fun c hc => (hf t _ e c hc).2.2.1) (ha t _ e)
    simpa only [Job.start, e, Option.getD_some] using this)
  have hC := concurrent_of_polite progs.length (Job.start nd sched progs m).th m hp order ho
  rw [forRange_eq_forOrder] at hC
  obtain ⟨ext, s', hx, he, hfin⟩ := hC.2 m' h1
  rw [Pool.exec_append] at he
  obtain ⟨s, hs1, hs2⟩ := bind_eq_ok he
  have h4 := hC.1 s hs1
  refine ⟨s, hs1, h4.1, fun hfin => ?_, ext, s', hx, hs2, hfin⟩
  have e : s.mem = m' := Except.ok.inj ((h4.2 hfin).symm.trans h1)
  rw [e]
  exact ⟨h2, h3⟩

/-- What a thread does alone leaves the objects of the other threads and the shared ones unchanged. -/
theorem C102_alone (hd : ∀ (a b : T) (e : Exn), divC a b ≠ .error (.throw e)) {nd : Bool} {own : Nat → Option Nat} {t : Nat} : ∀ {cs : List (Job T)}, (∀ c ∈ cs, c.Fits own t) →
    ∀ {m m' : Mem T}, Job.runAll nd cs m = .ok m' → ∀ b, own b ≠ some t → m' b = m b := by
  intro cs hf m m' h b hb
  let sched : Nat → List Nat := fun n => (List.range n).flatMap fun i => [i, i, i]
  have hl : LawfulSched sched := by
    refine fun n => ⟨fun i hi => ?_, fun i hi => ?_⟩
    · obtain ⟨j, hj, hij⟩ := List.mem_flatMap.mp hi
      have : i = j := by simpa using hij
      rw [this]; exact List.mem_range.mp hj
    · obtain ⟨l1, l2, e⟩ := List.append_of_mem (List.mem_range.mpr hi)
      simp only [sched, e, List.flatMap_append, List.flatMap_cons, List.count_append, List.count_cons_self]
      omega
  have hp := Job.threads_polite (nd := nd) (sz := m.len) (sched := fun _ => sched) (k := 0) hf
  have hr := Job.threads_run (div_quiet hd) (sched := fun _ => sched) (fun _ => hl) (k := 0) (fun c hc => (hf c hc).2.2.1) h
  exact List.ext_getElem? fun c => (Thread.run_frame hp hr).2 b c hb

/-- `Ilu::solve` can be one of the calls: alone it gives what it gives for the values of the factors and of the right-hand
side, and it needs no more than that nobody writes to them. -/
theorem C102_ilu (nd : Bool) (f : MatRef) (b x : Nat) (m : Mem T) (own : Nat → Option Nat) (t : Nat) :
    (Job.ilu f b x).act nd m = (Ilu.solve dOps ⟨f.n, f.m, m f.buf⟩ (m b) >>= fun r => copyTo r r.length x m) ∧
    ((Job.ilu f b x : Job T).Fits own t ↔ own x = some t ∧ ∀ p ∈ [f.buf, b], own p = some t ∨ own p = none) := by
  constructor
  · simp only [Job.ilu, Job.act]
    rw [show m.len b = (m b).length from rfl, Look.run_ilu (ops := dOps) (a := ⟨f.n, f.m, m f.buf⟩)
      (fun i j => Look.run_elem _ _) fun i => Look.run_elem _ _]
  · refine ⟨fun h => ⟨h.1, fun p hp => h.2.1 p (List.mem_append_left _ hp)⟩, fun h => ⟨h.1, fun p hp => h.2 p ?_, ?_, fun sz => ?_⟩⟩
    · simpa [Job.ilu, Job.operands, Job.arrays] using hp
    · simp [Job.ilu, Job.arrays]
    · exact Look.within_ilu (fun i j => Look.within_elem (by simp) _) fun i => Look.within_elem (by simp) _

/-- The same for factors in a CSR matrix. -/
theorem C102_ilu_csr (nd : Bool) (f : Csr T) (b x : Nat) (m : Mem T) (own : Nat → Option Nat) (t : Nat) :
    (Job.iluCsr f b x).act nd m = (Ilu.solve csrOps f (m b) >>= fun r => copyTo r r.length x m) ∧
    ((Job.iluCsr f b x : Job T).Fits own t ↔ own x = some t ∧ (own b = some t ∨ own b = none)) := by
  constructor
  · simp only [Job.iluCsr, Job.act]
    have := Look.run_ilu (m := m) (ops := csrOps) (a := f) (b := m b) (f := fun i j => .lift (f.get i j)) (rhs := .elem b)
      (fun i j => Look.run_lift _) fun i => Look.run_elem _ _
    rw [show m.len b = (m b).length from rfl, this]
  · refine ⟨fun h => ⟨h.1, h.2.1 b (by simp [Job.iluCsr, Job.operands])⟩, fun h => ⟨h.1, fun p hp => ?_, ?_, fun sz => ?_⟩⟩
    · have : p = b := by simpa [Job.iluCsr, Job.operands, Job.arrays] using hp
      rw [this]; exact h.2
    · simp [Job.iluCsr, Job.arrays]
    · exact Look.within_ilu (fun i j => Look.within_lift _) fun i => Look.within_elem (by simp) _

section
variable [One T] [CSqrt T] [LT T] [DecidableLT T]

/-- `Gmres::solve` can be one of the calls. -/
theorem C102_gmres (rt : Nat → Nat) (nd : Bool) (a lu : MatRef) (tol : T) (b x : Nat) (m : Mem T) (own : Nat → Option Nat) (t : Nat) :
    (Job.gmres rt nd a lu tol b x).act nd m =
      (Gmres.solve rt nd (dGOps nd) ⟨⟨a.n, a.m, m a.buf⟩, ⟨lu.n, lu.m, m lu.buf⟩, tol⟩ (m b) >>= fun r => copyTo r r.length x m) ∧
    ((Job.gmres rt nd a lu tol b x).Fits own t ↔ own x = some t ∧ ∀ p ∈ [a.buf, lu.buf, b], own p = some t ∨ own p = none) := by
  constructor
  · simp only [Job.gmres, Job.act]
    rw [show m.len b = (m b).length from rfl, Look.run_gmres (ops := dGOps nd)
      (o := ⟨⟨a.n, a.m, m a.buf⟩, ⟨lu.n, lu.m, m lu.buf⟩, tol⟩) rfl (fun v => Look.run_matVec nd a v)
      (fun i j => Look.run_elem _ _) rfl fun i => Look.run_elem _ _]
  · refine ⟨fun h => ⟨h.1, fun p hp => h.2.1 p (List.mem_append_left _ hp)⟩, fun h => ⟨h.1, fun p hp => h.2 p ?_, ?_, fun sz => ?_⟩⟩
    · simpa [Job.gmres, Job.operands, Job.arrays] using hp
    · simp [Job.gmres, Job.arrays]
    · exact Look.within_gmres (g := .dense nd a lu tol) trivial (fun v => Look.within_matVec (by simp) v) (fun i j => Look.within_elem (by simp) _)
        fun i => Look.within_elem (by simp) _

/-- The same for CSR matrices. -/
theorem C102_gmres_csr (rt : Nat → Nat) (nd : Bool) (a lu : Csr T) (tol : T) (b x : Nat) (m : Mem T) (own : Nat → Option Nat) (t : Nat) :
    (Job.gmresCsr rt nd a lu tol b x).act nd m =
      (Gmres.solve rt nd (csrGOps nd) ⟨a, lu, tol⟩ (m b) >>= fun r => copyTo r r.length x m) ∧
    ((Job.gmresCsr rt nd a lu tol b x).Fits own t ↔ own x = some t ∧ (own b = some t ∨ own b = none)) := by
  constructor
  · simp only [Job.gmresCsr, Job.act]
    rw [show m.len b = (m b).length from rfl, Look.run_gmres (ops := csrGOps nd) (o := ⟨a, lu, tol⟩) (Look.run_lift _)
      (fun v => Look.run_lift _) (fun i j => Look.run_lift _) rfl fun i => Look.run_elem _ _]
  · refine ⟨fun h => ⟨h.1, h.2.1 b (by simp [Job.gmresCsr, Job.operands])⟩, fun h => ⟨h.1, fun p hp => ?_, ?_, fun sz => ?_⟩⟩
    · have : p = b := by simpa [Job.gmresCsr, Job.operands, Job.arrays] using hp
      rw [this]; exact h.2
    · simp [Job.gmresCsr, Job.arrays]
    · exact Look.within_gmres (g := .csr nd a lu tol) (Look.within_lift _) (fun v => Look.within_lift _) (fun i j => Look.within_lift _)
        fun i => Look.within_elem (by simp) _

end

omit [Zero T] [Add T] [Sub T] [Mul T] [Neg T] [CDiv T] [CZero T] in
theorem race_of {s : Pool T} {p c : Nat} {k : T → Thread T} {v : T} {w : Bool} (h0 : s.th 0 = .load p c k)
    (hv : s.mem.rd p c = .ok v) (hk : (k v).next = some ((p, c), true)) (h1 : (s.th 1).next = some ((p, c), w)) :
    ∃ order s', Pool.exec order s = .ok s' ∧ s'.Race 2 := by
  refine ⟨[0], ⟨s.mem, fun j => if j = 0 then k v else s.th j⟩, ?_, 0, 1, (p, c), true, w, by omega, by omega, by omega, hk,
    h1, Or.inl rfl⟩
  simp only [Pool.exec, Pool.step, h0, Thread.step_load, hv, ok_bind]

omit [CZero T] in
/-- Two threads that scale the same vector, and a thread that scales a vector another one reads: there is a race,
whatever the elements are. -/
theorem C102_race {nd : Bool} {sched : Nat → Nat → Nat → List Nat} {alpha beta : T} {m : Mem T} {x r : Nat}
    (hx : 0 < m.len x) (hr : m.len r = m.len x) :
    (∃ order s, Pool.exec order (Job.start nd sched [[.scale alpha x], [.scale beta x]] m) = .ok s ∧ s.Race 2) ∧
    ∃ order s, Pool.exec order (Job.start nd sched [[.scale alpha x], [.neg x r]] m) = .ok s ∧ s.Race 2 := by
  obtain ⟨n, hn⟩ : ∃ n, m.len x = n + 1 := ⟨m.len x - 1, by omega⟩
  have hv : m.rd x 0 = .ok (m x)[0] := by
    unfold Mem.rd lrd; rw [List.getElem?_eq_getElem (show 0 < (m x).length from hx)]
  have hl : List.range (m.len x) = 0 :: (List.range n).map (· + 1) := by
    rw [hn, List.range_succ_eq_map]
  have hg : noexcept (checkSize (m.len x) (m.len r)) = .ok () := by
    rw [hr]; simp [checkSize]
  have h0 : ∀ (cs : List (Job T)), ∃ k, (Job.start nd sched [[.scale alpha x], cs] m).th 0 = .load x 0 k ∧
      ∀ v, (k v).next = some ((x, 0), true) := by
    intro cs
    simp only [Job.start, List.getElem?_cons_zero, Option.getD_some, Job.threads, Job.thread, hl, Thread.seq, elem1Thread,
      Thread.andThen]
    exact ⟨_, rfl, fun _ => rfl⟩
  constructor
  · obtain ⟨k, h1, h2⟩ := h0 [.scale beta x]
    refine race_of h1 hv (h2 _) (w := false) ?_
    simp only [Job.start, List.getElem?_cons_succ, List.getElem?_cons_zero, Option.getD_some, Job.threads, Job.thread, hl,
      Thread.seq, elem1Thread, Thread.andThen, Thread.next]
  · obtain ⟨k, h1, h2⟩ := h0 [.neg x r]
    refine race_of h1 hv (h2 _) (w := false) ?_
    simp only [Job.start, List.getElem?_cons_succ, List.getElem?_cons_zero, Option.getD_some, Job.threads, Job.thread, hg,
      Thread.guard, hl, Thread.seq, elem1Thread, Thread.andThen, Thread.next]

omit [Zero T] [Add T] [Sub T] [Mul T] [Neg T] [CDiv T] [CZero T] in
theorem exec_prefix {i : Nat} {u : Thread T} : ∀ {t : Thread T} {m m' : Mem T} {th : Nat → Thread T}, t.run m = .ok m' →
    th i = t.andThen u → ∃ order, Pool.exec order ⟨m, th⟩ = .ok ⟨m', fun j => if j = i then u else th j⟩ := by
  intro t
  induction t with
  | stop =>
    intro m m' th h hi
    cases h
    refine ⟨[], ?_⟩
    have : (fun j => if j = i then u else th j) = th := by
      funext j
      split
      · rename_i hj; rw [hj, hi]; rfl
      · rfl
    rw [this]; rfl
  | load p c k ih =>
    intro m m' th h hi
    obtain ⟨v, h1, h2⟩ := bind_eq_ok h
    obtain ⟨order, ho⟩ := ih v (th := fun j => if j = i then (k v).andThen u else th j) h2 (if_pos rfl)
    refine ⟨i :: order, ?_⟩
    simp only [Pool.exec, Pool.step, hi, Thread.andThen, Thread.step_load, h1, ok_bind]
    rw [ho]
    congr 2
    funext j
    split <;> rfl
  | store p c v t ih =>
    intro m m' th h hi
    obtain ⟨m1, h1, h2⟩ := bind_eq_ok h
    obtain ⟨order, ho⟩ := ih (th := fun j => if j = i then t.andThen u else th j) h2 (if_pos rfl)
    refine ⟨i :: order, ?_⟩
    simp only [Pool.exec, Pool.step, hi, Thread.andThen, Thread.step_store, h1, ok_bind]
    rw [ho]
    congr 2
    funext j
    split <;> rfl
  | fail e => intro m m' th h; cases h

/-- With the LAPACK backend a `TriDiag` cannot be shared: two threads that solve with the same one, each for a result of
its own, race, unless `?gtsv` gives up at the first column. -/
theorem C102_lapack_race {K : Type} [Field K] [LinearOrder K] [IsStrictOrderedRing K] {n dl d du b x y : Nat} {m : Mem K} {rest rest' : Thread K}
    (hn : 2 ≤ n) (hd : m.len d = n) (hl : m.len dl = n - 1) (hu : m.len du = n - 1) (hb : m.len b = n) (hx : m.len x = n)
    (hy : m.len y = n) (hx' : x ∉ [dl, d, du]) (hy' : y ∉ [dl, d, du])
    (h0 : m.rd d 0 ≠ .ok 0 ∨ m.rd dl 0 ≠ .ok 0) :
    ∃ order s, Pool.exec order ⟨m, fun t => if t = 0 then lapackThread n dl d du b x rest else
      if t = 1 then lapackThread n dl d du b y rest' else .stop⟩ = .ok s ∧ s.Race 2 := by
  have hcp : ∀ {z : Nat} {m1 : Mem K}, m1.len b = n → m1.len z = n →
      (Thread.seq (elem1Thread id b z) (List.range n)).run m1 = .ok (m1.setBuf z ((m1 b).map id)) := by
    intro z m1 h1 h2
    rw [Thread.run_range, elem1_run]
    exact elem1_range id h1 h2
  simp only [List.mem_cons, List.not_mem_nil, or_false, not_or] at hx' hy'
  have hlen : ∀ {m1 : Mem K} {z : Nat}, m1.len b = n → m1.len z = n → (m1.setBuf z ((m1 b).map id)).len = m1.len := by
    intro m1 z h1 h2
    exact Thread.run_len (hcp h1 h2)
  have e1 := hlen hb hx
  have e2 := hlen (z := y) (m1 := m.setBuf x ((m b).map id)) (by rw [e1, hb]) (by rw [e1, hy])
  set m1 := m.setBuf x ((m b).map id) with hm1
  set m2 := m1.setBuf y ((m1 b).map id) with hm2
  obtain ⟨o1, ho1⟩ := exec_prefix (i := 0) (th := fun t => if t = 0 then lapackThread n dl d du b x rest else
      if t = 1 then lapackThread n dl d du b y rest' else .stop) (hcp hb hx) (if_pos rfl)
  obtain ⟨th1, hth1, ht0, ht1⟩ : ∃ th1 : Nat → Thread K, Pool.exec o1 ⟨m, fun t => if t = 0 then lapackThread n dl d du b x rest
      else if t = 1 then lapackThread n dl d du b y rest' else .stop⟩ = .ok ⟨m1, th1⟩ ∧ th1 0 = gtsvThread dl d du rest ∧
      th1 1 = lapackThread n dl d du b y rest' := ⟨_, ho1, rfl, rfl⟩
  obtain ⟨o2, ho2⟩ := exec_prefix (i := 1) (th := th1) (hcp (z := y) (m1 := m1) (by rw [e1, hb]) (by rw [e1, hy])) ht1
  obtain ⟨th2, hth2, hs0, hs1⟩ : ∃ th2 : Nat → Thread K, Pool.exec o2 ⟨m1, th1⟩ = .ok ⟨m2, th2⟩ ∧
      th2 0 = gtsvThread dl d du rest ∧ th2 1 = gtsvThread dl d du rest' :=
    ⟨_, ho2, by simpa using ht0, by simp⟩
  have hrd : ∀ {p : Nat} (i : Nat), p ≠ x → p ≠ y → m2.rd p i = m.rd p i := by
    intro p i h1 h2
    simp only [Mem.rd, hm2, hm1, Mem.setBuf_other _ h2, Mem.setBuf_other _ h1]
  have hval : ∀ {p i : Nat}, i < m.len p → ∃ v, m.rd p i = .ok v := by
    intro p i h
    exact ⟨_, by unfold Mem.rd lrd; rw [List.getElem?_eq_getElem (show i < (m p).length from h)]⟩
  obtain ⟨d0, hd0⟩ := hval (p := d) (i := 0) (by omega)
  obtain ⟨d1, hd1⟩ := hval (p := d) (i := 1) (by omega)
  obtain ⟨l0, hl0⟩ := hval (p := dl) (i := 0) (by omega)
  obtain ⟨u0, hu0⟩ := hval (p := du) (i := 0) (by omega)
  have g0 := hrd 0 (Ne.symm hx'.2.1) (Ne.symm hy'.2.1)
  have g1 := hrd 1 (Ne.symm hx'.2.1) (Ne.symm hy'.2.1)
  have gl := hrd 0 (Ne.symm hx'.1) (Ne.symm hy'.1)
  have gu := hrd 0 (Ne.symm hx'.2.2) (Ne.symm hy'.2.2)
  rw [hd0] at g0 h0; rw [hd1] at g1; rw [hl0] at gl h0; rw [hu0] at gu
  by_cases hc : |l0| ≤ |d0|
  · have hne : d0 ≠ 0 := by
      rintro rfl
      have : l0 = 0 := by simpa using hc
      simp [this] at h0
    obtain ⟨s, hs, hr⟩ : ∃ s, Pool.exec [0, 0, 0, 0, 1, 1] ⟨m2, th2⟩ = .ok s ∧ s.Race 2 := by
      simp only [Pool.exec, Pool.step, hs0, hs1, gtsvThread, Thread.step, g0, g1, gl, gu, Lalib.ok_bind, if_true, if_pos hc,
        if_neg hne, if_neg one_ne_zero]
      exact ⟨_, rfl, 0, 1, (d, 1), true, false, by omega, by omega, by omega, rfl, rfl, Or.inl rfl⟩
    exact ⟨o1 ++ (o2 ++ [0, 0, 0, 0, 1, 1]), s, by rw [Pool.exec_append, hth1]; simp only [Lalib.ok_bind]; rw [Pool.exec_append, hth2]; exact hs, hr⟩
  · obtain ⟨s, hs, hr⟩ : ∃ s, Pool.exec [0, 0] ⟨m2, th2⟩ = .ok s ∧ s.Race 2 := by
      simp only [Pool.exec, Pool.step, hs0, gtsvThread, Thread.step, g0, gl, Lalib.ok_bind, if_true, if_neg hc]
      refine ⟨_, rfl, 0, 1, (d, 0), true, false, by omega, by omega, by omega, rfl, ?_, Or.inl rfl⟩
      simp only [if_neg one_ne_zero, hs1, gtsvThread, Thread.next]
    exact ⟨o1 ++ (o2 ++ [0, 0]), s, by rw [Pool.exec_append, hth1]; simp only [Lalib.ok_bind]; rw [Pool.exec_append, hth2]; exact hs, hr⟩

/-- Two threads that add `x` to the same vector `y` can end with `x` added once. -/
theorem C102_lost {nd : Bool} {sched : Nat → Nat → Nat → List Nat} :
    ∃ order s, Pool.exec order (Job.start nd sched [[.axpy (1 : Int) 0 1], [.axpy 1 0 1]] (Mem.ofList [[1], [0]])) = .ok s ∧
      s.Finished 2 ∧ s.mem 1 = [1] := by
  refine ⟨[0, 0, 1, 1, 0, 1], _, rfl, ?_, rfl⟩
  intro i hi
  match i, hi with
  | 0, _ => rfl
  | 1, _ => rfl

/-! ## Examples -/

theorem eq_ok_of {α : Type} {r : Res α} {d : α} (h : r.toOption.isSome = true) : r = .ok (r.toOption.getD d) := by
  cases r with
  | ok a => rfl
  | error e => cases h

/-- A schedule in which the members of a team take turns. -/
example : LawfulSched fun n => List.range n ++ List.range n ++ List.range n := by
  refine fun n => ⟨fun i hi => ?_, fun i hi => ?_⟩
  · simpa using hi
  · have : (List.range n).count i = 1 := List.count_eq_one_of_mem List.nodup_range (List.mem_range.mpr hi)
    simp only [List.count_append, this]
    omega

/-- Two threads; vector 0 is shared, thread 0 has the vectors 1 and 2, thread 1 has 3.  The sum of vectors of different
sizes throws, is caught, and leaves its target alone. -/
example : ∃ (own : Nat → Option Nat) (progs : List (List (Job Int))) (alone : Nat → Mem Int),
    (∀ (t : Nat) (cs : List (Job Int)), progs[t]? = some cs → ∀ c ∈ cs, c.Fits own t) ∧
    (∀ (t : Nat) (cs : List (Job Int)), progs[t]? = some cs →
      Job.runAll false cs (Mem.ofList [[1, 2], [3, 4], [0], [5, 6]]) = .ok (alone t)) ∧
    (alone 0 1, alone 0 2, alone 1 3) = ([5, 8], [21], [4, 4]) := by
  refine ⟨fun p => match p with | 1 => some 0 | 2 => some 0 | 3 => some 1 | _ => none,
    [[.axpy 2 0 1, .add 0 2 1, .dot 0 1 2 0], [.sub 3 0 3]],
    fun t => (Job.runAll false (([[.axpy 2 0 1, .add 0 2 1, .dot 0 1 2 0], [.sub 3 0 3]] : List (List (Job Int)))[t]?.getD [])
      (Mem.ofList [[1, 2], [3, 4], [0], [5, 6]])).toOption.getD (fun _ => []), ?_, ?_, by decide +kernel⟩
  · intro t cs h c hc
    match t, h with
    | 0, h =>
      cases h
      simp only [List.mem_cons, List.not_mem_nil, or_false] at hc
      rcases hc with rfl | rfl | rfl <;> simp [Job.Fits, Job.target, Job.operands, Job.arrays, Job.Honest]
    | 1, h =>
      cases h
      simp only [List.mem_cons, List.not_mem_nil, or_false] at hc
      rcases hc with rfl
      simp [Job.Fits, Job.target, Job.operands, Job.arrays, Job.Honest]
  · intro t cs h
    match t, h with
    | 0, h => cases h; exact eq_ok_of (by decide +kernel)
    | 1, h => cases h; exact eq_ok_of (by decide +kernel)

/-- No division throws, neither over finite numbers nor in IEEE arithmetic. -/
example {K : Type} [Zero K] [DecidableEq K] [Div K] (a b : K) (e : Exn) : divC a b ≠ .error (.throw e) := by
  simp only [divC]; split <;> simp

example {F : Fmt} (a b : Fp F) (e : Exn) : divC a b ≠ .error (.throw e) := by simp [divC]

example {F : Fmt} (a b : Sf F) (e : Exn) : divC a b ≠ .error (.throw e) := by simp [divC]

/-- Two threads share a `TriDiag` (diagonals 0, 1, 2), a right-hand side (3) and the factor of a Cholesky factorisation (4);
thread 0 has the vector 5, thread 1 has 6 and 7. -/
example : ∃ (own : Nat → Option Nat) (progs : List (List (Job ℚ))) (alone : Nat → Mem ℚ),
    (∀ (t : Nat) (cs : List (Job ℚ)), progs[t]? = some cs → ∀ c ∈ cs, c.Fits own t) ∧
    (∀ (t : Nat) (cs : List (Job ℚ)), progs[t]? = some cs →
      Job.runAll false cs (Mem.ofList [[1], [2, 2], [1], [3, 3], [2, 1, 3], [0, 0], [4, 5], [0, 0]]) = .ok (alone t)) ∧
    (alone 0 5, alone 1 6, alone 1 7) = ([1, 1], [5 / 6, 1 / 3], [1, 1]) := by
  refine ⟨fun p => match p with | 5 => some 0 | 6 => some 1 | 7 => some 1 | _ => none,
    [[.triVec 0 1 2 3 5], [.cholVec false .triangle 2 4 6, .triVec 0 1 2 3 7]],
    fun t => (Job.runAll false (([[.triVec 0 1 2 3 5], [.cholVec false .triangle 2 4 6, .triVec 0 1 2 3 7]] :
      List (List (Job ℚ)))[t]?.getD [])
      (Mem.ofList [[1], [2, 2], [1], [3, 3], [2, 1, 3], [0, 0], [4, 5], [0, 0]])).toOption.getD (fun _ => []), ?_, ?_, by decide +kernel⟩
  · intro t cs h c hc
    match t, h with
    | 0, h =>
      cases h
      simp only [List.mem_cons, List.not_mem_nil, or_false] at hc
      rcases hc with rfl
      simp [Job.Fits, Job.target, Job.operands, Job.arrays, Job.Honest]
    | 1, h =>
      cases h
      simp only [List.mem_cons, List.not_mem_nil, or_false] at hc
      rcases hc with rfl | rfl <;> simp [Job.Fits, Job.target, Job.operands, Job.arrays, Job.Honest]
  · intro t cs h
    match t, h with
    | 0, h => cases h; exact eq_ok_of (by decide +kernel)
    | 1, h => cases h; exact eq_ok_of (by decide +kernel)

/-- Two threads share the factors of an incomplete LU factorisation (0, of the order 2) and a right-hand side (1). -/
example : ∃ (own : Nat → Option Nat) (progs : List (List (Job ℚ))) (alone : Nat → Mem ℚ),
    (∀ (t : Nat) (cs : List (Job ℚ)), progs[t]? = some cs → ∀ c ∈ cs, c.Fits own t) ∧
    (∀ (t : Nat) (cs : List (Job ℚ)), progs[t]? = some cs →
      Job.runAll false cs (Mem.ofList [[2, 1, 1, 3], [5, 10], [0, 0], [1, 1]]) = .ok (alone t)) ∧
    (alone 0 2, alone 1 3) = ([5 / 3, 5 / 3], [1 / 2, 0]) := by
  refine ⟨fun p => match p with | 2 => some 0 | 3 => some 1 | _ => none,
    [[.ilu ⟨0, 2, 2⟩ 1 2], [.ilu ⟨0, 2, 2⟩ 3 3]],
    fun t => (Job.runAll false (([[.ilu ⟨0, 2, 2⟩ 1 2], [.ilu ⟨0, 2, 2⟩ 3 3]] : List (List (Job ℚ)))[t]?.getD [])
      (Mem.ofList [[2, 1, 1, 3], [5, 10], [0, 0], [1, 1]])).toOption.getD (fun _ => []), ?_, ?_, by decide +kernel⟩
  · intro t cs h c hc
    match t, h with
    | 0, h =>
      cases h
      simp only [List.mem_cons, List.not_mem_nil, or_false] at hc
      rcases hc with rfl
      exact (C102_ilu false _ _ _ (fun _ => []) _ _).2.mpr (by simp)
    | 1, h =>
      cases h
      simp only [List.mem_cons, List.not_mem_nil, or_false] at hc
      rcases hc with rfl
      exact (C102_ilu false _ _ _ (fun _ => []) _ _).2.mpr (by simp)
  · intro t cs h
    match t, h with
    | 0, h => cases h; exact eq_ok_of (by decide +kernel)
    | 1, h => cases h; exact eq_ok_of (by decide +kernel)

/-- The numbers of the next example. -/
def ofN (n : Nat) : Dbl := Lalib.Sf.ofFrac binary64 false n 1

set_option maxRecDepth 100000 in
/-- Two threads share a `Gmres<double, DynMat<double>>` (0 and 1) and a right-hand side (2); the results are 3 and 4. -/
example : ∃ (own : Nat → Option Nat) (progs : List (List (Job Dbl))) (alone : Nat → Mem Dbl),
    (∀ (t : Nat) (cs : List (Job Dbl)), progs[t]? = some cs → ∀ c ∈ cs, c.Fits own t) ∧
    (∀ (t : Nat) (cs : List (Job Dbl)), progs[t]? = some cs →
      Job.runAll false cs (Mem.ofList [[ofN 2, ofN 0, ofN 0, ofN 4], [ofN 2, ofN 0, ofN 0, ofN 4], [ofN 6, ofN 8], [ofN 0, ofN 0],
        [ofN 2, ofN 4]]) = .ok (alone t)) := by
  refine ⟨fun p => match p with | 3 => some 0 | 4 => some 1 | _ => none,
    [[.gmres Nat.sqrt false ⟨0, 2, 2⟩ ⟨1, 2, 2⟩ (Lalib.Sf.ofFrac binary64 false 1 1000000) 2 3],
      [.gmres Nat.sqrt false ⟨0, 2, 2⟩ ⟨1, 2, 2⟩ (Lalib.Sf.ofFrac binary64 false 1 1000000) 4 4]],
    fun t => (Job.runAll false (([[.gmres Nat.sqrt false ⟨0, 2, 2⟩ ⟨1, 2, 2⟩ (Lalib.Sf.ofFrac binary64 false 1 1000000) 2 3],
      [.gmres Nat.sqrt false ⟨0, 2, 2⟩ ⟨1, 2, 2⟩ (Lalib.Sf.ofFrac binary64 false 1 1000000) 4 4]] : List (List (Job Dbl)))[t]?.getD [])
      (Mem.ofList [[ofN 2, ofN 0, ofN 0, ofN 4], [ofN 2, ofN 0, ofN 0, ofN 4], [ofN 6, ofN 8], [ofN 0, ofN 0],
        [ofN 2, ofN 4]])).toOption.getD (fun _ => []), ?_, ?_⟩
  · intro t cs h c hc
    match t, h with
    | 0, h =>
      cases h
      simp only [List.mem_cons, List.not_mem_nil, or_false] at hc
      rcases hc with rfl
      exact (C102_gmres _ false _ _ _ _ _ (fun _ => []) _ _).2.mpr (by simp)
    | 1, h =>
      cases h
      simp only [List.mem_cons, List.not_mem_nil, or_false] at hc
      rcases hc with rfl
      exact (C102_gmres _ false _ _ _ _ _ (fun _ => []) _ _).2.mpr (by simp)
  · intro t cs h
    match t, h with
    | 0, h => cases h; exact eq_ok_of (by decide +kernel)
    | 1, h => cases h; exact eq_ok_of (by decide +kernel)

/-- The hypotheses of `C102_lapack_race` hold for a solver of order 2. -/
example : ∃ order s, Pool.exec order ⟨Mem.ofList [[(1 : ℚ)], [2, 2], [1], [3, 3], [0, 0], [0, 0]], fun t =>
      if t = 0 then lapackThread 2 0 1 2 3 4 .stop else if t = 1 then lapackThread 2 0 1 2 3 5 .stop else .stop⟩ = .ok s ∧
    s.Race 2 :=
  C102_lapack_race (by omega) rfl rfl rfl rfl rfl rfl (by decide) (by decide) (Or.inl (by decide +kernel))

/-- A sum by a team whose members take turns, the last one first. -/
example : ((sumThread (· + ·) (fun n => (List.range n).reverse ++ (List.range n).reverse ++ (List.range n).reverse) 0 0 1
    16).run (Mem.ofList [(List.range 16).map Int.ofNat, List.replicate 16 0])).toOption.map (fun m => m 1) =
    some ((List.range 16).map fun i => 2 * Int.ofNat i) := by
  decide +kernel

end Lalib.Props
