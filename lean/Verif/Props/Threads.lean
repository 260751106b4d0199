import Verif.Proofs.Threads
import Verif.Proofs.Dense

/-! # Property C75: loops whose iterations run at the same time -/

namespace Lalib.Props

open Lalib

variable {T : Type}

section aux

/-- Iteration `i` owns cell `i` of buffer `r`. -/
abbrev OwnCell (r : Nat) (i p c : Nat) : Prop := p = r ∧ c = i

theorem elem1_polite (f : T → T) (v vr i : Nat) : (elem1Thread f v vr i).Polite (OwnCell vr) i :=
  ⟨fun _ hj h => hj h.2.symm, fun _ => ⟨⟨rfl, rfl⟩, fun _ hj h => hj h.2.symm, trivial⟩⟩

theorem elem2_polite (f : T → T → T) (v1 v2 vr i : Nat) : (elem2Thread f v1 v2 vr i).Polite (OwnCell vr) i :=
  ⟨fun _ hj h => hj h.2.symm, fun _ => ⟨fun _ hj h => hj h.2.symm, fun _ =>
    ⟨⟨rfl, rfl⟩, fun _ hj h => hj h.2.symm, trivial⟩⟩⟩

theorem gemvLoop_polite [Add T] [Mul T] {m : Nat} {alpha : T} {mat x r i : Nat} (hm : mat ≠ r) (hx : x ≠ r) :
    ∀ (n k : Nat), (gemvLoop m alpha mat x r i k n).Polite (OwnCell r) i
  | 0, _ => trivial
  | n + 1, k => ⟨fun _ hj h => hj h.2.symm, fun _ => ⟨fun _ _ h => hm h.1, fun _ => ⟨fun _ _ h => hx h.1, fun _ =>
      ⟨⟨rfl, rfl⟩, fun _ hj h => hj h.2.symm, gemvLoop_polite hm hx n (k + 1)⟩⟩⟩⟩

theorem gemv_polite [Add T] [Mul T] {m : Nat} {alpha beta : T} {mat x y r i : Nat} (hm : mat ≠ r) (hx : x ≠ r) :
    (gemvThread m alpha mat x beta y r i).Polite (OwnCell r) i :=
  ⟨fun _ hj h => hj h.2.symm, fun _ => ⟨⟨rfl, rfl⟩, fun _ hj h => hj h.2.symm, gemvLoop_polite hm hx m 0⟩⟩

theorem csrLoop_polite [Add T] [Mul T] {a : Csr T} {alpha : T} {x y i : Nat} (hx : x ≠ y) :
    ∀ (n k : Nat), (csrLoop a alpha x y i k n).Polite (OwnCell y) i
  | 0, _ => trivial
  | n + 1, k => ⟨fun _ hj h => hj h.2.symm, fun _ => Thread.polite_ofRes fun _ => Thread.polite_ofRes fun _ =>
      ⟨fun _ _ h => hx h.1, fun _ => ⟨⟨rfl, rfl⟩, fun _ hj h => hj h.2.symm, csrLoop_polite hx n (k + 1)⟩⟩⟩

theorem csr_polite [Add T] [Mul T] {a : Csr T} {alpha beta : T} {x y i : Nat} (hx : x ≠ y) :
    (csrThread a alpha x beta y i).Polite (OwnCell y) i :=
  ⟨fun _ hj h => hj h.2.symm, fun _ => ⟨⟨rfl, rfl⟩, fun _ hj h => hj h.2.symm,
    Thread.polite_ofRes fun _ => Thread.polite_ofRes fun _ => csrLoop_polite hx _ _⟩⟩

theorem run_ofRes {α : Type} (r : Res α) (k : α → Thread T) (m : Mem T) :
    (Thread.ofRes r k).run m = r >>= fun a => (k a).run m := by cases r <;> rfl

theorem bind_ok_res {α : Type} (r : Res α) : (r >>= fun a => Except.ok a) = r := by cases r <;> rfl

theorem elem1_run (f : T → T) (v vr : Nat) :
    (fun i m => (elem1Thread f v vr i).run m) = elem1 f v vr := by
  funext i m
  simp only [elem1Thread, elem1, Thread.run_load, Thread.run, bind_ok_res]

theorem elem2_run (f : T → T → T) (v1 v2 vr : Nat) :
    (fun i m => (elem2Thread f v1 v2 vr i).run m) = elem2 f v1 v2 vr := by
  funext i m
  simp only [elem2Thread, elem2, Thread.run_load, Thread.run, bind_ok_res]

theorem elem1_concurrent (f : T → T) (m : Mem T) (v vr n : Nat) :
    Concurrent n (elem1Thread f v vr) m (forRange 0 n (elem1 f v vr) m) := by
  have := concurrent_of_polite n _ m (elem1_polite f v vr)
  rwa [elem1_run] at this

theorem elem2_concurrent (f : T → T → T) (m : Mem T) (v1 v2 vr n : Nat) :
    Concurrent n (elem2Thread f v1 v2 vr) m (forRange 0 n (elem2 f v1 v2 vr) m) := by
  have := concurrent_of_polite n _ m (elem2_polite f v1 v2 vr)
  rwa [elem2_run] at this

/-- One more element of the row in place. -/
abbrev gemvStep [Add T] [Mul T] (m : Nat) (alpha : T) (mat x r i k : Nat) (s : Mem T) : Res (Mem T) := do
  let t ← s.rd r i
  let a ← s.rd mat (i * m + k)
  let xk ← s.rd x k
  s.wr r i (t + alpha * a * xk)

theorem gemvLoop_run [Add T] [Mul T] {m : Nat} {alpha : T} {mat x r i : Nat} :
    ∀ (n k : Nat) (s : Mem T), (gemvLoop m alpha mat x r i k n).run s = forUp (gemvStep m alpha mat x r i) k n s
  | 0, _, _ => rfl
  | n + 1, k, s => by
    simp only [gemvLoop, forUp, gemvStep, Thread.run_load, Thread.run_store, gemvLoop_run n (k + 1)]
    cases s.rd r i with
    | error e => rfl
    | ok t =>
      cases s.rd mat (i * m + k) with
      | error e => rfl
      | ok a =>
        cases s.rd x k with
        | error e => rfl
        | ok b => rfl

theorem csrLoop_run [Add T] [Mul T] {a : Csr T} {alpha : T} {x y i : Nat} :
    ∀ (n k : Nat) (s : Mem T), (csrLoop a alpha x y i k n).run s = forUp (fun k s => do
      let t ← s.rd y i
      let v ← lrd a.val k
      let c ← lrd a.col k
      let xc ← s.rd x c
      s.wr y i (t + alpha * v * xc)) k n s
  | 0, _, _ => rfl
  | n + 1, k, s => by
    simp only [csrLoop, forUp, Thread.run_load, Thread.run_store, run_ofRes, csrLoop_run n (k + 1)]
    cases s.rd y i with
    | error e => rfl
    | ok t =>
      cases lrd a.val k with
      | error e => rfl
      | ok v =>
        cases lrd a.col k with
        | error e => rfl
        | ok c =>
          simp only [ok_bind]
          cases s.rd x c with
          | error e => rfl
          | ok b => rfl

end aux

/-! ## Vectors -/

/-- Negation and scaling, whatever the operand and the result are. -/
theorem C75_neg [Neg T] (m : Mem T) (v vr n : Nat) :
    Concurrent n (elem1Thread (fun a => -a) v vr) m (negCoreSimd m v vr n) :=
  elem1_concurrent _ m v vr n

theorem C75_scal [Mul T] (alpha : T) (m : Mem T) (v n : Nat) :
    Concurrent n (elem1Thread (fun a => alpha * a) v v) m (scalCore alpha m v n) :=
  elem1_concurrent _ m v v n

/-- Sum, difference and `axpy`; operands and result may be the same vectors. -/
theorem C75_add [Add T] (m : Mem T) (v1 v2 vr n : Nat) :
    Concurrent n (elem2Thread (· + ·) v1 v2 vr) m (addCoreSimd m v1 v2 vr n) :=
  elem2_concurrent _ m v1 v2 vr n

theorem C75_sub [Sub T] (m : Mem T) (v1 v2 vr n : Nat) :
    Concurrent n (elem2Thread (· - ·) v1 v2 vr) m (subCoreSimd m v1 v2 vr n) :=
  elem2_concurrent _ m v1 v2 vr n

theorem C75_axpy [Add T] [Mul T] (alpha : T) (m : Mem T) (vx vy n : Nat) :
    Concurrent n (elem2Thread (fun a b => alpha * a + b) vx vy vy) m (axpyCore alpha m vx vy n) :=
  elem2_concurrent _ m vx vy vy n

/-! ## Products with a dense matrix -/

/-- Separate `x` and `y`: the rows may be computed at the same time. -/
theorem C75_gemv [Zero T] [Add T] [Mul T] (n m : Nat) (alpha : T) (mat x : Nat) (beta : T) (y : Nat) (s : Mem T)
    (hm : mat ≠ y) (hx : x ≠ y) :
    Concurrent n (gemvThread m alpha mat x beta y y) s (gemvCore n m alpha mat x beta y s) := by
  have h := concurrent_of_polite n (gemvThread m alpha mat x beta y y) s (fun i => gemv_polite (i := i) hm hx)
  have e : forRange 0 n (fun i s => (gemvThread m alpha mat x beta y y i).run s) s = gemvCore n m alpha mat x beta y s := by
    unfold gemvCore
    rw [if_neg hx]
    refine congrArg (fun f => forRange 0 n f s) (funext fun i => funext fun s => ?_)
    simp only [gemvThread, Thread.run_load, Thread.run_store, gemvLoop_run]
    rfl
  rwa [e] at h

/-- `x` and `y` the same vector: the rows are collected in a new array `tmp`, again without a conflict, and the array
is then copied. -/
theorem C75_gemv_inplace [Zero T] [Add T] [Mul T] (n m : Nat) (alpha : T) (mat : Nat) (beta : T) (y : Nat)
    (s : Mem T) (tmp : Nat) (hm : mat ≠ tmp) (hy : y ≠ tmp) :
    ∃ r : Res (List T),
      Concurrent n (gemvThread m alpha mat y beta y tmp) (s.setBuf tmp (List.replicate n 0)) (r.map (s.setBuf tmp)) ∧
      gemvCore n m alpha mat y beta y s = (r >>= fun l => copyTo l n y s) := by
  have hrd : ∀ (l : List T) (p c : Nat), p ≠ tmp → (s.setBuf tmp l).rd p c = s.rd p c := by
    intro l p c hp
    unfold Mem.rd
    rw [Mem.setBuf_other _ hp]
  have hrt : ∀ (l : List T) (c : Nat), (s.setBuf tmp l).rd tmp c = lrd l c := by
    intro l c
    unfold Mem.rd
    rw [Mem.setBuf_self]
  have hwt : ∀ (l : List T) (c : Nat) (v : T),
      (s.setBuf tmp l).wr tmp c v = (lwr l c v).map (s.setBuf tmp) := by
    intro l c v
    unfold Mem.wr lwr
    rw [Mem.setBuf_self]
    split_ifs
    · rw [Mem.upd_eq_setBuf, Mem.setBuf_self, Mem.setBuf_setBuf]; rfl
    · rfl
  -- a loop on the array is the loop on the memory
  have hloop : ∀ (F : Nat → Mem T → Res (Mem T)) (G : Nat → List T → Res (List T)),
      (∀ k l, F k (s.setBuf tmp l) = (G k l).map (s.setBuf tmp)) →
      ∀ (n k : Nat) (l : List T), forUp F k n (s.setBuf tmp l) = (forUp G k n l).map (s.setBuf tmp) := by
    intro F G hFG n
    induction n with
    | zero => exact fun _ _ => rfl
    | succ n ih =>
      intro k l
      unfold forUp
      rw [hFG k l]
      cases G k l with
      | error e => rfl
      | ok l' => exact ih (k + 1) l'
  let G (i : Nat) (l : List T) : Res (List T) := do
      let yi ← s.rd y i
      let l ← lwr l i (beta * yi)
      forRange 0 m (fun k l => do
        let t ← lrd l i
        let a ← s.rd mat (i * m + k)
        let xk ← s.rd y k
        lwr l i (t + alpha * a * xk)) l
  refine ⟨forRange 0 n G (List.replicate n 0), ?_, ?_⟩
  · have h := concurrent_of_polite n (gemvThread m alpha mat y beta y tmp) (s.setBuf tmp (List.replicate n 0))
      (fun i => gemv_polite (i := i) hm hy)
    have e : forRange 0 n (fun i s => (gemvThread m alpha mat y beta y tmp i).run s)
        (s.setBuf tmp (List.replicate n 0)) = (forRange 0 n G (List.replicate n 0)).map (s.setBuf tmp) := by
      refine hloop _ G (fun i l => ?_) _ _ _
      simp only [gemvThread, Thread.run_load, Thread.run_store, gemvLoop_run, hrd l y i hy, G]
      cases s.rd y i with
      | error e => rfl
      | ok yi =>
        simp only [ok_bind, hwt]
        cases lwr l i (beta * yi) with
        | error e => rfl
        | ok l' =>
          refine hloop _ _ (fun k l => ?_) m 0 l'
          simp only [gemvStep, hrt, hrd l mat _ hm, hrd l y _ hy, hwt]
          cases lrd l i with
          | error e => rfl
          | ok t =>
            cases s.rd mat (i * m + k) with
            | error e => rfl
            | ok a =>
              cases s.rd y k with
              | error e => rfl
              | ok b => rfl
    rwa [e] at h
  · unfold gemvCore
    rw [if_pos rfl]

/-! ## Products with a CSR matrix -/

/-- Separate `x` and `y`. -/
theorem C75_csr [Add T] [Mul T] (n : Nat) (a : Csr T) (alpha : T) (x : Nat) (beta : T) (y : Nat) (s : Mem T)
    (hx : x ≠ y) : Concurrent n (csrThread a alpha x beta y) s (Csr.mulCore n a alpha x beta y s) := by
  have h := concurrent_of_polite n (csrThread a alpha x beta y) s (fun i => csr_polite (i := i) hx)
  have e : forRange 0 n (fun i s => (csrThread a alpha x beta y i).run s) s = Csr.mulCore n a alpha x beta y s := by
    unfold Csr.mulCore
    refine congrArg (fun f => forRange 0 n f s) (funext fun i => funext fun s => ?_)
    simp only [csrThread, Thread.run_load, Thread.run_store, run_ofRes, csrLoop_run]
    rfl
  rwa [e] at h

/-- Row `i` can be brought to its element at position `k` while the other rows stand still. -/
theorem csr_advance [Add T] [Mul T] (n : Nat) (a : Csr T) (alpha : T) (y i : Nat) (hi : i < n) :
    ∀ (d b r : Nat) (p : Pool T), p.mem.len y = n → (∀ k, k < d → b + k < a.val.length) →
      (∀ k, k < d → ∃ c, a.col[b + k]? = some c ∧ c < n) → p.th i = csrLoop a alpha y y i b (d + r) →
      ∃ l p', (∀ k ∈ l, k = i) ∧ Pool.exec l p = .ok p' ∧ p'.mem.len y = n ∧
        p'.th i = csrLoop a alpha y y i (b + d) r ∧ ∀ j, j ≠ i → p'.th j = p.th j
  | 0, b, r, p, hn, _, _, ht => ⟨[], p, by simp, rfl, hn, by rw [ht, Nat.zero_add]; rfl, fun _ _ => rfl⟩
  | d + 1, b, r, p, hn, hv, hc, ht => by
    obtain ⟨c, hc0, hcn⟩ := hc 0 (by omega)
    have hly : ∀ k, k < n → ∃ v, p.mem.rd y k = .ok v := fun k hk =>
      ⟨_, lrd_ok (show k < (p.mem y).length by rw [← Mem.len_eq, hn]; exact hk)⟩
    obtain ⟨t, ht'⟩ := hly i hi
    obtain ⟨xc, hxc⟩ := hly c hcn
    have hva : lrd a.val b = .ok (a.val[b]'(hv 0 (by omega))) := lrd_ok (hv 0 (by omega))
    have hca : lrd a.col b = .ok c := lrd_some hc0
    have hw : ∀ v, p.mem.wr y i v = .ok (p.mem.upd y i v) := fun v => Mem.wr_ok (by omega) v
    rw [show d + 1 + r = (d + r) + 1 by omega] at ht
    obtain ⟨p1, h1, h2, h3, h4⟩ : ∃ p1, Pool.exec [i, i, i] p = .ok p1 ∧ p1.mem.len y = n ∧
        p1.th i = csrLoop a alpha y y i (b + 1) (d + r) ∧ ∀ j, j ≠ i → p1.th j = p.th j := by
      refine ⟨⟨p.mem.upd y i (t + alpha * (a.val[b]'(hv 0 (by omega))) * xc),
        fun j => if j = i then csrLoop a alpha y y i (b + 1) (d + r) else p.th j⟩, ?_, ?_, ?_, ?_⟩
      · simp only [Pool.exec, Pool.step, ht, csrLoop, Thread.step_load, ht', ok_bind, if_true, Thread.ofRes, hva, hca, hxc,
          Thread.step_store, hw]
        congr 2
        funext j
        by_cases h : j = i <;> simp [h]
      · rw [Mem.len_upd]; exact hn
      · simp
      · intro j hj; simp [hj]
    obtain ⟨l, p2, g1, g2, g3, g4, g5⟩ := csr_advance n a alpha y i hi d (b + 1) r p1 h2
      (fun k hk => by rw [show b + 1 + k = b + (k + 1) by omega]; exact hv (k + 1) (by omega))
      (fun k hk => by rw [show b + 1 + k = b + (k + 1) by omega]; exact hc (k + 1) (by omega)) h3
    refine ⟨[i, i, i] ++ l, p2, ?_, by rw [Pool.exec_append, h1]; exact g2, g3, ?_, fun j hj => by rw [g5 j hj, h4 j hj]⟩
    · intro k hk
      rcases List.mem_append.mp hk with hk | hk
      · simpa using hk
      · exact g1 k hk
    · rw [g4, show b + 1 + d = b + (d + 1) by omega]

/-- `x` and `y` the same vector: as soon as some row `i` has an element outside the diagonal, in column `j`, the rows
`i` and `j` can come to touch `y[j]` at the same time, and one of them stores. -/
theorem C75_csr_race [Add T] [Mul T] (n : Nat) (a : Csr T) (alpha beta : T) (y : Nat) (s : Mem T) (i j b e k : Nat)
    (hi : i < n) (hj : j < n) (hij : i ≠ j) (hn : s.len y = n) (hb : a.rowPtr[i]? = some b)
    (he : a.rowPtr[i + 1]? = some e) (hbk : b ≤ k) (hke : k < e) (hv : e ≤ a.val.length)
    (hcol : ∀ q, b ≤ q → q < e → ∃ c, a.col[q]? = some c ∧ c < n) (hc : a.col[k]? = some j) :
    ∃ sched t, (∀ q ∈ sched, q < n) ∧ Pool.exec sched ⟨s, csrThread a alpha y beta y⟩ = .ok t ∧ t.Race n := by
  have hly : ∀ q, q < n → ∀ s' : Mem T, s'.len y = n → ∃ v, s'.rd y q = .ok v := fun q hq s' hs =>
    ⟨_, lrd_ok (show q < (s' y).length by rw [← Mem.len_eq, hs]; exact hq)⟩
  obtain ⟨vj, hvj⟩ := hly j hj s hn
  obtain ⟨vi, hvi⟩ := hly i hi s hn
  have hw : s.wr y i (beta * vi) = .ok (s.upd y i (beta * vi)) := Mem.wr_ok (by omega) _
  -- row `j` has loaded `y[j]` and is about to store, row `i` is before its first element
  obtain ⟨p1, h1, h2, h3, w, tj, h4⟩ : ∃ p1, Pool.exec [j, i, i] ⟨s, csrThread a alpha y beta y⟩ = .ok p1 ∧
      p1.mem.len y = n ∧ p1.th i = csrLoop a alpha y y i b (e - b) ∧ ∃ w tj, p1.th j = .store y j w tj := by
    refine ⟨⟨s.upd y i (beta * vi), fun q => if q = i then csrLoop a alpha y y i b (e - b)
      else if q = j then .store y j (beta * vj) (.ofRes (lrd a.rowPtr j) fun b => .ofRes (lrd a.rowPtr (j + 1)) fun e =>
        csrLoop a alpha y y j b (e - b))
      else csrThread a alpha y beta y q⟩, ?_, ?_, ?_, beta * vj,
      (.ofRes (lrd a.rowPtr j) fun b => .ofRes (lrd a.rowPtr (j + 1)) fun e => csrLoop a alpha y y j b (e - b)), ?_⟩
    rotate_left
    · rw [Mem.len_upd]; exact hn
    · simp
    · simp only [if_neg hij.symm, if_true]
    · simp only [Pool.exec, Pool.step, csrThread, Thread.step_load, hvj, ok_bind, if_neg hij, hvi, if_true,
        Thread.step_store, hw, Thread.ofRes, lrd_some hb, lrd_some he]
      congr 2
      funext q
      by_cases g1 : q = i
      · simp [g1]
      · by_cases g2 : q = j
        · subst g2; simp [g1]
        · simp [g1, g2]
  obtain ⟨l, p2, g1, g2, g3, g4, g5⟩ := csr_advance n a alpha y i hi (k - b) b (e - k) p1 h2
    (fun q hq => by omega) (fun q hq => hcol (b + q) (by omega) (by omega))
    (by rw [h3, show e - b = k - b + (e - k) by omega])
  rw [show b + (k - b) = k by omega, show e - k = (e - k - 1) + 1 by omega] at g4
  obtain ⟨t, ht⟩ := hly i hi p2.mem g3
  have hva : lrd a.val k = .ok (a.val[k]'(by omega)) := lrd_ok (by omega)
  refine ⟨[j, i, i] ++ (l ++ [i]), ⟨p2.mem, fun q => if q = i then .load y j fun xc =>
    .store y i (t + alpha * (a.val[k]'(by omega)) * xc) (csrLoop a alpha y y i (k + 1) (e - k - 1)) else p2.th q⟩,
    ?_, ?_, ?_⟩
  · intro q hq
    simp only [List.mem_append, List.mem_cons, List.not_mem_nil, or_false] at hq
    rcases hq with (rfl | rfl | rfl) | hq | rfl <;> first | assumption | (rw [g1 q hq]; exact hi)
  · rw [Pool.exec_append, h1, ok_bind, Pool.exec_append, g2, ok_bind]
    simp only [Pool.exec, Pool.step, g4, csrLoop, Thread.step_load, ht, ok_bind, Thread.ofRes, hva, lrd_some hc]
  · refine ⟨j, i, (y, j), true, false, hj, hi, hij.symm, ?_, ?_, Or.inl rfl⟩
    · simp only [if_neg hij.symm]
      rw [g5 j hij.symm, h4]
      rfl
    · simp [Thread.next]

/-! ## Concrete cases -/

/-- The matrix that exchanges two components. -/
def swapCsr : Csr ℤ := ⟨[1, 1], [0, 1, 2], [1, 0]⟩

/-- With `x` and `y` the same vector the result of the sparse product depends on the schedule: row by row, or all
loads before the stores of the sums. -/
theorem C75_csr_false :
    (∃ s, Pool.exec [0, 0, 0, 0, 0, 1, 1, 1, 1, 1] ⟨Mem.ofList [[5, 7]], csrThread swapCsr 1 0 1 0⟩ = .ok s ∧
      s.Finished 2 ∧ s.mem 0 = [12, 19]) ∧
    (∃ s, Pool.exec [0, 0, 0, 0, 1, 1, 1, 1, 0, 1] ⟨Mem.ofList [[5, 7]], csrThread swapCsr 1 0 1 0⟩ = .ok s ∧
      s.Finished 2 ∧ s.mem 0 = [12, 12]) := by
  refine ⟨⟨_, rfl, ?_, rfl⟩, ⟨_, rfl, ?_, rfl⟩⟩ <;>
  · intro i hi
    match i, hi with
    | 0, _ => rfl
    | 1, _ => rfl

-- rows computed by turns
example : ∃ s, Pool.exec [0, 1, 0, 1, 1, 0, 1, 0, 0, 1, 1, 0]
      ⟨Mem.ofList [[2, 3], [10], [1, 1]], gemvThread 1 (1 : ℤ) 0 1 5 2 2⟩ = .ok s ∧ s.Finished 2 ∧ s.mem 2 = [25, 35] := by
  refine ⟨_, rfl, ?_, rfl⟩
  intro i hi
  match i, hi with
  | 0, _ => rfl
  | 1, _ => rfl
example : (gemvCore 2 1 (1 : ℤ) 0 1 5 2 (Mem.ofList [[2, 3], [10], [1, 1]])).map (fun m => m 2) = .ok [25, 35] := by
  decide +kernel

end Lalib.Props
