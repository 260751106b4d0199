import Verif.Spec.Threads

namespace Lalib

variable {T : Type}

/-- Iteration `i` stores only to its own cells, `W i`, and loads no cell of another one. -/
def Thread.Polite (W : Nat → Nat → Nat → Prop) (i : Nat) : Thread T → Prop
  | .stop => True
  | .load p c k => (∀ j, j ≠ i → ¬ W j p c) ∧ ∀ v, (k v).Polite W i
  | .store p c _ t => W i p c ∧ (∀ j, j ≠ i → ¬ W j p c) ∧ t.Polite W i
  | .fail _ => True

namespace Thread

variable {W : Nat → Nat → Nat → Prop} {i j : Nat}

theorem step_load (p c : Nat) (k : T → Thread T) (m : Mem T) :
    (load p c k).step m = (m.rd p c >>= fun v => .ok (k v, m)) := rfl

theorem step_store (p c : Nat) (v : T) (t : Thread T) (m : Mem T) :
    (store p c v t).step m = (m.wr p c v >>= fun m => .ok (t, m)) := rfl

theorem run_load (p c : Nat) (k : T → Thread T) (m : Mem T) :
    (load p c k).run m = (m.rd p c >>= fun v => (k v).run m) := rfl

theorem run_store (p c : Nat) (v : T) (t : Thread T) (m : Mem T) :
    (store p c v t).run m = (m.wr p c v >>= fun m => t.run m) := rfl

theorem polite_ofRes {α : Type} {r : Res α} {k : α → Thread T} (h : ∀ a, (k a).Polite W i) :
    (ofRes r k).Polite W i := by
  cases r with
  | ok a => exact h a
  | error e => trivial

theorem Polite.step {t t' : Thread T} {m m' : Mem T} (h : t.Polite W i) (he : t.step m = .ok (t', m')) :
    t'.Polite W i := by
  cases t with
  | stop => cases he; exact h
  | load p c k =>
    simp only [Thread.step_load] at he
    cases hr : m.rd p c with
    | error e => rw [hr] at he; cases he
    | ok v => rw [hr] at he; cases he; exact h.2 v
  | store p c v t =>
    simp only [Thread.step_store] at he
    cases hr : m.wr p c v with
    | error e => rw [hr] at he; cases he
    | ok v => rw [hr] at he; cases he; exact h.2.2
  | fail e => cases he

theorem step_run {t t' : Thread T} {m m' : Mem T} (he : t.step m = .ok (t', m')) : t.run m = t'.run m' := by
  cases t with
  | stop => cases he; rfl
  | load p c k =>
    simp only [Thread.step_load] at he
    cases hr : m.rd p c with
    | error e => rw [hr] at he; cases he
    | ok v => rw [hr] at he; cases he; simp [run, hr]
  | store p c v t =>
    simp only [Thread.step_store] at he
    cases hr : m.wr p c v with
    | error e => rw [hr] at he; cases he
    | ok v => rw [hr] at he; cases he; simp [run, hr]
  | fail e => cases he

theorem step_of_run {t : Thread T} {m m1 : Mem T} (h : t.run m = .ok m1) : ∃ r, t.step m = .ok r := by
  cases t with
  | stop => exact ⟨_, rfl⟩
  | load p c k =>
    simp only [Thread.run_load] at h
    cases hr : m.rd p c with
    | error e => rw [hr] at h; cases h
    | ok v => exact ⟨(k v, m), by simp [step, hr]⟩
  | store p c v t =>
    simp only [Thread.run_store] at h
    cases hr : m.wr p c v with
    | error e => rw [hr] at h; cases h
    | ok m2 => exact ⟨(t, m2), by simp [step, hr]⟩
  | fail e => cases h

/-- A thread that stays off a cell does not see a store to it. -/
theorem run_upd {p c : Nat} {v : T} (hW : W i p c) (hji : j ≠ i) :
    ∀ {t : Thread T}, t.Polite W j → ∀ {m : Mem T}, t.run (m.upd p c v) = (t.run m).map fun m => m.upd p c v
  | .stop, _, _ => rfl
  | .fail _, _, _ => rfl
  | .load q d k, h, m => by
    have hne : ¬ (q = p ∧ d = c) := fun e => h.1 i hji.symm (by rw [e.1, e.2]; exact hW)
    have hrd : (m.upd p c v).rd q d = m.rd q d := by
      unfold Mem.rd lrd
      by_cases hq : q = p
      · subst hq
        rw [Mem.upd_same_buf, List.getElem?_set_ne (fun e => hne ⟨rfl, e.symm⟩)]
      · rw [Mem.upd_other _ hq]
    simp only [Thread.run_load]
    rw [hrd]
    cases hr : m.rd q d with
    | error e => rfl
    | ok w => exact run_upd hW hji (h.2 w)
  | .store q d w t, h, m => by
    have hne : ¬ (q = p ∧ d = c) := fun e => h.2.1 i hji.symm (by rw [e.1, e.2]; exact hW)
    simp only [Thread.run_store]
    by_cases hd : d < m.len q
    · rw [Mem.wr_ok hd, Mem.wr_ok (by rw [Mem.len_upd]; exact hd)]
      have : (m.upd p c v).upd q d w = (m.upd q d w).upd p c v := by
        funext b
        unfold Mem.upd
        by_cases hb : b = q <;> by_cases hb' : b = p
        · subst hb; subst hb'
          simp only [if_true]
          exact List.set_comm _ _ (fun e => hne ⟨rfl, e.symm⟩)
        · subst hb; simp [hb']
        · subst hb'; simp [hb]
        · simp [hb, hb']
      simp only [ok_bind, this]
      exact run_upd hW hji h.2.2
    · have hd' : (m.upd p c v).len q ≤ d := by rw [Mem.len_upd]; omega
      rw [Mem.wr_oob hd', Mem.wr_oob (m := m) (by omega)]
      rfl

/-- What a thread leaves alone. -/
theorem run_frame : ∀ {t : Thread T}, t.Polite W j → ∀ {m m1 : Mem T}, t.run m = .ok m1 →
    (∀ q, m1.len q = m.len q) ∧ ∀ p c, ¬ W j p c → (m1 p)[c]? = (m p)[c]?
  | .stop, _, m, m1, h => by cases h; exact ⟨fun _ => rfl, fun _ _ _ => rfl⟩
  | .fail _, _, m, m1, h => by cases h
  | .load q d k, hp, m, m1, h => by
    simp only [Thread.run_load] at h
    cases hr : m.rd q d with
    | error e => rw [hr] at h; cases h
    | ok w => rw [hr] at h; exact run_frame (hp.2 w) h
  | .store q d w t, hp, m, m1, h => by
    simp only [Thread.run_store] at h
    by_cases hd : d < m.len q
    · rw [Mem.wr_ok hd] at h
      obtain ⟨h1, h2⟩ := run_frame hp.2.2 h
      refine ⟨fun b => by rw [h1 b, Mem.len_upd], fun p c hW => ?_⟩
      rw [h2 p c hW]
      by_cases hb : p = q
      · subst hb
        rw [Mem.upd_same_buf, List.getElem?_set_ne]
        intro e
        subst e
        exact hW hp.1
      · rw [Mem.upd_other _ hb]
    · rw [Mem.wr_oob (by omega)] at h; cases h

/-- A step of one thread and a run of another one can change places. -/
theorem step_swap {ti ti' tj : Thread T} {m m' : Mem T} (hi : ti.Polite W i) (hj : tj.Polite W j) (hji : j ≠ i)
    (hs : ti.step m = .ok (ti', m')) :
    match tj.run m with
    | .ok m1 => ∃ m1', tj.run m' = .ok m1' ∧ ti.step m1 = .ok (ti', m1')
    | .error e => tj.run m' = .error e := by
  cases ti with
  | stop => cases hs; cases h : tj.run m <;> simp [step]
  | fail e => cases hs
  | load p c k =>
    simp only [Thread.step_load] at hs
    cases hr : m.rd p c with
    | error e => rw [hr] at hs; cases hs
    | ok v =>
      rw [hr] at hs
      cases hs
      cases h : tj.run m with
      | error e => rfl
      | ok m1 =>
        refine ⟨m1, rfl, ?_⟩
        have : m1.rd p c = m.rd p c := by
          unfold Mem.rd lrd
          rw [(run_frame hj h).2 p c (hi.1 j hji)]
        simp [step, this, hr]
  | store p c v t =>
    simp only [Thread.step_store] at hs
    by_cases hc : c < m.len p
    · rw [Mem.wr_ok hc] at hs
      cases hs
      have := run_upd (v := v) hi.1 hji hj (m := m)
      cases h : tj.run m with
      | error e => rw [h] at this; exact this
      | ok m1 =>
        rw [h] at this
        refine ⟨_, this, ?_⟩
        simp only [Thread.step_store]
        rw [Mem.wr_ok (by rw [(run_frame hj h).1]; exact hc)]
        rfl
    · rw [Mem.wr_oob (by omega)] at hs; cases hs

end Thread

variable {W : Nat → Nat → Nat → Prop}

/-- The iterations of `l` one after another. -/
def seqRun (th : Nat → Thread T) (l : List Nat) (m : Mem T) : Res (Mem T) :=
  forOrder (fun i m => (th i).run m) l m

theorem seqRun_congr {th th' : Nat → Thread T} : ∀ {l : List Nat} {m : Mem T}, (∀ i ∈ l, th i = th' i) →
    seqRun th l m = seqRun th' l m
  | [], _, _ => rfl
  | j :: l, m, h => by
    unfold seqRun forOrder
    rw [h j (by simp)]
    cases (th' j).run m with
    | error e => rfl
    | ok m1 => exact seqRun_congr fun i hi => h i (by simp [hi])

/-- A step ahead of time does not change the outcome. -/
theorem seqRun_step {th : Nat → Thread T} {i : Nat} (hp : ∀ j, (th j).Polite W j) {t' : Thread T} :
    ∀ {l : List Nat} {m m' : Mem T}, l.Nodup → i ∈ l → (th i).step m = .ok (t', m') →
      seqRun (fun j => if j = i then t' else th j) l m' = seqRun th l m
  | j :: l, m, m', hn, hi, hs => by
    obtain ⟨hn1, hn2⟩ := List.nodup_cons.mp hn
    unfold seqRun forOrder
    by_cases hji : j = i
    · subst hji
      simp only [if_true]
      rw [← Thread.step_run hs]
      cases (th j).run m with
      | error e => rfl
      | ok m1 =>
        refine seqRun_congr fun k hk => ?_
        rw [if_neg]
        rintro rfl
        exact hn1 hk
    · have hil : i ∈ l := by
        rcases List.mem_cons.mp hi with h | h
        · exact absurd h.symm hji
        · exact h
      have := Thread.step_swap (hp i) (hp j) hji hs
      simp only [if_neg hji]
      cases h : (th j).run m with
      | error e => rw [h] at this; rw [this]; rfl
      | ok m1 =>
        rw [h] at this
        obtain ⟨m1', h1, h2⟩ := this
        rw [h1]
        exact seqRun_step hp hn2 hil h2

/-- An iteration in the list can do its next step if the whole list runs through. -/
theorem seqRun_can {th : Nat → Thread T} {i : Nat} (hp : ∀ j, (th j).Polite W j) :
    ∀ {l : List Nat} {m m1 : Mem T}, l.Nodup → i ∈ l → seqRun th l m = .ok m1 → ∃ r, (th i).step m = .ok r
  | j :: l, m, m1, hn, hi, h => by
    obtain ⟨hn1, hn2⟩ := List.nodup_cons.mp hn
    unfold seqRun forOrder at h
    cases hr : (th j).run m with
    | error e => rw [hr] at h; cases h
    | ok m2 =>
      by_cases hji : j = i
      · subst hji; exact Thread.step_of_run hr
      · have hil : i ∈ l := by
          rcases List.mem_cons.mp hi with h | h
          · exact absurd h.symm hji
          · exact h
        rw [hr] at h
        obtain ⟨r, hs⟩ := seqRun_can hp hn2 hil h
        have hf := Thread.run_frame (hp j) hr
        have hpi := hp i
        revert hpi hs
        cases th i with
        | stop => exact fun _ _ => ⟨_, rfl⟩
        | fail e => intro hs; cases hs
        | load p c k =>
          intro hs hpi
          have : m2.rd p c = m.rd p c := by
            unfold Mem.rd lrd
            rw [hf.2 p c (hpi.1 j hji)]
          simp only [Thread.step_load] at hs ⊢
          rw [this] at hs
          cases hrd : m.rd p c with
          | error e => rw [hrd] at hs; cases hs
          | ok v => exact ⟨_, rfl⟩
        | store p c v t =>
          intro hs hpi
          simp only [Thread.step_store] at hs ⊢
          by_cases hc : c < m.len p
          · rw [Mem.wr_ok hc]; exact ⟨_, rfl⟩
          · rw [Mem.wr_oob (by rw [hf.1]; omega)] at hs; cases hs

theorem seqRun_stop {th : Nat → Thread T} : ∀ {l : List Nat} {m : Mem T}, (∀ i ∈ l, th i = .stop) →
    seqRun th l m = .ok m
  | [], _, _ => rfl
  | j :: l, m, h => by
    unfold seqRun forOrder
    rw [h j (by simp)]
    exact seqRun_stop fun i hi => h i (by simp [hi])

/-- All iterations keep to their cells. -/
def Pool.Polite (W : Nat → Nat → Nat → Prop) (s : Pool T) : Prop := ∀ i, (s.th i).Polite W i

theorem Pool.Polite.step {s s' : Pool T} {i : Nat} (h : s.Polite W) (he : s.step i = .ok s') : s'.Polite W := by
  unfold Pool.step at he
  cases hr : (s.th i).step s.mem with
  | error e => rw [hr] at he; cases he
  | ok r =>
    rw [hr] at he
    cases he
    intro j
    by_cases hj : j = i
    · subst hj
      simp only [if_true]
      exact (h j).step (m' := r.2) hr
    · simp only [if_neg hj]; exact h j

theorem Pool.Polite.no_race {s : Pool T} (h : s.Polite W) (n : Nat) : ¬ s.Race n := by
  have key : ∀ i j c w', i ≠ j → (s.th i).next = some (c, true) → (s.th j).next = some (c, w') → False := by
    intro i j c w' hij h1 h2
    have hi := h i
    have hj := h j
    revert hi hj h1 h2
    cases s.th i <;> cases s.th j <;> intro h1 h2 hi hj <;> simp only [Thread.next, reduceCtorEq, Option.some.injEq,
      Prod.mk.injEq, and_false, Bool.false_eq_true] at h1 h2
    · obtain ⟨h1, _⟩ := h1
      obtain ⟨h2, _⟩ := h2
      rw [← h1] at h2
      simp only [Prod.mk.injEq] at h2
      have := hj.1 i hij
      rw [h2.1, h2.2] at this
      exact this hi.1
    · obtain ⟨h1, _⟩ := h1
      obtain ⟨h2, _⟩ := h2
      rw [← h1] at h2
      simp only [Prod.mk.injEq] at h2
      have := hj.2.1 i hij
      rw [h2.1, h2.2] at this
      exact this hi.1
  rintro ⟨i, j, c, w, w', _, _, hij, h1, h2, hw⟩
  rcases hw with rfl | rfl
  · exact key i j c w' hij h1 h2
  · exact key j i c w hij.symm h2 h1

theorem Pool.step_seq {s s' : Pool T} {i n : Nat} (h : s.Polite W) (hi : i < n) (he : s.step i = .ok s') :
    seqRun s'.th (List.range n) s'.mem = seqRun s.th (List.range n) s.mem := by
  unfold Pool.step at he
  cases hr : (s.th i).step s.mem with
  | error e => rw [hr] at he; cases he
  | ok r =>
    rw [hr] at he
    cases he
    exact seqRun_step h List.nodup_range (List.mem_range.mpr hi) (m' := r.2) hr

theorem Pool.step_can {s : Pool T} {i n : Nat} (h : s.Polite W) (hi : i < n) {m1 : Mem T}
    (hr : seqRun s.th (List.range n) s.mem = .ok m1) : ∃ s', s.step i = .ok s' := by
  obtain ⟨r, hs⟩ := seqRun_can h List.nodup_range (List.mem_range.mpr hi) hr
  unfold Pool.step
  rw [hs]
  exact ⟨_, rfl⟩

theorem Pool.exec_seq {n : Nat} : ∀ {sched : List Nat} {s s' : Pool T}, s.Polite W → (∀ i ∈ sched, i < n) →
    exec sched s = .ok s' →
    s'.Polite W ∧ seqRun s'.th (List.range n) s'.mem = seqRun s.th (List.range n) s.mem
  | [], s, s', h, _, he => by cases he; exact ⟨h, rfl⟩
  | i :: l, s, s', h, hl, he => by
    unfold exec at he
    cases hr : s.step i with
    | error e => rw [hr] at he; cases he
    | ok s1 =>
      rw [hr] at he
      obtain ⟨h1, h2⟩ := exec_seq (h.step hr) (fun j hj => hl j (by simp [hj])) he
      exact ⟨h1, h2.trans (step_seq h (hl i (by simp)) hr)⟩

theorem Pool.exec_can {n : Nat} {m1 : Mem T} : ∀ {sched : List Nat} {s : Pool T}, s.Polite W →
    (∀ i ∈ sched, i < n) → seqRun s.th (List.range n) s.mem = .ok m1 → ∃ s', exec sched s = .ok s'
  | [], s, _, _, _ => ⟨s, rfl⟩
  | i :: l, s, h, hl, hm => by
    obtain ⟨s1, h1⟩ := step_can h (hl i (by simp)) hm
    obtain ⟨s2, h2⟩ := exec_can (sched := l) (h.step h1) (fun j hj => hl j (by simp [hj]))
      ((step_seq h (hl i (by simp)) h1).trans hm)
    exact ⟨s2, by unfold exec; rw [h1]; exact h2⟩

theorem Pool.exec_append : ∀ (l1 l2 : List Nat) (s : Pool T), exec (l1 ++ l2) s = exec l1 s >>= exec l2
  | [], _, _ => rfl
  | i :: l1, l2, s => by
    simp only [List.cons_append, exec]
    cases s.step i with
    | error e => rfl
    | ok s' => exact exec_append l1 l2 s'

/-- One iteration can be brought to its end. -/
theorem Pool.exec_one {i n : Nat} (hi : i < n) {m1 : Mem T} : ∀ (t : Thread T) {s : Pool T}, s.Polite W →
    s.th i = t → seqRun s.th (List.range n) s.mem = .ok m1 →
    ∃ l s', (∀ k ∈ l, k = i) ∧ exec l s = .ok s' ∧ s'.th i = .stop ∧ ∀ j, j ≠ i → s'.th j = s.th j := by
  intro t
  induction t with
  | stop => exact fun {s} _ ht _ => ⟨[], s, by simp, rfl, ht, fun _ _ => rfl⟩
  | fail e =>
    intro s h ht hm
    obtain ⟨s1, h1⟩ := step_can h hi hm
    unfold Pool.step at h1
    rw [ht] at h1
    cases h1
  | load p c k ih =>
    intro s h ht hm
    obtain ⟨s1, h1⟩ := step_can h hi hm
    have h1' := h1
    unfold Pool.step at h1'
    rw [ht] at h1'
    simp only [Thread.step_load] at h1'
    cases hr : s.mem.rd p c with
    | error e => rw [hr] at h1'; cases h1'
    | ok v =>
      rw [hr] at h1'
      have e : s1 = ⟨s.mem, fun j => if j = i then k v else s.th j⟩ := by cases h1'; rfl
      obtain ⟨l, s', hl, he, hs, ho⟩ := ih v (s := s1) (h.step h1) (by rw [e]; simp)
        ((step_seq h hi h1).trans hm)
      refine ⟨i :: l, s', ?_, ?_, hs, fun j hj => ?_⟩
      · intro k hk
        rcases List.mem_cons.mp hk with hk | hk
        · exact hk
        · exact hl k hk
      · unfold exec; rw [h1]; exact he
      · rw [ho j hj, e]; simp [hj]
  | store p c v t ih =>
    intro s h ht hm
    obtain ⟨s1, h1⟩ := step_can h hi hm
    have h1' := h1
    unfold Pool.step at h1'
    rw [ht] at h1'
    simp only [Thread.step_store] at h1'
    cases hr : s.mem.wr p c v with
    | error e => rw [hr] at h1'; cases h1'
    | ok m2 =>
      rw [hr] at h1'
      have e : s1 = ⟨m2, fun j => if j = i then t else s.th j⟩ := by cases h1'; rfl
      obtain ⟨l, s', hl, he, hs, ho⟩ := ih (s := s1) (h.step h1) (by rw [e]; simp)
        ((step_seq h hi h1).trans hm)
      refine ⟨i :: l, s', ?_, ?_, hs, fun j hj => ?_⟩
      · intro k hk
        rcases List.mem_cons.mp hk with hk | hk
        · exact hk
        · exact hl k hk
      · unfold exec; rw [h1]; exact he
      · rw [ho j hj, e]; simp [hj]

theorem Pool.exec_finish {n : Nat} {m1 : Mem T} : ∀ (k : Nat), k ≤ n → ∀ {s : Pool T}, s.Polite W →
    seqRun s.th (List.range n) s.mem = .ok m1 → ∃ l s', (∀ i ∈ l, i < n) ∧ exec l s = .ok s' ∧ s'.Finished k
  | 0, _, s, _, _ => ⟨[], s, by simp, rfl, fun i hi => absurd hi (by omega)⟩
  | k + 1, hk, s, h, hm => by
    obtain ⟨l, s1, hl, h1, hf⟩ := exec_finish k (by omega) h hm
    obtain ⟨hp, he⟩ := exec_seq h hl h1
    obtain ⟨l', s2, hl', h2, hs, ho⟩ := exec_one (show k < n by omega) _ hp rfl (he.trans hm)
    refine ⟨l ++ l', s2, ?_, by rw [exec_append, h1]; exact h2, ?_⟩
    · intro i hi
      rcases List.mem_append.mp hi with hi | hi
      · exact hl i hi
      · rw [hl' i hi]; omega
    · intro i hi
      by_cases hik : i = k
      · rw [hik]; exact hs
      · rw [ho i hik]; exact hf i (by omega)

/-- Iterations that keep to their own cells amount to the loop in index order. -/
theorem concurrent_of_polite (n : Nat) (th : Nat → Thread T) (m : Mem T) (hp : ∀ i, (th i).Polite W i) :
    Concurrent n th m (forRange 0 n (fun i m => (th i).run m) m) := by
  rw [forRange_eq_forOrder]
  intro sched hl
  have h0 : (⟨m, th⟩ : Pool T).Polite W := hp
  refine ⟨fun s he => ?_, fun m' hr => ?_⟩
  · obtain ⟨h1, h2⟩ := Pool.exec_seq h0 hl he
    refine ⟨h1.no_race n, fun hf => ?_⟩
    rw [seqRun_stop fun i hi => hf i (List.mem_range.mp hi)] at h2
    exact h2.symm
  · obtain ⟨s1, h1⟩ := Pool.exec_can h0 hl hr
    obtain ⟨hp1, e1⟩ := Pool.exec_seq h0 hl h1
    obtain ⟨l, s2, hl2, h2, hf⟩ := Pool.exec_finish n (le_refl n) hp1 (e1.trans hr)
    exact ⟨l, s2, hl2, by rw [Pool.exec_append, h1]; exact h2, hf⟩

end Lalib
