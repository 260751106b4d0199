import Verif.Model.Interleave
import Verif.Proofs.VecOps

namespace Lalib

variable {T : Type}

/-- What iteration `i` knows and has done, in terms of the initial memory `m0`. -/
def PcOk (f : T → T → T) (v1 v2 vr : Nat) (m0 m : Mem T) (i : Nat) : Pc T → Prop
  | .start => (m vr)[i]? = (m0 vr)[i]?
  | .got1 a => (m vr)[i]? = (m0 vr)[i]? ∧ (m0 v1)[i]? = some a
  | .got2 a b => (m vr)[i]? = (m0 vr)[i]? ∧ (m0 v1)[i]? = some a ∧ (m0 v2)[i]? = some b
  | .done => ∃ a b, (m0 v1)[i]? = some a ∧ (m0 v2)[i]? = some b ∧ (m vr)[i]? = some (f a b)

/-- Invariant of the interleaved execution. -/
structure PInv (f : T → T → T) (v1 v2 vr n : Nat) (m0 : Mem T) (s : PState T) : Prop where
  other : ∀ q, q ≠ vr → s.mem q = m0 q
  len : ∀ q, s.mem.len q = m0.len q
  beyond : ∀ i, n ≤ i → (s.mem vr)[i]? = (m0 vr)[i]?
  pcs : ∀ i, i < n → PcOk f v1 v2 vr m0 s.mem i (s.pc i)

theorem pinit_inv (f : T → T → T) (v1 v2 vr n : Nat) (m : Mem T) :
    PInv f v1 v2 vr n m (pinit m) := by
  constructor <;> simp [pinit, PcOk]

theorem PcOk.congr {f : T → T → T} {v1 v2 vr : Nat} {m0 m m' : Mem T} {i : Nat} {p : Pc T}
    (h : PcOk f v1 v2 vr m0 m i p) (he : (m' vr)[i]? = (m vr)[i]?) : PcOk f v1 v2 vr m0 m' i p := by
  cases p <;> simpa [PcOk, he] using h

/-- The contents of any buffer at an unfinished iteration's index are the initial ones. -/
theorem PInv.fresh {f : T → T → T} {v1 v2 vr n : Nat} {m0 : Mem T} {s : PState T}
    (h : PInv f v1 v2 vr n m0 s) {i : Nat} (hv : (s.mem vr)[i]? = (m0 vr)[i]?)
    (v : Nat) : (s.mem v)[i]? = (m0 v)[i]? := by
  by_cases hq : v = vr
  · subst hq; exact hv
  · rw [h.other v hq]

theorem PInv.setPc {f : T → T → T} {v1 v2 vr n : Nat} {m0 : Mem T} {s : PState T}
    (h : PInv f v1 v2 vr n m0 s) {i : Nat} {p : Pc T} (hp : PcOk f v1 v2 vr m0 s.mem i p) :
    PInv f v1 v2 vr n m0 (s.setPc i p) := by
  refine ⟨h.other, h.len, h.beyond, fun j hj => ?_⟩
  by_cases hji : j = i
  · subst hji; simpa [PState.setPc] using hp
  · simpa [PState.setPc, hji] using h.pcs j hj

theorem pstep_inv {f : T → T → T} {v1 v2 vr n : Nat} {m0 : Mem T} {s : PState T}
    (h1 : n ≤ m0.len v1) (h2 : n ≤ m0.len v2) (hr : n ≤ m0.len vr)
    (h : PInv f v1 v2 vr n m0 s) {i : Nat} (hi : i < n) :
    Ok (PInv f v1 v2 vr n m0) (pstep f v1 v2 vr i s) := by
  have hp := h.pcs i hi
  have g1 : i < (m0 v1).length := lt_of_lt_of_le hi h1
  have g2 : i < (m0 v2).length := lt_of_lt_of_le hi h2
  unfold pstep
  cases hpc : s.pc i with
  | start =>
    rw [hpc] at hp
    have ha : (m0 v1)[i]? = some (m0 v1)[i] := List.getElem?_eq_getElem (by assumption)
    have hr1 : s.mem.rd v1 i = .ok (m0 v1)[i] := lrd_some (by rw [h.fresh hp, ha])
    simp only [hr1, ok_bind, sat_ok]
    exact h.setPc ⟨hp, ha⟩
  | got1 a =>
    rw [hpc] at hp
    have hb : (m0 v2)[i]? = some (m0 v2)[i] := List.getElem?_eq_getElem (by assumption)
    have hr1 : s.mem.rd v2 i = .ok (m0 v2)[i] := lrd_some (by rw [h.fresh hp.1, hb])
    simp only [hr1, ok_bind, sat_ok]
    exact h.setPc ⟨hp.1, hp.2, hb⟩
  | got2 a b =>
    rw [hpc] at hp
    have hw : i < s.mem.len vr := by rw [h.len]; omega
    simp only [Mem.wr_ok hw, ok_bind, sat_ok]
    have hne : ∀ j, j ≠ i → ((s.mem.upd vr i (f a b)) vr)[j]? = (s.mem vr)[j]? := by
      intro j hj
      rw [Mem.upd_same_buf, List.getElem?_set_ne (Ne.symm hj)]
    have hself : ((s.mem.upd vr i (f a b)) vr)[i]? = some (f a b) := by
      rw [Mem.upd_same_buf, List.getElem?_set]; simp [hw]
    refine ⟨fun q hq => ?_, fun q => ?_, fun j hj => ?_, fun j hj => ?_⟩
    · show s.mem.upd vr i (f a b) q = m0 q
      rw [Mem.upd_other _ hq, h.other q hq]
    · show (s.mem.upd vr i (f a b)).len q = m0.len q
      rw [Mem.len_upd, h.len]
    · exact (hne j (by omega)).trans (h.beyond j hj)
    · by_cases hji : j = i
      · subst hji
        simp only [PState.setPc, if_true]
        exact ⟨a, b, hp.2.1, hp.2.2, hself⟩
      · simp only [PState.setPc, hji, if_false]
        exact (h.pcs j hj).congr (hne j hji)
  | done => exact h

theorem prun_inv {f : T → T → T} {v1 v2 vr n : Nat} {m0 : Mem T}
    (h1 : n ≤ m0.len v1) (h2 : n ≤ m0.len v2) (hr : n ≤ m0.len vr) :
    ∀ (sched : List Nat) (s : PState T), (∀ i ∈ sched, i < n) → PInv f v1 v2 vr n m0 s →
      Ok (PInv f v1 v2 vr n m0) (prun f v1 v2 vr sched s)
  | [], _, _, h => h
  | i :: is, s, hs, h =>
    Sat.bind (pstep_inv h1 h2 hr h (hs i (by simp))) fun s' h' =>
      prun_inv h1 h2 hr is s' (fun j hj => hs j (by simp [hj])) h'

theorem PInv.final {f : T → T → T} {v1 v2 vr n : Nat} {m0 : Mem T} {s : PState T}
    (h1 : n ≤ m0.len v1) (h2 : n ≤ m0.len v2) (hr : n ≤ m0.len vr)
    (h : PInv f v1 v2 vr n m0 s) (hd : s.finished n) :
    s.mem = m0.setBuf vr (zipPrefix f n (m0 v1) (m0 v2) (m0 vr)) := by
  funext q
  by_cases hq : q = vr
  · subst hq
    rw [Mem.setBuf_self]
    apply List.ext_getElem?
    intro j
    have e1 : (m0 v1).length = m0.len v1 := rfl
    have e2 : (m0 v2).length = m0.len v2 := rfl
    by_cases hj : j < n
    · have hp := h.pcs j hj
      rw [hd j hj] at hp
      obtain ⟨a, b, ha, hb, hv⟩ := hp
      have hlt : j < (List.zipWith f ((m0 v1).take n) ((m0 v2).take n)).length := by
        simp; omega
      rw [hv, zipPrefix, List.getElem?_append_left hlt]
      simp [List.getElem?_zipWith, hj, ha, hb]
    · have hle : (List.zipWith f ((m0 v1).take n) ((m0 v2).take n)).length ≤ j := by
        simp; omega
      rw [h.beyond j (by omega), zipPrefix, List.getElem?_append_right hle, List.getElem?_drop]
      congr 1
      simp
      omega
  · rw [h.other q hq, Mem.setBuf_other _ hq]

theorem prun_append (f : T → T → T) (v1 v2 vr : Nat) :
    ∀ (l1 l2 : List Nat) (s : PState T),
      prun f v1 v2 vr (l1 ++ l2) s = prun f v1 v2 vr l1 s >>= prun f v1 v2 vr l2
  | [], _, _ => rfl
  | i :: l1, l2, s => by
    simp only [List.cons_append, prun]
    cases pstep f v1 v2 vr i s with
    | error e => rfl
    | ok s' => exact prun_append f v1 v2 vr l1 l2 s'

/-- Number of accesses an iteration still has to do. -/
def Pc.todo : Pc T → Nat
  | .start => 3
  | .got1 _ => 2
  | .got2 _ _ => 1
  | .done => 0

theorem pstep_todo {f : T → T → T} {v1 v2 vr i : Nat} {s s' : PState T}
    (h : pstep f v1 v2 vr i s = .ok s') :
    (s'.pc i).todo = (s.pc i).todo - 1 ∧ ∀ j, j ≠ i → s'.pc j = s.pc j := by
  unfold pstep at h
  cases hpc : s.pc i with
  | start =>
    rw [hpc] at h
    cases hr : s.mem.rd v1 i with
    | error e => simp [hr] at h
    | ok a =>
      simp only [hr, ok_bind, Except.ok.injEq] at h
      subst h
      constructor
      · simp [PState.setPc, Pc.todo]
      · intro j hj; simp [PState.setPc, hj]
  | got1 a =>
    rw [hpc] at h
    cases hr : s.mem.rd v2 i with
    | error e => simp [hr] at h
    | ok a =>
      simp only [hr, ok_bind, Except.ok.injEq] at h
      subst h
      constructor
      · simp [PState.setPc, Pc.todo]
      · intro j hj; simp [PState.setPc, hj]
  | got2 a b =>
    rw [hpc] at h
    cases hr : s.mem.wr vr i (f a b) with
    | error e => simp [hr] at h
    | ok m =>
      simp only [hr, ok_bind, Except.ok.injEq] at h
      subst h
      constructor
      · simp [PState.setPc, Pc.todo]
      · intro j hj; simp [PState.setPc, hj]
  | done =>
    rw [hpc] at h
    simp only [Except.ok.injEq] at h
    subst h
    simp [hpc, Pc.todo]

theorem prun_finish_one {f : T → T → T} {v1 v2 vr n : Nat} {m0 : Mem T}
    (h1 : n ≤ m0.len v1) (h2 : n ≤ m0.len v2) (hr : n ≤ m0.len vr)
    {s : PState T} (h : PInv f v1 v2 vr n m0 s) {i : Nat} (hi : i < n) :
    ∃ s', prun f v1 v2 vr [i, i, i] s = .ok s' ∧ PInv f v1 v2 vr n m0 s' ∧ s'.pc i = .done ∧
      ∀ j, j ≠ i → s'.pc j = s.pc j := by
  obtain ⟨a, ha, ia⟩ := (pstep_inv h1 h2 hr h hi).exists
  obtain ⟨b, hb, ib⟩ := (pstep_inv h1 h2 hr ia hi).exists
  obtain ⟨c, hc, ic⟩ := (pstep_inv h1 h2 hr ib hi).exists
  have ta := pstep_todo ha
  have tb := pstep_todo hb
  have tc := pstep_todo hc
  refine ⟨c, by simp [prun, ha, hb, hc], ic, ?_, fun j hj => by rw [tc.2 j hj, tb.2 j hj, ta.2 j hj]⟩
  have hle : ∀ p : Pc T, p.todo ≤ 3 := by intro p; cases p <;> simp [Pc.todo]
  have h0 : (c.pc i).todo = 0 := by have := hle (s.pc i); omega
  cases hcp : c.pc i <;> rw [hcp] at h0 <;> first | rfl | simp [Pc.todo] at h0

theorem prun_finish {f : T → T → T} {v1 v2 vr n : Nat} {m0 : Mem T}
    (h1 : n ≤ m0.len v1) (h2 : n ≤ m0.len v2) (hr : n ≤ m0.len vr) :
    ∀ (k : Nat), k ≤ n → ∀ (s : PState T), PInv f v1 v2 vr n m0 s →
      ∃ l s', (∀ i ∈ l, i < n) ∧ prun f v1 v2 vr l s = .ok s' ∧ PInv f v1 v2 vr n m0 s' ∧
        s'.finished k
  | 0, _, s, h => ⟨[], s, by simp, rfl, h, fun i hi => absurd hi (by omega)⟩
  | k + 1, hk, s, h => by
    obtain ⟨l, s', hl, hs', hi', hf⟩ := prun_finish h1 h2 hr k (by omega) s h
    obtain ⟨s'', hs'', hi'', hd, ho⟩ := prun_finish_one h1 h2 hr hi' (show k < n by omega)
    refine ⟨l ++ [k, k, k], s'', ?_, by rw [prun_append, hs']; exact hs'', hi'', ?_⟩
    · intro i hi
      rcases List.mem_append.mp hi with hi | hi
      · exact hl i hi
      · simp at hi; omega
    · intro i hi
      by_cases hik : i = k
      · subst hik; exact hd
      · rw [ho i hik]; exact hf i (by omega)

end Lalib
