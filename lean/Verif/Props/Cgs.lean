import Verif.Proofs.Cgs
import Mathlib.Algebra.Order.Ring.Rat
import Mathlib.Algebra.Order.Field.Rat
import Mathlib.Tactic.Linarith

/-! # Property C44: Gram-Schmidt orthogonalisation

The range holds `M` vectors of dimension `n`, stored in the objects `0, ..., M-1` of the memory; `m.val k i` is
component `i` of vector `k`.  Vectors are `DynVec`s (`sz = none`) or `SizedVec<T, n>`s (`sz = some n`), `nd` is
`NDEBUG`. -/

namespace Lalib.Props

open Lalib Lalib.Cgs

variable {T : Type} [Field T] [LinearOrder T] [IsStrictOrderedRing T]

omit [LinearOrder T] [IsStrictOrderedRing T] in
theorem cgs_single [DecidableEq T] (nd : Bool) (sz : Option Nat) (m : Mem T) : cgs nd sz 1 m = .ok m := by
  unfold cgs
  rw [at'_ok (by omega), ok_bind, forRange_of_le (le_refl _)]

/-- On an independent family `cgs` returns: the vectors become pairwise orthogonal and none of them vanishes,
vector `k` changes by a combination of the earlier vectors only (so the leading spans are kept, in both
directions), the first vector and every object outside the range are unchanged. -/
theorem C44_cgs_partial (nd : Bool) (sz : Option Nat) (n M : Nat) (m : Mem T) (hs : sz = none ∨ sz = some n)
    (hM : 0 < M) (hm : ∀ k, k < M → m.len k = n) (hi : Indep n M m.val) :
    ∃ m', cgs nd sz M m = .ok m' ∧ (∀ k, k < M → m'.len k = n) ∧ (∀ q, M < q → m' q = m q) ∧ m' 0 = m 0 ∧
      Orthogonal n M m'.val ∧ (∀ k, k < M → ip n (m'.val k) (m'.val k) ≠ 0) ∧
      (∀ k, k < M → Comb n k m.val (fun i => m'.val k i - m.val k i)) ∧
      (∀ k, k < M → Comb n (k + 1) m'.val (m.val k)) := by
  rcases Nat.eq_zero_or_pos n with rfl | hn
  · exact absurd (hi (fun _ => 1) (fun i hi => absurd hi (Nat.not_lt_zero _)) 0 hM) one_ne_zero
  have hr := cgs_run nd hs hn hM hm
  cases e : cgs nd sz M m with
  | ok m' =>
    obtain ⟨h1, h2, h3, h4, h5⟩ := hr.of_ok e
    exact ⟨m', rfl, h1, h2, h3, gs_orthogonal h4 h5, fun k hk => gs_ne_zero h4 hi hk hk, gs_comb h4,
      fun k hk => (h4 k hk).comb_w⟩
  | error f =>
    obtain ⟨-, w, k, hk, hg, h0⟩ := hr.of_error e
    exact absurd h0 (gs_ne_zero (K := k + 1) (fun l hl => hg l (by omega)) hi (by omega) (by omega))

/-- The result is the Gram-Schmidt family: no other family is orthogonal and differs from the given one by
combinations of earlier vectors. -/
theorem C44_unique (nd : Bool) (sz : Option Nat) (n M : Nat) (m m' : Mem T) (hs : sz = none ∨ sz = some n)
    (hM : 0 < M) (hm : ∀ k, k < M → m.len k = n) (hi : Indep n M m.val) (h : cgs nd sz M m = .ok m')
    (w : Nat → Nat → T) (ho : Orthogonal n M w)
    (hc : ∀ k, k < M → Comb n k m.val (fun i => w k i - m.val k i)) :
    ∀ k, k < M → ∀ i, i < n → m'.val k i = w k i := by
  rcases Nat.eq_zero_or_pos n with rfl | hn
  · exact fun _ _ i hi => absurd hi (Nat.not_lt_zero _)
  obtain ⟨-, -, -, h4, h5⟩ := (cgs_run nd hs hn hM hm).of_ok h
  exact fun k hk i hi => (gs_unique h4 h5 ho hc k hk i hi).symm

/-- Exactly when `cgs` divides by zero: it returns if and only if all vectors but the last are independent;
otherwise some vector became zero and is divided by. -/
theorem C44_dependent (nd : Bool) (sz : Option Nat) (n M : Nat) (m : Mem T) (hs : sz = none ∨ sz = some n)
    (hn : 0 < n) (hM : 0 < M) (hm : ∀ k, k < M → m.len k = n) :
    ((∃ m', cgs nd sz M m = .ok m') ↔ Indep n (M - 1) m.val) ∧
      (¬ Indep n (M - 1) m.val → cgs nd sz M m = .error .nonFinite) := by
  have hr := cgs_run nd hs hn hM hm
  cases e : cgs nd sz M m with
  | ok m' =>
    obtain ⟨-, -, -, h4, h5⟩ := hr.of_ok e
    have hi : Indep n (M - 1) m.val :=
      gs_indep (K := M - 1) (fun k hk => h4 k (by omega)) (fun k hk => h5 k (by omega))
    exact ⟨⟨fun _ => hi, fun _ => ⟨m', rfl⟩⟩, fun h => absurd hi h⟩
  | error f =>
    obtain ⟨rfl, w, k, hk, hg, h0⟩ := hr.of_error e
    have hi : ¬ Indep n (M - 1) m.val := fun hi =>
      gs_ne_zero (K := k + 1) (fun l hl => hg l (by omega)) hi (by omega) (by omega) h0
    exact ⟨⟨fun ⟨_, h⟩ => (by cases h), fun h => absurd h hi⟩, fun _ => rfl⟩

omit [LinearOrder T] [IsStrictOrderedRing T] in
/-- `DynVec`s of unequal sizes: `cgs` never returns (assertion failure, `std::terminate`, or a division by
zero met before). -/
theorem C44_sizes [DecidableEq T] (nd : Bool) (M : Nat) (m m' : Mem T) (h : cgs nd none M m = .ok m') :
    ∀ k, k < M → m.len k = m.len 0 := by
  have hM : 0 < M := by
    by_contra hc
    unfold cgs at h
    rw [at', if_neg hc] at h
    cases h
  have hin : ∀ j, j < M → ∀ (s : Mem T) k, k < j →
      Sat (fun s' : Mem T => s.len k = s.len M ∧ (∀ q, s'.len q = s.len q) ∧ ∀ q, q ≠ j → s' q = s q)
        (fun _ => True) (inner none M j k s) := by
    intro j hj s k hk
    unfold inner
    rw [at'_ok (by omega), ok_bind, at'_ok hj, ok_bind]
    by_cases e1 : s.len k = s.len M
    · cases h1 : dot none s k M with
      | error _ => trivial
      | ok num =>
        cases h2 : mdot none s k k with
        | error _ => trivial
        | ok den =>
          rw [ok_bind, ok_bind]
          cases h3 : divC (-num) den with
          | error _ => trivial
          | ok a =>
            rw [ok_bind]
            show Sat _ _ (axpyD a s k j)
            by_cases e2 : s.len j = s.len k
            · rw [axpyD_eq e2]
              refine ⟨e1, fun q => ?_, fun q hq => Mem.setBuf_other _ hq _⟩
              rw [Mem.len_eq, Mem.len_eq]
              by_cases hq : q = j
              · rw [hq, Mem.setBuf_self, List.length_zipWith, ← Mem.len_eq, ← Mem.len_eq, e2, min_self]
              · rw [Mem.setBuf_other _ hq]
            · unfold axpyD
              rw [checkSize_ne (fun h => e2 h.symm)]
              trivial
    · have : dot none s k M = .error .terminate := by
        show dotDD s k M = _
        unfold dotDD
        rw [checkSize_ne e1]; rfl
      rw [this]; trivial
  unfold cgs at h
  rw [at'_ok hM, ok_bind] at h
  have := (forRange_sat (lo := 1) (hi := M) (s := m) (f := outer nd none M (m.len 0)) (Q := fun _ => True)
    (I := fun j (s : Mem T) => (∀ q, q ≠ M → s.len q = m.len q) ∧ ∀ k, k < j → m.len k = m.len 0) hM
    ⟨fun _ _ => rfl, fun k hk => by rw [show k = 0 by omega]⟩ ?_).of_ok h
  · exact this.2
  · rintro j s h1 h2 ⟨hl, hk⟩
    unfold outer
    rw [at'_ok (by omega), ok_bind]
    cases ha : cassert nd (m.len 0 == s.len 1) with
    | error _ => trivial
    | ok _ =>
      rw [ok_bind, at'_ok h2, ok_bind]
      refine Sat.mono (forRange_sat (Q := fun _ => True) (I := fun k (s' : Mem T) =>
        (∀ q, q ≠ M → s'.len q = m.len q) ∧ s'.len M = m.len j ∧ (0 < k → m.len 0 = m.len j))
        (Nat.zero_le _) ⟨fun q hq => ?_, ?_, fun h => absurd h (Nat.lt_irrefl _)⟩ ?_)
        (P' := fun s' : Mem T => (∀ q, q ≠ M → s'.len q = m.len q) ∧ ∀ k, k < j + 1 → m.len k = m.len 0) ?_
        (fun _ h => h)
      · rw [Mem.len_eq, Mem.setBuf_other _ hq]; exact hl q hq
      · rw [Mem.len_eq, Mem.setBuf_self]; exact hl j (by omega)
      · rintro k s' - hkj ⟨g1, g2, g3⟩
        refine Sat.mono (hin j h2 s' k hkj) ?_ (fun _ h => h)
        rintro s'' ⟨d1, d2, d3⟩
        refine ⟨fun q hq => by rw [d2]; exact g1 q hq, by rw [d2]; exact g2, fun _ => ?_⟩
        rw [← g2, ← d1, g1 k (by omega), hk k hkj]
      · rintro s' ⟨g1, g2, g3⟩
        refine ⟨g1, fun k hk' => ?_⟩
        rcases Nat.lt_or_ge k j with h | h
        · exact hk k h
        · rw [show k = j by omega]; exact (g3 (by omega)).symm

omit [LinearOrder T] [IsStrictOrderedRing T] in
/-- The claim that an empty range is rejected is false: `vecs[0]` is read, which is undefined behaviour. -/
theorem C44_empty_false [DecidableEq T] (nd : Bool) (sz : Option Nat) (m : Mem T) :
    cgs nd sz 0 m = .error (.ub .oob) := rfl

/-! Concrete cases: an independent family, and a dependent one. -/

def exVecs : Mem ℚ := Mem.ofList [[1, 1, 0], [1, 0, 1], [0, 1, 1]]

example : (cgs false none 3 exVecs).map (fun m => [m 0, m 1, m 2]) =
    .ok [[1, 1, 0], [1/2, -1/2, 1], [-2/3, 2/3, 2/3]] := by decide +kernel

example : Indep 3 3 exVecs.val := by
  intro c h
  have h0 := h 0 (by omega)
  have h1 := h 1 (by omega)
  have h2 := h 2 (by omega)
  simp [Finset.sum_range_succ, exVecs, Mem.ofList, Mem.val, val0] at h0 h1 h2
  intro k hk
  obtain rfl | rfl | rfl : k = 0 ∨ k = 1 ∨ k = 2 := by omega
  · linarith
  · linarith
  · linarith

example : (cgs false (some 2) 3 (Mem.ofList [[1, 2], [2, 4], [0, 1]] : Mem ℚ)).map (fun m => m 0) =
    .error .nonFinite := by
  decide +kernel

end Lalib.Props
