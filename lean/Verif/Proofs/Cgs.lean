import Verif.Model.Cgs
import Verif.Proofs.VecOps
import Verif.Proofs.Orth

/-! # The loops of `cgs` -/

namespace Lalib.Cgs

variable {T : Type} [Field T] [DecidableEq T]

theorem at'_ok {M k : Nat} (h : k < M) : at' M k = .ok k := if_pos h

variable {sz : Option Nat} {n : Nat}

omit [DecidableEq T] in
theorem dot_ok (hs : sz = none ∨ sz = some n) {m : Mem T} {x y : Nat} (hn : 0 < n) (hx : m.len x = n)
    (hy : m.len y = n) : dot sz m x y = .ok (ip n (m.val x) (m.val y)) ∧
      mdot sz m x y = .ok (ip n (m.val x) (m.val y)) := by
  have e := dotCore_eq (m := m) (x := x) (y := y) hn (by omega) (by omega)
  rcases hs with rfl | rfl
  · constructor
    · show dotDD m x y = _
      unfold dotDD; rw [hx, hy, checkSize_self, ok_bind, e]; rfl
    · show dynDot m x y = _
      unfold dynDot; rw [hx, hy, checkSize_self, ok_bind, e]; rfl
  · have : dotSS n m x y = .ok (ip n (m.val x) (m.val y)) := by
      unfold dotSS; rw [e]; rfl
    exact ⟨this, this⟩

omit [DecidableEq T] in
theorem axpy_ok (hs : sz = none ∨ sz = some n) {a : T} {m : Mem T} {x y : Nat} (hx : m.len x = n)
    (hy : m.len y = n) :
    axpy sz a m x y = .ok (m.setBuf y (List.zipWith (fun u v => a * u + v) (m x) (m y))) := by
  rcases hs with rfl | rfl
  · exact axpyD_eq (by omega)
  · show axpyS n a m x y = _
    unfold axpyS; rw [axpyCore_eq hx hy]; rfl

/-- One iteration of the inner loop: the projection on vector `k` is subtracted, or the squared length of
vector `k` is zero. -/
theorem inner_eq (hs : sz = none ∨ sz = some n) {m : Mem T} {M j k : Nat} (hn : 0 < n) (hk : k < M) (hj : j < M)
    (lk : m.len k = n) (lj : m.len j = n) (lM : m.len M = n) :
    inner sz M j k m =
      if ip n (m.val k) (m.val k) = 0 then .error .nonFinite
      else .ok (m.setBuf j (List.zipWith (fun u v => -ip n (m.val k) (m.val M) / ip n (m.val k) (m.val k) * u + v)
        (m k) (m j))) := by
  unfold inner
  rw [at'_ok hk, ok_bind, at'_ok hj, ok_bind, (dot_ok hs hn lk lM).1, ok_bind, (dot_ok hs hn lk lk).2, ok_bind]
  split
  · rename_i h; rw [h, divC_zero]; rfl
  · rename_i h; rw [divC_ok h, ok_bind, axpy_ok hs lk lj]

/-- Memory in which every vector of the family has `n` components. -/
def Sized (M n : Nat) (m : Mem T) : Prop := ∀ k, k < M → m.len k = n

/-- The inner loop. -/
theorem inner_loop (hs : sz = none ∨ sz = some n) {m : Mem T} {M j : Nat} (hn : 0 < n) (hj : j < M)
    (hm : Sized M n m) (hM : m M = m j) :
    Sat (fun m' : Mem T => ∃ l : List T, m' = m.setBuf j l ∧ l.length = n ∧ (∀ k, k < j → ip n (m.val k) (m.val k) ≠ 0) ∧
        ∀ i, i < n → val0 l i = m.val j i - ∑ p ∈ Finset.range j, proj n (m.val p) (m.val j) * m.val p i)
      (fun e => e = .nonFinite ∧ ∃ k, k < j ∧ ip n (m.val k) (m.val k) = 0)
      (forRange 0 j (inner sz M j) m) := by
  refine forRange_sat (I := fun k (m' : Mem T) => ∃ l : List T, m' = m.setBuf j l ∧ l.length = n ∧
      (∀ p, p < k → ip n (m.val p) (m.val p) ≠ 0) ∧
      ∀ i, i < n → val0 l i = m.val j i - ∑ p ∈ Finset.range k, proj n (m.val p) (m.val j) * m.val p i)
    (Nat.zero_le _) ⟨m j, (Mem.setBuf_same _ _).symm, hm j hj, by simp, by simp [Mem.val]⟩ ?_
  rintro k m' - hk ⟨l, rfl, hl, hne, hv⟩
  have ek : m.setBuf j l k = m k := Mem.setBuf_other _ (by omega) _
  have eM : m.setBuf j l M = m j := by rw [Mem.setBuf_other _ (by omega), hM]
  have ej : m.setBuf j l j = l := Mem.setBuf_self _ _ _
  have lk : (m k).length = n := hm k (by omega)
  have vk : (m.setBuf j l).val k = m.val k := by unfold Mem.val; rw [ek]
  have vM : (m.setBuf j l).val M = m.val j := by unfold Mem.val; rw [eM]
  rw [inner_eq hs hn (by omega) hj (by rw [Mem.len_eq, ek]; exact lk) (by rw [Mem.len_eq, ej]; exact hl)
    (by rw [Mem.len_eq, eM]; exact hm j hj), vk, vM, ek, ej]
  split
  · rename_i h0; exact ⟨rfl, k, hk, h0⟩
  · rename_i h0
    refine ⟨_, by rw [Mem.setBuf_setBuf], by simp [lk, hl], ?_, fun i hi => ?_⟩
    · intro p hp
      rcases Nat.lt_or_ge p k with h | h
      · exact hne p h
      · rw [show p = k by omega]; exact h0
    · rw [val0_zipWith (by omega) (by omega), hv i hi, Finset.sum_range_succ]
      show _ * m.val k i + _ = _
      rw [proj]
      ring

/-- The whole run: either the Gram-Schmidt family, or a vector (not the last) vanishes and is divided by. -/
theorem cgs_run (nd : Bool) (hs : sz = none ∨ sz = some n) {m : Mem T} {M : Nat} (hn : 0 < n) (hM : 0 < M)
    (hm : Sized M n m) :
    Sat (fun m' : Mem T => Sized M n m' ∧ (∀ q, M < q → m' q = m q) ∧ m' 0 = m 0 ∧
        (∀ k, k < M → IsGS n m.val m'.val k) ∧ ∀ k, k + 1 < M → ip n (m'.val k) (m'.val k) ≠ 0)
      (fun e => e = .nonFinite ∧ ∃ (w : Nat → Nat → T) (k : Nat), k + 1 < M ∧ (∀ l, l ≤ k → IsGS n m.val w l) ∧
        ip n (w k) (w k) = 0)
      (cgs nd sz M m) := by
  unfold cgs
  rw [at'_ok hM, ok_bind, hm 0 hM]
  refine Sat.mono (forRange_sat (I := fun j (m' : Mem T) => Sized M n m' ∧ (∀ q, j ≤ q → q ≠ M → m' q = m q) ∧
      m' 0 = m 0 ∧ (∀ k, k < j → IsGS n m.val m'.val k) ∧ ∀ k, k + 1 < j → ip n (m'.val k) (m'.val k) ≠ 0)
    (hi := M) hM ⟨hm, fun _ _ _ => rfl, rfl, ?_, fun k hk => by omega⟩ ?_) ?_ (fun e h => h)
  · intro k hk i hi
    rw [show k = 0 by omega]
    simp
  · rintro j m' hj1 hjM ⟨hm', hlast, hz, hgs, hne⟩
    unfold outer
    have l1 : m'.len 1 = n := hm' 1 (by omega)
    rw [at'_ok (show 1 < M by omega), ok_bind, show (n == m'.len 1) = true by simp [l1], cassert_true, ok_bind,
      at'_ok hjM, ok_bind]
    have hsz : Sized M n (m'.setBuf M (m' j)) := fun k hk => by
      rw [Mem.len_eq, Mem.setBuf_other _ (by omega)]; exact hm' k hk
    have hval : ∀ k, k < M → (m'.setBuf M (m' j)).val k = m'.val k := fun k hk => by
      unfold Mem.val; rw [Mem.setBuf_other _ (by omega)]
    have hvj : m'.val j = m.val j := by unfold Mem.val; rw [hlast j (le_refl _) (by omega)]
    refine Sat.mono (inner_loop hs hn hjM hsz (by rw [Mem.setBuf_self, Mem.setBuf_other _ (by omega)])) ?_ ?_
    · rintro m'' ⟨l, rfl, hl, hn0, hv⟩
      have hval' : ∀ k, k < M → k ≠ j → ((m'.setBuf M (m' j)).setBuf j l).val k = m'.val k := fun k hk hkj => by
        rw [← hval k hk]; unfold Mem.val; rw [Mem.setBuf_other _ hkj]
      have hvalj : ((m'.setBuf M (m' j)).setBuf j l).val j = val0 l := by
        unfold Mem.val; rw [Mem.setBuf_self]
      refine ⟨?_, ?_, ?_, ?_, ?_⟩
      · intro k hk
        rw [Mem.len_eq]
        by_cases h : k = j
        · rw [h, Mem.setBuf_self]; exact hl
        · rw [Mem.setBuf_other _ h]; exact hsz k hk
      · intro q hq hqM
        rw [Mem.setBuf_other _ (by omega), Mem.setBuf_other _ hqM]
        exact hlast q (by omega) hqM
      · rw [Mem.setBuf_other _ (by omega), Mem.setBuf_other _ (by omega)]; exact hz
      · intro k hk i hi
        have e : ∑ p ∈ Finset.range k, proj n (((m'.setBuf M (m' j)).setBuf j l).val p) (m.val k) *
            ((m'.setBuf M (m' j)).setBuf j l).val p i = ∑ p ∈ Finset.range k, proj n (m'.val p) (m.val k) * m'.val p i :=
          Finset.sum_congr rfl fun p hp => by
            have hp := Finset.mem_range.mp hp
            rw [hval' p (by omega) (by omega)]
        rw [e]
        rcases Nat.lt_or_ge k j with h | h
        · rw [hval' k (by omega) (by omega)]; exact hgs k h i hi
        · obtain rfl : k = j := by omega
          rw [hvalj, hv i hi, hval k hjM, hvj]
          congr 1
          refine Finset.sum_congr rfl fun p hp => ?_
          have hp := Finset.mem_range.mp hp
          rw [hval p (by omega)]
      · intro k hk
        rw [hval' k (by omega) (by omega), ← hval k (by omega)]
        exact hn0 k (by omega)
    · rintro e ⟨rfl, k, hk, h0⟩
      refine ⟨rfl, m'.val, k, by omega, fun l hl => hgs l (by omega), ?_⟩
      rwa [hval k (by omega)] at h0
  · rintro m' ⟨h1, h2, h3, h4, h5⟩
    exact ⟨h1, fun q hq => h2 q (by omega) (by omega), h3, h4, h5⟩

end Lalib.Cgs
