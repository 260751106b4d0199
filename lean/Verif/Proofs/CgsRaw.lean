import Verif.Spec.CgsEval
import Verif.Proofs.Cgs
import Verif.Proofs.GmresRaw

/-! # The loops of `cgs`, for arbitrary arithmetic -/

namespace Lalib.Cgs

variable {T : Type} [Zero T] [Add T] [Mul T] [Neg T] [CDiv T] {sz : Option Nat} {n : Nat}

omit [Neg T] [CDiv T] in
theorem dot_raw (hs : sz = none ∨ sz = some n) {m : Mem T} {x y : Nat} (hn : 0 < n) (hx : m.len x = n)
    (hy : m.len y = n) : dot sz m x y = .ok (dotUp n (m.val x) (m.val y)) ∧
      mdot sz m x y = .ok (dotUp n (m.val x) (m.val y)) := by
  have e := dotCore_raw (m := m) (x := x) (y := y) hn (by omega) (by omega)
  rcases hs with rfl | rfl
  · constructor
    · show dotDD m x y = _
      unfold dotDD; rw [hx, hy, checkSize_self, ok_bind, e]; rfl
    · show dynDot m x y = _
      unfold dynDot; rw [hx, hy, checkSize_self, ok_bind, e]; rfl
  · have : dotSS n m x y = .ok (dotUp n (m.val x) (m.val y)) := by
      unfold dotSS; rw [e]; rfl
    exact ⟨this, this⟩

omit [Neg T] [CDiv T] [Zero T] in
theorem axpy_raw (hs : sz = none ∨ sz = some n) {a : T} {m : Mem T} {x y : Nat} (hx : m.len x = n)
    (hy : m.len y = n) :
    axpy sz a m x y = .ok (m.setBuf y (List.zipWith (fun u v => a * u + v) (m x) (m y))) := by
  rcases hs with rfl | rfl
  · exact axpyD_eq (by omega)
  · show axpyS n a m x y = _
    unfold axpyS; rw [axpyCore_eq hx hy]; rfl

theorem inner_raw (hs : sz = none ∨ sz = some n) {m : Mem T} {M j k : Nat} (hn : 0 < n) (hk : k < M) (hj : j < M)
    (lk : m.len k = n) (lj : m.len j = n) (lM : m.len M = n) :
    inner sz M j k m = (divC (-dotUp n (m.val k) (m.val M)) (dotUp n (m.val k) (m.val k)) >>= fun a =>
      .ok (m.setBuf j (List.zipWith (fun u v => a * u + v) (m k) (m j)))) := by
  unfold inner
  rw [at'_ok hk, ok_bind, at'_ok hj, ok_bind, (dot_raw hs hn lk lM).1, ok_bind, (dot_raw hs hn lk lk).2, ok_bind]
  congr 1
  funext a
  exact axpy_raw hs lk lj

/-- The inner loop. -/
theorem inner_loop_raw (hs : sz = none ∨ sz = some n) {m : Mem T} {M j : Nat} (hn : 0 < n) (hj : j < M)
    (hm : ∀ k, k < M → m.len k = n) (hM : m M = m j) :
    Sat (fun m' : Mem T => ∃ (l : List T) (c : Nat → T), m' = m.setBuf j l ∧ l.length = n ∧
        (∀ k, k < j → divC (-dotUp n (m.val k) (m.val j)) (dotUp n (m.val k) (m.val k)) = .ok (c k)) ∧
        ∀ i, i < n → val0 l i = addUpL (fun k => c k * m.val k i) j (m.val j i))
      (fun e => ∃ k, k < j ∧ divC (-dotUp n (m.val k) (m.val j)) (dotUp n (m.val k) (m.val k)) = .error e)
      (forRange 0 j (inner sz M j) m) := by
  refine forRange_sat (I := fun k (m' : Mem T) => ∃ (l : List T) (c : Nat → T), m' = m.setBuf j l ∧ l.length = n ∧
      (∀ p, p < k → divC (-dotUp n (m.val p) (m.val j)) (dotUp n (m.val p) (m.val p)) = .ok (c p)) ∧
      ∀ i, i < n → val0 l i = addUpL (fun p => c p * m.val p i) k (m.val j i))
    (Nat.zero_le _) ⟨m j, fun _ => 0, (Mem.setBuf_same _ _).symm, hm j hj, by simp, by simp [Mem.val, addUpL]⟩ ?_
  rintro k m' - hk ⟨l, c, rfl, hl, hc, hv⟩
  have ek : m.setBuf j l k = m k := Mem.setBuf_other _ (by omega) _
  have eM : m.setBuf j l M = m j := by rw [Mem.setBuf_other _ (by omega), hM]
  have ej : m.setBuf j l j = l := Mem.setBuf_self _ _ _
  have lk : (m k).length = n := hm k (by omega)
  have vk : (m.setBuf j l).val k = m.val k := by unfold Mem.val; rw [ek]
  have vM : (m.setBuf j l).val M = m.val j := by unfold Mem.val; rw [eM]
  rw [inner_raw hs hn (by omega) hj (by rw [Mem.len_eq, ek]; exact lk) (by rw [Mem.len_eq, ej]; exact hl)
    (by rw [Mem.len_eq, eM]; exact hm j hj), vk, vM, ek, ej]
  cases hd : divC (-dotUp n (m.val k) (m.val j)) (dotUp n (m.val k) (m.val k)) with
  | error e => exact ⟨k, hk, hd⟩
  | ok a =>
    rw [ok_bind]
    refine ⟨_, fun p => if p = k then a else c p, by rw [Mem.setBuf_setBuf], by simp [lk, hl], fun p hp => ?_,
      fun i hi => ?_⟩
    · show _ = Except.ok (if p = k then a else c p)
      by_cases h : p = k
      · subst h; rw [if_pos rfl]; exact hd
      · rw [if_neg h]; exact hc p (by omega)
    · rw [val0_zipWith (by omega) (by omega), hv i hi]
      show _ = (if k = k then a else c k) * m.val k i + _
      rw [if_pos rfl]
      refine congrArg (a * m.val k i + ·) (addUpL_congr (fun p hp => ?_) _)
      show _ = (if p = k then a else c p) * _
      rw [if_neg (by omega)]

/-- The whole run. -/
theorem cgs_raw (nd : Bool) (hs : sz = none ∨ sz = some n) {m : Mem T} {M : Nat} (hn : 0 < n) (hM : 0 < M)
    (hm : ∀ k, k < M → m.len k = n) :
    Sat (fun m' : Mem T => (∀ k, k < M → m'.len k = n) ∧ (∀ q, M < q → m' q = m q) ∧ m' 0 = m 0 ∧
        ∃ c, CgsRec n M m.val m'.val c)
      (fun e => ∃ (w c : Nat → Nat → T) (j k : Nat), k < j ∧ j < M ∧ CgsRec n j m.val w c ∧
        divC (-dotUp n (w k) (m.val j)) (dotUp n (w k) (w k)) = .error e)
      (cgs nd sz M m) := by
  unfold cgs
  rw [at'_ok hM, ok_bind, hm 0 hM]
  refine Sat.mono (forRange_sat (I := fun j (m' : Mem T) => (∀ k, k < M → m'.len k = n) ∧
      (∀ q, j ≤ q → q ≠ M → m' q = m q) ∧ m' 0 = m 0 ∧ ∃ c, CgsRec n j m.val m'.val c)
    (hi := M) hM ⟨hm, fun _ _ _ => rfl, rfl, fun _ _ => 0, ⟨fun j hj k hk => by omega, fun j hj i hi => ?_⟩⟩ ?_) ?_
    (fun e h => h)
  · rw [show j = 0 by omega]; rfl
  · rintro j m' hj1 hjM ⟨hm', hlast, hz, c, hr⟩
    unfold outer
    have l1 : m'.len 1 = n := hm' 1 (by omega)
    rw [at'_ok (show 1 < M by omega), ok_bind, show (n == m'.len 1) = true by simp [l1], cassert_true, ok_bind,
      at'_ok hjM, ok_bind]
    have hsz : ∀ k, k < M → (m'.setBuf M (m' j)).len k = n := fun k hk => by
      rw [Mem.len_eq, Mem.setBuf_other _ (by omega)]; exact hm' k hk
    have hval : ∀ k, k < M → (m'.setBuf M (m' j)).val k = m'.val k := fun k hk => by
      unfold Mem.val; rw [Mem.setBuf_other _ (by omega)]
    have hvj : m'.val j = m.val j := by unfold Mem.val; rw [hlast j (le_refl _) (by omega)]
    refine Sat.mono (inner_loop_raw hs hn hjM hsz (by rw [Mem.setBuf_self, Mem.setBuf_other _ (by omega)])) ?_ ?_
    · rintro m'' ⟨l, d, rfl, hl, hd, hv⟩
      have hval' : ∀ k, k < M → k ≠ j → ((m'.setBuf M (m' j)).setBuf j l).val k = m'.val k := fun k hk hkj => by
        rw [← hval k hk]; unfold Mem.val; rw [Mem.setBuf_other _ hkj]
      have hvalj : ((m'.setBuf M (m' j)).setBuf j l).val j = val0 l := by
        unfold Mem.val; rw [Mem.setBuf_self]
      refine ⟨?_, ?_, ?_, fun k p => if p = j then d k else c k p, ⟨fun p hp k hk => ?_, fun p hp i hi => ?_⟩⟩
      · intro k hk
        rw [Mem.len_eq]
        by_cases h : k = j
        · rw [h, Mem.setBuf_self]; exact hl
        · rw [Mem.setBuf_other _ h]; exact hsz k hk
      · intro q hq hqM
        rw [Mem.setBuf_other _ (by omega), Mem.setBuf_other _ hqM]
        exact hlast q (by omega) hqM
      · rw [Mem.setBuf_other _ (by omega), Mem.setBuf_other _ (by omega)]; exact hz
      · show _ = Except.ok (if p = j then d k else c k p)
        rw [hval' k (by omega) (by omega)]
        by_cases h : p = j
        · subst h
          rw [if_pos rfl, ← hd k hk, hval k (by omega), hval p hjM, hvj]
        · rw [if_neg h]; exact hr.coef p (by omega) k hk
      · by_cases h : p = j
        · subst h
          rw [hvalj, hv i hi, hval p hjM, hvj]
          refine addUpL_congr (fun k hk => ?_) _
          show _ = (if p = p then d k else c k p) * _
          rw [if_pos rfl, hval k (by omega), hval' k (by omega) (by omega)]
        · rw [hval' p (by omega) h, hr.vec p (by omega) i hi]
          refine addUpL_congr (fun k hk => ?_) _
          show _ = (if p = j then d k else c k p) * _
          rw [if_neg h, hval' k (by omega) (by omega)]
    · rintro e ⟨k, hk, h0⟩
      refine ⟨m'.val, c, j, k, hk, hjM, hr, ?_⟩
      rwa [hval k (by omega), hval j hjM, hvj] at h0
  · rintro m' ⟨h1, h2, h3, h4⟩
    exact ⟨h1, fun q hq => h2 q (by omega) (by omega), h3, h4⟩

end Lalib.Cgs
