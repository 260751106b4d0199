import Verif.Proofs.SameOut
import Verif.Props.Eval
import Verif.Model.Cgs

/-! # Property C88: other units, same computation

The theorems compare two calls.  `S : Scaling T` says what the admissible factors are and what it means for a number to be
`c` times another one; it exists for rounded arithmetic (`Fl.scaling`: every factor that commutes with rounding, and for a
binary format those are the powers of two and their negatives, `C88_factors`) and for IEEE 754 numbers
(`Fp.scaling`: the signs, zeros of either sign being identified). -/

namespace Lalib.Props

open Lalib

variable {T : Type} [Zero T] [Add T] [Sub T] [Mul T] [Neg T] [Div T] [CDiv T] [CZero T] [LT T] [Sqrt T] [CSqrt T]
  (S : Scaling T)

/-! ## Vectors

Calls with any arguments, sizes included: the two calls end in the same way. -/

section vec
variable {P : Nat → Prop} {u : Nat → Nat → ℝ} {m m' : Mem T}

theorem scaling_dotCore (h : S.Bufs P u m m') (hu : ∀ p, P p → ∀ i, S.ok (u p i)) {x y : Nat} (hx : P x) (hy : P y) {e : ℝ}
    (he : ∀ i, u x i * u y i = e) (n : Nat) : SameOut (S.rel e) (dotCore m x y n) (dotCore m' x y n) := by
  have hmul : ∀ i a a' b b', S.rel (u x i) a a' → S.rel (u y i) b b' → S.rel e (a * b) (a' * b') :=
    fun i _ _ _ _ ha hb => S.cast (he i) (S.mul (hu x hx i) (hu y hy i) ha hb)
  have hok : S.ok e := by rw [← he 0]; exact S.ok_mul (hu x hx 0) (hu y hy 0)
  refine (h.rd hx 0).bind fun a a' ha => (h.rd hy 0).bind fun b b' hb => ?_
  refine SameOut.forRange' (hmul 0 a a' b b' ha hb) fun i r r' _ _ hr => ?_
  exact (h.rd hx i).bind fun a a' ha => (h.rd hy i).bind fun b b' hb => S.add hok hr (hmul i a a' b b' ha hb)

/-- The scalar product, every overload, every size. -/
theorem C88_dot (h : S.Bufs P u m m') (hu : ∀ p, P p → ∀ i, S.ok (u p i)) (x y : Nat) (hx : P x) (hy : P y) (e : ℝ)
    (he : ∀ i, u x i * u y i = e) (N : Nat) :
    SameOut (S.rel e) (dynDot m x y) (dynDot m' x y) ∧ SameOut (S.rel e) (dotDD m x y) (dotDD m' x y) ∧
    SameOut (S.rel e) (dotSS N m x y) (dotSS N m' x y) ∧
    SameOut (S.rel e) (sizedDotDyn N m x y) (sizedDotDyn N m' x y) := by
  have k := scaling_dotCore S h hu hx hy he
  unfold dynDot dotDD dotSS sizedDotDyn
  rw [h.len hx, h.len hy]
  exact ⟨.check rfl (k _), (SameOut.check rfl (k _)).noexcept, (k N).noexcept, (k N).noexcept⟩

theorem scaling_tree (h : S.Bufs P u m m') (hu : ∀ p, P p → ∀ i, S.ok (u p i)) {x y : Nat} (hx : P x) (hy : P y) {e : ℝ}
    (he : ∀ i, u x i * u y i = e) : ∀ t : RedTree, SameOut (S.rel e) (t.eval m x y) (t.eval m' x y)
  | .zero => S.zero (by rw [← he 0]; exact S.ok_mul (hu x hx 0) (hu y hy 0))
  | .leaf i => (h.rd hx i).bind fun _ _ ha => (h.rd hy i).bind fun _ _ hb =>
      S.cast (he i) (S.mul (hu x hx i) (hu y hy i) ha hb)
  | .node l r => (scaling_tree h hu hx hy he l).bind fun _ _ ha => (scaling_tree h hu hx hy he r).bind fun _ _ hb =>
      S.add (by rw [← he 0]; exact S.ok_mul (hu x hx 0) (hu y hy 0)) ha hb

/-- The same for every shape of the `simd` reduction, provided both calls use the same one. -/
theorem C88_dot_any_shape (h : S.Bufs P u m m') (hu : ∀ p, P p → ∀ i, S.ok (u p i)) (x y : Nat) (hx : P x) (hy : P y) (e : ℝ)
    (he : ∀ i, u x i * u y i = e) (t : RedTree) :
    SameOut (S.rel e) (dotCoreTree t m x y) (dotCoreTree t m' x y) :=
  (h.rd hx 0).bind fun _ _ ha => (h.rd hy 0).bind fun _ _ hb =>
    (scaling_tree S h hu hx hy he t).bind fun _ _ hr =>
      S.add (by rw [← he 0]; exact S.ok_mul (hu x hx 0) (hu y hy 0)) (S.cast (he 0) (S.mul (hu x hx 0) (hu y hy 0) ha hb)) hr

/-- The norm, for factors of one absolute value. -/
theorem C88_norm2 (h : S.Bufs P u m m') (hu : ∀ p, P p → ∀ i, S.ok (u p i)) (x : Nat) (hx : P x) (c : ℝ) (hc : S.ok c)
    (he : ∀ i, |u x i| = |c|) (t : RedTree) :
    SameOut (S.rel |c|) (vecNorm2 m x) (vecNorm2 m' x) ∧
    SameOut (S.rel |c|) (norm2CoreTree t m x) (norm2CoreTree t m' x) := by
  have he' : ∀ i, u x i * u x i = c * c := fun i => by rw [← abs_mul_abs_self, he i, abs_mul_abs_self]
  have hok := S.ok_mul hc hc
  constructor
  · unfold vecNorm2
    rw [h.len hx]
    refine SameOut.noexcept (SameOut.bind (P := S.rel (c * c)) ?_ fun a b hab => S.sqrtC hc hab)
    refine SameOut.forRange' (S.zero hok) fun i r r' _ _ hr => ?_
    exact (h.rd hx i).bind fun a a' ha => (h.rd hx i).bind fun b b' hb =>
      S.add hok hr (S.cast (he' i) (S.mul (hu x hx i) (hu x hx i) ha hb))
  · exact (scaling_tree S h hu hx hx he' t).bind fun a b hab => S.sqrtC hc (S.add hok (S.zero hok) hab)

theorem scaling_elem1 (h : S.Bufs P u m m') {f f' : T → T} {v vr : Nat} (hv : P v) (hr : P vr) {i : Nat}
    (hf : ∀ a a', S.rel (u v i) a a' → S.rel (u vr i) (f a) (f' a')) :
    SameOut (S.Bufs P u) (elem1 f v vr i m) (elem1 f' v vr i m') :=
  (h.rd hv i).bind fun a a' ha => h.wr hr i (hf a a' ha)

theorem scaling_elem2 (h : S.Bufs P u m m') {f f' : T → T → T} {v w vr : Nat} (hv : P v) (hw : P w) (hr : P vr) {i : Nat}
    (hf : ∀ a a' b b', S.rel (u v i) a a' → S.rel (u w i) b b' → S.rel (u vr i) (f a b) (f' a' b')) :
    SameOut (S.Bufs P u) (elem2 f v w vr i m) (elem2 f' v w vr i m') :=
  (h.rd hv i).bind fun a a' ha => (h.rd hw i).bind fun b b' hb => h.wr hr i (hf a a' b b' ha hb)

/-- Sums: any of the three vectors may be the same object, the iterations of the parallel loop in any order. -/
theorem C88_add (h : S.Bufs P u m m') (hu : ∀ p, P p → ∀ i, S.ok (u p i)) (v w r : Nat) (hv : P v) (hw : P w) (hr : P r)
    (hvw : u v = u w) (hvr : u v = u r) (ord : List Nat) (N : Nat) :
    SameOut (S.Bufs P u) (addDD ord m v w r) (addDD ord m' v w r) ∧
    SameOut (S.Bufs P u) (addSS ord N m v w r) (addSS ord N m' v w r) ∧
    SameOut (S.Bufs P u) (addSD ord N m v w r) (addSD ord N m' v w r) ∧
    SameOut (S.Bufs P u) (subDD ord m v w r) (subDD ord m' v w r) ∧
    SameOut (S.Bufs P u) (subSS ord N m v w r) (subSS ord N m' v w r) ∧
    SameOut (S.Bufs P u) (subSD ord N m v w r) (subSD ord N m' v w r) := by
  have ha : ∀ n, SameOut (S.Bufs P u) (addCore ord m v w r n) (addCore ord m' v w r n) := by
    intro n
    have hs : ∀ i s s', S.Bufs P u s s' →
        SameOut (S.Bufs P u) (elem2 (· + ·) v w r i s) (elem2 (· + ·) v w r i s') := fun i s s' hs =>
      scaling_elem2 S hs hv hw hr fun a a' b b' ha hb => by
        rw [← hvr]; exact S.add (hu v hv i) ha (by rw [hvw]; exact hb)
    unfold addCore
    split
    · exact SameOut.forRange' h fun i s s' _ _ h => hs i s s' h
    · exact SameOut.forOrder h fun i s s' _ h => hs i s s' h
  have hb : ∀ n, SameOut (S.Bufs P u) (subCore ord m v w r n) (subCore ord m' v w r n) := by
    intro n
    have hs : ∀ i s s', S.Bufs P u s s' →
        SameOut (S.Bufs P u) (elem2 (· - ·) v w r i s) (elem2 (· - ·) v w r i s') := fun i s s' hs =>
      scaling_elem2 S hs hv hw hr fun a a' b b' ha hb => by
        rw [← hvr]; exact S.sub (hu v hv i) ha (by rw [hvw]; exact hb)
    unfold subCore
    split
    · exact SameOut.forRange' h fun i s s' _ _ h => hs i s s' h
    · exact SameOut.forOrder h fun i s s' _ h => hs i s s' h
  unfold addDD addSS addSD subDD subSS subSD
  rw [h.len hv, h.len hw]
  exact ⟨.check rfl (ha _), (ha N).noexcept, .check rfl (ha N), .check rfl (hb _), (hb N).noexcept, .check rfl (hb N)⟩

/-- `y := alpha x + y`. -/
theorem C88_axpy (h : S.Bufs P u m m') (hu : ∀ p, P p → ∀ i, S.ok (u p i)) (x y : Nat) (hx : P x) (hy : P y) (a : ℝ)
    (ha : S.ok a) (he : ∀ i, a * u x i = u y i) (alpha alpha' : T) (hal : S.rel a alpha alpha') (N : Nat) :
    SameOut (S.Bufs P u) (axpyD alpha m x y) (axpyD alpha' m' x y) ∧
    SameOut (S.Bufs P u) (axpyS N alpha m x y) (axpyS N alpha' m' x y) := by
  have hk : ∀ n, SameOut (S.Bufs P u) (axpyCore alpha m x y n) (axpyCore alpha' m' x y n) := fun n =>
    SameOut.forRange' h fun i s s' _ _ hs => scaling_elem2 S hs hx hy hy fun a a' b b' h1 h2 =>
      S.add (hu y hy i) (S.cast (he i) (S.mul ha (hu x hx i) hal h1)) h2
  unfold axpyD axpyS
  rw [h.len hx, h.len hy]
  exact ⟨(SameOut.check rfl (hk _)).noexcept, (hk N).noexcept⟩

/-- `x := alpha x`: the unit of `x` changes. -/
theorem C88_scale (h : S.Bufs P u m m') (hu : ∀ p, P p → ∀ i, S.ok (u p i)) (x : Nat) (hx : P x) (a : ℝ) (ha : S.ok a)
    (alpha alpha' : T) (hal : S.rel a alpha alpha') :
    SameOut (S.Bufs P (Function.update u x fun i => a * u x i)) (scaleV alpha m x) (scaleV alpha' m' x) := by
  unfold scaleV scalCore
  rw [← h.len hx]
  refine SameOut.noexcept (SameOut.mono (SameOut.forRange (I := fun k s s' => s.len x = m.len x ∧
    S.Bufs P (Function.update u x fun i => if i < k then a * u x i else u x i) s s') (Nat.zero_le _) ⟨rfl, ?_⟩ ?_) ?_)
  · simpa using h
  · intro i s s' _ hi hs
    unfold elem1
    obtain ⟨hlen, hs⟩ := hs
    have hi1 : i < s.len x := by omega
    have hi2 : i < s'.len x := by rw [← hs.len hx]; exact hi1
    have hv := hs.val hx hi1
    rw [Mem.rd_ok hi1, Mem.rd_ok hi2]
    simp only [ok_bind]
    rw [Mem.wr_ok hi1, Mem.wr_ok hi2]
    refine ⟨by rw [← hlen]; show ((s.upd x i _) x).length = _; rw [Mem.upd_same_buf]; simp [Mem.len], fun q hq => ?_⟩
    by_cases e : q = x
    · subst e
      have hb := hs q hq
      rw [Mem.upd_same_buf, Mem.upd_same_buf]
      refine ⟨by simpa using hb.1, fun j hj => ?_⟩
      have hj' : j < (s q).length := by simpa using hj
      have hbj := hb.2 j hj'
      rw [val0_set hi1, val0_set hi2]
      simp only [Function.update_self] at hv hbj ⊢
      by_cases hji : j = i
      · subst hji
        rw [if_pos rfl, if_pos rfl, if_pos (Nat.lt_succ_self _)]
        rw [if_neg (by omega)] at hv
        exact S.mul ha (hu q hq _) hal hv
      · rw [if_neg hji, if_neg hji]
        simpa only [show (j < i + 1) = (j < i) by simp only [eq_iff_iff]; omega] using hbj
    · have hb := hs q hq
      rw [Mem.upd_other _ e, Mem.upd_other _ e]
      rw [Function.update_of_ne e] at hb ⊢
      exact hb
  · rintro s s' ⟨hlen, hs⟩ q hq
    have hb := hs q hq
    by_cases e : q = x
    · subst e
      refine hb.congr fun i hi => ?_
      rw [Function.update_self, Function.update_self, if_pos (lt_of_lt_of_eq hi hlen)]
    · rw [Function.update_of_ne e] at hb ⊢
      exact hb

/-- Cross products. -/
theorem C88_cross (h : S.Bufs P u m m') (hu : ∀ p, P p → ∀ i, S.ok (u p i)) (x y r : Nat) (hx : P x) (hy : P y) (hr : P r)
    (nd dx dy dr : Bool) :
    (∀ e, u x 0 * u y 1 = e → u y 0 * u x 1 = e → SameOut (S.rel e) (cross2 nd dx dy m x y) (cross2 nd dx dy m' x y)) ∧
    ((∀ i j k, (i, j, k) ∈ [(0, 1, 2), (1, 2, 0), (2, 0, 1)] → u x j * u y k = u r i ∧ u y j * u x k = u r i) →
      SameOut (S.Bufs P u) (cross3 nd dx dy dr m x y r) (cross3 nd dx dy dr m' x y r) ∧
      SameOut (S.Bufs P u) (crossAcc nd dx dy dr m x y r) (crossAcc nd dx dy dr m' x y r)) := by
  refine ⟨fun e h1 h2 => ?_, fun hc => ?_⟩
  · unfold cross2
    rw [h.len hx, h.len hy]
    refine SameOut.noexcept (.check rfl (.check rfl ?_))
    refine (h.rd hx 0).bind fun a0 a0' k1 => (h.rd hy 1).bind fun b1 b1' k2 => (h.rd hy 0).bind fun b0 b0' k3 =>
      (h.rd hx 1).bind fun a1 a1' k4 => ?_
    exact S.sub (by rw [← h1]; exact S.ok_mul (hu _ (by assumption) _) (hu _ (by assumption) _)) (S.cast h1 (S.mul (hu _ (by assumption) _) (hu _ (by assumption) _) k1 k2))
      (S.cast h2 (S.mul (hu _ (by assumption) _) (hu _ (by assumption) _) k3 k4))
  · have hd : ∀ i j k, (i, j, k) ∈ [(0, 1, 2), (1, 2, 0), (2, 0, 1)] → ∀ {a a' b b' c c' d d' : T},
        S.rel (u x j) a a' → S.rel (u y k) b b' → S.rel (u y j) c c' → S.rel (u x k) d d' →
        S.rel (u r i) (a * b - c * d) (a' * b' - c' * d') := by
      intro i j k hi a a' b b' c c' d d' k1 k2 k3 k4
      exact S.sub (hu _ (by assumption) _) (S.cast (hc i j k hi).1 (S.mul (hu _ (by assumption) _) (hu _ (by assumption) _) k1 k2))
        (S.cast (hc i j k hi).2 (S.mul (hu _ (by assumption) _) (hu _ (by assumption) _) k3 k4))
    unfold cross3 crossAcc
    rw [h.len hx, h.len hy, h.len hr]
    constructor
    · refine SameOut.noexcept (.check rfl (.check rfl (.check rfl ?_)))
      refine (h.rd hx 0).bind fun a0 a0' p0 => (h.rd hx 1).bind fun a1 a1' p1 => (h.rd hx 2).bind fun a2 a2' p2 =>
        (h.rd hy 0).bind fun b0 b0' q0 => (h.rd hy 1).bind fun b1 b1' q1 => (h.rd hy 2).bind fun b2 b2' q2 => ?_
      exact (h.wr hr 0 (hd 0 1 2 (by simp) p1 q2 q1 p2)).bind fun s s' hs =>
        (hs.wr hr 1 (hd 1 2 0 (by simp) p2 q0 q2 p0)).bind fun s s' hs => hs.wr hr 2 (hd 2 0 1 (by simp) p0 q1 q0 p1)
    · refine SameOut.noexcept (.check rfl (.check rfl (.check rfl ?_)))
      refine (h.rd hx 0).bind fun a0 a0' p0 => (h.rd hx 1).bind fun a1 a1' p1 => (h.rd hx 2).bind fun a2 a2' p2 =>
        (h.rd hy 0).bind fun b0 b0' q0 => (h.rd hy 1).bind fun b1 b1' q1 => (h.rd hy 2).bind fun b2 b2' q2 =>
        (h.rd hr 0).bind fun c0 c0' r0 => (h.rd hr 1).bind fun c1 c1' r1 => (h.rd hr 2).bind fun c2 c2' r2 => ?_
      exact (h.wr hr 0 (S.add (hu _ (by assumption) _) (hd 0 1 2 (by simp) p1 q2 q1 p2) r0)).bind fun s s' hs =>
        (hs.wr hr 1 (S.add (hu _ (by assumption) _) (hd 1 2 0 (by simp) p2 q0 q2 p0) r1)).bind fun s s' hs =>
        hs.wr hr 2 (S.add (hu _ (by assumption) _) (hd 2 0 1 (by simp) p0 q1 q0 p1) r2)

end vec

/-! ## Gram-Schmidt -/

section cgs
variable {M : Nat} {c : Nat → ℝ} {m m' : Mem T}

omit [Sub T] [Neg T] [Div T] [CDiv T] [CZero T] [LT T] [Sqrt T] [CSqrt T] in
/-- The scalar product of a vector with itself is a sum of squares. -/
theorem scaling_self {x : Nat} (hl : m.len x = m'.len x) (n : Nat) :
    SameOut (fun r r' => ∃ k, 0 < m.len x ∧ k ≤ m.len x ∧
      r = addUp (fun i => m.val x i * m.val x i) 1 k (m.val x 0 * m.val x 0) ∧
      r' = addUp (fun i => m'.val x i * m'.val x i) 1 k (m'.val x 0 * m'.val x 0)) (dotCore m x x n) (dotCore m' x x n) := by
  by_cases h0 : 0 < m.len x
  · unfold dotCore
    rw [Mem.rd_ok h0, Mem.rd_ok (show 0 < m'.len x by omega)]
    simp only [ok_bind]
    rcases Nat.lt_or_ge 1 n with hn | hn
    · refine SameOut.mono (SameOut.forRange (I := fun k r r' => k ≤ m.len x ∧
        r = addUp (fun i => m.val x i * m.val x i) 1 k (m.val x 0 * m.val x 0) ∧
        r' = addUp (fun i => m'.val x i * m'.val x i) 1 k (m'.val x 0 * m'.val x 0)) (by omega) ⟨h0, ?_, ?_⟩ ?_)
        fun r r' hr => ⟨n, h0, hr⟩
      · rw [Fp.addUp_ge _ (Nat.le_refl _)]
      · rw [Fp.addUp_ge _ (Nat.le_refl _)]
      · rintro i r r' h1 hi ⟨hk, rfl, rfl⟩
        obtain ⟨j, rfl⟩ := Nat.exists_eq_add_of_le h1
        by_cases hik : 1 + j < m.len x
        · rw [Mem.rd_ok hik, Mem.rd_ok (show 1 + j < m'.len x by omega)]
          simp only [ok_bind]
          exact ⟨hik, (Fp.addUp_succ _ _ _ _).symm, (Fp.addUp_succ _ _ _ _).symm⟩
        · rw [Mem.rd_oob (by omega), Mem.rd_oob (show m'.len x ≤ 1 + j by omega)]
          rfl
    · rw [forRange_of_le hn, forRange_of_le hn]
      exact ⟨0, h0, Nat.zero_le _, by rw [Fp.addUp_ge _ (by omega)], by rw [Fp.addUp_ge _ (by omega)]⟩
  · unfold dotCore
    rw [Mem.rd_oob (by omega), Mem.rd_oob (show m'.len x ≤ 0 by omega)]
    rfl

/-- Gram-Schmidt: every vector in its own unit.  The calls end in the same way, and the vectors stay in their units. -/
theorem C88_cgs (nd : Bool) (sz : Option Nat) (hc : ∀ k, k < M → S.ok (c k))
    (h : S.Bufs (· < M) (fun p _ => c p) m m') :
    SameOut (S.Bufs (· < M) fun p _ => c p) (Cgs.cgs nd sz M m) (Cgs.cgs nd sz M m') := by
  have hat : ∀ k v, Cgs.at' M k = .ok v → v = k ∧ k < M := by
    intro k v e
    unfold Cgs.at' at e
    split at e
    · next hk => exact ⟨(Except.ok.inj e).symm, hk⟩
    · exact nomatch e
  unfold Cgs.cgs
  refine SameOut.same rfl fun v0 hv0 => ?_
  obtain ⟨rfl, h0⟩ := hat _ _ hv0
  rw [h.len h0]
  refine SameOut.forRange' h fun j s s' _ hj hs => ?_
  unfold Cgs.outer
  refine SameOut.same rfl fun v1 hv1 => ?_
  obtain ⟨rfl, h1⟩ := hat _ _ hv1
  rw [hs.len h1]
  refine SameOut.check rfl (SameOut.same rfl fun vj hvj => ?_)
  obtain ⟨rfl, hj⟩ := hat _ _ hvj
  -- the copy has the unit of the vector
  let w : Nat → Nat → ℝ := fun p _ => if p = M then c vj else c p
  have hw : ∀ p, p ≤ M → ∀ i, S.ok (w p i) := by
    intro p hp i
    simp only [w]
    split
    · exact hc vj hj
    · exact hc p (by omega)
  have hcp : S.Bufs (· ≤ M) w (s.setBuf M (s vj)) (s'.setBuf M (s' vj)) := by
    refine hs.setBuf ?_ fun q hq hqM => ⟨by omega, by simp only [w, if_neg hqM]⟩
    simpa [w] using hs vj hj
  refine SameOut.mono (SameOut.forRange' hcp fun k t t' _ hk ht => ?_) fun t t' ht p hp => by
    have := ht p (Nat.le_of_lt hp)
    simp only [w, if_neg (Nat.ne_of_lt hp)] at this
    exact this
  unfold Cgs.inner
  refine SameOut.same rfl fun k' hk' => SameOut.same rfl fun j' hj' => ?_
  obtain ⟨rfl, hkk⟩ := hat _ _ hk'
  obtain ⟨rfl, -⟩ := hat _ _ hj'
  replace hk := hkk
  have hkM : k' ≤ M := Nat.le_of_lt hk
  have hwk : w k' = fun _ => c k' := by funext i; simp only [w, if_neg (Nat.ne_of_lt hk)]
  have hwj : w j' = fun _ => c j' := by funext i; simp only [w, if_neg (Nat.ne_of_lt hj)]
  have hwM : w M = fun _ => c j' := by funext i; simp only [w, if_pos]
  have hck := hc k' hk
  have hcj := hc j' hj
  have hnum : SameOut (S.rel (c k' * c j')) (Cgs.dot sz t k' M) (Cgs.dot sz t' k' M) := by
    have := C88_dot S ht hw k' M hkM (Nat.le_refl _) (c k' * c j') (fun i => by rw [hwk, hwM])
    unfold Cgs.dot
    cases sz with
    | none => exact (this 0).2.1
    | some N => exact (this N).2.2.1
  refine hnum.bind fun a a' ha => ?_
  have hl := ht.len hkM
  have hden := scaling_self (m := t) (m' := t') hl
  have hden : SameOut (fun r r' => ∃ n, 0 < t.len k' ∧ n ≤ t.len k' ∧
      r = addUp (fun i => t.val k' i * t.val k' i) 1 n (t.val k' 0 * t.val k' 0) ∧
      r' = addUp (fun i => t'.val k' i * t'.val k' i) 1 n (t'.val k' 0 * t'.val k' 0))
      (Cgs.mdot sz t k' k') (Cgs.mdot sz t' k' k') := by
    unfold Cgs.mdot
    cases sz with
    | none => unfold dynDot; rw [← hl]; exact .check rfl (hden _)
    | some N => exact (hden N).noexcept
  refine hden.bind ?_
  rintro _ _ ⟨n, hn0, hn, rfl, rfl⟩
  have hv : ∀ i, i < t.len k' → S.rel (c k') (t.val k' i) (t'.val k' i) := fun i hi => by
    have := ht.val hkM hi
    rwa [hwk] at this
  have hq := S.divSq (S.ok_mul hck hcj) hck (S.neg (S.ok_mul hck hcj) ha) (hv 0 hn0) (n := n)
    (fun i hi => hv i (by omega))
  refine hq.bind fun r r' hr => ?_
  have hne := S.ne_zero hck
  have := C88_axpy S ht hw k' j' hkM (Nat.le_of_lt hj) (c k' * c j' / (c k' * c k'))
    (S.ok_div (S.ok_mul hck hcj) (S.ok_mul hck hck)) (fun i => by rw [hwk, hwj]; field_simp) r r' hr
  unfold Cgs.axpy
  cases sz with
  | none => exact (this 0).1
  | some N => exact (this N).2

end cgs

/-! ## Products -/

section prod

/-- Matrix-vector product: `diag(r) A diag(c)` instead of `A`, other units for the scalars and vectors to match; in place
(`x = y`) or not. -/
theorem C88_gemv (nd : Bool) (alpha alpha' beta beta' : T) (a : MatRef) (x y : Nat) (s s' : Mem T)
    (ha : a.Wf s) (hx : s.len x = a.m) (hy : s.len y = a.n) (hay : a.buf ≠ y)
    (ha' : a.Wf s') (hx' : s'.len x = a.m) (hy' : s'.len y = a.n) (p q t : ℝ) (r c : Nat → ℝ)
    (hp : S.ok p) (hq : S.ok q) (ht : S.ok t) (hr : ∀ i, i < a.n → S.ok (r i)) (hc : ∀ i, i < a.m → S.ok (c i))
    (hal : S.rel p alpha alpha') (hbe : S.rel q beta beta')
    (hA : S.Mat a.n a.m r c (entry a.m (s a.buf)) (entry a.m (s' a.buf)))
    (hX : S.Vec a.m (fun k => t / c k) (val0 (s x)) (val0 (s' x)))
    (hY : S.Vec a.n (fun i => p * r i * t / q) (val0 (s y)) (val0 (s' y))) :
    ∃ o o', gemvDD nd alpha a x beta y s = .ok o ∧ gemvSD nd alpha a x beta y s = .ok o ∧
      gemvSS alpha a x beta y s = .ok o ∧ gemvDD nd alpha' a x beta' y s' = .ok o' ∧
      gemvSD nd alpha' a x beta' y s' = .ok o' ∧ gemvSS alpha' a x beta' y s' = .ok o' ∧
      S.Vec a.n (fun i => p * r i * t) (val0 (o y)) (val0 (o' y)) := by
  obtain ⟨o, e1, e2, e3, ho⟩ := C55_gemv nd alpha beta a x y s ha hx hy hay
  obtain ⟨o', e1', e2', e3', ho'⟩ := C55_gemv nd alpha' beta' a x y s' ha' hx' hy' hay
  refine ⟨o, o', e1, e2, e3, e1', e2', e3', fun i hi => ?_⟩
  rw [ho.1, ho'.1, val0_map_range, if_pos hi, val0_map_range, if_pos hi]
  have hri := hr i hi
  have hpr := S.ok_mul (S.ok_mul hp hri) ht
  have hq0 := S.ne_zero hq
  refine S.addUp hpr (fun k _ hk => ?_) (S.cast (by field_simp) (S.mul hq (S.ok_div hpr hq) hbe (hY i hi)))
  have hck := hc k hk
  have hck0 := S.ne_zero hck
  exact S.cast (by field_simp) (S.mul (S.ok_mul hp (S.ok_mul hri hck)) (S.ok_div ht hck)
    (S.mul hp (S.ok_mul hri hck) hal (hA i k hi hk)) (hX k hk))

/-- Matrix-matrix product, `C` being the same object as `A`, as `B`, as both or as none (in both calls). -/
theorem C88_gemm (nd : Bool) (alpha alpha' beta beta' : T) (a b c : MatRef) (s s' : Mem T) (ha : a.Wf s) (hb : b.Wf s)
    (hc : c.Wf s) (h1 : a.n = c.n) (h2 : b.m = c.m) (h3 : a.m = b.n) (ha' : a.Wf s') (hb' : b.Wf s') (hc' : c.Wf s')
    (p q : ℝ) (r t w : Nat → ℝ) (hp : S.ok p) (hq : S.ok q) (hr : ∀ i, i < c.n → S.ok (r i))
    (ht : ∀ i, i < a.m → S.ok (t i)) (hw : ∀ i, i < c.m → S.ok (w i))
    (hal : S.rel p alpha alpha') (hbe : S.rel q beta beta')
    (hA : S.Mat c.n a.m r t (entry a.m (s a.buf)) (entry a.m (s' a.buf)))
    (hB : S.Mat a.m c.m (fun k => (t k)⁻¹) w (entry c.m (s b.buf)) (entry c.m (s' b.buf)))
    (hC : S.Mat c.n c.m (fun i => p * r i / q) w (entry c.m (s c.buf)) (entry c.m (s' c.buf))) :
    ∃ o o', (gemmDDD nd alpha a b beta c s = .ok o ∧ gemmSSS alpha a b beta c s = .ok o ∧
        gemmDSS nd alpha a b beta c s = .ok o ∧ gemmSDS nd alpha a b beta c s = .ok o ∧
        gemmDDS nd alpha a b beta c s = .ok o ∧ gemmDSD nd alpha a b beta c s = .ok o ∧
        gemmSDD nd alpha a b beta c s = .ok o) ∧
      (gemmDDD nd alpha' a b beta' c s' = .ok o' ∧ gemmSSS alpha' a b beta' c s' = .ok o' ∧
        gemmDSS nd alpha' a b beta' c s' = .ok o' ∧ gemmSDS nd alpha' a b beta' c s' = .ok o' ∧
        gemmDDS nd alpha' a b beta' c s' = .ok o' ∧ gemmDSD nd alpha' a b beta' c s' = .ok o' ∧
        gemmSDD nd alpha' a b beta' c s' = .ok o') ∧
      S.Mat c.n c.m (fun i => p * r i) w (entry c.m (o c.buf)) (entry c.m (o' c.buf)) := by
  obtain ⟨o, e1, e2, e3, e4, e5, e6, e7, ho⟩ := C55_gemm nd alpha beta a b c s ha hb hc h1 h2 h3
  obtain ⟨o', e1', e2', e3', e4', e5', e6', e7', ho'⟩ := C55_gemm nd alpha' beta' a b c s' ha' hb' hc' h1 h2 h3
  refine ⟨o, o', ⟨e1, e2, e3, e4, e5, e6, e7⟩, ⟨e1', e2', e3', e4', e5', e6', e7'⟩, fun i j hi hj => ?_⟩
  rw [ho.1, ho'.1, entry_matOf _ hi hj, entry_matOf _ hi hj]
  have hri := hr i hi
  have hwj := hw j hj
  have hpr := S.ok_mul (S.ok_mul hp hri) hwj
  have hq0 := S.ne_zero hq
  have hprq := S.ok_mul (S.ok_div (S.ok_mul hp hri) hq) hwj
  refine S.addUp hpr (fun k _ hk => ?_) ?_
  · have htk := ht k hk
    have htk0 := S.ne_zero htk
    exact S.cast (by field_simp) (S.mul (S.ok_mul hp (S.ok_mul hri htk)) (S.ok_mul (S.ok_inv htk) hwj)
      (S.mul hp (S.ok_mul hri htk) hal (hA i k hi hk)) (hB k j hk hj))
  · unfold gemmStart
    split
    · exact S.cast (by field_simp) (S.mul hq hprq hbe (hC i j hi hj))
    · exact S.cast (by field_simp) (S.mul hprq hq (hC i j hi hj) hbe)

/-- Sparse product: the stored elements of the second matrix lie where those of the first one do. -/
theorem C88_spmv (nd : Bool) (alpha alpha' beta beta' : T) (a a' : Csr T) (hw : a.Wf) (hw' : a'.Wf)
    (hptr : a'.rowPtr = a.rowPtr) (hcol : a'.col = a.col) (m x y : Nat) (s s' : Mem T)
    (hsh : a.shape = .ok (a.nrows, m)) (hsh' : a'.shape = .ok (a.nrows, m)) (hcm : ∀ c ∈ a.col, c < m)
    (hx : s.len x = m) (hy : s.len y = a.nrows) (hx' : s'.len x = m) (hy' : s'.len y = a.nrows) (hxy : x ≠ y)
    (p q t : ℝ) (r c : Nat → ℝ) (hp : S.ok p) (hq : S.ok q) (ht : S.ok t) (hr : ∀ i, i < a.nrows → S.ok (r i))
    (hc : ∀ i, i < m → S.ok (c i)) (hal : S.rel p alpha alpha') (hbe : S.rel q beta beta')
    (hA : ∀ i k, i < a.nrows → a.rowPtr.getD i 0 ≤ k → k < a.rowPtr.getD (i + 1) 0 →
      S.rel (r i * c (a.col.getD k 0)) (val0 a.val k) (val0 a'.val k))
    (hX : S.Vec m (fun k => t / c k) (val0 (s x)) (val0 (s' x)))
    (hY : S.Vec a.nrows (fun i => p * r i * t / q) (val0 (s y)) (val0 (s' y))) :
    ∃ o o', Csr.mul nd alpha a x beta y s = .ok o ∧ Csr.mul nd alpha' a' x beta' y s' = .ok o' ∧
      S.Vec a.nrows (fun i => p * r i * t) (val0 (o y)) (val0 (o' y)) := by
  have hnr : a'.nrows = a.nrows := by unfold Csr.nrows; rw [hptr]
  obtain ⟨o, e, ho⟩ := C55_spmv nd alpha beta a hw m x y s hsh hcm hx hy hxy
  obtain ⟨o', e', ho'⟩ := C55_spmv nd alpha' beta' a' hw' m x y s' (by rw [hnr]; exact hsh') (by rw [hcol]; exact hcm) hx'
    (by rw [hnr]; exact hy') hxy
  refine ⟨o, o', e, e', fun i hi => ?_⟩
  rw [ho.1, ho'.1, val0_map_range, if_pos hi, val0_map_range, if_pos (by rw [hnr]; exact hi), hptr, hcol]
  have hri := hr i hi
  have hpr := S.ok_mul (S.ok_mul hp hri) ht
  have hq0 := S.ne_zero hq
  refine S.addUp hpr (fun k hk1 hk => ?_) (S.cast (by field_simp) (S.mul hq (S.ok_div hpr hq) hbe (hY i hi)))
  have hcl : a.col.getD k 0 < m := by
    obtain ⟨g1, g2, g3⟩ := hw.ptr_le hi
    have hkl : k < a.col.length := by rw [hw.len]; omega
    apply hcm
    have : a.col.getD k 0 = a.col[k] := by simp [List.getD_eq_getElem?_getD, hkl]
    rw [this]; exact List.getElem_mem _
  have hck := hc _ hcl
  have hck0 := S.ne_zero hck
  exact S.cast (by field_simp) (S.mul (S.ok_mul hp (S.ok_mul hri hck)) (S.ok_div ht hck)
    (S.mul hp (S.ok_mul hri hck) hal (hA i k hi hk1 hk)) (hX _ hcl))

end prod

/-! ## Solvers -/

section solve

/-- Back substitution. -/
theorem C88_back_sub (a a' : UTri T) (R R' : Nat → Nat → T) (y y' : List T) (hn : a'.n = a.n) (hy : y.length = a.n)
    (hy' : y'.length = a.n) (hR : ∀ i j, i < a.n → j < a.n → a.get i j = .ok (R i j))
    (hR' : ∀ i j, i < a.n → j < a.n → a'.get i j = .ok (R' i j)) (hd : ∀ i, i < a.n → ¬ IsZ (R i i))
    (r c : Nat → ℝ) (hr : ∀ i, i < a.n → S.ok (r i)) (hc : ∀ i, i < a.n → S.ok (c i)) (hA : S.Mat a.n a.n r c R R')
    (hY : S.Vec a.n r (val0 y) (val0 y')) :
    ∃ x x', a.backSub y = .ok x ∧ a'.backSub y' = .ok x' ∧ x.length = a.n ∧ x'.length = a.n ∧
      S.Vec a.n (fun i => (c i)⁻¹) (val0 x) (val0 x') := by
  obtain ⟨x, e, hx, h⟩ := backSub_raw a hy hR fun i hi => S.div_ok _ (hd i hi)
  obtain ⟨x', e', hx', h'⟩ := backSub_raw a' (by rw [hn]; exact hy') (by rw [hn]; exact hR')
    fun i hi => S.div_ok _ (fun hz => by
      rw [hn] at hi
      exact hd i hi ((S.isZ (S.ok_mul (hr i hi) (hc i hi)) (hA i i hi hi)).mpr hz))
  rw [hn] at h' hx'
  exact ⟨x, x', e, e', hx, hx', S.backSub h h' hr hc (fun i j hij hj => hA i j (by omega) hj) hY hd⟩

include S in
theorem scaling_sq (v : T) (h : ¬ v < 0) (h0 : ¬ IsZ v) : sqrtC v = .ok (Sqrt.sqrt v) ∧ DivAt (Sqrt.sqrt v) :=
  ⟨(S.sqrt_ok v h h0).1, S.div_ok _ (S.sqrt_ok v h h0).2⟩

/-- Cholesky: `diag(d) A diag(d)` instead of `A`, the two matrices in any storage.  The same decision, and the factor is
`diag(d) L` up to the signs of its columns.  (Last case: the code accepts a matrix with a bad first pivot and keeps it as
it is, see `C36_false`.) -/
theorem C88_cholesky [DecidableLT T] (mt mt' : MemType) (n : Nat) (l l' : List T) (A A' : Nat → Nat → T)
    (hl : Lower mt n l A) (hl' : Lower mt' n l' A') (d : Nat → ℝ) (hd : ∀ i, i < n → S.ok (d i))
    (hA : ∀ i j, j ≤ i → i < n → S.rel (d i * d j) (A i j) (A' i j)) :
    (Chol.new mt n l = .error (.throw .runtimeError) ∧ Chol.new mt' n l' = .error (.throw .runtimeError)) ∨
    ∃ L L', Chol.new mt n l = .ok L ∧ Chol.new mt' n l' = .ok L' ∧ L.length = l.length ∧ L'.length = l'.length ∧
      (((∀ i, i < n → ¬ IsZ (held mt n L i i)) ∧
        ∀ i j, j ≤ i → i < n → S.rel (d i * (|d j| / d j)) (held mt n L i j) (held mt' n L' i j)) ∨
      (0 < n ∧ (IsZ (A 0 0) ∨ A 0 0 < 0) ∧ Lower mt n L A ∧ Lower mt' n L' A')) := by
  have hxl : ∀ i j, j ≤ i → i < n → val0 l (cIndex mt n i j) = A i j := hl.val
  have hxl' : ∀ i j, j ≤ i → i < n → val0 l' (cIndex mt' n i j) = A' i j := hl'.val
  have key : ∀ {F F' : Nat → Nat → T} {i : Nat}, i < n → Chol.Upto A F i → Chol.Upto A' F' i →
      (∀ r, r < i → ¬ IsZ (F r r)) →
      ((IsZ (subUp (fun k => F i k * F i k) 0 i (A i i)) ∨ subUp (fun k => F i k * F i k) 0 i (A i i) < 0) ↔
        (IsZ (subUp (fun k => F' i k * F' i k) 0 i (A' i i)) ∨ subUp (fun k => F' i k * F' i k) 0 i (A' i i) < 0)) := by
    intro F F' i hi h h' hp
    have e := S.uptoPivot hd hA h h' hi hp
    rw [S.isZ (S.ok_mul (hd i hi) (hd i hi)) e, S.lt_zero (hd i hi) e]
  have hstop : ∀ {mt : MemType} {l L : List T} {A : Nat → Nat → T}, Lower mt n l A →
      Chol.RStop (cIndex mt n) n l 0 L → Lower mt n L A := by
    intro mt l L A hl h
    refine ⟨by rw [h.len]; exact hl.1, fun i j hj hi => ?_⟩
    rw [held_eq]
    show val0 L (cIndex mt n i j) = _
    rw [← hl.val i j hj hi]
    by_cases h0 : i = 0
    · obtain rfl : j = 0 := by omega
      subst h0
      rw [h.cell]
      rfl
    · refine h.frame _ fun r c h1 h2 e => h0 ?_
      have := ((layout mt n l.length hl.len.ge).inj i j r c hj hi h1 (by omega) e).1
      omega
  obtain ⟨⟨c, L⟩, e, h⟩ := Chol.decomp_raw (scaling_sq S) mt n l hl.len.ge
  obtain ⟨⟨c', L'⟩, e', h'⟩ := Chol.decomp_raw (scaling_sq S) mt' n l' hl'.len.ge
  simp only at h h'
  have e1 : Chol.new mt n l = (do throwIf (c != 0) .runtimeError; .ok L) := by simp [Chol.new, e]
  have e2 : Chol.new mt' n l' = (do throwIf (c' != 0) .runtimeError; .ok L') := by simp [Chol.new, e']
  have piv : ∀ {mt : MemType} {l : List T} {A : Nat → Nat → T} (L : List T) (i : Nat), Lower mt n l A → i < n →
      Chol.pivot (cIndex mt n) l L i = subUp (fun k => val0 L (cIndex mt n i k) * val0 L (cIndex mt n i k)) 0 i (A i i) := by
    intro mt l A L i hl hi
    unfold Chol.pivot
    rw [hl.val i i (Nat.le_refl _) hi]
  have nz : ∀ {v w : T}, v = Sqrt.sqrt w → ¬ w < 0 ∧ ¬ IsZ w → ¬ IsZ v := fun e h => by
    rw [e]; exact (S.sqrt_ok _ h.1 h.2).2
  rcases h with ⟨rfl, hI⟩ | hS <;> rcases h' with ⟨rfl, hI'⟩ | hS'
  · refine .inr ⟨L, L', by simpa using e1, by simpa using e2, hI.len, hI'.len, .inl ⟨fun i hi => ?_, fun i j hj hi => ?_⟩⟩
    · rw [held_eq]; exact nz (hI.diag i hi) (hI.pos i hi)
    · rw [held_eq, held_eq]
      have hp : ∀ r, r < i → ¬ IsZ (val0 L (cIndex mt n r r)) := fun r hr => nz (hI.diag r (by omega)) (hI.pos r (by omega))
      by_cases hji : j < i
      · exact S.upto hd hA (hI.upto hxl hi) (hI'.upto hxl' hi) hi hp i j hj (Nat.le_refl _) (.inr hji)
      · obtain rfl : j = i := by omega
        have hpv := S.uptoPivot hd hA (hI.upto hxl hi) (hI'.upto hxl' hi) hi hp
        show S.rel _ (val0 L (cIndex mt n j j)) (val0 L' (cIndex mt' n j j))
        rw [hI.diag j hi, hI'.diag j hi, piv L j hl hi, piv L' j hl' hi]
        have h0 := S.ne_zero (hd j hi)
        exact S.cast (by field_simp) (S.sqrt (hd j hi) hpv)
  · exfalso
    have hi := hS'.lt
    have := (key hi (hI.upto hxl hi) (hS'.upto hxl' (Nat.le_refl _))
      fun r hr => nz (hI.diag r (by omega)) (hI.pos r (by omega))).mpr (by rw [← piv L' c' hl' hi]; exact hS'.piv)
    have hp := hI.pos c' hi
    rw [piv L c' hl hi] at hp
    tauto
  · exfalso
    have hi := hS.lt
    have := (key hi (hS.upto hxl (Nat.le_refl _)) (hI'.upto hxl' hi)
      fun r hr => nz (hS.diag r hr) (hS.pos r hr)).mp (by rw [← piv L c hl hi]; exact hS.piv)
    have hp := hI'.pos c hi
    rw [piv L' c hl' hi] at hp
    tauto
  · have hcc : c = c' := by
      rcases Nat.lt_trichotomy c c' with hlt | heq | hlt
      · exfalso
        have hi := hS.lt
        have := (key hi (hS.upto hxl (Nat.le_refl _)) (hS'.upto hxl' (Nat.le_of_lt hlt))
          fun r hr => nz (hS.diag r hr) (hS.pos r hr)).mp (by rw [← piv L c hl hi]; exact hS.piv)
        have hp := hS'.pos c hlt
        rw [piv L' c hl' hi] at hp
        tauto
      · exact heq
      · exfalso
        have hi := hS'.lt
        have := (key hi (hS.upto hxl (Nat.le_of_lt hlt)) (hS'.upto hxl' (Nat.le_refl _))
          fun r hr => nz (hS.diag r (by omega)) (hS.pos r (by omega))).mpr (by rw [← piv L' c' hl' hi]; exact hS'.piv)
        have hp := hS.pos c' hlt
        rw [piv L c' hl hi] at hp
        tauto
    subst hcc
    by_cases hc0 : c = 0
    · subst hc0
      refine .inr ⟨L, L', by simpa using e1, by simpa using e2, hS.len, hS'.len, .inr ⟨hS.lt, ?_, hstop hl hS, hstop hl' hS'⟩⟩
      have := hS.piv
      rw [piv L 0 hl hS.lt] at this
      exact this
    · exact .inl ⟨by rw [e1, throwIf_ne hc0]; rfl, by rw [e2, throwIf_ne hc0]; rfl⟩

/-- The modified factorisation. -/
theorem C88_mod_cholesky (mt mt' : MemType) (n : Nat) (l l' : List T) (A A' : Nat → Nat → T)
    (hl : Lower mt n l A) (hl' : Lower mt' n l' A') (d : Nat → ℝ) (hd : ∀ i, i < n → S.ok (d i))
    (hA : ∀ i j, j ≤ i → i < n → S.rel (d i * d j) (A i j) (A' i j)) :
    (Chol.modNew mt n l = .error (.throw .runtimeError) ∧ Chol.modNew mt' n l' = .error (.throw .runtimeError)) ∨
    ∃ L L', Chol.modNew mt n l = .ok L ∧ Chol.modNew mt' n l' = .ok L' ∧ L.length = l.length ∧ L'.length = l'.length ∧
      (∀ i, i < n → ¬ IsZ (held mt n L i i)) ∧
      ∀ i j, j ≤ i → i < n → S.rel (d i * d j) (held mt n L i j) (held mt' n L' i j) := by
  have h := Chol.modNew_raw S.div_ok mt n l hl.len.ge
  have h' := Chol.modNew_raw S.div_ok mt' n l' hl'.len.ge
  have inv : ∀ {mt : MemType} {l L : List T} {A : Nat → Nat → T} {k : Nat}, Lower mt n l A → k ≤ n →
      Chol.RModInv (cIndex mt n) l n L → ModRec k A (fun i j => val0 L (cIndex mt n i j)) := by
    intro mt l L A k hl hk h i j hj hi
    rw [← hl.val i j hj (by omega)]
    exact h.fac i j hj (by omega)
  have stop : ∀ {mt : MemType} {l L : List T} {A : Nat → Nat → T} {i k : Nat}, Lower mt n l A → k ≤ i + 1 →
      Chol.RModStop (cIndex mt n) n l i L → ModRec k A (fun i j => val0 L (cIndex mt n i j)) := by
    intro mt l L A i k hl hk h r c hc hr
    have := h.lt
    rw [← hl.val r c hc (by omega)]
    exact h.fac r c hc (by omega)
  cases e : Chol.modNew mt n l with
  | ok L =>
    rw [e] at h
    cases e' : Chol.modNew mt' n l' with
    | ok L' =>
      rw [e'] at h'
      refine .inr ⟨L, L', rfl, rfl, h.len, h'.len, fun i hi => ?_, fun i j hj hi => ?_⟩
      · rw [held_eq]; exact h.piv i hi
      · rw [held_eq, held_eq]
        exact S.mod hd (Nat.le_refl n) hA (inv hl (Nat.le_refl _) h) (inv hl' (Nat.le_refl _) h')
          (fun r hr => h.piv r (by omega)) i j hj hi
    | error f =>
      rw [e'] at h'
      obtain ⟨-, i, L', hS⟩ := h'
      have hi := hS.lt
      have := S.mod hd (show i + 1 ≤ n from hi) hA (inv hl hi h) (stop hl' (Nat.le_refl _) hS)
        (fun r hr => h.piv r (by omega)) i i (Nat.le_refl _) (Nat.lt_succ_self _)
      exact absurd ((S.isZ (S.ok_mul (hd i hi) (hd i hi)) this).mpr hS.zero) (h.piv i hi)
  | error f =>
    rw [e] at h
    obtain ⟨rfl, i, L, hS⟩ := h
    cases e' : Chol.modNew mt' n l' with
    | error f' => rw [e'] at h'; rw [h'.1]; exact .inl ⟨rfl, rfl⟩
    | ok L' =>
      rw [e'] at h'
      exfalso
      have hi := hS.lt
      -- the first zero on the diagonal of the first run
      obtain ⟨k, ⟨hk, hkz⟩, hmin⟩ : ∃ k, (k ≤ i ∧ IsZ (val0 L (cIndex mt n k k))) ∧
          ∀ r, r < k → ¬ IsZ (val0 L (cIndex mt n r r)) := by
        have hex : ∃ k, k ≤ i ∧ IsZ (val0 L (cIndex mt n k k)) := ⟨i, Nat.le_refl _, hS.zero⟩
        classical
        refine ⟨Nat.find hex, Nat.find_spec hex, fun r hr hz => Nat.find_min hex hr ⟨?_, hz⟩⟩
        have := (Nat.find_spec hex).1
        omega
      have := S.mod hd (show k + 1 ≤ n by omega) hA (stop hl (by omega) hS) (inv hl' (by omega) h')
        (fun r hr => hmin r (by omega)) k k (Nat.le_refl _) (Nat.lt_succ_self _)
      have hkn : k < n := by omega
      exact h'.piv k hkn ((S.isZ (S.ok_mul (hd k hkn) (hd k hkn)) this).mp hkz)

/-- Solving with the factors of `C88_cholesky` (`md = false`) or `C88_mod_cholesky`: with `g diag(d) b` instead of `b`
the solution is `g diag(1/d) x`. -/
theorem C88_chol_solve_vec (nd md : Bool) (mt mt' : MemType) (n : Nat) (L L' : List T) (F F' : Nat → Nat → T)
    (hL : Lower mt n L F) (hL' : Lower mt' n L' F') (hp : ∀ i, i < n → ¬ IsZ (F i i)) (d : Nat → ℝ) (g : ℝ)
    (hd : ∀ i, i < n → S.ok (d i)) (hg : S.ok g)
    (hF : ∀ i j, j ≤ i → i < n → S.rel (d i * if md then d j else |d j| / d j) (F i j) (F' i j))
    (m m' : Mem T) (b b' r r' : Nat) (hb : m.len b = n) (hb' : m'.len b' = n) (hr : r ≠ b) (hr' : r' ≠ b')
    (hB : S.Vec n (fun i => g * d i) (val0 (m b)) (val0 (m' b'))) :
    ∃ x x', Chol.solveMutVec nd md mt n L b m = .ok (m.setBuf b x) ∧
      Chol.solveVecAt nd md mt n L b r m = .ok (m.setBuf r x) ∧
      Chol.solveMutVec nd md mt' n L' b' m' = .ok (m'.setBuf b' x') ∧
      Chol.solveVecAt nd md mt' n L' b' r' m' = .ok (m'.setBuf r' x') ∧ x.length = n ∧ x'.length = n ∧
      S.Vec n (fun i => g / d i) (val0 x) (val0 x') := by
  have hp' : ∀ i, i < n → ¬ IsZ (F' i i) := fun i hi hz => by
    refine hp i hi ((S.isZ ?_ (hF i i (Nat.le_refl _) hi)).mpr hz)
    split
    · exact S.ok_mul (hd i hi) (hd i hi)
    · exact S.ok_mul (hd i hi) (S.ok_sgn (hd i hi))
  obtain ⟨x, hx, hs, e1, e2⟩ := Chol.solve_raw md mt n L hL.len
    (fun i hi => by rw [hL.val i i (Nat.le_refl _) hi]; exact S.div_ok _ (hp i hi)) m b r 1 (by omega) hr
  obtain ⟨x', hx', hs', e1', e2'⟩ := Chol.solve_raw md mt' n L' hL'.len
    (fun i hi => by rw [hL'.val i i (Nat.le_refl _) hi]; exact S.div_ok _ (hp' i hi)) m' b' r' 1 (by omega) hr'
  have h1 : CholSolveRec md n F (val0 (m b)) (val0 x) := by
    have := (hs 0 (by omega)).congr hL.val fun _ _ => rfl
    simpa [entry] using this
  have h2 : CholSolveRec md n F' (val0 (m' b')) (val0 x') := by
    have := (hs' 0 (by omega)).congr hL'.val fun _ _ => rfl
    simpa [entry] using this
  refine ⟨x, x', ?_, ?_, ?_, ?_, by omega, by omega, ?_⟩
  · unfold Chol.solveMutVec; rw [hb]; simp [e1]
  · unfold Chol.solveVecAt; rw [hb]; simp [e2]
  · unfold Chol.solveMutVec; rw [hb']; simp [e1']
  · unfold Chol.solveVecAt; rw [hb']; simp [e2']
  · cases md with
    | false =>
      exact S.cholSolve hg h1 h2 hd (e := fun j => |d j| / d j)
        (fun i hi => ⟨S.ok_sgn (hd i hi), Scaling.sgn_sq (S.ne_zero (hd i hi))⟩) hF hB hp
    | true => exact S.modSolve hg h1 h2 hd hF hB hp

/-- Several right-hand sides, each with a factor of its own. -/
theorem C88_chol_solve_mat (nd md : Bool) (mt mt' : MemType) (n : Nat) (L L' : List T) (F F' : Nat → Nat → T)
    (hL : Lower mt n L F) (hL' : Lower mt' n L' F') (hp : ∀ i, i < n → ¬ IsZ (F i i)) (d g : Nat → ℝ)
    (hd : ∀ i, i < n → S.ok (d i))
    (hF : ∀ i j, j ≤ i → i < n → S.rel (d i * if md then d j else |d j| / d j) (F i j) (F' i j))
    (m m' : Mem T) (b b' : MatRef) (r r' : Nat) (hb : b.Wf m) (hb' : b'.Wf m') (hn : b.n = n) (hn' : b'.n = n)
    (hbm : b'.m = b.m) (hr : r ≠ b.buf) (hr' : r' ≠ b'.buf) (hg : ∀ k, k < b.m → S.ok (g k))
    (hB : S.Mat n b.m d g (entry b.m (m b.buf)) (entry b.m (m' b'.buf))) :
    ∃ x x', Chol.solveMutMat nd md mt n L b m = .ok (m.setBuf b.buf x) ∧
      Chol.solveMatAt nd md mt n L b r m = .ok (m.setBuf r x) ∧
      Chol.solveMutMat nd md mt' n L' b' m' = .ok (m'.setBuf b'.buf x') ∧
      Chol.solveMatAt nd md mt' n L' b' r' m' = .ok (m'.setBuf r' x') ∧ x.length = n * b.m ∧ x'.length = n * b.m ∧
      S.Mat n b.m (fun i => (d i)⁻¹) g (entry b.m x) (entry b.m x') := by
  have hp' : ∀ i, i < n → ¬ IsZ (F' i i) := fun i hi hz => by
    refine hp i hi ((S.isZ ?_ (hF i i (Nat.le_refl _) hi)).mpr hz)
    split
    · exact S.ok_mul (hd i hi) (hd i hi)
    · exact S.ok_mul (hd i hi) (S.ok_sgn (hd i hi))
  obtain ⟨x, hx, hs, e1, e2⟩ := Chol.solve_raw md mt n L hL.len
    (fun i hi => by rw [hL.val i i (Nat.le_refl _) hi]; exact S.div_ok _ (hp i hi)) m b.buf r b.m (by rw [hb, hn]) hr
  obtain ⟨x', hx', hs', e1', e2'⟩ := Chol.solve_raw md mt' n L' hL'.len
    (fun i hi => by rw [hL'.val i i (Nat.le_refl _) hi]; exact S.div_ok _ (hp' i hi)) m' b'.buf r' b.m
    (by rw [hb', hn', hbm]) hr'
  refine ⟨x, x', ?_, ?_, ?_, ?_, by omega, by omega, fun i k hi hk => ?_⟩
  · unfold Chol.solveMutMat; rw [hn]; simp [e1]
  · unfold Chol.solveMatAt; rw [hn]; simp [e2]
  · unfold Chol.solveMutMat; rw [hn', hbm]; simp [e1']
  · unfold Chol.solveMatAt; rw [hn', hbm]; simp [e2']
  · have h1 := (hs k hk).congr hL.val fun _ _ => rfl
    have h2 := (hs' k hk).congr hL'.val fun _ _ => rfl
    have hB' : ∀ i, i < n → S.rel (g k * d i) (entry b.m (m b.buf) i k) (entry b.m (m' b'.buf) i k) :=
      fun i hi => S.cast (mul_comm _ _) (hB i k hi hk)
    refine S.cast (show g k / d i = (d i)⁻¹ * g k by rw [div_eq_mul_inv, mul_comm]) ?_
    cases md with
    | false =>
      exact S.cholSolve (hg k hk) h1 h2 hd (e := fun j => |d j| / d j)
        (fun i hi => ⟨S.ok_sgn (hd i hi), Scaling.sgn_sq (S.ne_zero (hd i hi))⟩) hF hB' hp i hi
    | true => exact S.modSolve (hg k hk) h1 h2 hd hF hB' hp i hi

/-- Incomplete LU: `diag(r) A diag(c)` instead of `A`, the two matrices in any storage.  The same decision; the unit lower
factor is `diag(r) L diag(1/r)` and the upper one `diag(r) U diag(c)`. -/
theorem C88_ilu {M M' : Type} {ops : MatOps M T} {ok : M → Prop} {ops' : MatOps M' T} {ok' : M' → Prop}
    (hst : Storage ops ok) (hst' : Storage ops' ok') (n : Nat) (a : M) (a' : M') (A A' : Nat → Nat → T) (hok : ok a)
    (hok' : ok' a') (hA : Shows ops n a A) (hA' : Shows ops' n a' A') (r c : Nat → ℝ) (hr : ∀ i, i < n → S.ok (r i))
    (hc : ∀ i, i < n → S.ok (c i)) (hAA : S.Mat n n r c A A') :
    (Ilu.new ops a = .error (.throw .runtimeError) ∧ Ilu.new ops' a' = .error (.throw .runtimeError)) ∨
    ∃ f f' F F', Ilu.new ops a = .ok f ∧ Ilu.new ops' a' = .ok f' ∧ ok f ∧ ok' f' ∧ Shows ops n f F ∧
      Shows ops' n f' F' ∧ IluRec n A F ∧ IluRec n A' F' ∧
      ∀ i j, i < n → j < n → S.rel (iluUnit r c i j) (F i j) (F' i j) := by
  obtain ⟨R, hR, h1, h2⟩ := storage_rep hst n
  obtain ⟨R', hR', h1', h2'⟩ := storage_rep hst' n
  have hrc : ∀ {i j}, i < n → j < n → S.ok (r i * c j) := fun hi hj => S.ok_mul (hr _ hi) (hc _ hj)
  rcases Ilu.new_raw S.isZ_zero S.div_ok hR (h1 a A hok hA) with ⟨F, f, e, hf, hF⟩ | ⟨e, _, hS⟩ <;>
    rcases Ilu.new_raw S.isZ_zero S.div_ok hR' (h1' a' A' hok' hA') with ⟨F', f', e', hf', hF'⟩ | ⟨e', _, hS'⟩
  · refine .inr ⟨f, f', F, F', e, e', (h2 f F hf).1, (h2' f' F' hf').1, (h2 f F hf).2, (h2' f' F' hf').2, hF, hF', ?_⟩
    exact fun i j hi hj => S.ilu (i := n) (j := 0) hr hc hAA (fun p q hp hq _ => hF p q hp hq)
      (fun p q hp hq _ => hF' p q hp hq) i j hi hj (.inl hi)
  · exfalso
    obtain ⟨i, j, V, hj, hi, hI, h0, hV⟩ := hS'
    have hjn : j < n := by omega
    have := S.ilu (i := i) (j := j) hr hc hAA (fun p q hp hq _ => hF p q hp hq)
      (fun p q hp hq hb => hI.done p q hp hq hb) j j hjn hjn (.inl hj)
    rw [iluUnit, if_neg (Nat.lt_irrefl _)] at this
    have h0' : ¬ IsZ (A i j) := fun hz => h0 ((S.isZ (hrc hi hjn) (hAA i j hi hjn)).mp hz)
    exact ((hF i j hi hjn).2.1 hj h0').1 ((S.isZ (hrc hjn hjn) this).mpr hV)
  · exfalso
    obtain ⟨i, j, V, hj, hi, hI, h0, hV⟩ := hS
    have hjn : j < n := by omega
    have := S.ilu (i := i) (j := j) hr hc hAA (fun p q hp hq hb => hI.done p q hp hq hb)
      (fun p q hp hq _ => hF' p q hp hq) j j hjn hjn (.inl hj)
    rw [iluUnit, if_neg (Nat.lt_irrefl _)] at this
    have h0' : ¬ IsZ (A' i j) := fun hz => h0 ((S.isZ (hrc hi hjn) (hAA i j hi hjn)).mpr hz)
    exact ((hF' i j hi hjn).2.1 hj h0').1 ((S.isZ (hrc hjn hjn) this).mp hV)
  · exact .inl ⟨e, e'⟩

/-- Solving with the two factors. -/
theorem C88_ilu_solve {M M' : Type} {ops : MatOps M T} {ok : M → Prop} {ops' : MatOps M' T} {ok' : M' → Prop}
    (hst : Storage ops ok) (hst' : Storage ops' ok') (n : Nat) (f : M) (f' : M') (F F' : Nat → Nat → T) (hok : ok f)
    (hok' : ok' f') (hF : Shows ops n f F) (hF' : Shows ops' n f' F') (hp : ∀ i, i < n → ¬ IsZ (F i i)) (r c : Nat → ℝ)
    (hr : ∀ i, i < n → S.ok (r i)) (hc : ∀ i, i < n → S.ok (c i))
    (hFF : ∀ i j, i < n → j < n → S.rel (iluUnit r c i j) (F i j) (F' i j)) (b b' : List T) (hb : b.length = n)
    (hb' : b'.length = n) (hB : S.Vec n r (val0 b) (val0 b')) :
    ∃ x x', Ilu.solve ops f b = .ok x ∧ Ilu.solve ops' f' b' = .ok x' ∧ x.length = n ∧ x'.length = n ∧
      S.Vec n (fun i => (c i)⁻¹) (val0 x) (val0 x') := by
  obtain ⟨R, hR, h1, h2⟩ := storage_rep hst n
  obtain ⟨R', hR', h1', h2'⟩ := storage_rep hst' n
  have hp' : ∀ i, i < n → ¬ IsZ (F' i i) := fun i hi hz => by
    have := hFF i i hi hi
    rw [iluUnit, if_neg (Nat.lt_irrefl _)] at this
    exact hp i hi ((S.isZ (S.ok_mul (hr i hi) (hc i hi)) this).mpr hz)
  obtain ⟨x, e, hx, h⟩ := Ilu.solve_raw hR (h1 f F hok hF) (fun i hi => S.div_ok _ (hp i hi)) hb
  obtain ⟨x', e', hx', h'⟩ := Ilu.solve_raw hR' (h1' f' F' hok' hF') (fun i hi => S.div_ok _ (hp' i hi)) hb'
  exact ⟨x, x', e, e', hx, hx', S.iluSolve hr hc h h' hFF hB hp⟩

theorem triPivot_eq (a : TriDiag T) : ∀ i, triPivot a i = Tdma.D a i
  | 0 => rfl
  | i + 1 => by
    show val0 a.d (i + 1) + val0 a.dl i * (-val0 a.du i / triPivot a i) = val0 a.d (i + 1) + val0 a.dl i * Tdma.P a i
    rw [triPivot_eq a i, Tdma.P_eq]

theorem scaling_tri {n : Nat} {a a' : TriDiag T} {r c : Nat → ℝ} (hr : ∀ i, i < n → S.ok (r i))
    (hc : ∀ i, i < n → S.ok (c i)) (ha : S.Tri n r c a a') (hz : ∀ i, i < n → ¬ IsZ (triPivot a i)) :
    ∀ i, i < n → ¬ IsZ (triPivot a' i) := by
  intro i hi hz'
  simp only [triPivot_eq] at hz hz'
  exact hz i hi ((S.isZ (S.ok_mul (hr i hi) (hc i hi)) (S.triD hr hc ha i hi fun k hk => hz k (by omega))).mpr hz')

/-- Tri-diagonal systems, one right-hand side, in place or not: `diag(r) A diag(c)` and `diag(r) b` give
`diag(1/c) x`. -/
theorem C88_tdma_vec [DivCases T] (nd : Bool) (a a' : TriDiag T) (n : Nat) (hw : TriWf a n) (hw' : TriWf a' n) (hn : 2 ≤ n)
    (b x b' x' : Nat) (m m' : Mem T) (hb : m.len b = n) (hx : m.len x = n) (hb' : m'.len b' = n) (hx' : m'.len x' = n)
    (hz : ∀ i, i < n → ¬ IsZ (triPivot a i)) (r c : Nat → ℝ) (hr : ∀ i, i < n → S.ok (r i))
    (hc : ∀ i, i < n → S.ok (c i)) (ha : S.Tri n r c a a') (hB : S.Vec n r (val0 (m b)) (val0 (m' b'))) :
    ∃ o o', Tdma.solveVec nd a b x m = .ok o ∧ Tdma.solveVec nd a' b' x' m' = .ok o' ∧ o.len x = n ∧ o'.len x' = n ∧
      S.Vec n (fun i => (c i)⁻¹) (val0 (o x)) (val0 (o' x')) := by
  have hz' := scaling_tri S hr hc ha hz
  have run : ∀ (a : TriDiag T) (b x : Nat) (m : Mem T), TriWf a n → m.len b = n → m.len x = n →
      (∀ i, i < n → ¬ IsZ (triPivot a i)) → ∃ o, Tdma.solveVec nd a b x m = .ok o ∧ o.len x = n ∧
        Tdma.BackEq a (val0 (m b)) n (val0 (o x)) := by
    intro a b x m hw hb hx hz
    have hs : Tdma.Sizes a n 1 m b x := ⟨hn, hw.1, hw.2.1, hw.2.2.1, by omega, by omega⟩
    have hd : a.shape.1 = n := hw.1
    have h := Tdma.tdma_raw hs
    have hbx : Tdma.solveVec nd a b x m = noexcept (Tdma.tdma a n 1 b x m) := by
      unfold Tdma.solveVec
      rw [hd, hb]
      simp
    rw [hbx]
    cases e : Tdma.tdma a n 1 b x m with
    | error f =>
      rw [e] at h
      obtain ⟨-, i, hi, hD⟩ := h
      exact absurd (S.div_ok _ (by rw [← triPivot_eq]; exact hz i hi)) hD
    | ok o =>
      rw [e] at h
      obtain ⟨l, rfl, hl, hq, _, hD⟩ := h
      refine ⟨_, rfl, by show (m.setBuf x l x).length = n; rw [Mem.setBuf_self]; omega, ?_⟩
      rw [Mem.setBuf_self]
      simpa [entry] using hq 0 (by omega)
  obtain ⟨o, e, hl, h⟩ := run a b x m hw hb hx hz
  obtain ⟨o', e', hl', h'⟩ := run a' b' x' m' hw' hb' hx' hz'
  simp only [triPivot_eq] at hz
  exact ⟨o, o', e, e', hl, hl', S.triX hr hc ha hz hB h h'⟩

/-- Several right-hand sides, each with a factor of its own. -/
theorem C88_tdma_mat [DivCases T] (nd : Bool) (a a' : TriDiag T) (n : Nat) (hw : TriWf a n) (hw' : TriWf a' n) (hn : 2 ≤ n)
    (b x b' x' : MatRef) (m m' : Mem T) (hbw : b.Wf m) (hxw : x.Wf m) (hbw' : b'.Wf m') (hxw' : x'.Wf m')
    (hbn : b.n = n) (hxn : x.n = n) (hxm : x.m = b.m) (hbn' : b'.n = n) (hxn' : x'.n = n) (hxm' : x'.m = b.m)
    (hbm' : b'.m = b.m) (hz : ∀ i, i < n → ¬ IsZ (triPivot a i)) (r c g : Nat → ℝ) (hr : ∀ i, i < n → S.ok (r i))
    (hc : ∀ i, i < n → S.ok (c i)) (hg : ∀ k, k < b.m → S.ok (g k)) (ha : S.Tri n r c a a')
    (hB : S.Mat n b.m r g (entry b.m (m b.buf)) (entry b.m (m' b'.buf))) :
    ∃ o o', Tdma.solveMat nd a b x m = .ok o ∧ Tdma.solveMat nd a' b' x' m' = .ok o' ∧
      S.Mat n b.m (fun i => (c i)⁻¹) g (entry b.m (o x.buf)) (entry b.m (o' x'.buf)) := by
  have hz' := scaling_tri S hr hc ha hz
  have run : ∀ (a : TriDiag T) (b x : MatRef) (m : Mem T), TriWf a n → b.Wf m → x.Wf m → b.n = n → x.n = n → x.m = b.m →
      (∀ i, i < n → ¬ IsZ (triPivot a i)) → ∃ o, Tdma.solveMat nd a b x m = .ok o ∧
        ∀ k, k < b.m → Tdma.BackEq a (fun i => entry b.m (m b.buf) i k) n (fun i => entry b.m (o x.buf) i k) := by
    intro a b x m hw hbw hxw hbn hxn hxm hz
    have h1 : m.len b.buf = n * b.m := by rw [hbw, hbn]
    have h2 : m.len x.buf = n * b.m := by rw [hxw, hxn, hxm]
    have hs : Tdma.Sizes a n b.m m b.buf x.buf := ⟨hn, hw.1, hw.2.1, hw.2.2.1, h1.ge, h2.ge⟩
    have hd : a.shape.1 = n := hw.1
    have h := Tdma.tdma_raw hs
    have hbx : Tdma.solveMat nd a b x m = noexcept (Tdma.tdma a n b.m b.buf x.buf m) := by
      unfold Tdma.solveMat
      rw [hd, hbn, hxn, hxm]
      simp
    rw [hbx]
    cases e : Tdma.tdma a n b.m b.buf x.buf m with
    | error f =>
      rw [e] at h
      obtain ⟨-, i, hi, hD⟩ := h
      exact absurd (S.div_ok _ (by rw [← triPivot_eq]; exact hz i hi)) hD
    | ok o =>
      rw [e] at h
      obtain ⟨l, rfl, hl, hq, _, hD⟩ := h
      exact ⟨_, rfl, fun k hk => by rw [Mem.setBuf_self]; exact hq k hk⟩
  obtain ⟨o, e, h⟩ := run a b x m hw hbw hxw hbn hxn hxm hz
  obtain ⟨o', e', h'⟩ := run a' b' x' m' hw' hbw' hxw' hbn' hxn' (by rw [hxm', hbm']) hz'
  rw [hbm'] at h'
  simp only [triPivot_eq] at hz
  refine ⟨o, o', e, e', fun i k hi hk => ?_⟩
  have hg0 := S.ne_zero (hg k hk)
  have := S.triX (r := fun i => g k * r i) (c := fun i => c i / g k) (fun i hi => S.ok_mul (hg k hk) (hr i hi))
    (fun i hi => S.ok_div (hc i hi) (hg k hk))
    ⟨fun i hi => S.cast (by field_simp) (ha.d i hi), fun i hi => S.cast (by field_simp) (ha.dl i hi),
      fun i hi => S.cast (by field_simp) (ha.du i hi)⟩ hz
    (fun i hi => S.cast (mul_comm _ _) (hB i k hi hk)) (h k hk) (h' k hk) i hi
  exact S.cast (by rw [inv_div, div_eq_mul_inv, mul_comm]) this

end solve

end Lalib.Props
