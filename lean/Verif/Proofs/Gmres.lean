import Verif.Model.Gmres
import Verif.Proofs.GmresMath
import Verif.Proofs.VecNorm
import Verif.Proofs.Struct
import Verif.Spec.Sqrt

/-! # The loops of GMRES -/

namespace Lalib.Gmres

open Finset Matrix GM

variable {T : Type}

/-! ## Vectors -/

section vec

/-- A list of length `n` as a vector. -/
def toE [Zero T] (n : Nat) (l : List T) : Fin n → T := fun i => val0 l i

theorem toE_nil [Zero T] (n : Nat) : toE n ([] : List T) = 0 := by
  funext i; simp [toE, val0]

theorem toE_replicate [Zero T] (n m : Nat) : toE n (List.replicate m (0 : T)) = 0 := by
  funext i; simp [toE]

variable [Field T] {n : Nat}

theorem toE_map {l : List T} (h : l.length = n) (a : T) : toE n (l.map fun x => a * x) = a • toE n l := by
  funext i
  simp only [toE, Pi.smul_apply, smul_eq_mul]
  rw [val0_map (by omega)]

theorem toE_zip {x y : List T} (hx : x.length = n) (hy : y.length = n) (a : T) :
    toE n (List.zipWith (fun u v => a * u + v) x y) = a • toE n x + toE n y := by
  funext i
  simp only [toE, Pi.smul_apply, smul_eq_mul, Pi.add_apply]
  rw [val0_zipWith (by omega) (by omega)]

theorem dotSpec_toE {x y : List T} (hx : x.length = n) (hy : y.length = n) :
    dotSpec x y = toE n x ⬝ᵥ toE n y := by
  rw [dotSpec_eq_range (by omega), hx, Finset.sum_range]
  rfl

theorem dot_eq {x y : List T} (h0 : 0 < n) (hx : x.length = n) (hy : y.length = n) :
    dot x y = .ok (toE n x ⬝ᵥ toE n y) := by
  unfold dot dotDD
  have l0 : (Mem.ofList [x, y]).len 0 = n := hx
  have l1 : (Mem.ofList [x, y]).len 1 = n := hy
  rw [l0, l1, checkSize_self, ok_bind, dotCore_eq h0 (by omega) (by omega), Finset.sum_range]
  rfl

theorem axpy_eq {x y : List T} (hx : x.length = n) (hy : y.length = n) (a : T) :
    ∃ z, axpy a x y = .ok z ∧ z.length = n ∧ toE n z = a • toE n x + toE n y := by
  refine ⟨_, ?_, ?_, toE_zip hx hy a⟩
  · unfold axpy
    rw [axpyD_eq (by show y.length = x.length; omega), ok_bind, Mem.setBuf_self]
    rfl
  · simp [hx, hy]

theorem smul_eq {x : List T} (hx : x.length = n) (a : T) :
    ∃ z, smulOp a x = .ok z ∧ z.length = n ∧ toE n z = a • toE n x :=
  ⟨_, smulOp_eq a x, by simp [hx], toE_map hx a⟩

variable [LinearOrder T] [IsStrictOrderedRing T] [Sqrt T] [LawfulSqrt T]

theorem norm2_eq {x : List T} (hx : x.length = n) :
    ∃ h : T, norm2 x = .ok h ∧ 0 ≤ h ∧ h * h = toE n x ⬝ᵥ toE n x := by
  have hn := dotSpec_self_nonneg x
  refine ⟨_, norm2_run _ _, LawfulSqrt.sqrt_nonneg _, ?_⟩
  rw [← dotSpec_toE hx hx]
  exact LawfulSqrt.mul_self_sqrt _ hn

omit [Sqrt T] [LawfulSqrt T] in
theorem dot_self_zero {x : Fin n → T} (h : x ⬝ᵥ x = 0) : x = 0 := by
  unfold dotProduct at h
  rw [Finset.sum_eq_zero_iff_of_nonneg fun i _ => mul_self_nonneg _] at h
  funext i
  exact mul_self_eq_zero.mp (h i (mem_univ _))

end vec

/-! ## The structured matrices -/

section struct

/-- Sizes of the Hessenberg matrix after `k` extensions. -/
def HS (k : Nat) (a : Hess T) : Prop := a.n = k ∧ a.h.length = if k = 0 then 0 else hOff k - 1

theorem hOff_pos (k : Nat) : k ≤ hOff k := by unfold hOff; omega

theorem HS.len {k : Nat} {a : Hess T} (h : HS (k + 1) a) : a.h.length = hOff k + (k + 1) := by
  rw [h.2, if_neg (by omega), hOff_succ]; omega

theorem HS.extend [Zero T] {k : Nat} {a : Hess T} (h : HS k a) :
    ∃ a', a.extendWithZero = .ok a' ∧ HS (k + 1) a' := by
  refine ⟨_, rfl, by simp [h.1], ?_⟩
  rw [if_neg (show k + 1 ≠ 0 by omega), hOff_succ]
  rcases Nat.eq_zero_or_pos k with rfl | hk
  · simp [h.1, h.2, hOff]
  · have := hOff_pos k
    simp only [List.length_append, h.1, h.2, if_neg (show k ≠ 0 by omega), List.length_replicate]
    omega

theorem HS.set {k : Nat} {a : Hess T} (h : HS k a) {i j : Nat} (hi : i < k) (hj : j < k) (hij : i ≤ j + 1) (v : T) :
    ∃ a', a.set i j v = .ok a' ∧ HS k a' ∧ a'.h = a.h.set (hOff j + i) v ∧ hOff j + i < a.h.length := by
  obtain ⟨k, rfl⟩ : ∃ l, k = l + 1 := ⟨k - 1, by omega⟩
  have hl := h.len
  have h1 : hOff j + i < a.h.length := by
    rw [hl]
    rcases Nat.lt_or_ge j k with h1 | h1
    · have := off_mono (w := fun j => j + 2) hOff_succ h1; omega
    · obtain rfl : j = k := by omega
      omega
  exact ⟨_, a.set_band hij h1 v, ⟨h.1, by simpa using h.2⟩, rfl, h1⟩

theorem HS.getMut [Zero T] {k : Nat} {a : Hess T} (h : HS (k + 1) a) {i : Nat} (hi : i ≤ k) :
    a.getMut i k = .ok (val0 a.h (hOff k + i)) := by
  unfold Hess.getMut
  rw [if_pos (by omega)]
  exact lrd_val (by rw [h.len]; unfold hOff; omega)

theorem HS.get [Zero T] {k : Nat} {a : Hess T} (h : HS (k + 1) a) {i : Nat} (hi : i ≤ k) :
    a.get i k = .ok (val0 a.h (hOff k + i)) := by
  rw [Hess.get_band _ (by omega)]
  exact lrd_val (by rw [h.len]; omega)

theorem HS.getCol [Zero T] {k : Nat} {a : Hess T} (h : HS (k + 1) a) :
    ∃ col, a.getCol k = .ok col ∧ col.length = k + 1 ∧ ∀ i, i ≤ k → val0 col i = val0 a.h (hOff k + i) := by
  have e1 : min (hOff k + k + 2) a.h.length = hOff k + (k + 1) := by rw [h.len]; omega
  refine ⟨(a.h.drop (hOff k)).take (k + 1), ?_, ?_, ?_⟩
  · unfold Hess.getCol
    show (if hOff k ≤ min (hOff k + k + 2) a.h.length then _ else _) = _
    rw [e1, if_pos (by omega)]
    show Except.ok (List.take (min (hOff k + k + 2) a.h.length - hOff k) _) = _
    rw [e1, Nat.add_sub_cancel_left]
    rfl
  · rw [List.length_take, List.length_drop, h.len]; omega
  · intro i hi
    unfold val0
    rw [List.getD_eq_getElem?_getD, List.getD_eq_getElem?_getD, List.getElem?_take, if_pos (by omega),
      List.getElem?_drop]

/-- Sizes of the triangular factor after `k` extensions. -/
def US (k : Nat) (a : UTri T) : Prop := a.n = k ∧ a.u.length = uOff k

/-- Elements of the triangular factor. -/
def Rv [Zero T] (a : UTri T) (i j : Nat) : T := val0 a.u (uOff j + i)

theorem US.extend [Zero T] {k : Nat} {a : UTri T} (h : US k a) {col : List T} (hc : col.length = k + 1) :
    ∃ a', a.extendWith col = .ok a' ∧ US (k + 1) a' ∧ (∀ i j, i ≤ j → j < k → Rv a' i j = Rv a i j) ∧
      ∀ i, Rv a' i k = val0 col i := by
  refine ⟨⟨a.n + 1, a.u ++ col⟩, ?_, ⟨by simp [h.1], ?_⟩, ?_, ?_⟩
  · unfold UTri.extendWith
    rw [show (col.length != a.n + 1) = false by simp [hc, h.1], throwIf_false]
    rfl
  · rw [List.length_append, h.2, hc, uOff_succ]
  · intro i j hij hj
    have := off_mono (w := fun j => j + 1) uOff_succ hj
    unfold Rv
    rw [val0_append, if_pos (by rw [h.2]; omega)]
  · intro i
    unfold Rv
    rw [val0_append, if_neg (by rw [h.2]; omega), h.2, Nat.add_sub_cancel_left]

theorem US.lt {k : Nat} {a : UTri T} (h : US (k + 1) a) {i : Nat} (hi : i ≤ k) : uOff k + i < a.u.length := by
  rw [h.2, uOff_succ]; omega

theorem US.getMut [Zero T] {k : Nat} {a : UTri T} (h : US (k + 1) a) {i : Nat} (hi : i ≤ k) :
    a.getMut i k = .ok (Rv a i k) := by
  unfold UTri.getMut
  rw [if_pos hi]
  exact lrd_val (h.lt hi)

theorem US.set [Zero T] {k : Nat} {a : UTri T} (h : US (k + 1) a) {i : Nat} (hi : i ≤ k) (v : T) :
    ∃ a', a.set i k v = .ok a' ∧ US (k + 1) a' ∧ (∀ p j, p ≤ j → j < k → Rv a' p j = Rv a p j) ∧
      Rv a' i k = v ∧ ∀ p, p ≠ i → Rv a' p k = Rv a p k := by
  refine ⟨_, a.set_band hi (h.lt hi) v, ⟨h.1, by simpa using h.2⟩, ?_, ?_, ?_⟩
  · intro p j hpj hj
    have := off_mono (w := fun j => j + 1) uOff_succ hj
    unfold Rv
    simp only []
    rw [val0_set (h.lt hi), if_neg (by omega)]
  · unfold Rv
    simp only []
    rw [val0_set (h.lt hi), if_pos rfl]
  · intro p hp
    unfold Rv
    simp only []
    rw [val0_set (h.lt hi), if_neg (by omega)]

theorem US.get [Zero T] {k : Nat} {a : UTri T} (h : US k a) {i j : Nat} (hj : j < k) :
    a.get i j = .ok (if i ≤ j then Rv a i j else 0) := by
  by_cases hij : i ≤ j
  · rw [UTri.get_band _ hij, if_pos hij]
    have := off_mono (w := fun j => j + 1) uOff_succ hj
    exact lrd_val (by rw [h.2]; omega)
  · rw [UTri.get_low _ hij, if_neg hij]

end struct

/-! ## The iteration -/

section iter
variable [Field T] [LinearOrder T] [IsStrictOrderedRing T] [Sqrt T] [LawfulSqrt T] {M : Type}
variable {n : Nat}

/-- Basis vector `i` (zero when it is not finite). -/
def qv (n : Nat) (q : List (Option (List T))) (i : Nat) : Fin n → T := toE n ((q.getD i none).getD [])

/-- Basis vector `i` is finite and has `n` components. -/
def Fin' (n : Nat) (q : List (Option (List T))) (i : Nat) : Prop := ∃ v : List T, q[i]? = some (some v) ∧ v.length = n

omit [LinearOrder T] [IsStrictOrderedRing T] [Sqrt T] [LawfulSqrt T] in
theorem Fin'.at {q : List (Option (List T))} {i : Nat} (h : Fin' n q i) :
    ∃ v, qAt q i = .ok v ∧ v.length = n ∧ toE n v = qv n q i := by
  obtain ⟨v, hv, hl⟩ := h
  refine ⟨v, ?_, hl, ?_⟩
  · unfold qAt; rw [lrd_some hv]; rfl
  · simp [qv, List.getD_eq_getElem?_getD, hv]

omit [LinearOrder T] [IsStrictOrderedRing T] [Sqrt T] [LawfulSqrt T] in
theorem qv_append {q : List (Option (List T))} (x : Option (List T)) {i : Nat} (hi : i < q.length) :
    qv n (q ++ [x]) i = qv n q i := by
  simp [qv, List.getD_eq_getElem?_getD, List.getElem?_append_left hi]

omit [Field T] [LinearOrder T] [IsStrictOrderedRing T] [Sqrt T] [LawfulSqrt T] in
theorem Fin'.append {q : List (Option (List T))} {i : Nat} (h : Fin' n q i) (x : Option (List T)) :
    Fin' n (q ++ [x]) i := by
  obtain ⟨v, hv, hl⟩ := h
  refine ⟨v, ?_, hl⟩
  rw [List.getElem?_append_left (by by_contra hc; rw [List.getElem?_eq_none (by omega)] at hv; cases hv), hv]

omit [LinearOrder T] [IsStrictOrderedRing T] [Sqrt T] [LawfulSqrt T] in
theorem normalised_spec [DecidableEq T] {h : T} {v : List T} (hv : v.length = n) :
    ∃ o, normalised h v = .ok o ∧ (h = 0 → o = none) ∧
      (h ≠ 0 → ∃ w : List T, o = some w ∧ w.length = n ∧ toE n v = h • toE n w) := by
  unfold normalised
  by_cases h0 : h = 0
  · rw [h0, divC_zero]
    exact ⟨none, rfl, fun _ => rfl, fun h1 => absurd rfl h1⟩
  · rw [divC_ok h0]
    simp only []
    obtain ⟨z, hz, hl, he⟩ := smul_eq hv (1 / h)
    rw [hz]
    refine ⟨some z, rfl, fun h1 => absurd h1 h0, fun _ => ⟨z, rfl, hl, ?_⟩⟩
    rw [he, smul_smul, mul_one_div_cancel h0, one_smul]

omit [LinearOrder T] [IsStrictOrderedRing T] [Sqrt T] [LawfulSqrt T] in
/-- The projections. -/
theorem project_ok {q : List (Option (List T))} {k : Nat} {v : List T} {a : Hess T} (h0 : 0 < n)
    (hq : ∀ i, i ≤ k → Fin' n q i) (hv : v.length = n) (ha : HS (k + 1) a) :
    ∃ a', project q k v a = .ok a' ∧ HS (k + 1) a' ∧
      ∀ i, i ≤ k → val0 a'.h (hOff k + i) = qv n q i ⬝ᵥ toE n v := by
  have : Ok (fun a' : Hess T => HS (k + 1) a' ∧ ∀ i, i < k + 1 → val0 a'.h (hOff k + i) = qv n q i ⬝ᵥ toE n v)
      (project q k v a) := by
    unfold project
    refine forRange_sat (I := fun j (a' : Hess T) => HS (k + 1) a' ∧
      ∀ i, i < j → val0 a'.h (hOff k + i) = qv n q i ⬝ᵥ toE n v) (Nat.zero_le _) ⟨ha, by simp⟩ ?_
    rintro j a' - hj ⟨h1, h2⟩
    obtain ⟨w, hw, hl, he⟩ := (hq j (by omega)).at
    rw [hw, ok_bind, dot_eq h0 hl hv, ok_bind]
    obtain ⟨a'', e, h3, h4, h5⟩ := h1.set (i := j) (j := k) (by omega) (by omega) (by omega) (toE n w ⬝ᵥ toE n v)
    rw [e]
    refine ⟨h3, fun i hi => ?_⟩
    rw [h4, val0_set h5]
    by_cases hij : i = j
    · rw [if_pos (by omega), hij, he]
    · rw [if_neg (by omega)]; exact h2 i (by omega)
  obtain ⟨a', e, h1, h2⟩ := this.exists
  exact ⟨a', e, h1, fun i hi => h2 i (by omega)⟩

omit [LinearOrder T] [IsStrictOrderedRing T] [Sqrt T] [LawfulSqrt T] in
/-- The subtractions. -/
theorem subtract_ok {q : List (Option (List T))} {k : Nat} {v : List T} {a : Hess T}
    (hq : ∀ i, i ≤ k → Fin' n q i) (hv : v.length = n) (ha : HS (k + 1) a) :
    ∃ v', subtract q k a v = .ok v' ∧ v'.length = n ∧
      toE n v' = toE n v - ∑ i ∈ range (k + 1), val0 a.h (hOff k + i) • qv n q i := by
  refine Ok.exists (forRange_sat (I := fun j (v' : List T) => v'.length = n ∧
      toE n v' = toE n v - ∑ i ∈ range j, val0 a.h (hOff k + i) • qv n q i) (Nat.zero_le _)
    ⟨hv, by simp⟩ ?_)
  rintro j v' - hj ⟨h1, h2⟩
  obtain ⟨w, hw, hl, he⟩ := (hq j (by omega)).at
  obtain ⟨z, hz, zl, ze⟩ := smul_eq hl (val0 a.h (hOff k + j))
  obtain ⟨z', hz', zl', ze'⟩ := axpy_eq zl h1 (-1)
  rw [ha.getMut (by omega), ok_bind, hw, ok_bind, hz, ok_bind, hz']
  refine ⟨zl', ?_⟩
  rw [ze', ze, he, h2, sum_range_succ]
  module

/-- Everything known at the start of iteration `k` but the convergence. -/
structure Inv (F : (Fin n → T) →ₗ[T] (Fin n → T)) (b : Fin n → T) (k : Nat) (st : St T)
    (p t : Nat → Fin n → T) : Prop where
  qlen : st.q.length = k + 1
  qfin : ∀ i, i < k → Fin' n st.q i
  hs : HS k st.hess
  slen : st.s.length = k
  clen : st.c.length = k
  us : US k st.r
  blen : st.beta.length = k + 1
  lin : LInv F b k (qv n st.q) p t (val0 st.s) (val0 st.c) (val0 st.beta) (Rv st.r)
  kin : KInv F b k (qv n st.q) p

/-- The last basis vector is finite: the basis is orthonormal. -/
structure Good (F : (Fin n → T) →ₗ[T] (Fin n → T)) (b : Fin n → T) (k : Nat) (st : St T)
    (p t : Nat → Fin n → T) : Prop where
  fin : Fin' n st.q k
  on : ON k (qv n st.q)
  unit : Unit' k (qv n st.q) (t k)
  orth : ∀ i, i < k → t k ⬝ᵥ p i = 0
  kry : Sp (qv n st.q) (k + 1) = Kr F b (k + 1)

/-- The last basis vector is not finite: the residual is zero. -/
def Bad (k : Nat) (st : St T) : Prop := st.q[k]? = some none ∧ val0 st.beta k = 0

variable {F : (Fin n → T) →ₗ[T] (Fin n → T)} {b : Fin n → T} {ops : GOps M T} {g : Gmres M T}

/-- The matrix and the preconditioner implement `F`. -/
def Impl (F : (Fin n → T) →ₗ[T] (Fin n → T)) (ops : GOps M T) (g : Gmres M T) : Prop :=
  ∀ l : List T, l.length = n → ∃ w y, ops.mul g.mat l = .ok w ∧ Ilu.solve ops.toMatOps g.lu w = .ok y ∧
    y.length = n ∧ toE n y = F (toE n l)

/-- `_arnoldi`. -/
theorem arnoldi_ok (nd : Bool) (hF : Impl F ops g) {k : Nat} {st : St T} {p t : Nat → Fin n → T}
    (hi : Inv F b k st p t) (h0 : 0 < n) (hg : Fin' n st.q k) :
    ∃ hess h o, ∃ v : Fin n → T, arnoldi nd ops g st = .ok { st with q := st.q ++ [o], hess := hess, h := h } ∧
      HS (k + 1) hess ∧ (∀ i, i ≤ k → val0 hess.h (hOff k + i) = qv n st.q i ⬝ᵥ F (qv n st.q k)) ∧
      v = F (qv n st.q k) - ∑ i ∈ range (k + 1), (qv n st.q i ⬝ᵥ F (qv n st.q k)) • qv n st.q i ∧
      0 ≤ h ∧ h * h = v ⬝ᵥ v ∧ (h = 0 → o = none) ∧
      (h ≠ 0 → ∃ w : List T, o = some w ∧ w.length = n ∧ v = h • toE n w) := by
  have hq : ∀ i, i ≤ k → Fin' n st.q i := fun i h => by
    rcases Nat.lt_or_ge i k with h1 | h1
    · exact hi.qfin i h1
    · rw [show i = k by omega]; exact hg
  unfold arnoldi
  simp only [hi.qlen, Nat.add_sub_cancel]
  obtain ⟨a1, e1, hs1⟩ := hi.hs.extend
  rw [e1, ok_bind]
  obtain ⟨a2, e2, hs2⟩ : ∃ a2, setSub k st.h a1 = .ok a2 ∧ HS (k + 1) a2 := by
    by_cases hk : 0 < k
    · obtain ⟨a2, e, h, -⟩ := hs1.set (i := k) (j := k - 1) (by omega) (by omega) (by omega) st.h
      exact ⟨a2, by rw [setSub, if_pos hk, e], h⟩
    · exact ⟨a1, if_neg hk, hs1⟩
  rw [e2, ok_bind, show (a2.shape.1 == k + 1) = true by simp [Hess.shape, hs2.1], cassert_true, ok_bind]
  obtain ⟨qk, eq, lq, vq⟩ := hg.at
  rw [eq, ok_bind]
  obtain ⟨w, y, ew, ey, ly, vy⟩ := hF qk lq
  rw [ew, ok_bind, ey, ok_bind]
  obtain ⟨a3, e3, hs3, v3⟩ := project_ok h0 hq ly hs2
  rw [e3, ok_bind]
  obtain ⟨v, ev, lv, vv⟩ := subtract_ok hq ly hs3
  rw [ev, ok_bind]
  obtain ⟨h, eh, hh0, hh⟩ := norm2_eq lv
  rw [eh, ok_bind]
  obtain ⟨o, eo, o1, o2⟩ := normalised_spec (h := h) lv
  rw [eo, ok_bind]
  rw [vy, vq] at v3 vv
  refine ⟨a3, h, o, toE n v, rfl, hs3, v3, ?_, hh0, hh, o1, o2⟩
  rw [vv]
  congr 1
  exact sum_congr rfl fun i hi => by rw [v3 i (by have := mem_range.mp hi; omega)]

omit [LinearOrder T] [IsStrictOrderedRing T] [Sqrt T] [LawfulSqrt T] in
/-- The earlier rotations. -/
theorem rotate_ok {k : Nat} {q p t : Nat → Fin n → T} {s c : List T} {gb : Nat → T} {R : Nat → Nat → T} {hess : Hess T}
    {r : UTri T} (hl : LInv F b k q p t (val0 s) (val0 c) gb R) (hsl : s.length = k) (hcl : c.length = k)
    (hh : HS (k + 1) hess) (hr : US (k + 1) r) (h0 : Rv r 0 k = val0 hess.h (hOff k)) :
    ∃ r', rotate hess s c (k + 1) r = .ok r' ∧ US (k + 1) r' ∧ (∀ i j, i ≤ j → j < k → Rv r' i j = Rv r i j) ∧
      ∑ l ∈ range (k + 1), val0 hess.h (hOff k + l) • q l =
        ∑ l ∈ range k, Rv r' l k • p l + Rv r' k k • t k := by
  unfold rotate
  rw [Nat.add_sub_cancel]
  refine Ok.exists (forRange_sat (I := fun i (r' : UTri T) => US (k + 1) r' ∧
      (∀ i j, i ≤ j → j < k → Rv r' i j = Rv r i j) ∧
      ∑ l ∈ range (i + 1), val0 hess.h (hOff k + l) • q l =
        ∑ l ∈ range i, Rv r' l k • p l + Rv r' i k • t i) (Nat.zero_le _) ⟨hr, fun _ _ _ _ => rfl, ?_⟩ ?_)
  · simp [h0, hl.t0]
  · rintro i r' - hi ⟨u1, u2, u3⟩
    rw [lrd_val (by omega), ok_bind, lrd_val (by omega), ok_bind, u1.getMut (by omega), ok_bind,
      hh.get (by omega), ok_bind]
    obtain ⟨r1, e1, v1, v2, v3, v4⟩ := u1.set (i := i + 1) (by omega)
      (-val0 s i * Rv r' i k + val0 c i * val0 hess.h (hOff k + (i + 1)))
    obtain ⟨r2, e2, w1, w2, w3, w4⟩ := v1.set (i := i) (by omega)
      (val0 c i * Rv r' i k + val0 s i * val0 hess.h (hOff k + (i + 1)))
    rw [e1, ok_bind, e2]
    refine ⟨w1, fun i j h1 h2 => by rw [w2 i j h1 h2, v2 i j h1 h2, u2 i j h1 h2], ?_⟩
    refine hl.rotate (a := fun l => val0 hess.h (hOff k + l)) (r := fun l => Rv r' l k) hi u3 ?_ w3 ?_
    · intro l hl; rw [w4 l (by omega), v4 l (by omega)]
    · rw [w4 (i + 1) (by omega), v3]

/-- One iteration before the convergence test. -/
theorem step_ok (nd : Bool) (hF : Impl F ops g) {k : Nat} {st : St T} {p t : Nat → Fin n → T}
    (hi : Inv F b k st p t) (h0 : 0 < n) (hg : Good F b k st p t) :
    Sat (fun st' => ∃ p' t', Inv F b (k + 1) st' p' t' ∧ (Good F b (k + 1) st' p' t' ∨ Bad (k + 1) st'))
      (fun e => e = .nonFinite ∧ ¬ Function.Injective F)
      (arnoldi nd ops g st >>= givensRot nd) := by
  obtain ⟨hess, h, o, v, ea, hs, hcol, hv, hh0, hhv, o1, o2⟩ := arnoldi_ok nd hF hi h0 hg.fin
  rw [ea, ok_bind]
  unfold givensRot
  simp only [Hess.shape, UTri.shape, hs.1, Nat.add_sub_cancel]
  obtain ⟨col, ec, lc, vc⟩ := hs.getCol
  rw [ec, ok_bind]
  obtain ⟨r1, e1, us1, old1, new1⟩ := hi.us.extend lc
  rw [e1, ok_bind, show (r1.n == k + 1) = true by simp [us1.1], cassert_true, ok_bind,
    show ((st.beta ++ [(0 : T)]).length == k + 1 + 1) = true by simp [hi.blen], cassert_true, ok_bind]
  obtain ⟨r2, e2, us2, old2, id2⟩ := rotate_ok hi.lin hi.slen hi.clen hs us1
    (by rw [new1, vc 0 (by omega)]; rfl)
  rw [e2, ok_bind, us2.getMut (Nat.le_refl _), ok_bind]
  have hnn : ¬ Rv r2 k k * Rv r2 k k + h * h < 0 :=
    not_lt.mpr (add_nonneg (mul_self_nonneg _) (mul_self_nonneg _))
  rw [sqrtC_eq, if_neg hnn, ok_bind]
  have hdd := LawfulSqrt.mul_self_sqrt (Rv r2 k k * Rv r2 k k + h * h) (not_lt.mp hnn)
  generalize Sqrt.sqrt (Rv r2 k k * Rv r2 k k + h * h) = delta at hdd
  -- the column identity
  have hid : F (qv n st.q k) - v = ∑ l ∈ range k, Rv r2 l k • p l + Rv r2 k k • t k := by
    rw [← id2, hv, sub_sub_cancel]
    exact sum_congr rfl fun i hi => by rw [hcol i (by have := mem_range.mp hi; omega)]
  by_cases hd : delta = 0
  · rw [hd, divC_zero]
    refine ⟨rfl, fun hinj => ?_⟩
    rw [hd, mul_zero] at hdd
    obtain ⟨z1, z2⟩ := (add_eq_zero_iff_of_nonneg (mul_self_nonneg _) (mul_self_nonneg _)).mp hdd.symm
    rw [mul_self_eq_zero] at z1
    have hv0 : v = 0 := dot_self_zero (by rw [← hhv, z2])
    rw [hv0, sub_zero, z1, zero_smul, add_zero] at hid
    exact hi.lin.delta hg.on hinj hid
  · rw [divC_ok hd, ok_bind, divC_ok hd, ok_bind,
      show ((st.c ++ [Rv r2 k k / delta]).length == k + 1) = true by simp [hi.clen], cassert_true, ok_bind,
      show ((st.s ++ [h / delta]).length == k + 1) = true by simp [hi.slen], cassert_true, ok_bind]
    have vs : val0 (st.s ++ [h / delta]) k = h / delta := by
      rw [val0_append, if_neg (by rw [hi.slen]; omega), hi.slen, Nat.sub_self]; rfl
    have vcc : val0 (st.c ++ [Rv r2 k k / delta]) k = Rv r2 k k / delta := by
      rw [val0_append, if_neg (by rw [hi.clen]; omega), hi.clen, Nat.sub_self]; rfl
    have vb : val0 (st.beta ++ [0]) k = val0 st.beta k := by
      rw [val0_append, if_pos (by rw [hi.blen]; omega)]
    have lb : (st.beta ++ [(0 : T)]).length = k + 2 := by simp [hi.blen]
    rw [lrd_val (by simp [hi.slen]), ok_bind, lrd_val (by simp [hi.clen]), ok_bind, lrd_val (by omega), ok_bind,
      vs, vcc, vb, lwr_ok (by omega), ok_bind, lwr_ok (by rw [List.length_set]; omega), ok_bind]
    obtain ⟨r3, e3, us3, old3, self3, other3⟩ := us2.set (Nat.le_refl k)
      (Rv r2 k k / delta * Rv r2 k k + h / delta * h)
    rw [e3]
    -- the new basis vector
    have hq1 : qv n (st.q ++ [o]) (k + 1) = toE n (o.getD []) := by
      simp [qv, List.getD_eq_getElem?_getD, hi.qlen]
    have hvq : v = h • qv n (st.q ++ [o]) (k + 1) := by
      rw [hq1]
      by_cases hz : h = 0
      · have : v = 0 := dot_self_zero (by rw [← hhv, hz, mul_zero])
        rw [this, hz, zero_smul]
      · obtain ⟨w, rfl, -, hw⟩ := o2 hz
        exact hw
    have hqold : ∀ i, i ≤ k → qv n (st.q ++ [o]) i = qv n st.q i := fun i h =>
      qv_append o (by rw [hi.qlen]; omega)
    have hold : LInv F b k (qv n (st.q ++ [o])) p t (val0 (st.s ++ [h / delta]))
        (val0 (st.c ++ [Rv r2 k k / delta])) (val0 st.beta) (Rv st.r) := by
      refine hi.lin.congr hqold ?_ ?_ (fun _ _ => rfl) (fun _ _ _ _ => rfl)
      · intro i h; rw [val0_append, if_pos (by rw [hi.slen]; exact h)]
      · intro i h; rw [val0_append, if_pos (by rw [hi.clen]; exact h)]
    have hb : ∀ i, val0 (((st.beta ++ [0]).set (k + 1) (-(h / delta) * val0 st.beta k)).set k
        (Rv r2 k k / delta * val0 st.beta k)) i = if i = k then Rv r2 k k / delta * val0 st.beta k
          else if i = k + 1 then -(h / delta) * val0 st.beta k else val0 (st.beta ++ [0]) i := by
      intro i
      rw [val0_set (by rw [List.length_set]; omega), val0_set (by omega)]
    have hlin := hold.step (rho := Rv r2 k k) (h' := h) (delta := delta) (gk := val0 st.beta k) (v := v)
      (col := fun i => Rv r2 i k) (qn := qv n (st.q ++ [o]) (k + 1)) hd hdd (by rw [hqold k (Nat.le_refl _)]; exact hid) hvq rfl vs vcc rfl
      (g' := val0 (((st.beta ++ [0]).set (k + 1) (-(h / delta) * val0 st.beta k)).set k
        (Rv r2 k k / delta * val0 st.beta k)))
      (fun i h => by
        rw [hb, if_neg (by omega), if_neg (by omega), val0_append, if_pos (by rw [hi.blen]; omega)])
      (by rw [hb, if_pos rfl, vcc]) (by rw [hb, if_neg (by omega), if_pos rfl, vs])
      (R' := Rv r3) (fun i j h1 h2 => by rw [old3 i j h1 h2, old2 i j h1 h2, old1 i j h1 h2])
      (fun i h => other3 i (by omega)) (by rw [self3, vcc, vs])
    have hkin := hi.kin.congr hqold
    have hu : Unit' k (qv n (st.q ++ [o])) (t k) :=
      ⟨hg.unit.1, fun x hx => hg.unit.2 x fun i h => by rw [← hqold i h]; exact hx i h⟩
    have hkr : Sp (qv n (st.q ++ [o])) (k + 1) = Kr F b (k + 1) := by
      rw [Sp.congr fun i h => hqold i (by omega)]; exact hg.kry
    refine ⟨_, _, ⟨by simp [hi.qlen], ?_, hs, by simp [hi.slen], by simp [hi.clen], us3, by simp [hi.blen], hlin, ?_⟩, ?_⟩
    · intro i h
      rcases Nat.lt_or_ge i k with h1 | h1
      · exact (hi.qfin i h1).append o
      · rw [show i = k by omega]; exact hg.fin.append o
    · rw [vs, vcc]; exact hkin.step hu hkr _ _
    · by_cases hz : h = 0
      · right
        refine ⟨?_, ?_⟩
        · show (st.q ++ [o])[k + 1]? = some none
          rw [o1 hz, List.getElem?_append_right (by rw [hi.qlen]), hi.qlen, Nat.sub_self]
          rfl
        · show val0 (((st.beta ++ [0]).set (k + 1) (-(h / delta) * val0 st.beta k)).set k
            (Rv r2 k k / delta * val0 st.beta k)) (k + 1) = 0
          rw [hb, if_neg (by omega), if_pos rfl, hz, zero_div, neg_zero, zero_mul]
      · left
        obtain ⟨w, rfl, lw, -⟩ := o2 hz
        have hon : ON (k + 1) (qv n (st.q ++ [some w])) := by
          refine (hg.on.congr hqold).step (v := v) ?_ hz hhv hvq
          intro i h1
          rw [hqold i h1]
          exact hg.on.project hv i h1
        have hcs : Rv r2 k k / delta * (Rv r2 k k / delta) + h / delta * (h / delta) = 1 := by
          field_simp; rw [pow_two, pow_two, pow_two, hdd]
        refine ⟨⟨w, ?_, lw⟩, hon, ?_, ?_, ?_⟩
        · show (st.q ++ [some w])[k + 1]? = some (some w)
          rw [List.getElem?_append_right (by rw [hi.qlen]), hi.qlen, Nat.sub_self]
          rfl
        · have := hu.step hon hcs
          show Unit' (k + 1) (qv n (st.q ++ [some w])) _
          simp only [if_true]
          rw [vs, vcc]
          exact this
        · intro i hi'
          simp only [if_true]
          rw [vs, vcc]
          exact hkin.orth hu hon hg.orth _ _ i hi'
        · refine Kr.step hon hkr (v := v) (a := fun i => qv n st.q i ⬝ᵥ F (qv n st.q k)) ?_ hz hvq
          rw [hv, hqold k (Nat.le_refl _)]
          congr 1
          exact sum_congr rfl fun i hi => by rw [hqold i (by have := mem_range.mp hi; omega)]

omit [IsStrictOrderedRing T] [LawfulSqrt T] in
/-- Using a basis vector which is not finite. -/
theorem arnoldi_bad (nd : Bool) {k : Nat} {st : St T} {p t : Nat → Fin n → T}
    (hi : Inv F b k st p t) (hb : Bad k st) : arnoldi nd ops g st = .error .nonFinite := by
  unfold arnoldi
  simp only [hi.qlen, Nat.add_sub_cancel]
  obtain ⟨a1, e1, hs1⟩ := hi.hs.extend
  rw [e1, ok_bind]
  obtain ⟨a2, e2, hs2⟩ : ∃ a2, setSub k st.h a1 = .ok a2 ∧ HS (k + 1) a2 := by
    by_cases hk : 0 < k
    · obtain ⟨a2, e, h, -⟩ := hs1.set (i := k) (j := k - 1) (by omega) (by omega) (by omega) st.h
      exact ⟨a2, by rw [setSub, if_pos hk, e], h⟩
    · exact ⟨a1, if_neg hk, hs1⟩
  rw [e2, ok_bind, show (a2.shape.1 == k + 1) = true by simp [Hess.shape, hs2.1], cassert_true, ok_bind]
  have : qAt st.q k = .error .nonFinite := by
    unfold qAt; rw [lrd_some hb.1]; rfl
  rw [this]; rfl

omit [Sqrt T] [LawfulSqrt T] in
theorem abs'_eq (x : T) : abs' x = |x| := by
  unfold abs'
  split
  · rename_i h; rw [abs_of_neg h]
  · rename_i h; rw [abs_of_nonneg (not_lt.mp h)]

/-- No vector of the first Krylov spaces has a residual below the tolerance. -/
def Early (F : (Fin n → T) →ₗ[T] (Fin n → T)) (b : Fin n → T) (tol : T) (k : Nat) : Prop :=
  ∀ j, 0 < j → j < k → ∀ y ∈ Kr F b j, ∀ r, 0 ≤ r → r * r = (b - F y) ⬝ᵥ (b - F y) → tol ≤ r

/-- What is known when the iteration stops. -/
def Done (F : (Fin n → T) →ₗ[T] (Fin n → T)) (b : Fin n → T) (tol : T) (st : St T) : Prop :=
  ∃ k p t, k ≤ n ∧ (0 < n → 0 < k) ∧ Inv F b k st p t ∧ Early F b tol k ∧
    (val0 st.beta k = 0 ∨ (|val0 st.beta k| < tol ∧ t k ⬝ᵥ t k = 1 ∧ ∀ i, i < k → t k ⬝ᵥ p i = 0))

/-- The iteration. -/
theorem loop_ok (nd : Bool) (hF : Impl F ops g) {st : St T} {p t : Nat → Fin n → T}
    (hi : Inv F b 0 st p t) (hg : Good F b 0 st p t ∨ (Bad 0 st ∧ b = 0)) :
    Sat (fun r => Done F b g.tol (after r))
      (fun e => e = .nonFinite ∧ 0 < n ∧ (b = 0 ∨ g.tol ≤ 0 ∨ ¬ Function.Injective F))
      (forRet 0 n (iterate nd ops g) st) := by
  refine Sat.mono (forRet_sat (I := fun k st => ∃ p t, Inv F b k st p t ∧ Early F b g.tol (k + 1) ∧
      (Good F b k st p t ∨ (Bad k st ∧ (b = 0 ∨ g.tol ≤ 0)))) (R := Done F b g.tol) (Nat.zero_le _)
    ⟨p, t, hi, fun j h1 h2 => absurd h2 (by omega), hg.imp id fun h => ⟨h.1, .inl h.2⟩⟩ ?_) ?_ (fun _ h => h)
  · rintro k st - hk ⟨p, t, hi, he, hg | ⟨hb, hbad⟩⟩
    · have e : iterate nd ops g k st = (arnoldi nd ops g st >>= givensRot nd) >>= check g.tol := by
        rw [iterate]
        cases arnoldi nd ops g st <;> rfl
      rw [e]
      refine Sat.bind (Sat.mono (step_ok nd hF hi (by omega) hg) (fun _ h => h)
        (fun e h => ⟨h.1, by omega, .inr (.inr h.2)⟩)) ?_
      rintro st' ⟨p', t', hi', hg'⟩
      unfold check
      rw [hi'.blen, Nat.add_sub_cancel, lrd_val (by rw [hi'.blen]; omega), ok_bind, abs'_eq]
      by_cases ht : |val0 st'.beta (k + 1)| < g.tol
      · rw [if_pos ht]
        refine ⟨k + 1, p', t', by omega, fun _ => by omega, hi', he, ?_⟩
        rcases hg' with h | h
        · exact .inr ⟨ht, h.unit.1, h.orth⟩
        · exact .inl h.2
      · rw [if_neg ht]
        have ht := not_lt.mp ht
        refine ⟨p', t', hi', ?_, hg'.imp id fun h => ⟨h, .inr ?_⟩⟩
        · intro j h1 h2 y hy r hr hrr
          rcases Nat.lt_or_ge j (k + 1) with h3 | h3
          · exact he j h1 h3 y hy r hr hrr
          · obtain rfl : j = k + 1 := by omega
            refine le_trans ht ?_
            rcases hg' with h | h
            · rw [← hi'.kin.kry (k + 1) (Nat.le_refl _)] at hy
              have := hi'.lin.minimal h.unit.1 h.orth hy
              rw [← hrr] at this
              exact abs_le_of_sq_le_sq (by rw [pow_two, pow_two]; exact this) hr
            · rw [h.2, abs_zero]; exact hr
        · rw [h.2, abs_zero] at ht
          exact ht
    · rw [iterate, arnoldi_bad nd hi hb]
      exact ⟨rfl, by omega, hbad.imp id .inl⟩
  · rintro (st | st) h
    · obtain ⟨p, t, hi, he, hg⟩ := h
      refine ⟨n, p, t, Nat.le_refl _, id, hi, fun j h1 h2 => he j h1 (by omega), .inl ?_⟩
      rcases hg with h | h
      · exact absurd h.on.lt (Nat.lt_irrefl _)
      · exact h.1.2
    · exact h

omit [LinearOrder T] [IsStrictOrderedRing T] [Sqrt T] [LawfulSqrt T] in
/-- The final sum. -/
theorem combine_ok {q : List (Option (List T))} {k : Nat} {beta : List T} (hq : ∀ i, i < k → Fin' n q i)
    (hb : k ≤ beta.length) :
    ∃ x, combine n k beta q = .ok x ∧ x.length = n ∧ toE n x = ∑ i ∈ range k, val0 beta i • qv n q i := by
  refine Ok.exists (forRange_sat (I := fun j (x : List T) => x.length = n ∧
      toE n x = ∑ i ∈ range j, val0 beta i • qv n q i) (Nat.zero_le _)
    ⟨by simp, by simp [toE_replicate]⟩ ?_)
  rintro j x - hj ⟨h1, h2⟩
  obtain ⟨w, hw, hl, he⟩ := (hq j hj).at
  obtain ⟨z, hz, zl, ze⟩ := smul_eq hl (val0 beta j)
  obtain ⟨z', hz', zl', ze'⟩ := axpy_eq zl h1 1
  rw [lrd_val (by omega), ok_bind, hw, ok_bind, hz, ok_bind, hz']
  refine ⟨zl', ?_⟩
  rw [ze', ze, he, h2, sum_range_succ]
  module

/-- A whole run: `b'` is the preconditioned right-hand side. -/
theorem solve_run (nd : Bool) {rt : Nat → Nat} (hrt : SqrtExact rt) (hF : Impl F ops g)
    (hsh : ops.shape g.mat = .ok (n, n)) {rhs b' : List T} (hb : Ilu.solve ops.toMatOps g.lu rhs = .ok b')
    (lb : b'.length = n) :
    Sat (fun x : List T => x.length = n ∧ ∃ (k : Nat) (γ : T), k ≤ n ∧ (0 < n → 0 < k) ∧
        toE n x ∈ Kr F (toE n b') k ∧ Early F (toE n b') g.tol k ∧
        (toE n b' - F (toE n x)) ⬝ᵥ (toE n b' - F (toE n x)) = γ * γ ∧ (γ = 0 ∨ |γ| < g.tol) ∧
        ∀ y ∈ Kr F (toE n b') k, γ * γ ≤ (toE n b' - F y) ⬝ᵥ (toE n b' - F y))
      (fun e => e = .nonFinite ∧ 0 < n ∧ (toE n b' = 0 ∨ g.tol ≤ 0 ∨ ¬ Function.Injective F))
      (solve rt nd ops g rhs) := by
  unfold solve
  rw [hsh, ok_bind]
  simp only []
  unfold start
  rw [hb, ok_bind]
  obtain ⟨nb, en, hn0, hnn⟩ := norm2_eq lb
  rw [en, ok_bind]
  obtain ⟨o, eo, o1, o2⟩ := normalised_spec (h := nb) lb
  have eu : (UTri.withCapacity rt n : Res (UTri T)) = .ok ⟨0, []⟩ := by
    have h1 : rt 1 = 1 := hrt 1 (by norm_num)
    simp [UTri.withCapacity, UTri.new, UTri.calcSize, h1, noexcept]
  have eh : (Hess.withCapacity rt n : Res (Hess T)) = .ok ⟨0, []⟩ := by
    simp [Hess.withCapacity, Hess.new, Hess.calcSize, noexcept]
  rw [eo, ok_bind, eu, ok_bind, eh, ok_bind, ok_bind]
  have hq0 : qv n [o] 0 = toE n (o.getD []) := rfl
  have hrhs : toE n b' = nb • qv n [o] 0 := by
    rw [hq0]
    by_cases hz : nb = 0
    · rw [dot_self_zero (x := toE n b') (by rw [← hnn, hz, mul_zero]), hz, zero_smul]
    · obtain ⟨w, rfl, -, hw⟩ := o2 hz
      exact hw
  have hkr0 : ∀ (q : Nat → Fin n → T) c, Sp q 0 = Kr F c 0 := fun q c => by
    unfold Sp Kr
    rw [show Set.Iio 0 = (∅ : Set Nat) from by ext; simp, Set.image_empty, Set.image_empty]
  have hi : Inv F (toE n b') 0 (⟨[o], ⟨0, []⟩, 0, [], [], ⟨0, []⟩, [nb]⟩ : St T) (fun _ => 0) (fun _ => qv n [o] 0) := by
    refine ⟨rfl, fun i h => absurd h (Nat.not_lt_zero _), ⟨rfl, rfl⟩, rfl, rfl, ⟨rfl, rfl⟩, rfl,
      ⟨rfl, ?_, ?_, ?_, ?_, ?_⟩, ⟨?_, ?_⟩⟩
    · exact fun i h => absurd h (Nat.not_lt_zero _)
    · exact fun i h => absurd h (Nat.not_lt_zero _)
    · rw [range_zero, sum_empty, zero_add]; exact hrhs
    · exact fun i h => absurd h (Nat.not_lt_zero _)
    · exact fun i h => absurd h (Nat.not_lt_zero _)
    · exact fun i h => absurd h (Nat.not_lt_zero _)
    · intro j hj
      rw [show j = 0 by omega]
      exact hkr0 _ _
  have hg : Good F (toE n b') 0 (⟨[o], ⟨0, []⟩, 0, [], [], ⟨0, []⟩, [nb]⟩ : St T) (fun _ => 0) (fun _ => qv n [o] 0) ∨
      (Bad 0 (⟨[o], ⟨0, []⟩, 0, [], [], ⟨0, []⟩, [nb]⟩ : St T) ∧ toE n b' = 0) := by
    by_cases hz : nb = 0
    · right
      refine ⟨⟨by rw [o1 hz]; rfl, hz⟩, by rw [hrhs, hz, zero_smul]⟩
    · left
      obtain ⟨w, rfl, lw, hw⟩ := o2 hz
      have h1 : qv n [some w] 0 ⬝ᵥ qv n [some w] 0 = 1 := by
        rw [hrhs, dotProduct_smul, smul_dotProduct, smul_eq_mul, smul_eq_mul] at hnn
        have : nb * nb * (qv n [some w] 0 ⬝ᵥ qv n [some w] 0) = nb * nb * 1 := by linear_combination -hnn
        exact mul_left_cancel₀ (mul_ne_zero hz hz) this
      have hon : ON 0 (qv n [some w]) := by
        intro i j hi hj
        obtain rfl : i = 0 := by omega
        obtain rfl : j = 0 := by omega
        exact h1
      refine ⟨⟨w, rfl, lw⟩, hon, ⟨h1, fun x hx => hx 0 (Nat.le_refl _)⟩, fun i h => absurd h (Nat.not_lt_zero _), ?_⟩
      refine hon.kry fun i h => ?_
      obtain rfl : i = 0 := by omega
      refine (Submodule.smul_mem_iff _ hz).mp ?_
      rw [← hrhs]
      exact Submodule.subset_span ⟨0, Nat.zero_lt_one, rfl⟩
  refine Sat.bind (loop_ok nd hF hi hg) ?_
  rintro r hr
  generalize after r = st at hr ⊢
  obtain ⟨k, p, t, hkn, hk0, hi, hearly, hfin⟩ := hr
  have hk : st.beta.length - 1 = k := by rw [hi.blen]; omega
  rw [hk]
  have hyl : (st.beta.take k).length = st.r.n := by rw [List.length_take, hi.blen, hi.us.1]; omega
  obtain ⟨y, ey, ly, hy⟩ := backSub_ok st.r (R := fun i j => if i ≤ j then Rv st.r i j else 0) hyl
    (fun i j _ hj => hi.us.get (by rw [← hi.us.1]; exact hj))
    (fun i h => by simp only [le_refl, if_true]; exact hi.lin.diag i (by rw [← hi.us.1]; exact h))
  rw [ey, ok_bind]
  rw [hi.us.1] at ly hy
  obtain ⟨x, ex, lx, hx⟩ := combine_ok (beta := y ++ st.beta.drop k) hi.qfin (by rw [List.length_append, ly]; omega)
  rw [ex]
  have hres : toE n b' - F (toE n x) = val0 st.beta k • t k := by
    rw [hx, ← hi.lin.residual (y := val0 y) fun i h => ?_]
    · congr 2
      exact sum_congr rfl fun i h => by rw [val0_append, if_pos (by rw [ly]; exact mem_range.mp h)]
    · have := hy i h
      rw [sum_congr rfl fun j hj => by rw [if_pos (mem_Ico.mp hj).1]] at this
      rw [this]
      unfold val0
      rw [List.getD_eq_getElem?_getD, List.getD_eq_getElem?_getD, List.getElem?_take, if_pos h]
  have hmem : toE n x ∈ Kr F (toE n b') k := by
    rw [← hi.kin.kry k (Nat.le_refl _), hx]
    exact Submodule.sum_mem _ fun i hi => Submodule.smul_mem _ _ (Sp.mem (mem_range.mp hi))
  refine ⟨lx, k, val0 st.beta k, hkn, hk0, hmem, hearly, ?_, hfin.imp id fun h => h.1, ?_⟩
  · rw [hres, smul_dotProduct, dotProduct_smul, smul_eq_mul, smul_eq_mul]
    rcases hfin with h | h
    · rw [h]; simp
    · rw [h.2.1, mul_one]
  · intro z hz
    rcases hfin with h | h
    · rw [h, mul_zero]
      exact Finset.sum_nonneg fun i _ => mul_self_nonneg _
    · rw [← hi.kin.kry k (Nat.le_refl _)] at hz
      exact hi.lin.minimal h.2.1 h.2.2 hz

omit F b in
/-- The zero right-hand side: the first basis vector is `0 / 0`. -/
theorem solve_zero_rhs (nd : Bool) {rt : Nat → Nat} (hrt : SqrtExact rt)
    (hsh : ops.shape g.mat = .ok (n, n)) {rhs b' : List T} (hb : Ilu.solve ops.toMatOps g.lu rhs = .ok b')
    (lb : b'.length = n) (hz : toE n b' = 0) (h0 : 0 < n) :
    solve rt nd ops g rhs = .error .nonFinite := by
  unfold solve
  rw [hsh, ok_bind]
  simp only []
  unfold start
  rw [hb, ok_bind]
  obtain ⟨nb, en, hn0, hnn⟩ := norm2_eq lb
  rw [hz, dotProduct_zero, mul_self_eq_zero] at hnn
  have eu : (UTri.withCapacity rt n : Res (UTri T)) = .ok ⟨0, []⟩ := by
    have h1 : rt 1 = 1 := hrt 1 (by norm_num)
    simp [UTri.withCapacity, UTri.new, UTri.calcSize, h1, noexcept]
  have eh : (Hess.withCapacity rt n : Res (Hess T)) = .ok ⟨0, []⟩ := by
    simp [Hess.withCapacity, Hess.new, Hess.calcSize, noexcept]
  rw [en, ok_bind, hnn, normalised, divC_zero]
  simp only []
  rw [ok_bind, eu, ok_bind, eh, ok_bind, ok_bind]
  have he : iterate nd ops g 0 (⟨[none], ⟨0, []⟩, 0, [], [], ⟨0, []⟩, [0]⟩ : St T) = .error .nonFinite := by
    rw [iterate]
    have : arnoldi nd ops g (⟨[none], ⟨0, []⟩, 0, [], [], ⟨0, []⟩, [0]⟩ : St T) = .error .nonFinite := by
      unfold arnoldi
      obtain ⟨a1, e1, hs1⟩ := HS.extend (T := T) (k := 0) (a := ⟨0, []⟩) ⟨rfl, rfl⟩
      simp only [List.length_singleton, Nat.sub_self]
      rw [e1, ok_bind, setSub, if_neg (Nat.lt_irrefl 0), ok_bind,
        show (a1.shape.1 == 0 + 1) = true by simp [Hess.shape, hs1.1], cassert_true, ok_bind]
      rfl
    rw [this]; rfl
  have : forRet 0 n (iterate nd ops g) (⟨[none], ⟨0, []⟩, 0, [], [], ⟨0, []⟩, [0]⟩ : St T) = .error .nonFinite := by
    obtain ⟨m, rfl⟩ : ∃ m, n = m + 1 := ⟨n - 1, by omega⟩
    unfold forRet
    rw [Nat.sub_zero, forUpRet, he]
    rfl
  rw [this]; rfl

end iter

end Lalib.Gmres
