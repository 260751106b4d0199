import Verif.Spec.GmresEval
import Verif.Proofs.Gmres
import Verif.Proofs.EvalSolve
import Verif.Props.Ilu

/-! # A GMRES run in any arithmetic with total division and square root -/

set_option linter.unusedSectionVars false

namespace Lalib

variable {T M : Type}

theorem addUpL_congr [Add T] {g g' : Nat → T} {k : Nat} (h : ∀ j, j < k → g j = g' j) (t : T) :
    addUpL g k t = addUpL g' k t := by
  induction k with
  | zero => rfl
  | succ k ih =>
    show g k + _ = g' k + _
    rw [h k (by omega), ih fun j hj => h j (by omega)]

section congr
variable [Zero T] [One T] [Add T] [Sub T] [Mul T] [Neg T] [Div T] [Sqrt T]

theorem normUp_congr {n : Nat} {x x' : Nat → T} (h : ∀ l, l < n → x l = x' l) : normUp n x = normUp n x' := by
  unfold normUp
  rw [addUp_congr fun l _ hl => by rw [h l hl]]

theorem dotUp_congr {n : Nat} (h0 : 0 < n) {x x' y y' : Nat → T} (h : ∀ l, l < n → x l = x' l)
    (h' : ∀ l, l < n → y l = y' l) : dotUp n x y = dotUp n x' y' := by
  unfold dotUp
  rw [addUp_congr fun l _ hl => by rw [h l hl, h' l hl], h 0 h0, h' 0 h0]

theorem GmresCol.congr {n : Nat} {S : (Nat → T) → (Nat → T) → Prop} {i : Nat} {q q' H H' : Nat → Nat → T} {h h' : Nat → T}
    {R R' : Nat → Nat → T} {c c' s s' γ γ' v ρ : Nat → T} (hc : GmresCol n S i q H h R c s γ v ρ)
    (hq : ∀ j, j ≤ i + 1 → q j = q' j) (hH : ∀ j, j ≤ i → H j i = H' j i) (hh : h i = h' i)
    (hR : ∀ j, j ≤ i → R j i = R' j i) (hcc : ∀ j, j ≤ i → c j = c' j) (hs : ∀ j, j ≤ i → s j = s' j)
    (hγ : ∀ j, j ≤ i + 1 → γ j = γ' j) : GmresCol n S i q' H' h' R' c' s' γ' v ρ := by
  have hw : ∀ l, addUpL (fun j => -1 * (H j i * q j l)) (i + 1) (v l) =
      addUpL (fun j => -1 * (H' j i * q' j l)) (i + 1) (v l) := fun l =>
    addUpL_congr (fun j hj => by rw [hH j (by omega), hq j (by omega)]) _
  refine ⟨?_, ?_, ?_, ?_, ?_, ?_, ?_, ?_, ?_, ?_, ?_⟩
  · rw [← hq i (by omega)]; exact hc.op
  · intro j hj; rw [← hH j hj, ← hq j (by omega)]; exact hc.proj j hj
  · rw [← hh, hc.norm]
    exact normUp_congr fun l _ => hw l
  · intro l hl; rw [← hq (i + 1) (by omega), ← hh, ← hw l]; exact hc.next l hl
  · rw [← hH 0 (by omega)]; exact hc.rot0
  · intro j hj; rw [← hs j (by omega), ← hcc j (by omega), ← hH (j + 1) (by omega)]; exact hc.rot j hj
  · intro j hj
    rw [← hs j (by omega), ← hcc j (by omega), ← hH (j + 1) (by omega), ← hR j (by omega)]; exact hc.col j hj
  · rw [← hs i (Nat.le_refl _), ← hh]; exact hc.sin
  · rw [← hcc i (Nat.le_refl _), ← hh]; exact hc.cos
  · rw [← hR i (Nat.le_refl _), ← hcc i (Nat.le_refl _), ← hs i (Nat.le_refl _), ← hh]; exact hc.diag
  · rw [← hγ (i + 1) (Nat.le_refl _), ← hγ i (by omega), ← hs i (Nat.le_refl _)]; exact hc.res

end congr

namespace Gmres

/-! ## Vectors -/

section vec
variable [Zero T] [One T] [Add T] [Mul T]

theorem dot_raw {n : Nat} {x y : List T} (h0 : 0 < n) (hx : x.length = n) (hy : y.length = n) :
    dot x y = .ok (dotUp n (val0 x) (val0 y)) := by
  unfold dot dotDD
  have l0 : (Mem.ofList [x, y]).len 0 = n := hx
  have l1 : (Mem.ofList [x, y]).len 1 = n := hy
  rw [l0, l1, checkSize_self, ok_bind, dotCore_raw h0 (by omega) (by omega)]
  rfl

theorem axpy_raw {x y : List T} (h : y.length = x.length) (a : T) :
    axpy a x y = .ok (List.zipWith (fun u v => a * u + v) x y) := by
  unfold axpy
  rw [axpyD_eq (by exact h), ok_bind, Mem.setBuf_self]
  rfl

theorem norm2_raw [CSqrt T] [Sqrt T] (hsq : ∀ v : T, sqrtC v = .ok (Sqrt.sqrt v)) {n : Nat} {x : List T}
    (hx : x.length = n) : norm2 x = .ok (normUp n (val0 x)) := by
  subst hx
  unfold norm2 vecNorm2
  rw [norm2Core_raw (le_refl _), hsq]
  rfl

theorem normalised_raw [CDiv T] [Div T] (hdv : ∀ v : T, DivAt v) (h : T) (v : List T) :
    normalised h v = .ok (some (v.map fun x => 1 / h * x)) := by
  unfold normalised
  rw [hdv h]
  simp only [smulOp_eq, ok_bind]

/-- Basis vector `i`. -/
def qf (q : List (Option (List T))) (i : Nat) : Nat → T := val0 ((q.getD i none).getD [])

/-- Basis vector `i` is there and has `n` components. -/
def Has (n : Nat) (q : List (Option (List T))) (i : Nat) : Prop := ∃ v : List T, q[i]? = some (some v) ∧ v.length = n

theorem Has.at {n : Nat} {q : List (Option (List T))} {i : Nat} (h : Has n q i) :
    ∃ v, qAt q i = .ok v ∧ v.length = n ∧ val0 v = qf q i := by
  obtain ⟨v, hv, hl⟩ := h
  refine ⟨v, ?_, hl, ?_⟩
  · unfold qAt; rw [lrd_some hv]; rfl
  · simp [qf, List.getD_eq_getElem?_getD, hv]

theorem qf_append {q : List (Option (List T))} (x : Option (List T)) {i : Nat} (hi : i < q.length) :
    qf (q ++ [x]) i = qf q i := by
  simp [qf, List.getD_eq_getElem?_getD, List.getElem?_append_left hi]

theorem qf_last {q : List (Option (List T))} (x : List T) : qf (q ++ [some x]) q.length = val0 x := by
  simp [qf, List.getD_eq_getElem?_getD]

theorem Has.append {n : Nat} {q : List (Option (List T))} {i : Nat} (h : Has n q i) (x : Option (List T)) :
    Has n (q ++ [x]) i := by
  obtain ⟨v, hv, hl⟩ := h
  refine ⟨v, ?_, hl⟩
  rw [List.getElem?_append_left (by by_contra hc; rw [List.getElem?_eq_none (by omega)] at hv; cases hv), hv]

end vec

/-! ## The loops -/

section loops
variable [Zero T] [One T] [Add T] [Sub T] [Mul T] [Neg T] {n : Nat}

/-- Elements of the Hessenberg matrix. -/
def Hv (a : Hess T) (i j : Nat) : T := val0 a.h (hOff j + i)

theorem Hv.old {a a' : Hess T} {p : Nat} {v : T} (e : a'.h = a.h.set p v) (hp : p < a.h.length) {i j : Nat}
    (h : hOff j + i ≠ p) : Hv a' i j = Hv a i j := by
  unfold Hv
  rw [e, val0_set hp, if_neg h]

theorem off_ne {i j i' j' : Nat} (h : i ≤ j + 1) (h' : i' ≤ j' + 1) (hne : i ≠ i' ∨ j ≠ j') : hOff j + i ≠ hOff j' + i' := by
  rcases Nat.lt_trichotomy j j' with hlt | rfl | hgt
  · have := off_mono (w := fun j => j + 2) hOff_succ hlt; omega
  · omega
  · have := off_mono (w := fun j => j + 2) hOff_succ hgt; omega

theorem project_raw {q : List (Option (List T))} {k : Nat} {v : List T} {a : Hess T} (h0 : 0 < n)
    (hq : ∀ i, i ≤ k → Has n q i) (hv : v.length = n) (ha : HS (k + 1) a) :
    ∃ a', project q k v a = .ok a' ∧ HS (k + 1) a' ∧ (∀ i, i ≤ k → Hv a' i k = dotUp n (qf q i) (val0 v)) ∧
      ∀ i j, i ≤ j → j < k → Hv a' i j = Hv a i j := by
  have : Ok (fun a' : Hess T => HS (k + 1) a' ∧ (∀ i, i < k + 1 → Hv a' i k = dotUp n (qf q i) (val0 v)) ∧
      ∀ i j, i ≤ j → j < k → Hv a' i j = Hv a i j) (project q k v a) := by
    unfold project
    refine forRange_sat (I := fun j (a' : Hess T) => HS (k + 1) a' ∧
      (∀ i, i < j → Hv a' i k = dotUp n (qf q i) (val0 v)) ∧ ∀ i j, i ≤ j → j < k → Hv a' i j = Hv a i j)
      (Nat.zero_le _) ⟨ha, by simp, fun _ _ _ _ => rfl⟩ ?_
    rintro j a' - hj ⟨h1, h2, h3⟩
    obtain ⟨w, hw, hl, he⟩ := (hq j (by omega)).at
    rw [hw, ok_bind, dot_raw h0 hl hv, ok_bind]
    obtain ⟨a'', e, h4, h5, h6⟩ := h1.set (i := j) (j := k) (by omega) (by omega) (by omega) (dotUp n (val0 w) (val0 v))
    rw [e]
    refine ⟨h4, fun i hi => ?_, fun i' j' h7 h8 => ?_⟩
    · by_cases hij : i = j
      · subst hij
        unfold Hv
        rw [h5, val0_set h6, if_pos rfl, he]
      · rw [Hv.old h5 h6 (off_ne (by omega) (by omega) (.inl hij))]; exact h2 i (by omega)
    · rw [Hv.old h5 h6 (off_ne (by omega) (by omega) (.inr (by omega)))]; exact h3 i' j' h7 h8
  obtain ⟨a', e, h1, h2, h3⟩ := this.exists
  exact ⟨a', e, h1, fun i hi => h2 i (by omega), h3⟩

theorem subtract_raw {q : List (Option (List T))} {k : Nat} {v : List T} {a : Hess T}
    (hq : ∀ i, i ≤ k → Has n q i) (hv : v.length = n) (ha : HS (k + 1) a) :
    ∃ v', subtract q k a v = .ok v' ∧ v'.length = n ∧ ∀ l, l < n →
      val0 v' l = addUpL (fun j => -1 * (Hv a j k * qf q j l)) (k + 1) (val0 v l) := by
  refine Ok.exists (forRange_sat (I := fun j (v' : List T) => v'.length = n ∧ ∀ l, l < n →
      val0 v' l = addUpL (fun j => -1 * (Hv a j k * qf q j l)) j (val0 v l)) (Nat.zero_le _) ⟨hv, fun _ _ => rfl⟩ ?_)
  rintro j v' - hj ⟨h1, h2⟩
  obtain ⟨w, hw, hl, he⟩ := (hq j (by omega)).at
  rw [ha.getMut (by omega), ok_bind, hw, ok_bind, smulOp_eq, ok_bind, axpy_raw (by simp [h1, hl])]
  refine ⟨by simp [h1, hl], fun l hlt => ?_⟩
  rw [val0_zipWith (by rw [List.length_map]; omega) (by rw [List.length_map]; omega), val0_map (by omega), h2 l hlt, he]
  rfl

theorem rotate_raw {k : Nat} {s c : List T} {hess : Hess T} {r : UTri T} (hsl : s.length = k) (hcl : c.length = k)
    (hh : HS (k + 1) hess) (hr : US (k + 1) r) (h0 : ∀ i, i ≤ k → Rv r i k = Hv hess i k) :
    ∃ (r' : UTri T) (ρ : Nat → T), rotate hess s c (k + 1) r = .ok r' ∧ US (k + 1) r' ∧ (∀ i j, i ≤ j → j < k → Rv r' i j = Rv r i j) ∧
      ρ 0 = Hv hess 0 k ∧ (∀ j, j < k → ρ (j + 1) = -val0 s j * ρ j + val0 c j * Hv hess (j + 1) k) ∧
      (∀ j, j < k → Rv r' j k = val0 c j * ρ j + val0 s j * Hv hess (j + 1) k) ∧ Rv r' k k = ρ k := by
  let ρ : Nat → T := fun j => Nat.rec (Hv hess 0 k) (fun j v => -val0 s j * v + val0 c j * Hv hess (j + 1) k) j
  have : ∃ r', rotate hess s c (k + 1) r = .ok r' ∧ (US (k + 1) r' ∧ (∀ i j, i ≤ j → j < k → Rv r' i j = Rv r i j) ∧
      (∀ j, j < k → Rv r' j k = val0 c j * ρ j + val0 s j * Hv hess (j + 1) k) ∧ Rv r' k k = ρ k) := by
    unfold rotate
    rw [Nat.add_sub_cancel]
    refine Ok.exists (forRange_sat (I := fun i (r' : UTri T) => US (k + 1) r' ∧
        (∀ i j, i ≤ j → j < k → Rv r' i j = Rv r i j) ∧
        (∀ j, j < i → Rv r' j k = val0 c j * ρ j + val0 s j * Hv hess (j + 1) k) ∧ Rv r' i k = ρ i) (Nat.zero_le _)
      ⟨hr, fun _ _ _ _ => rfl, fun _ h => absurd h (Nat.not_lt_zero _), h0 0 (Nat.zero_le _)⟩ ?_)
    rintro i r' - hi ⟨u1, u2, u3, u4⟩
    rw [lrd_val (by omega), ok_bind, lrd_val (by omega), ok_bind, u1.getMut (by omega), ok_bind,
      hh.get (by omega), ok_bind]
    obtain ⟨r1, e1, v1, v2, v3, v4⟩ := u1.set (i := i + 1) (by omega)
      (-val0 s i * Rv r' i k + val0 c i * val0 hess.h (hOff k + (i + 1)))
    obtain ⟨r2, e2, w1, w2, w3, w4⟩ := v1.set (i := i) (by omega)
      (val0 c i * Rv r' i k + val0 s i * val0 hess.h (hOff k + (i + 1)))
    rw [e1, ok_bind, e2]
    refine ⟨w1, fun i j h1 h2 => by rw [w2 i j h1 h2, v2 i j h1 h2, u2 i j h1 h2], fun j hj => ?_, ?_⟩
    · by_cases hij : j = i
      · rw [hij, w3, u4]; rfl
      · rw [w4 j hij, v4 j (by omega), u3 j (by omega)]
    · rw [w4 (i + 1) (by omega), v3, u4]; rfl
  obtain ⟨r', e, h1, h2, h3, h4⟩ := this
  exact ⟨r', ρ, e, h1, h2, rfl, fun _ _ => rfl, h3, h4⟩

theorem combine_raw {q : List (Option (List T))} {k : Nat} {beta : List T} (hq : ∀ i, i < k → Has n q i)
    (hb : k ≤ beta.length) :
    ∃ x, combine n k beta q = .ok x ∧ x.length = n ∧ ∀ l, l < n →
      val0 x l = addUpL (fun i => 1 * (val0 beta i * qf q i l)) k 0 := by
  refine Ok.exists (forRange_sat (I := fun j (x : List T) => x.length = n ∧ ∀ l, l < n →
      val0 x l = addUpL (fun i => 1 * (val0 beta i * qf q i l)) j 0) (Nat.zero_le _)
    ⟨by simp, fun l hl => by simp [addUpL]⟩ ?_)
  rintro j x - hj ⟨h1, h2⟩
  obtain ⟨w, hw, hl, he⟩ := (hq j hj).at
  rw [lrd_val (by omega), ok_bind, hw, ok_bind, smulOp_eq, ok_bind, axpy_raw (by simp [h1, hl])]
  refine ⟨by simp [h1, hl], fun l hlt => ?_⟩
  rw [val0_zipWith (by rw [List.length_map]; omega) (by rw [List.length_map]; omega), val0_map (by omega), h2 l hlt, he]
  rfl

end loops

/-! ## The iteration -/

section iter
variable [Zero T] [One T] [Add T] [Sub T] [Mul T] [Neg T] [Div T] [Sqrt T] [CDiv T] [CSqrt T] [CZero T]
variable [LT T] [DecidableLT T] {n : Nat}

/-- The state at the start of iteration `k`. -/
structure GI (n : Nat) (S : (Nat → T) → (Nat → T) → Prop) (b : Nat → T) (tol : T) (k : Nat) (st : St T)
    (h γ : Nat → T) : Prop where
  qlen : st.q.length = k + 1
  qhas : ∀ i, i ≤ k → Has n st.q i
  hs : HS k st.hess
  slen : st.s.length = k
  clen : st.c.length = k
  us : US k st.r
  blen : st.beta.length = k + 1
  bold : ∀ i, i < k → val0 st.beta i = val0 st.c i * γ i
  blast : val0 st.beta k = γ k
  beta : γ 0 = normUp n b
  first : ∀ l, l < n → qf st.q 0 l = 1 / γ 0 * b l
  cols : ∀ i, i < k → ∃ v ρ, GmresCol n S i (qf st.q) (Hv st.hess) h (Rv st.r) (val0 st.c) (val0 st.s) γ v ρ
  go : ∀ i, 0 < i → i < k → ¬ absT (γ i) < tol

variable {S : (Nat → T) → (Nat → T) → Prop} {b : Nat → T} {tol : T} {ops : GOps M T} {g : Gmres M T}

/-- The matrix and the preconditioner compute `S`. -/
def Does (n : Nat) (S : (Nat → T) → (Nat → T) → Prop) (ops : GOps M T) (g : Gmres M T) : Prop :=
  ∀ l : List T, l.length = n → ∃ w y, ops.mul g.mat l = .ok w ∧ Ilu.solve ops.toMatOps g.lu w = .ok y ∧
    y.length = n ∧ S (val0 l) (val0 y)

theorem arnoldi_raw (nd : Bool) (hdv : ∀ v : T, DivAt v) (hsq : ∀ v : T, sqrtC v = .ok (Sqrt.sqrt v))
    (hS : Does n S ops g) {k : Nat} {st : St T} {h γ : Nat → T} (hi : GI n S b tol k st h γ) (h0 : 0 < n) :
    ∃ hess w, ∃ v : Nat → T, arnoldi nd ops g st = .ok { st with
        q := st.q ++ [some (w.map fun x => 1 / normUp n (val0 w) * x)], hess := hess, h := normUp n (val0 w) } ∧
      HS (k + 1) hess ∧ w.length = n ∧ S (qf st.q k) v ∧ (∀ i, i ≤ k → Hv hess i k = dotUp n (qf st.q i) v) ∧
      (∀ i j, i ≤ j → j < k → Hv hess i j = Hv st.hess i j) ∧
      ∀ l, l < n → val0 w l = addUpL (fun j => -1 * (Hv hess j k * qf st.q j l)) (k + 1) (v l) := by
  unfold arnoldi
  simp only [hi.qlen, Nat.add_sub_cancel]
  obtain ⟨a1, e1, hs1⟩ := hi.hs.extend
  have o1 : ∀ i j, i ≤ j → j < k → Hv a1 i j = Hv st.hess i j := by
    intro i j hij hj
    cases e1
    unfold Hv
    simp only []
    rw [val0_append, if_pos]
    rw [hi.hs.2, if_neg (by omega)]
    have := off_mono (w := fun j => j + 2) hOff_succ hj
    omega
  rw [e1, ok_bind]
  obtain ⟨a2, e2, hs2, o2⟩ : ∃ a2, setSub k st.h a1 = .ok a2 ∧ HS (k + 1) a2 ∧
      ∀ i j, i ≤ j → j < k → Hv a2 i j = Hv st.hess i j := by
    by_cases hk : 0 < k
    · obtain ⟨a2, e, h, h5, h6⟩ := hs1.set (i := k) (j := k - 1) (by omega) (by omega) (by omega) st.h
      refine ⟨a2, by rw [setSub, if_pos hk, e], h, fun i j hij hj => ?_⟩
      rw [Hv.old h5 h6 (off_ne (by omega) (by omega) (by omega)), o1 i j hij hj]
    · exact ⟨a1, if_neg hk, hs1, o1⟩
  rw [e2, ok_bind, show (a2.shape.1 == k + 1) = true by simp [Hess.shape, hs2.1], cassert_true, ok_bind]
  obtain ⟨qk, eq, lq, vq⟩ := (hi.qhas k (Nat.le_refl _)).at
  rw [eq, ok_bind]
  obtain ⟨w, y, ew, ey, ly, vy⟩ := hS qk lq
  rw [ew, ok_bind, ey, ok_bind]
  obtain ⟨a3, e3, hs3, v3, o3⟩ := project_raw h0 hi.qhas ly hs2
  rw [e3, ok_bind]
  obtain ⟨v, ev, lv, vv⟩ := subtract_raw hi.qhas ly hs3
  rw [ev, ok_bind, norm2_raw hsq lv, ok_bind, normalised_raw hdv, ok_bind]
  exact ⟨a3, v, val0 y, rfl, hs3, lv, vq ▸ vy, v3, fun i j hij hj => by rw [o3 i j hij hj, o2 i j hij hj], vv⟩

theorem step_raw (nd : Bool) (hdv : ∀ v : T, DivAt v) (hsq : ∀ v : T, sqrtC v = .ok (Sqrt.sqrt v))
    (hS : Does n S ops g) {k : Nat} {st : St T} {h γ : Nat → T} (hi : GI n S b tol k st h γ) (h0 : 0 < n)
    (hgo : 0 < k → ¬ absT (γ k) < tol) :
    ∃ st' h' γ', (arnoldi nd ops g st >>= givensRot nd) = .ok st' ∧ GI n S b tol (k + 1) st' h' γ' := by
  obtain ⟨hess, w, v, ea, hs, lw, hop, hpr, hold, hw⟩ := arnoldi_raw nd hdv hsq hS hi h0
  rw [ea, ok_bind]
  unfold givensRot
  simp only [Hess.shape, UTri.shape, hs.1, Nat.add_sub_cancel]
  obtain ⟨col, ec, lc, vc⟩ := hs.getCol
  rw [ec, ok_bind]
  obtain ⟨r1, e1, us1, old1, new1⟩ := hi.us.extend lc
  rw [e1, ok_bind, show (r1.n == k + 1) = true by simp [us1.1], cassert_true, ok_bind,
    show ((st.beta ++ [(0 : T)]).length == k + 1 + 1) = true by simp [hi.blen], cassert_true, ok_bind]
  obtain ⟨r2, ρ, e2, us2, old2, ρ0, ρs, col2, dia2⟩ := rotate_raw hi.slen hi.clen hs us1
    (fun i h => by rw [new1, vc i h]; rfl)
  rw [e2, ok_bind, us2.getMut (Nat.le_refl _), ok_bind, dia2, hsq, ok_bind]
  generalize hh : normUp n (val0 w) = hk
  generalize hδ : Sqrt.sqrt (ρ k * ρ k + hk * hk) = δ
  rw [hdv, ok_bind, hdv, ok_bind,
    show ((st.c ++ [ρ k / δ]).length == k + 1) = true by simp [hi.clen], cassert_true, ok_bind,
    show ((st.s ++ [hk / δ]).length == k + 1) = true by simp [hi.slen], cassert_true, ok_bind]
  have vs : val0 (st.s ++ [hk / δ]) k = hk / δ := by
    rw [val0_append, if_neg (by rw [hi.slen]; omega), hi.slen, Nat.sub_self]; rfl
  have vcc : val0 (st.c ++ [ρ k / δ]) k = ρ k / δ := by
    rw [val0_append, if_neg (by rw [hi.clen]; omega), hi.clen, Nat.sub_self]; rfl
  have vb : val0 (st.beta ++ [0]) k = γ k := by
    rw [val0_append, if_pos (by rw [hi.blen]; omega), hi.blast]
  have lb : (st.beta ++ [(0 : T)]).length = k + 2 := by simp [hi.blen]
  rw [lrd_val (by simp [hi.slen]), ok_bind, lrd_val (by simp [hi.clen]), ok_bind, lrd_val (by omega), ok_bind,
    vs, vcc, vb, lwr_ok (by omega), ok_bind, lwr_ok (by rw [List.length_set]; omega), ok_bind]
  obtain ⟨r3, e3, us3, old3, self3, other3⟩ := us2.set (Nat.le_refl k) (ρ k / δ * ρ k + hk / δ * hk)
  rw [e3]
  have hbe : ∀ i, val0 (((st.beta ++ [0]).set (k + 1) (-(hk / δ) * γ k)).set k (ρ k / δ * γ k)) i =
      if i = k then ρ k / δ * γ k else if i = k + 1 then -(hk / δ) * γ k else val0 (st.beta ++ [0]) i := by
    intro i
    rw [val0_set (by rw [List.length_set]; omega), val0_set (by omega)]
  have hq : ∀ i, i ≤ k → qf (st.q ++ [some (w.map fun x => 1 / hk * x)]) i = qf st.q i := fun i h =>
    qf_append _ (by rw [hi.qlen]; omega)
  have hqn : qf (st.q ++ [some (w.map fun x => 1 / hk * x)]) (k + 1) = val0 (w.map fun x => 1 / hk * x) := by
    rw [← hi.qlen]; exact qf_last _
  have hs' : ∀ i, i < k → val0 (st.s ++ [hk / δ]) i = val0 st.s i := fun i h => by
    rw [val0_append, if_pos (by rw [hi.slen]; exact h)]
  have hc' : ∀ i, i < k → val0 (st.c ++ [ρ k / δ]) i = val0 st.c i := fun i h => by
    rw [val0_append, if_pos (by rw [hi.clen]; exact h)]
  refine ⟨_, fun i => if i = k then hk else h i, fun i => if i = k + 1 then -(hk / δ) * γ k else γ i, rfl,
    by simp [hi.qlen], ?_, hs, by simp [hi.slen], by simp [hi.clen], us3, by simp [hi.blen], ?_, ?_, ?_, ?_, ?_, ?_⟩
  · intro i hik
    rcases Nat.lt_or_ge i (k + 1) with h1 | h1
    · exact (hi.qhas i (by omega)).append _
    · obtain rfl : i = k + 1 := by omega
      refine ⟨w.map fun x => 1 / hk * x, ?_, by simp [lw]⟩
      show (st.q ++ [_])[k + 1]? = _
      rw [List.getElem?_append_right (by rw [hi.qlen]), hi.qlen, Nat.sub_self]
      rfl
  · intro i hik
    show val0 (((st.beta ++ [0]).set (k + 1) (-(hk / δ) * γ k)).set k (ρ k / δ * γ k)) i =
      val0 (st.c ++ [ρ k / δ]) i * _
    rw [hbe]
    by_cases hk' : i = k
    · rw [if_pos hk', hk', vcc, if_neg (by omega)]
    · rw [if_neg hk', if_neg (by omega), if_neg (by omega), hc' i (by omega), val0_append,
        if_pos (by rw [hi.blen]; omega), hi.bold i (by omega)]
  · show val0 (((st.beta ++ [0]).set (k + 1) (-(hk / δ) * γ k)).set k (ρ k / δ * γ k)) (k + 1) = _
    rw [hbe, if_neg (by omega), if_pos rfl, if_pos rfl]
  · rw [if_neg (by omega)]; exact hi.beta
  · intro l hl
    show qf (st.q ++ [_]) 0 l = _
    rw [if_neg (by omega), hq 0 (by omega)]; exact hi.first l hl
  · intro i hik
    rcases Nat.lt_or_ge i k with h1 | h1
    · obtain ⟨v', ρ', hc⟩ := hi.cols i h1
      refine ⟨v', ρ', hc.congr (fun j hj => (hq j (by omega)).symm) (fun j hj => (hold j i hj h1).symm) ?_
        (fun j hj => ?_) (fun j hj => (hc' j (by omega)).symm) (fun j hj => (hs' j (by omega)).symm) fun j hj => ?_⟩
      · rw [if_neg (by omega)]
      · show _ = Rv r3 j i
        rw [old3 j i hj h1, old2 j i hj h1, old1 j i hj h1]
      · rw [if_neg (by omega)]
    · obtain rfl : i = k := by omega
      refine ⟨v, ρ, ?_, ?_, ?_, ?_, ρ0, ?_, ?_, ?_, ?_, ?_, ?_⟩
      · show S (qf (st.q ++ [_]) i) v
        rw [hq i (Nat.le_refl _)]; exact hop
      · intro j hj
        show _ = dotUp n (qf (st.q ++ [_]) j) v
        rw [hq j hj]; exact hpr j hj
      · rw [if_pos rfl, ← hh]
        refine normUp_congr fun l hl => ?_
        rw [hw l hl]
        refine addUpL_congr (fun j hj => ?_) _
        show _ = -1 * (Hv hess j i * qf (st.q ++ [_]) j l)
        rw [hh, hq j (by omega)]
      · intro l hl
        show qf (st.q ++ [_]) (i + 1) l = _
        rw [if_pos rfl, hqn, val0_map (by omega), hw l hl]
        congr 1
        refine addUpL_congr (fun j hj => ?_) _
        show _ = -1 * (Hv hess j i * qf (st.q ++ [_]) j l)
        rw [hq j (by omega)]
      · intro j hj
        show _ = -val0 (st.s ++ [hk / δ]) j * ρ j + val0 (st.c ++ [ρ i / δ]) j * _
        rw [hs' j hj, hc' j hj]; exact ρs j hj
      · intro j hj
        show Rv r3 j i = val0 (st.c ++ [ρ i / δ]) j * _ + val0 (st.s ++ [hk / δ]) j * _
        rw [hs' j hj, hc' j hj, other3 j (by omega)]; exact col2 j hj
      · show val0 (st.s ++ [hk / δ]) i = _
        rw [vs, if_pos rfl, hδ]
      · show val0 (st.c ++ [ρ i / δ]) i = _
        rw [vcc, if_pos rfl, hδ]
      · show Rv r3 i i = val0 (st.c ++ [ρ i / δ]) i * _ + val0 (st.s ++ [hk / δ]) i * _
        rw [vs, vcc, if_pos rfl, self3]
      · show _ = -val0 (st.s ++ [hk / δ]) i * _
        rw [vs, if_pos rfl, if_neg (by omega)]
  · intro i h1 h2
    rw [if_neg (by omega)]
    by_cases hk' : i = k
    · subst hk'; exact hgo h1
    · exact hi.go i h1 (by omega)

/-- What is known when the iteration stops. -/
def Stop (n : Nat) (S : (Nat → T) → (Nat → T) → Prop) (b : Nat → T) (tol : T) (st : St T) : Prop :=
  ∃ k h γ, k ≤ n ∧ (0 < n → 0 < k) ∧ GI n S b tol k st h γ ∧ (k = n ∨ absT (γ k) < tol)

theorem loop_raw (nd : Bool) (hdv : ∀ v : T, DivAt v) (hsq : ∀ v : T, sqrtC v = .ok (Sqrt.sqrt v))
    (hS : Does n S ops g) {st : St T} {h γ : Nat → T} (hi : GI n S b g.tol 0 st h γ) :
    ∃ r, forRet 0 n (iterate nd ops g) st = .ok r ∧ Stop n S b g.tol (after r) := by
  refine Ok.exists (Sat.mono (forRet_sat (I := fun k st => ∃ h γ, GI n S b g.tol k st h γ ∧
      (0 < k → ¬ absT (γ k) < g.tol)) (R := Stop n S b g.tol) (Nat.zero_le _)
    ⟨h, γ, hi, fun h => absurd h (by omega)⟩ ?_) ?_ (fun _ h => h))
  · rintro k st - hk ⟨h, γ, hi, hgo⟩
    have e : iterate nd ops g k st = (arnoldi nd ops g st >>= givensRot nd) >>= check g.tol := by
      rw [iterate]
      cases arnoldi nd ops g st <;> rfl
    obtain ⟨st', h', γ', es, hi'⟩ := step_raw nd hdv hsq hS hi (by omega) hgo
    rw [e, es, ok_bind]
    unfold check
    rw [hi'.blen, Nat.add_sub_cancel, lrd_val (by rw [hi'.blen]; omega), ok_bind, hi'.blast]
    by_cases ht : absT (γ' (k + 1)) < g.tol
    · rw [if_pos (by exact ht)]
      exact ⟨k + 1, h', γ', by omega, fun _ => by omega, hi', .inr ht⟩
    · rw [if_neg (by exact ht)]
      exact ⟨h', γ', hi', fun _ => ht⟩
  · rintro (st | st) h
    · obtain ⟨h, γ, hi, _⟩ := h
      exact ⟨n, h, γ, Nat.le_refl _, id, hi, .inl rfl⟩
    · exact h

/-- A whole run. -/
theorem solve_raw (nd : Bool) {rt : Nat → Nat} (hrt : SqrtExact rt) (hdv : ∀ v : T, DivAt v)
    (hsq : ∀ v : T, sqrtC v = .ok (Sqrt.sqrt v)) (hS : Does n S ops g)
    (hsh : ops.shape g.mat = .ok (n, n)) {rhs b' : List T} (hb : Ilu.solve ops.toMatOps g.lu rhs = .ok b')
    (lb : b'.length = n) :
    ∃ x, solve rt nd ops g rhs = .ok x ∧ x.length = n ∧
      ∃ k q H h R c s γ y, GmresRec n S g.tol (val0 b') (val0 x) k q H h R c s γ y := by
  unfold solve
  rw [hsh, ok_bind]
  simp only []
  unfold start
  rw [hb, ok_bind, norm2_raw hsq lb, ok_bind, normalised_raw hdv, ok_bind]
  have eu : (UTri.withCapacity rt n : Res (UTri T)) = .ok ⟨0, []⟩ := by
    have h1 : rt 1 = 1 := hrt 1 (by norm_num)
    simp [UTri.withCapacity, UTri.new, UTri.calcSize, h1, noexcept]
  have eh : (Hess.withCapacity rt n : Res (Hess T)) = .ok ⟨0, []⟩ := by
    simp [Hess.withCapacity, Hess.new, Hess.calcSize, noexcept]
  rw [eu, ok_bind, eh, ok_bind, ok_bind]
  generalize hnb : normUp n (val0 b') = nb
  have hi : GI n S (val0 b') g.tol 0
      (⟨[some (b'.map fun x => 1 / nb * x)], ⟨0, []⟩, 0, [], [], ⟨0, []⟩, [nb]⟩ : St T) (fun _ => 0) fun _ => nb := by
    refine ⟨rfl, ?_, ⟨rfl, rfl⟩, rfl, rfl, ⟨rfl, rfl⟩, rfl, fun i h => absurd h (Nat.not_lt_zero _), rfl, hnb.symm, ?_,
      fun i h => absurd h (Nat.not_lt_zero _), fun i _ h => absurd h (Nat.not_lt_zero _)⟩
    · intro i h
      obtain rfl : i = 0 := by omega
      exact ⟨_, rfl, by simp [lb]⟩
    · intro l hl
      show val0 (b'.map fun x => 1 / nb * x) l = _
      rw [val0_map (by omega)]
  obtain ⟨r, er, hr⟩ := loop_raw nd hdv hsq hS hi
  rw [er, ok_bind]
  generalize after r = st at hr ⊢
  obtain ⟨k, h, γ, hkn, hk0, hi, hstop⟩ := hr
  have hk : st.beta.length - 1 = k := by rw [hi.blen]; omega
  rw [hk]
  have hyl : (st.beta.take k).length = st.r.n := by rw [List.length_take, hi.blen, hi.us.1]; omega
  obtain ⟨y, ey, ly, hy⟩ := backSub_raw st.r (R := fun i j => if i ≤ j then Rv st.r i j else 0) hyl
    (fun i j _ hj => hi.us.get (by rw [← hi.us.1]; exact hj)) (fun i _ => hdv _)
  rw [ey, ok_bind]
  rw [hi.us.1] at ly hy
  obtain ⟨x, ex, lx, hx⟩ := combine_raw (n := n) (q := st.q) (k := k) (beta := y ++ st.beta.drop k)
    (fun i h => hi.qhas i (by omega)) (by rw [List.length_append]; omega)
  refine ⟨x, ex, lx, k, qf st.q, Hv st.hess, h, Rv st.r, val0 st.c, val0 st.s, γ, val0 y, hkn, hk0, hi.beta, hi.first,
    hi.cols, hi.go, hstop, ?_, ?_⟩
  · refine hy.congr (fun i j hij hj => if_pos hij) fun i h => ?_
    rw [← hi.bold i h]
    unfold val0
    rw [List.getD_eq_getElem?_getD, List.getD_eq_getElem?_getD, List.getElem?_take, if_pos h]
  · intro l hl
    rw [hx l hl]
    refine addUpL_congr (fun i h => ?_) _
    rw [val0_append, if_pos (by omega)]

end iter

/-! ## The matrix classes -/

section classes
variable [Zero T] [One T] [Add T] [Sub T] [Mul T] [Neg T] [Div T] [Sqrt T] {n : Nat}

theorem _root_.Lalib.GKind.storage {ops : Bool → GOps M T} {ok : M → Prop}
    {prod : Nat → M → (Nat → T) → (Nat → T) → Prop} (h : GKind ops ok prod) (nd : Bool) :
    Storage (ops nd).toMatOps ok := by
  cases h with
  | dense => exact .dense
  | csr => exact .csr

theorem _root_.Lalib.GKind.prod {ops : Bool → GOps M T} {ok : M → Prop}
    {prod : Nat → M → (Nat → T) → (Nat → T) → Prop} (h : GKind ops ok prod) (nd : Bool) {a : M} {A : Nat → Nat → T} (hok : ok a) (hA : Shows (ops nd).toMatOps n a A) {l : List T}
    (hl : l.length = n) :
    ∃ w, (ops nd).mul a l = .ok w ∧ w.length = n ∧ prod n a (val0 l) (val0 w) := by
  cases h with
  | dense =>
    have h1 := hA.1
    injection h1 with h1
    injection h1 with h1 h2
    have lm : (Mem.ofList [a.elems, l]).len 1 = n := hl
    have e : (dGOps nd).mul a l = .ok ((List.range n).map fun i =>
        addUp (fun k => 1 * val0 a.elems (i * n + k) * val0 l k) 0 n (0 * 0)) := by
      show matVec nd a l = _
      unfold matVec matVecAt
      simp only []
      rw [lm, h1, h2, show (n == n) = true by simp, cassert_true, ok_bind,
        gemvCore_raw (by show n * n ≤ a.elems.length; rw [hok, h1, h2]) (by show n ≤ l.length; omega)
          (by simp [Mem.len, Mem.setBuf]) (by omega)]
      show Except.ok _ = _
      congr 1
      simp only [Mem.setBuf_self]
      refine List.map_congr_left fun i hi => ?_
      have hi := List.mem_range.mp hi
      rw [val0_replicate, ite_self]
      rfl
    refine ⟨_, e, by simp, fun i hi => ?_⟩
    rw [val0_map_range, if_pos hi]
  | csr =>
    have hs : a.shape = .ok (n, n) := hA.1
    have hr : a.nrows = n := by
      have hs' := hs
      unfold Csr.shape at hs'
      have hne : a.rowPtr.length ≠ 0 := by
        intro h0
        have := hok.1.ptr0
        rw [List.length_eq_zero_iff.mp h0] at this
        simp at this
      cases hm : maxElem a.col with
      | error e => rw [hm] at hs'; cases hs'
      | ok c =>
        rw [hm, ok_bind, if_neg hne] at hs'
        injection hs' with hs'
        injection hs' with hs' _
    have hc := Csr.col_lt hok.1 hs
    have e : (csrGOps nd).mul a l = .ok ((List.range n).map fun i =>
        addUp (fun k => 1 * val0 a.val k * val0 l (a.col.getD k 0)) (a.rowPtr.getD i 0) (a.rowPtr.getD (i + 1) 0)
          (0 * 0)) := by
      show Csr.mulVec nd a l = _
      unfold Csr.mulVec Csr.mulVecAt
      rw [hs, ok_bind]
      simp only []
      have lm : (Mem.ofList [l]).len 0 = n := hl
      rw [lm, show (n == n) = true by simp, cassert_true, ok_bind]
      conv_lhs => rw [← hr]
      rw [Csr.mulCore_raw hok.1 (by intro c h; show c < l.length; rw [hl]; exact hc c h)
          (by simp [Mem.len, Mem.setBuf]) (by omega)]
      show Except.ok _ = _
      congr 1
      simp only [Mem.setBuf_self]
      rw [hr]
      refine List.map_congr_left fun i hi => ?_
      rw [val0_replicate, ite_self]
      rfl
    refine ⟨_, e, by simp, fun i hi => ?_⟩
    rw [val0_map_range, if_pos hi]

end classes

end Gmres

end Lalib
