import Verif.Spec.DenseStore
import Verif.Proofs.DenseOps
import Mathlib.Algebra.BigOperators.Fin

/-! # Objects and the vectors and matrices they represent -/

namespace Lalib

open Matrix

variable {T : Type}

theorem vbuf_inj {x y : Nat} : vbuf x = vbuf y ↔ x = y := by unfold vbuf; omega

theorem mbuf_inj {x y : Nat} : mbuf x = mbuf y ↔ x = y := by unfold mbuf; omega

theorem vbuf_ne_mbuf (x y : Nat) : vbuf x ≠ mbuf y := by unfold vbuf mbuf; omega

theorem mbuf_ne_vbuf (x y : Nat) : mbuf x ≠ vbuf y := by unfold vbuf mbuf; omega

theorem vbuf_ne (x : Nat) : vbuf x ≠ 0 := by unfold vbuf; omega

theorem mbuf_ne (x : Nat) : mbuf x ≠ 0 := by unfold mbuf; omega

/-- Assigning a vector. -/
theorem DnStore.Shows.setVec {s : DnStore T} {a : VStore T} (h : s.Shows a) {x : Nat} {l : List T} {o : Option (VVal T)}
    {m : Mem T} (hm : m (vbuf x) = l) (hq : ∀ q, q ≠ 0 → q ≠ vbuf x → m q = s.mem q)
    (ho : ∀ v, o = some v → v.Shown l) : DnStore.Shows ⟨m, s.dim⟩ (a.setVec x o) := by
  constructor
  · intro y v hv
    unfold VStore.setVec at hv
    by_cases hy : y = x
    · subst hy
      simp only [if_true] at hv
      show v.Shown (m (vbuf y))
      rw [hm]; exact ho v hv
    · simp only [if_neg hy] at hv
      show v.Shown (m (vbuf y))
      rw [hq _ (vbuf_ne y) (by rw [ne_eq, vbuf_inj]; exact hy)]
      exact h.vec y v hv
  · intro y v hv
    show v.Shown (s.dim y) (m (mbuf y))
    rw [hq _ (mbuf_ne y) (mbuf_ne_vbuf y x)]
    exact h.mat y v hv

/-- Assigning a matrix. -/
theorem DnStore.Shows.setMat {s : DnStore T} {a : VStore T} (h : s.Shows a) {x : Nat} {l : List T} {o : Option (MVal T)}
    {m : Mem T} {d : Nat × Nat} (hm : m (mbuf x) = l) (hq : ∀ q, q ≠ 0 → q ≠ mbuf x → m q = s.mem q)
    (ho : ∀ v, o = some v → v.Shown d l) : DnStore.Shows ⟨m, DnStore.setDim s.dim x d⟩ (a.setMat x o) := by
  constructor
  · intro y v hv
    show v.Shown (m (vbuf y))
    rw [hq _ (vbuf_ne y) (vbuf_ne_mbuf y x)]
    exact h.vec y v hv
  · intro y v hv
    unfold VStore.setMat at hv
    show v.Shown (DnStore.setDim s.dim x d y) (m (mbuf y))
    unfold DnStore.setDim
    by_cases hy : y = x
    · subst hy
      simp only [if_true] at hv
      rw [if_pos rfl, hm]; exact ho v hv
    · simp only [if_neg hy] at hv
      rw [if_neg hy, hq _ (mbuf_ne y) (by rw [ne_eq, mbuf_inj]; exact hy)]
      exact h.mat y v hv

theorem setDim_self (d : Nat → Nat × Nat) (x : Nat) : DnStore.setDim d x (d x) = d := by
  funext q; unfold DnStore.setDim; split
  · next h => rw [h]
  · rfl

theorem setDim_eq {d : Nat → Nat × Nat} {x : Nat} {v : Nat × Nat} (h : v = d x) : DnStore.setDim d x v = d := by
  rw [h, setDim_self]

/-- Assigning a matrix of the same shape. -/
theorem DnStore.Shows.setMat' {s : DnStore T} {a : VStore T} (h : s.Shows a) {x : Nat} {l : List T} {o : Option (MVal T)}
    {m : Mem T} (hm : m (mbuf x) = l) (hq : ∀ q, q ≠ 0 → q ≠ mbuf x → m q = s.mem q)
    (ho : ∀ v, o = some v → v.Shown (s.dim x) l) : DnStore.Shows ⟨m, s.dim⟩ (a.setMat x o) := by
  have := h.setMat hm hq ho
  rwa [setDim_self] at this

theorem VVal.Shown.len {v : VVal T} {l : List T} (h : v.Shown l) : l.length = v.n := by rw [h, List.length_ofFn]

theorem VVal.shown_of {v : VVal T} {l : List T} (hl : l.length = v.n) (h : ∀ i (hi : i < l.length),
    l[i] = v.x ⟨i, hl ▸ hi⟩) : v.Shown l := by
  unfold VVal.Shown
  apply List.ext_getElem (by simp [hl])
  intro i h1 h2
  rw [h i h1]; simp

theorem VVal.Shown.get {v : VVal T} {l : List T} (h : v.Shown l) (i : Nat) (hi : i < l.length) :
    l[i] = v.x ⟨i, h.len ▸ hi⟩ := by
  unfold VVal.Shown at h
  subst h; simp

theorem VVal.Shown.val0 [Zero T] {v : VVal T} {l : List T} (h : v.Shown l) (i : Fin v.n) : val0 l i = v.x i := by
  have hi : i.val < l.length := by rw [h.len]; exact i.isLt
  rw [val0_of_lt hi, h.get i hi]

theorem VVal.Shown.zip {f : T → T → T} {u v : VVal T} {l l' : List T} (hu : u.Shown l) (hv : v.Shown l') (h : v.n = u.n) :
    (⟨u.n, fun i => f (u.x i) (v.as _ h i)⟩ : VVal T).Shown (List.zipWith f l l') := by
  apply VVal.shown_of (by simp [hu.len, hv.len, h])
  intro i hi
  simp only [List.getElem_zipWith, VVal.as]
  rw [hu.get, hv.get]
  rfl

theorem VVal.Shown.map {f : T → T} {u : VVal T} {l : List T} (hu : u.Shown l) :
    (⟨u.n, fun i => f (u.x i)⟩ : VVal T).Shown (l.map f) := by
  apply VVal.shown_of (by simp [hu.len])
  intro i hi
  simp only [List.getElem_map]
  rw [hu.get]

theorem VVal.Shown.set {u : VVal T} {l : List T} (hu : u.Shown l) (i : Nat) (v : T) :
    (⟨u.n, fun k => if k.val = i then v else u.x k⟩ : VVal T).Shown (l.set i v) := by
  apply VVal.shown_of (by simp [hu.len])
  intro k hk
  rw [List.getElem_set]
  simp only [List.length_set] at hk
  by_cases h : i = k
  · simp [h]
  · rw [if_neg h, hu.get k hk]
    simp only
    rw [if_neg (Ne.symm h)]

theorem VVal.Shown.into {f : T → T → T} {u v r : VVal T} {l l' lr : List T} (hu : u.Shown l) (hv : v.Shown l')
    (hr : r.Shown lr) (h : v.n = u.n) (hle : u.n ≤ r.n) :
    (DnStmt.into f u (v.as _ h) r).Shown (List.zipWith f l l' ++ lr.drop l.length) := by
  have hl := hu.len
  have hl' := hv.len
  have hlr := hr.len
  apply VVal.shown_of (by simp [DnStmt.into]; omega)
  intro i hi
  simp only [DnStmt.into]
  by_cases hc : i < u.n
  · rw [List.getElem_append_left (by simp; omega), dif_pos hc, List.getElem_zipWith, hu.get, hv.get]
    rfl
  · have h1 : (List.zipWith f l l').length ≤ i := by simp; omega
    rw [List.getElem_append_right h1, dif_neg hc, List.getElem_drop, hr.get]
    congr 2
    simp; omega

theorem VVal.Shown.dot [CommRing T] {u v : VVal T} {l l' : List T} (hu : u.Shown l) (hv : v.Shown l') (h : v.n = u.n) :
    ∑ i ∈ Finset.range l.length, Lalib.val0 l i * Lalib.val0 l' i = u.x ⬝ᵥ v.as _ h := by
  rw [hu.len, Finset.sum_range]
  apply Finset.sum_congr rfl
  intro i _
  rw [hu.val0]
  have := hv.val0 (i.cast h.symm)
  simp only [Fin.val_cast] at this
  rw [this]
  rfl

section mat
variable [Zero T]

theorem MVal.shown_iff {a : MVal T} {d : Nat × Nat} {l : List T} :
    a.Shown d l ↔ d = (a.n, a.m) ∧ l.length = a.n * a.m ∧ ∀ (i : Fin a.n) (j : Fin a.m), entry a.m l i j = a.a i j := by
  unfold MVal.Shown
  constructor
  · rintro ⟨h1, h2, h3⟩
    refine ⟨h1, h2, fun i j => ?_⟩
    have := h3 i j
    rw [List.getElem?_eq_some_iff] at this
    obtain ⟨h4, h5⟩ := this
    unfold entry
    rw [val0_of_lt h4, h5]
  · rintro ⟨h1, h2, h3⟩
    refine ⟨h1, h2, fun i j => ?_⟩
    have h4 : i.val * a.m + j.val < l.length := by rw [h2]; exact cell_lt i.isLt j.isLt
    rw [List.getElem?_eq_some_iff]
    refine ⟨h4, ?_⟩
    rw [← h3 i j]
    unfold entry
    rw [val0_of_lt h4]

theorem MVal.Shown.entry {a : MVal T} {d : Nat × Nat} {l : List T} (h : a.Shown d l) (i : Fin a.n) (j : Fin a.m) :
    Lalib.entry a.m l i j = a.a i j := (MVal.shown_iff.mp h).2.2 i j

omit [Zero T] in
theorem MVal.Shown.len {a : MVal T} {d : Nat × Nat} {l : List T} (h : a.Shown d l) : l.length = a.n * a.m := h.2.1

omit [Zero T] in
theorem MVal.Shown.dim {a : MVal T} {d : Nat × Nat} {l : List T} (h : a.Shown d l) : d = (a.n, a.m) := h.1

/-- The row-major list of a function. -/
theorem MVal.shown_matOf {n m : Nat} (f : Nat → Nat → T) (a : Matrix (Fin n) (Fin m) T) (h : ∀ i j, f i.val j.val = a i j) :
    (⟨n, m, a⟩ : MVal T).Shown (n, m) (matOf n m f) := by
  rw [MVal.shown_iff]
  refine ⟨rfl, by simp, fun i j => ?_⟩
  rw [entry_matOf f i.isLt j.isLt]
  exact h i j

omit [Zero T] in
theorem MVal.Shown.zip {f : T → T → T} {p q : MVal T} {d d' : Nat × Nat} {l l' : List T} (hp : p.Shown d l)
    (hq : q.Shown d' l') (h : q.n = p.n ∧ q.m = p.m) :
    (⟨p.n, p.m, fun i j => f (p.a i j) (q.as _ _ h i j)⟩ : MVal T).Shown (p.n, p.m) (List.zipWith f l l') := by
  refine ⟨rfl, by simp [hp.len, hq.len, h.1, h.2], fun i j => ?_⟩
  have h1 := hp.2.2 i j
  have h2 := hq.2.2 (i.cast h.1.symm) (j.cast h.2.symm)
  simp only [Fin.val_cast, h.2] at h2
  rw [List.getElem?_zipWith, h1, h2]
  rfl

omit [Zero T] in
theorem MVal.Shown.map {f : T → T} {p : MVal T} {d : Nat × Nat} {l : List T} (hp : p.Shown d l) :
    (⟨p.n, p.m, fun i j => f (p.a i j)⟩ : MVal T).Shown (p.n, p.m) (l.map f) := by
  refine ⟨rfl, by simp [hp.len], fun i j => ?_⟩
  rw [List.getElem?_map, hp.2.2 i j]
  rfl

omit [Zero T] in
theorem MVal.Shown.set {p : MVal T} {d : Nat × Nat} {l : List T} (hp : p.Shown d l) {i j : Nat} (hi : i < p.n) (hj : j < p.m)
    (v : T) :
    (⟨p.n, p.m, fun k q => if k.val = i ∧ q.val = j then v else p.a k q⟩ : MVal T).Shown (p.n, p.m) (l.set (i * p.m + j) v) := by
  refine ⟨rfl, by simp [hp.len], fun k q => ?_⟩
  show (l.set (i * p.m + j) v)[k.val * p.m + q.val]? = some (if k.val = i ∧ q.val = j then v else p.a k q)
  rw [List.getElem?_set]
  by_cases h : k.val = i ∧ q.val = j
  · rw [if_pos h, if_pos (by rw [h.1, h.2]), if_pos (by rw [hp.len]; exact cell_lt hi hj)]
  · rw [if_neg h, if_neg (fun e => h ?_)]
    · exact hp.2.2 k q
    · have := (cell_inj hj q.isLt).mp e
      exact ⟨this.1.symm, this.2.symm⟩

end mat

end Lalib
