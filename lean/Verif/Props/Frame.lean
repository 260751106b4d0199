import Verif.Proofs.DenseOps

/-! # C50: value-returning operators leave every operand unchanged

Each operator runs in an arbitrary memory on arbitrary (possibly equal) operand objects and delivers its
result in a new object `r`; `Stores` says that all other objects keep their contents. -/

namespace Lalib.Props

open Lalib

variable {T : Type}

theorem C50_vec_add_sub [Add T] [Sub T] (ord : List Nat) (m : Mem T) (v1 v2 r : Nat)
    (h : m.len v2 = m.len v1) (hp : ord.Perm (List.range (m.len v1))) (h1 : v1 ≠ r) (h2 : v2 ≠ r) :
    (∃ m', addOpAt ord m v1 v2 r = .ok m' ∧ Stores m m' r (List.zipWith (· + ·) (m v1) (m v2))) ∧
    (∃ m', subOpAt ord m v1 v2 r = .ok m' ∧ Stores m m' r (List.zipWith (· - ·) (m v1) (m v2))) :=
  ⟨⟨_, addOpAt_eq hp h h1 h2, stores_setBuf _ _ _⟩, ⟨_, subOpAt_eq hp h h1 h2, stores_setBuf _ _ _⟩⟩

theorem C50_vec_neg_scale [CommRing T] (alpha : T) (m : Mem T) (v r : Nat) (h : v ≠ r) :
    (∃ m', negOpAt m v r = .ok m' ∧ Stores m m' r ((m v).map fun a => -a)) ∧
    (∃ m', smulOpAt alpha m v r = .ok m' ∧ Stores m m' r ((m v).map fun a => alpha * a)) :=
  ⟨⟨_, negOpAt_eq h, stores_setBuf _ _ _⟩, ⟨_, smulOpAt_eq _ _ _ _, stores_setBuf _ _ _⟩⟩

theorem C50_vec_div [Field T] [DecidableEq T] (alpha : T) (ha : alpha ≠ 0) (m : Mem T) (v r : Nat) :
    ∃ m', divOpAt m v alpha r = .ok m' ∧ Stores m m' r ((m v).map fun a => a / alpha) :=
  ⟨_, divOpAt_eq ha, stores_setBuf _ _ _⟩

/-- Whatever the outcome of an operator on dense matrices or a matrix and a vector: if it returns, only
the new object differs. -/
theorem C50_mat [CommRing T] (nd : Bool) (ord : List Nat) (alpha : T) (s : Mem T) (a b : MatRef)
    (v r : Nat) (ha : a.Wf s) (hb : b.Wf s) (hra : a.buf ≠ r) (hrb : b.buf ≠ r) (hrv : v ≠ r) :
    (s.len v = a.m → ∃ s', matVecAt nd s a v r = .ok s' ∧ ∀ q, q ≠ r → s' q = s q) ∧
    (a.m = b.n → ∃ s', matMulAt nd s a b r = .ok s' ∧ ∀ q, q ≠ r → s' q = s q) ∧
    (a.n = b.n ∧ a.m = b.m → ord.Perm (List.range (a.n * a.m)) →
      (∃ s', matAddAt nd ord s a b r = .ok s' ∧ ∀ q, q ≠ r → s' q = s q) ∧
      (∃ s', matSubAt nd ord s a b r = .ok s' ∧ ∀ q, q ≠ r → s' q = s q)) ∧
    (∃ s', matSmulAt alpha s a r = .ok s' ∧ ∀ q, q ≠ r → s' q = s q) ∧
    (∃ s', matNegAt s a r = .ok s' ∧ ∀ q, q ≠ r → s' q = s q) :=
  ⟨fun h => ⟨_, matVecAt_eq ha h hra hrv, fun _ hq => Mem.setBuf_other _ hq _⟩,
   fun h => ⟨_, matMulAt_eq ha hb h hra hrb, fun _ hq => Mem.setBuf_other _ hq _⟩,
   fun h hp => ⟨⟨_, matAddAt_eq ha hb h hp hra hrb, fun _ hq => Mem.setBuf_other _ hq _⟩,
     ⟨_, matSubAt_eq ha hb h hp hra hrb, fun _ hq => Mem.setBuf_other _ hq _⟩⟩,
   ⟨_, matSmulAt_eq ha r, fun _ hq => Mem.setBuf_other _ hq _⟩,
   ⟨_, matNegAt_eq ha r, fun _ hq => Mem.setBuf_other _ hq _⟩⟩

theorem C50_inverted [Field T] [DecidableEq T] (s s' : Mem T) (a r : Nat) (ha : s.len a = 4)
    (hr : a ≠ r) (h : invertedAt s a r = .ok s') : ∀ q, q ≠ r → s' q = s q := by
  obtain ⟨p, q, u, v, h4⟩ := list4 (show (s a).length = 4 from ha)
  unfold invertedAt at h
  rw [invert22_run (by rw [Mem.setBuf_other _ hr, h4]) (by simp [Mem.len])] at h
  split at h
  · cases h
  · cases h
    intro q hq
    rw [Mem.setBuf_setBuf, Mem.setBuf_other _ hq]

-- x + x with one operand object
example : (addOpAt [0, 1] (Mem.ofList [[1, 2]] : Mem Int) 0 0 1).map (fun m => (m 0, m 1)) =
    .ok ([1, 2], [2, 4]) := rfl

end Lalib.Props
