import Verif.Core.Mem

/-! # Vocabulary of the specifications (independent of the model's functions) -/

namespace Lalib

variable {T : Type}

/-- `m'` is `m`, except that object `r` now holds the elements `l`: every other object is unchanged. -/
def Stores (m m' : Mem T) (r : Nat) (l : List T) : Prop := m' r = l ∧ ∀ q, q ≠ r → m' q = m q

theorem stores_setBuf (m : Mem T) (r : Nat) (l : List T) : Stores m (m.setBuf r l) r l :=
  ⟨Mem.setBuf_self _ _ _, fun _ h => Mem.setBuf_other _ h _⟩

theorem Stores.eq {m m' : Mem T} {r : Nat} {l : List T} (h : Stores m m' r l) :
    m' = m.setBuf r l := by
  funext q
  by_cases hq : q = r
  · subst hq; rw [h.1, Mem.setBuf_self]
  · rw [h.2 q hq, Mem.setBuf_other _ hq]

/-- Inner product of two vectors. -/
def dotSpec [Zero T] [Add T] [Mul T] (x y : List T) : T := (List.zipWith (· * ·) x y).sum

theorem list_sum_eq_range [AddCommMonoid T] (l : List T) :
    l.sum = ∑ i ∈ Finset.range l.length, val0 l i := by
  induction l with
  | nil => simp
  | cons a l ih =>
    rw [List.sum_cons, List.length_cons, Finset.sum_range_succ', ih, add_comm]
    simp [val0]

theorem val0_zipWith [Zero T] {f : T → T → T} {x y : List T} (h : x.length = y.length) {i : Nat}
    (hi : i < x.length) : val0 (List.zipWith f x y) i = f (val0 x i) (val0 y i) := by
  have hy : i < y.length := by omega
  simp [val0, hi, hy]

theorem val0_map [Zero T] {f : T → T} {x : List T} {i : Nat}
    (hi : i < x.length) : val0 (List.map f x) i = f (val0 x i) := by
  simp [val0, hi]

theorem dotSpec_eq_range [CommRing T] {x y : List T} (h : x.length = y.length) :
    dotSpec x y = ∑ i ∈ Finset.range x.length, val0 x i * val0 y i := by
  unfold dotSpec
  rw [list_sum_eq_range]
  simp only [List.length_zipWith, h, min_self]
  apply Finset.sum_congr rfl
  intro i hi
  exact val0_zipWith h (by rw [h]; exact Finset.mem_range.mp hi)

/-- The vector product, by components. -/
def crossSpec [CommRing T] (a b : List T) : List T :=
  [val0 a 1 * val0 b 2 - val0 a 2 * val0 b 1, val0 a 2 * val0 b 0 - val0 a 0 * val0 b 2,
   val0 a 0 * val0 b 1 - val0 a 1 * val0 b 0]

end Lalib
