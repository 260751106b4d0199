import Verif.Spec.Basic

/-! # Matrices in specifications: row-major lists and their entries -/

namespace Lalib

variable {T : Type}

/-- Entry `(i,j)` of a row-major list with `m` columns. -/
def entry [Zero T] (m : Nat) (l : List T) (i j : Nat) : T := val0 l (i * m + j)

/-- The row-major list of an `n x m` matrix given by its entries. -/
def matOf (n m : Nat) (f : Nat → Nat → T) : List T :=
  (List.range (n * m)).map fun p => f (p / m) (p % m)

theorem cell_lt {n m i j : Nat} (hi : i < n) (hj : j < m) : i * m + j < n * m := by
  have := Nat.mul_le_mul_right m (show i + 1 ≤ n from hi)
  rw [Nat.succ_mul] at this
  omega

theorem cell_div {m i j : Nat} (hj : j < m) : (i * m + j) / m = i := by
  rw [Nat.mul_comm, Nat.mul_add_div (by omega), Nat.div_eq_of_lt hj, Nat.add_zero]

theorem cell_mod {m i j : Nat} (hj : j < m) : (i * m + j) % m = j := by
  rw [Nat.mul_comm, Nat.mul_add_mod, Nat.mod_eq_of_lt hj]

theorem cell_inj {m i j i' j' : Nat} (hj : j < m) (hj' : j' < m) :
    i * m + j = i' * m + j' ↔ i = i' ∧ j = j' := by
  constructor
  · intro h
    exact ⟨by rw [← cell_div (i := i) hj, h, cell_div hj'],
      by rw [← cell_mod (i := i) hj, h, cell_mod hj']⟩
  · rintro ⟨rfl, rfl⟩; rfl

@[simp] theorem length_matOf (n m : Nat) (f : Nat → Nat → T) : (matOf n m f).length = n * m := by
  simp [matOf]

theorem entry_matOf [Zero T] {n m : Nat} (f : Nat → Nat → T) {i j : Nat} (hi : i < n) (hj : j < m) :
    entry m (matOf n m f) i j = f i j := by
  unfold entry matOf
  rw [val0_map_range, if_pos (cell_lt hi hj), cell_div hj, cell_mod hj]

theorem cell_of_lt {n m p : Nat} (h : p < n * m) : p / m < n ∧ p % m < m ∧ p / m * m + p % m = p := by
  have hm : 0 < m := by
    rcases Nat.eq_zero_or_pos m with h0 | h0
    · subst h0; simp at h
    · exact h0
  exact ⟨Nat.div_lt_of_lt_mul (by rwa [Nat.mul_comm]), Nat.mod_lt _ hm, Nat.div_add_mod' p m⟩

theorem matOf_congr {n m : Nat} {f g : Nat → Nat → T} (h : ∀ i j, i < n → j < m → f i j = g i j) :
    matOf n m f = matOf n m g := by
  unfold matOf
  apply List.map_congr_left
  intro p hp
  have := cell_of_lt (List.mem_range.mp hp)
  exact h _ _ this.1 this.2.1

theorem mat_ext [Zero T] {n m : Nat} {l l' : List T} (hl : l.length = n * m) (hl' : l'.length = n * m)
    (h : ∀ i j, i < n → j < m → entry m l i j = entry m l' i j) : l = l' := by
  apply list_ext_val0 (by rw [hl, hl'])
  intro p hp
  rw [hl] at hp
  obtain ⟨h1, h2, h3⟩ := cell_of_lt hp
  have := h _ _ h1 h2
  unfold entry at this
  rwa [h3] at this

/-- Entry of `alpha * A * x + beta * y`, with `A : n x m`. -/
def gemvSpec [CommRing T] (m : Nat) (alpha : T) (a x : List T) (beta : T) (y : List T) (i : Nat) : T :=
  alpha * (∑ k ∈ Finset.range m, entry m a i k * val0 x k) + beta * val0 y i

/-- Entry of `alpha * A * B + beta * C`, with `A : n x o`, `B : o x m`. -/
def gemmSpec [CommRing T] (o m : Nat) (alpha : T) (a b : List T) (beta : T) (c : List T)
    (i j : Nat) : T :=
  alpha * (∑ k ∈ Finset.range o, entry o a i k * entry m b k j) + beta * entry m c i j

end Lalib
