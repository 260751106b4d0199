import Verif.Spec.IntElem
import Verif.Proofs.Eval
import Mathlib.Algebra.Order.BigOperators.Group.Finset
import Mathlib.Tactic.Linarith
import Mathlib.Tactic.Ring

/-! # Signed integers: lemmas -/

namespace Lalib

open Finset

namespace SInt
variable {b : ℕ}

theorem Is.range {v : SInt b} {z : ℤ} (h : v.Is z) : InRange b z := h.1

theorem Is.ne {v : SInt b} {z : ℤ} (h : v.Is z) : v ≠ over := by
  obtain ⟨_, rfl⟩ := h
  exact fun h => nomatch h

theorem Is.gives {v : SInt b} {z : ℤ} (h : v.Is z) : v.Gives True z := ⟨fun _ => h, fun h => (h trivial).elim⟩

theorem of_gives (b : ℕ) (z : ℤ) : (of b z).Gives (InRange b z) z := by
  refine ⟨fun h => ⟨h, ?_⟩, fun h => ?_⟩
  · unfold of; rw [dif_pos h]
  · unfold of; rw [dif_neg h]

theorem Gives.congr {v : SInt b} {P Q : Prop} {z w : ℤ} (h : v.Gives P z) (hP : P ↔ Q) (hz : z = w) : v.Gives Q w := by
  subst hz
  exact ⟨fun q => h.1 (hP.mpr q), fun q => h.2 fun p => q (hP.mp p)⟩

theorem Gives.op2 {u v : SInt b} {P Q : Prop} {x y : ℤ} (f : ℤ → ℤ → ℤ) (hu : u.Gives P x) (hv : v.Gives Q y) :
    (SInt.op2 f u v).Gives (P ∧ Q ∧ InRange b (f x y)) (f x y) := by
  by_cases hP : P
  · obtain ⟨h1, rfl⟩ := hu.1 hP
    by_cases hQ : Q
    · obtain ⟨h2, rfl⟩ := hv.1 hQ
      exact (of_gives b (f x y)).congr ⟨fun h => ⟨hP, hQ, h⟩, fun h => h.2.2⟩ rfl
    · rw [hv.2 hQ]
      exact ⟨fun h => (hQ h.2.1).elim, fun _ => rfl⟩
  · rw [hu.2 hP]
    refine ⟨fun h => (hP h.1).elim, fun _ => ?_⟩
    cases v <;> rfl

theorem Gives.add {u v : SInt b} {P Q : Prop} {x y : ℤ} (hu : u.Gives P x) (hv : v.Gives Q y) :
    (u + v).Gives (P ∧ Q ∧ InRange b (x + y)) (x + y) := Gives.op2 (· + ·) hu hv

theorem Gives.sub {u v : SInt b} {P Q : Prop} {x y : ℤ} (hu : u.Gives P x) (hv : v.Gives Q y) :
    (u - v).Gives (P ∧ Q ∧ InRange b (x - y)) (x - y) := Gives.op2 (· - ·) hu hv

theorem Gives.mul {u v : SInt b} {P Q : Prop} {x y : ℤ} (hu : u.Gives P x) (hv : v.Gives Q y) :
    (u * v).Gives (P ∧ Q ∧ InRange b (x * y)) (x * y) := Gives.op2 (· * ·) hu hv

theorem Is.add {u v : SInt b} {x y : ℤ} (hu : u.Is x) (hv : v.Is y) : (u + v).Gives (InRange b (x + y)) (x + y) :=
  (hu.gives.add hv.gives).congr (by simp) rfl

theorem Is.sub {u v : SInt b} {x y : ℤ} (hu : u.Is x) (hv : v.Is y) : (u - v).Gives (InRange b (x - y)) (x - y) :=
  (hu.gives.sub hv.gives).congr (by simp) rfl

theorem Is.mul {u v : SInt b} {x y : ℤ} (hu : u.Is x) (hv : v.Is y) : (u * v).Gives (InRange b (x * y)) (x * y) :=
  (hu.gives.mul hv.gives).congr (by simp) rfl

theorem Is.neg {u : SInt b} {x : ℤ} (hu : u.Is x) : (-u).Gives (InRange b (-x)) (-x) := by
  obtain ⟨_, rfl⟩ := hu
  exact of_gives b (-x)

/-- A result which is not `over` is the exact one. -/
theorem Gives.exact {v : SInt b} {P : Prop} {z : ℤ} (h : v.Gives P z) (hv : v ≠ over) : P ∧ v.Is z := by
  by_cases hP : P
  · exact ⟨hP, h.1 hP⟩
  · exact (hv (h.2 hP)).elim

theorem addUp_gives {g : ℕ → SInt b} {t : SInt b} {G : ℕ → ℤ} {P : ℕ → Prop} {Q : Prop} {z : ℤ} (ht : t.Gives Q z) :
    ∀ n, (∀ k, k < n → (g k).Gives (P k) (G k)) →
      (addUp g 0 n t).Gives (Q ∧ ∀ k, k < n → P k ∧ InRange b (z + ∑ j ∈ range (k + 1), G j)) (z + ∑ k ∈ range n, G k)
  | 0, _ => ht.congr (by simp) (by simp)
  | n + 1, hg => by
    have ih := addUp_gives ht n fun k hk => hg k (by omega)
    have e : addUp g 0 (n + 1) t = addUp g 0 n t + g n := by
      unfold addUp
      rw [show n + 1 - 0 = n + 1 from rfl, List.range'_concat, List.foldl_append]
      simp
    rw [e]
    have := ih.add (hg n (by omega))
    rw [add_assoc, ← sum_range_succ] at this
    refine this.congr ⟨fun ⟨⟨h1, h2⟩, h3, h4⟩ => ⟨h1, fun k hk => ?_⟩, fun ⟨h1, h2⟩ =>
      ⟨⟨h1, fun k hk => h2 k (by omega)⟩, (h2 n (by omega)).1, (h2 n (by omega)).2⟩⟩ rfl
    rcases Nat.lt_or_eq_of_le (Nat.lt_succ_iff.mp hk) with h | rfl
    · exact h2 k h
    · exact ⟨h3, h4⟩

/-- The inner loop of the products. -/
theorem acc_gives {alpha t : SInt b} {ca x : ℕ → SInt b} {Al z : ℤ} {A X : ℕ → ℤ} {n : ℕ} (hal : alpha.Is Al)
    (ht : t.Gives (InRange b z) z) (ha : ∀ k, k < n → (ca k).Is (A k)) (hx : ∀ k, k < n → (x k).Is (X k)) :
    (addUp (fun k => alpha * ca k * x k) 0 n t).Gives (AccFits b n Al A X z) (z + ∑ k ∈ range n, Al * A k * X k) := by
  have := addUp_gives (g := fun k => alpha * ca k * x k) (G := fun k => Al * A k * X k)
    (P := fun k => InRange b (Al * A k) ∧ InRange b (Al * A k * X k)) ht n fun k hk =>
    ((hal.mul (ha k hk)).mul (hx k hk).gives).congr (by simp) rfl
  refine this.congr ?_ rfl
  unfold AccFits
  simp only [and_assoc]

theorem inRange_abs {z : ℤ} (h : |z| < 2 ^ b) : InRange b z := ⟨by linarith [neg_abs_le z], lt_of_le_of_lt (le_abs_self z) h⟩

/-- Enough: `|α a k|` and the sum of the absolute values of all terms are below `2^b`. -/
theorem accFits_of {n : ℕ} {alpha t : ℤ} {a x : ℕ → ℤ} (h1 : ∀ k, k < n → |alpha * a k| < 2 ^ b)
    (h2 : |t| + ∑ k ∈ range n, |alpha * a k * x k| < 2 ^ b) : AccFits b n alpha a x t := by
  have nn : ∀ s : Finset ℕ, 0 ≤ ∑ k ∈ s, |alpha * a k * x k| := fun s => sum_nonneg fun _ _ => abs_nonneg _
  refine ⟨inRange_abs (by linarith [nn (range n)]), fun k hk => ⟨inRange_abs (h1 k hk), inRange_abs ?_, inRange_abs ?_⟩⟩
  · have := single_le_sum (f := fun k => |alpha * a k * x k|) (s := range n) (fun _ _ => abs_nonneg _) (mem_range.mpr hk)
    have := abs_nonneg t
    linarith
  · have s1 := abs_add_le t (∑ j ∈ range (k + 1), alpha * a j * x j)
    have s2 := abs_sum_le_sum_abs (fun j => alpha * a j * x j) (range (k + 1))
    have s3 := sum_le_sum_of_subset_of_nonneg (f := fun j => |alpha * a j * x j|)
      (show range (k + 1) ⊆ range n from range_subset_range.mpr hk) fun _ _ _ => abs_nonneg _
    linarith

end SInt
end Lalib
