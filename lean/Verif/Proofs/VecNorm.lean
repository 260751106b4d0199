import Verif.Proofs.VecOps
import Verif.Spec.Basic
import Verif.Spec.Sqrt
import Mathlib.Algebra.Order.BigOperators.Ring.Finset

/-! # Lemmas on norms and 3-vectors -/

namespace Lalib

variable {T : Type}

theorem set3 {l : List T} (h : l.length = 3) (a b c : T) :
    ((l.set 0 a).set 1 b).set 2 c = [a, b, c] := by
  match l, h with
  | [_, _, _], _ => rfl

theorem len3 {l : List T} (h : l.length = 3) : ∃ a b c, l = [a, b, c] := by
  match l, h with
  | [a, b, c], _ => exact ⟨a, b, c, rfl⟩

section norm
variable [Field T] [LinearOrder T] [IsStrictOrderedRing T]

theorem dotSpec_self_nonneg (l : List T) : 0 ≤ dotSpec l l := by
  rw [dotSpec_eq_range rfl]
  exact Finset.sum_nonneg fun i _ => mul_self_nonneg _

theorem norm2_run [Sqrt T] (m : Mem T) (x : Nat) : vecNorm2 m x = .ok (Sqrt.sqrt (dotSpec (m x) (m x))) := by
  unfold vecNorm2 norm2Core
  rw [scalar_acc_loop (g := fun i => m.val x i * m.val x i) (by omega)]
  · have e : (0 : T) + ∑ k ∈ Finset.Ico 0 (m.len x), m.val x k * m.val x k = dotSpec (m x) (m x) := by
      rw [dotSpec_eq_range rfl, ← Finset.range_eq_Ico, zero_add]; rfl
    rw [e, ok_bind, sqrtC_eq, if_neg (not_lt.mpr (dotSpec_self_nonneg _))]
    rfl
  · intro k v _ h2
    rw [Mem.rd_ok h2, ok_bind, ok_bind]

end norm

end Lalib
