import Verif.Model.Blas1
import Verif.Proofs.VecOps
import Verif.Proofs.VecNorm
import Verif.Props.Vec

/-! # Property C54: level-1 BLAS

Full claim: with `LALIB_BLAS_BACKEND` the operations `axpy`, `scale`, `dot` and `norm2` give what the internal
kernels give.  Sizes from `2^31` on are the counterexample: the size is converted to a 32-bit `int`. -/

namespace Lalib.Props

open Lalib

variable {T : Type}

theorem toInt32_small {n : Nat} (h : n < 2 ^ 31) : toInt32 n = n := by
  unfold toInt32
  rw [Nat.mod_eq_of_lt (by omega), if_pos h]

theorem toInt32_large {n : Nat} (h : 2 ^ 31 ≤ n) (h' : n < 2 ^ 32) : toInt32 n < 0 := by
  unfold toInt32
  rw [Nat.mod_eq_of_lt h', if_neg (by omega)]
  omega

theorem C54_axpy_partial [CommRing T] [DecidableEq T] (alpha : T) (m : Mem T) (x y : Nat) (hy : m.len y = m.len x)
    (hn : m.len x < 2 ^ 31) : axpyDBlas alpha m x y = axpyD alpha m x y := by
  rw [axpyD_eq hy]
  unfold axpyDBlas axpyBlas cblasAxpy
  rw [hy, checkSize_self, ok_bind, toInt32_small hn]
  have e : List.zipWith (fun b a => b + alpha * a) (m y) (m x) =
      List.zipWith (fun a b => alpha * a + b) (m x) (m y) := by
    rw [List.zipWith_comm]
    congr 1
    funext a b
    exact add_comm _ _
  by_cases h : (m.len x : Int) ≤ 0 ∨ alpha = 0
  · rw [if_pos h, noexcept_ok]
    congr 1
    rcases h with h | h
    · have hx0 : m x = [] := List.length_eq_zero_iff.mp (by have : (m x).length = m.len x := rfl; omega)
      have hy0 : m y = [] := List.length_eq_zero_iff.mp (by have : (m y).length = m.len y := rfl; omega)
      rw [hx0]
      simp only [List.zipWith_nil_left]
      rw [← hy0, Mem.setBuf_same]
    · subst h
      have : List.zipWith (fun a b => 0 * a + b) (m x) (m y) = m y := by
        apply List.ext_getElem
        · rw [List.length_zipWith]; have := hy; simp only [Mem.len] at this; omega
        · intro i h1 h2; simp
      rw [this, Mem.setBuf_same]
  · rw [if_neg h, Int.toNat_natCast]
    have := elem2_range (fun b a => b + alpha * a) (v1 := y) (v2 := x) (vr := y) (m := m) (n := m.len x)
      (by omega) (by omega) (by omega)
    rw [zipPrefix_full _ hy rfl hy, e] at this
    exact congrArg noexcept this

theorem C54_scale_partial [Mul T] (alpha : T) (m : Mem T) (x : Nat) (hn : m.len x < 2 ^ 31) :
    scaleVBlas alpha m x = scaleV alpha m x := by
  unfold scaleVBlas scaleV scalBlas cblasScal scalCore
  rw [toInt32_small hn, Int.toNat_natCast]
  rfl

theorem cblasDot_eq [CommRing T] (m : Mem T) (x y : Nat) (hy : m.len y = m.len x) :
    cblasDot (m.len x : Int) x y m = .ok (dotSpec (m x) (m y)) := by
  unfold cblasDot
  rw [Int.toNat_natCast, scalar_acc_loop (g := fun i => m.val x i * m.val y i) (Nat.zero_le _)]
  · rw [dotSpec_eq_range hy.symm, ← Finset.range_eq_Ico, zero_add]; rfl
  · intro k v _ hk
    rw [Mem.rd_ok hk, ok_bind, Mem.rd_ok (by omega), ok_bind]

theorem C54_dot_partial [CommRing T] (m : Mem T) (x y : Nat) (hy : m.len y = m.len x) (h0 : 0 < m.len x)
    (hn : m.len x < 2 ^ 31) : dotDDBlas m x y = dotDD m x y := by
  rw [(C05_dot_partial m x y hy h0).2.1]
  unfold dotDDBlas dotBlas
  rw [hy, checkSize_self, ok_bind, toInt32_small hn, cblasDot_eq m x y hy, noexcept_ok]

/-- On empty vectors BLAS returns zero where the internal kernel reads out of bounds. -/
theorem C54_dot_empty_false [CommRing T] (m : Mem T) (x y : Nat) (hx : m.len x = 0) (hy : m.len y = 0) :
    dotDDBlas m x y = .ok 0 ∧ dotDD m x y = .error (.ub .oob) := by
  refine ⟨?_, (C05_empty_ub m x y hx hy).2.1⟩
  unfold dotDDBlas dotBlas cblasDot
  rw [hx, hy, checkSize_self, ok_bind]
  rfl

theorem C54_norm2_partial [Field T] [LinearOrder T] [IsStrictOrderedRing T] [Sqrt T] [LawfulSqrt T] (m : Mem T)
    (x : Nat) (hn : m.len x < 2 ^ 31) : vecNorm2Blas m x = vecNorm2 m x := by
  obtain ⟨r, e, h0, h2, hz⟩ := C06_norm2 m x
  rw [e]
  have e' := norm2_run m x
  rw [e] at e'
  injection e' with e'
  unfold vecNorm2Blas norm2Blas cblasNrm2
  rw [toInt32_small hn]
  split_ifs with h
  · have hx0 : m x = [] := List.length_eq_zero_iff.mp (by have : (m x).length = m.len x := rfl; omega)
    have : r = 0 := hz.mpr (by simp [hx0])
    rw [this]; rfl
  · rw [cblasDot_eq m x x rfl, ok_bind, sqrtC_eq, if_neg (not_lt.mpr (dotSpec_self_nonneg _)), e']; rfl

/-- Sizes from `2^31` to `2^32 - 1`: the BLAS calls do nothing and return zero. -/
theorem C54_large_false [CommRing T] [DecidableEq T] [LT T] [DecidableLT T] [Sqrt T] (alpha : T) (m : Mem T) (x y : Nat)
    (hy : m.len y = m.len x) (h1 : 2 ^ 31 ≤ m.len x) (h2 : m.len x < 2 ^ 32) :
    axpyDBlas alpha m x y = .ok m ∧ scaleVBlas alpha m x = .ok m ∧ dotDDBlas m x y = .ok 0 ∧
      vecNorm2Blas m x = .ok 0 := by
  have h := toInt32_large h1 h2
  refine ⟨?_, ?_, ?_, ?_⟩
  · unfold axpyDBlas axpyBlas cblasAxpy
    rw [hy, checkSize_self, ok_bind, if_pos (Or.inl (by omega)), noexcept_ok]
  · unfold scaleVBlas scalBlas cblasScal
    rw [show (toInt32 (m.len x)).toNat = 0 by omega]; rfl
  · unfold dotDDBlas dotBlas cblasDot
    rw [hy, checkSize_self, ok_bind, show (toInt32 (m.len x)).toNat = 0 by omega]; rfl
  · unfold vecNorm2Blas norm2Blas cblasNrm2
    rw [if_pos (by omega)]; rfl

/-- The internal kernels, by contrast, compute: on `2^31` ones the dot product is not zero. -/
theorem C54_large_differs : ∃ m : Mem ℚ, m.len 0 = 2 ^ 31 ∧ dotDDBlas m 0 0 = .ok 0 ∧ dotDD m 0 0 = .ok (2 ^ 31) := by
  let m : Mem ℚ := Mem.ofList [List.replicate (2 ^ 31) 1]
  have hl : m.len 0 = 2 ^ 31 := List.length_replicate
  refine ⟨m, hl, (C54_large_false 0 m 0 0 rfl hl.ge (by omega)).2.2.1, ?_⟩
  rw [(C05_dot_partial m 0 0 rfl (by omega)).2.1]
  refine congrArg Except.ok ?_
  rw [dotSpec_eq_range rfl]
  have e : ∀ i ∈ Finset.range (m 0).length, val0 (m 0) i * val0 (m 0) i = 1 := by
    intro i hi
    have hi' : i < m.len 0 := Finset.mem_range.mp hi
    have : val0 (m 0) i = 1 := by
      rw [val0_of_lt hi']
      exact List.getElem_replicate _
    rw [this, mul_one]
  rw [Finset.sum_congr rfl e, Finset.sum_const, Finset.card_range, show (m 0).length = 2 ^ 31 from hl, nsmul_eq_mul,
    mul_one, Nat.cast_pow, Nat.cast_ofNat]

example : dotDDBlas (Mem.ofList [[1, 2, 3], [4, 5, 6]] : Mem ℚ) 0 1 = .ok 32 := by decide +kernel
example : (axpyDBlas 2 (Mem.ofList [[1, 2, 3], [4, 5, 6]] : Mem ℚ) 0 1).map (fun m => m 1) = .ok [6, 9, 12] := by
  decide +kernel

end Lalib.Props
