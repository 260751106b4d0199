import Verif.Model.SizeT
import Verif.Spec.LinAlg
import Verif.Spec.Struct
import Verif.Proofs.Struct
import Verif.Proofs.SqrtDouble

/-! # Property C74: addresses computed in 64 bits

A `std::vector` has at most `2^63 - 1` elements, whatever they are (its size is a difference of pointers). -/

namespace Lalib.Props

open Lalib

variable {T : Type}

section aux

theorem add_small {a b : Nat} (h : a + b < 2 ^ 64) : SizeT.add a b = a + b := Nat.mod_eq_of_lt h

theorem mul_small {a b : Nat} (h : a * b < 2 ^ 64) : SizeT.mul a b = a * b := Nat.mod_eq_of_lt h

theorem cell_small {n m i j : Nat} (hi : i < n) (hj : j < m) (h : n * m < 2 ^ 64) :
    SizeT.cell m i j = i * m + j := by
  have := cell_lt hi hj
  unfold SizeT.cell
  rw [mul_small (by omega), add_small (by omega)]

theorem tri_lt {n i : Nat} (hi : i < n) : i * (i + 1) / 2 + i < n * (n + 1) / 2 := by
  have h1 : (i + 1) * (i + 1 + 1) / 2 ≤ n * (n + 1) / 2 :=
    Nat.div_le_div_right (Nat.mul_le_mul (by omega) (by omega))
  have h2 : (i + 1) * (i + 1 + 1) = i * (i + 1) + 2 * (i + 1) := by ring
  omega

theorem tri_even (i : Nat) : 2 * (i * (i + 1) / 2) = i * (i + 1) :=
  Nat.mul_div_cancel' (Nat.even_mul_succ_self i).two_dvd

theorem tri_small {n i : Nat} (hi : i < n) (h : n * (n + 1) / 2 < 2 ^ 63) :
    i + 1 < 2 ^ 64 ∧ i * (i + 1) < 2 ^ 64 := by
  have h1 := tri_lt hi
  have h2 := tri_even i
  have h3 : i * 1 ≤ i * (i + 1) := Nat.mul_le_mul_left i (by omega)
  omega

theorem pack_small {n i j : Nat} (hi : i < n) (hj : j < n) (h : n * (n + 1) / 2 < 2 ^ 63) :
    SizeT.pack i j = packIdx i j := by
  have key : ∀ p q, q ≤ p → p < n → SizeT.add (SizeT.mul p (SizeT.add p 1) / 2) q = p * (p + 1) / 2 + q := by
    intro p q hq hp
    obtain ⟨h1, h2⟩ := tri_small hp h
    have := tri_lt hp
    rw [add_small h1, mul_small h2, add_small (by omega)]
  unfold SizeT.pack packIdx
  by_cases hij : i < j
  · rw [if_pos hij]; exact key j i (by omega) hj
  · rw [if_neg hij]; exact key i j (by omega) hi

theorem col_small {n j : Nat} (hj : j < n) (h : n * (n + 1) / 2 < 2 ^ 63) :
    SizeT.colOffset j = (j + 1) * j / 2 := by
  obtain ⟨h1, h2⟩ := tri_small hj h
  unfold SizeT.colOffset
  rw [add_small h1, mul_small (by rwa [Nat.mul_comm])]

end aux

/-! ## Dense matrices -/

/-- Inside the shape the address is the exact one. -/
theorem C74_dense (a : DMat T) (hl : a.elems.length = a.n * a.m) (hs : a.elems.length < 2 ^ 63) (i j : Nat)
    (hi : i < a.n) (hj : j < a.m) (v : T) :
    SizeT.dGet a i j = a.get i j ∧ SizeT.dSet a i j v = a.set i j v := by
  have := cell_small hi hj (by omega)
  constructor
  · unfold SizeT.dGet DMat.get; rw [this]
  · unfold SizeT.dSet DMat.set; rw [this]

/-- All pairs of arguments, inside the shape or not: the element at the address modulo `2^64`, or undefined
behaviour if there is none. -/
theorem C74_dense_all [Zero T] (a : DMat T) (i j : Nat) :
    SizeT.dGet a i j = if (i * a.m + j) % 2 ^ 64 < a.elems.length
      then .ok (val0 a.elems ((i * a.m + j) % 2 ^ 64)) else .error (.ub .oob) := by
  have : SizeT.cell a.m i j = (i * a.m + j) % 2 ^ 64 := by
    unfold SizeT.cell SizeT.add SizeT.mul
    rw [Nat.add_mod, Nat.mod_mod, ← Nat.add_mod]
  unfold SizeT.dGet
  rw [this]
  split_ifs with h
  · exact lrd_val h
  · exact lrd_oob (by omega)

/-- A row number outside the matrix need not leave the storage: with an even row length `2 r`, row
`2^63` is row 0. -/
theorem C74_dense_alias (a : DMat T) (r : Nat) (hm : a.m = 2 * r) (j : Nat) :
    SizeT.dGet a (2 ^ 63) j = SizeT.dGet a 0 j := by
  have : SizeT.cell a.m (2 ^ 63) j = SizeT.cell a.m 0 j := by
    unfold SizeT.cell SizeT.mul SizeT.add
    have : 2 ^ 63 * a.m = 2 ^ 64 * r := by rw [hm]; ring
    rw [this, Nat.mul_mod_right, Nat.zero_mul, Nat.zero_mod]
  unfold SizeT.dGet
  rw [this]

/-! ## Packed matrices -/

/-- Lower-triangular and Hermitian matrices. -/
theorem C74_packed (n : Nat) (l : List T) (hl : l.length = packedLen n) (hs : l.length < 2 ^ 63) (i j : Nat)
    (hi : i < n) (hj : j < n) (v : T) :
    SizeT.lGet ⟨n, l⟩ i j = (⟨n, l⟩ : LTri T).get i j ∧ SizeT.lSet ⟨n, l⟩ i j v = (⟨n, l⟩ : LTri T).set i j v ∧
    SizeT.hGet ⟨n, l⟩ i j = (⟨n, l⟩ : Herm T).get i j ∧ SizeT.hSet ⟨n, l⟩ i j v = (⟨n, l⟩ : Herm T).set i j v := by
  have := pack_small hi hj (by rw [hl] at hs; exact hs)
  refine ⟨?_, ?_, ?_, ?_⟩
  · unfold SizeT.lGet LTri.get; rw [this]
  · unfold SizeT.lSet LTri.set; rw [this]
  · unfold SizeT.hGet Herm.get; rw [this]
  · unfold SizeT.hSet Herm.set; rw [this]

/-- Upper-triangular matrices, read and written at any position inside the shape. -/
theorem C74_upper [Zero T] (a : UTri T) (hl : a.u.length = packedLen a.n) (hs : a.u.length < 2 ^ 63) (i j : Nat)
    (hj : j < a.n) (v : T) : SizeT.uGet a i j = a.get i j ∧ SizeT.uSet a i j v = a.set i j v := by
  rw [hl] at hs
  have h1 := col_small hj hs
  have h2 := tri_lt hj
  have h3 : j * (j + 1) = (j + 1) * j := Nat.mul_comm _ _
  have h4 : ∀ i, i ≤ j → SizeT.add ((j + 1) * j / 2) i = (j + 1) * j / 2 + i := by
    intro i hi
    unfold packedLen at hs
    rw [h3] at h2
    exact add_small (by omega)
  unfold SizeT.uGet SizeT.uSet UTri.get UTri.set
  rw [h1]
  constructor <;> split_ifs with h
  · rw [h4 i h]
  · rfl
  · rw [h4 i h]
  · rfl

/-- Bounds for the columns of a stored Hessenberg matrix. -/
theorem hess_small {n L j : Nat} {tail : Bool} (hl : HessLen n tail L) (hs : L < 2 ^ 63) (hj : j < n) :
    SizeT.add j 1 = j + 1 ∧ SizeT.hessOffset j = (j + 1) * j / 2 + j ∧ (j + 1) * j / 2 + j + (j + 2) < 2 ^ 64 := by
  have h1 : n * (n + 3) = n * (n + 1) + 2 * n := by ring
  have h2 : n * (n + 3) / 2 ≤ L + 1 := by
    unfold HessLen at hl
    split_ifs at hl <;> omega
  have h3 := tri_even n
  have h4 : n * (n + 1) / 2 + n ≤ 2 ^ 63 := by omega
  have h5 : n * (n + 1) / 2 < 2 ^ 63 := by omega
  have h6 := col_small hj h5
  have h7 := tri_lt hj
  have h8 : j * (j + 1) = (j + 1) * j := Nat.mul_comm _ _
  rw [h8] at h7
  unfold SizeT.colOffset at h6
  refine ⟨add_small (by omega), ?_, by omega⟩
  unfold SizeT.hessOffset
  rw [h6, add_small (by omega)]

/-- Hessenberg matrices, in every column, with or without the element just below the square. -/
theorem C74_hess [Zero T] (a : Hess T) (tail : Bool) (hl : HessLen a.n tail a.h.length) (hs : a.h.length < 2 ^ 63)
    (i j : Nat) (hj : j < a.n) (v : T) :
    SizeT.hessGet a i j = a.get i j ∧ SizeT.hessSet a i j v = a.set i j v := by
  obtain ⟨h1, h2, h3⟩ := hess_small hl hs hj
  have h4 : ∀ i, i ≤ j + 1 → SizeT.add ((j + 1) * j / 2 + j) i = (j + 1) * j / 2 + j + i :=
    fun i hi => add_small (by omega)
  unfold SizeT.hessGet SizeT.hessSet Hess.get Hess.set
  rw [h1, h2]
  constructor <;> split_ifs with h
  · rw [h4 i h]
  · rfl
  · rw [h4 i h]
  · rfl

/-- A column of a Hessenberg matrix as a slice. -/
theorem C74_hess_col (a : Hess T) (tail : Bool) (hl : HessLen a.n tail a.h.length) (hs : a.h.length < 2 ^ 63)
    (j : Nat) (hj : j < a.n) : SizeT.hessCol a j = a.getCol j := by
  obtain ⟨_, h2, h3⟩ := hess_small hl hs hj
  have h4 : SizeT.add (SizeT.add ((j + 1) * j / 2 + j) j) 2 = (j + 1) * j / 2 + j + j + 2 := by
    rw [add_small (b := j) (by omega), add_small (by omega)]
  unfold SizeT.hessCol Hess.getCol
  simp only [h2, h4]

/-- Outside the shape the test for the zero part can be passed by wrapping around: in the last column of all,
`2^64 - 1`, only row 0 is taken for a stored one. -/
theorem C74_hess_last [Zero T] (a : Hess T) (i : Nat) (hi : 0 < i) : SizeT.hessGet a i (2 ^ 64 - 1) = .ok 0 := by
  have : SizeT.add (2 ^ 64 - 1) 1 = 0 := by decide
  unfold SizeT.hessGet
  rw [this, if_neg (by omega)]

/-! ## Sizes -/

/-- The constructors which find the size from the number `n` of elements, for any square root that maps `size_t`
below `2^32`, inclusive.  `8 n + 17 < 2^64` holds for elements of at least 8 bytes, as no vector takes
more than `2^63 - 1` bytes. -/
theorem C74_size (rt : Nat → Nat) (hrt : ∀ k, k < 2 ^ 64 → rt k ≤ 2 ^ 32) (n : Nat) (hn : 8 * n + 17 < 2 ^ 64) :
    SizeT.hessSize rt n = Hess.calcSize rt n ∧ SizeT.upperSize rt n = UTri.calcSize rt n := by
  have key : ∀ k, k < 2 ^ 64 → 0 < k → (k ≠ SizeT.mul (rt k) (rt k) ↔ k ≠ rt k * rt k) := by
    intro k hk h0
    have := hrt k hk
    by_cases he : rt k = 2 ^ 32
    · unfold SizeT.mul
      rw [he]
      exact iff_of_true (by omega) (by omega)
    · have : rt k * rt k ≤ (2 ^ 32 - 1) * (2 ^ 32 - 1) := Nat.mul_le_mul (by omega) (by omega)
      rw [mul_small (by omega)]
  have low : ∀ k c, c * c < k → k = rt k * rt k → c ≤ rt k := by
    intro k c h1 h2
    by_contra h
    have : rt k * rt k ≤ c * c := Nat.mul_le_mul (by omega) (by omega)
    omega
  constructor
  · unfold SizeT.hessSize Hess.calcSize
    rw [mul_small (show 8 * n < 2 ^ 64 by omega), add_small (show 17 + 8 * n < 2 ^ 64 by omega)]
    by_cases h0 : n = 0
    · rw [if_pos h0, if_pos h0]
    · rw [if_neg h0, if_neg h0]
      simp only [key (17 + 8 * n) (by omega) (by omega)]
      by_cases h : 17 + 8 * n = rt (17 + 8 * n) * rt (17 + 8 * n)
      · rw [if_neg (not_not.mpr h), if_neg (not_not.mpr h), subSize, if_pos (low _ 3 (by omega) h)]
      · rw [if_pos h, if_pos h]
  · unfold SizeT.upperSize UTri.calcSize
    rw [mul_small (show 8 * n < 2 ^ 64 by omega), add_small (show 1 + 8 * n < 2 ^ 64 by omega)]
    simp only [key (1 + 8 * n) (by omega) (by omega)]
    by_cases h : 1 + 8 * n = rt (1 + 8 * n) * rt (1 + 8 * n)
    · have : 1 ≤ rt (1 + 8 * n) := by
        rcases Nat.eq_zero_or_pos (rt (1 + 8 * n)) with h0 | h0
        · rw [h0] at h; omega
        · exact h0
      rw [if_neg (not_not.mpr h), if_neg (not_not.mpr h), subSize, if_pos this]
    · rw [if_pos h, if_pos h]

/-- The square root of double arithmetic is one of these. -/
theorem C74_size_double (n : Nat) (hn : 8 * n + 17 < 2 ^ 64) :
    SizeT.hessSize sqrtDouble n = Hess.calcSize sqrtDouble n ∧
    SizeT.upperSize sqrtDouble n = UTri.calcSize sqrtDouble n := by
  refine C74_size _ (fun k hk => ?_) n hn
  have hk' : (k : ℝ) ≤ 2 ^ 64 := by exact_mod_cast hk.le
  have h1 := _root_.abs_le.mp (rndBin_err 53 (k : ℝ))
  rw [abs_of_nonneg (Nat.cast_nonneg k)] at h1
  set r := rndBin 53 (k : ℝ)
  have h2 : Real.sqrt r ≤ 2 ^ 32 + 1 / 4 := by
    rw [Real.sqrt_le_left (by norm_num)]
    norm_num at h1 ⊢
    linarith [h1.2]
  have h3 := _root_.abs_le.mp (rndBin_err 53 (Real.sqrt r))
  rw [abs_of_nonneg (Real.sqrt_nonneg r)] at h3
  have h4 : rndBin 53 (Real.sqrt r) < 2 ^ 32 + 1 := by
    norm_num at h2 h3 ⊢
    linarith [h3.2]
  unfold sqrtDouble
  refine Nat.lt_succ_iff.mp ((Nat.floor_lt' (by omega)).mpr ?_)
  norm_num at h4 ⊢
  exact h4

/-! ## `DynMat::uninit` -/

/-- All outcomes.  The object has the elements its shape promises exactly if the product of the sizes fits
`size_t`. -/
theorem C74_uninit [Zero T] (maxSize n m : Nat) :
    (n * m < 2 ^ 64 → SizeT.uninit (T := T) maxSize n m =
      if n * m ≤ maxSize then .ok (DMat.uninit n m) else .error .terminate) ∧
    (∀ a, SizeT.uninit (T := T) maxSize n m = .ok a →
      a.n = n ∧ a.m = m ∧ (a.elems.length = a.n * a.m ↔ n * m < 2 ^ 64)) := by
  constructor
  · intro h
    unfold SizeT.uninit DMat.uninit
    rw [mul_small h]
  · intro a ha
    unfold SizeT.uninit at ha
    split_ifs at ha with h
    injection ha with ha
    subst ha
    refine ⟨rfl, rfl, ?_⟩
    simp only [List.length_replicate]
    constructor
    · intro he
      rw [← he]
      exact Nat.mod_lt _ (by decide)
    · exact fun h => mul_small h

/-- If the product does not fit, the program may go on with a matrix that lacks elements, without any report: here
it has none at all. -/
theorem C74_uninit_false [Zero T] (maxSize : Nat) :
    ∃ a, SizeT.uninit (T := T) maxSize (2 ^ 32) (2 ^ 32) = .ok a ∧ a.n = 2 ^ 32 ∧ a.m = 2 ^ 32 ∧
      ∀ i j, SizeT.dGet a i j = .error (.ub .oob) := by
  refine ⟨⟨2 ^ 32, 2 ^ 32, []⟩, ?_, rfl, rfl, fun i j => lrd_oob (Nat.zero_le _)⟩
  have : SizeT.mul (2 ^ 32) (2 ^ 32) = 0 := by decide
  unfold SizeT.uninit
  rw [this, if_pos (Nat.zero_le _)]
  rfl

/-! ## Concrete cases -/

example : SizeT.dGet (⟨2, 2, [1, 2, 3, 4]⟩ : DMat ℤ) 1 0 = .ok 3 := by decide +kernel
-- row `2^63` exists, row 2 does not
example : SizeT.dGet (⟨2, 2, [1, 2, 3, 4]⟩ : DMat ℤ) (2 ^ 63) 1 = .ok 2 := by decide +kernel
example : (⟨2, 2, [1, 2, 3, 4]⟩ : DMat ℤ).get (2 ^ 63) 1 = .error (.ub .oob) := by decide +kernel
example : SizeT.dGet (⟨2, 2, [1, 2, 3, 4]⟩ : DMat ℤ) 2 0 = .error (.ub .oob) := by decide +kernel
-- the first column of the next row
example : SizeT.dGet (⟨2, 2, [1, 2, 3, 4]⟩ : DMat ℤ) 0 2 = .ok 3 := by decide +kernel
example : SizeT.hGet (⟨2, [1, 2, 3]⟩ : Herm ℤ) 0 1 = .ok 2 := by decide +kernel
example : SizeT.uGet (⟨2, [1, 2, 3]⟩ : UTri ℤ) 0 1 = .ok 2 := by decide +kernel
example : SizeT.hessGet (⟨2, [1, 2, 3, 4]⟩ : Hess ℤ) 1 0 = .ok 2 := by decide +kernel
example : SizeT.hessCol (⟨3, [1, 2, 3, 4, 5, 6, 7, 8]⟩ : Hess ℤ) 1 = .ok [3, 4, 5] := by decide +kernel
-- one-byte elements, so many that the number of them times 8 wraps around, are taken for three
example : SizeT.upperSize Nat.sqrt 3 = .ok 2 ∧ SizeT.upperSize Nat.sqrt (2 ^ 61 + 3) = .ok 2 := by decide +kernel

end Lalib.Props
