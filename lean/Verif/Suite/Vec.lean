import Verif.Suite.Common
import Verif.Spec.Cx

/-! # `/repo/test/vec`, `/repo/test/ops/vec_ops.cc` -/

namespace Lalib.Suite

open Lalib

def ten : List Dbl := [1, 2, 3, 4, 5, 6, 7, 8, 9, 10]
def ten' : List Dbl := [2, 3, 4, 5, 6, 7, 8, 9, 10, 11]

/-! ## `test/ops/vec_ops.cc` -/

/-- `SizedVecNegOpsDoubleTest` (`ops/vec_ops.cc:6-13`). -/
example : isVec (negOp [1, 2, 3]) [-1, -2, -3] = true := by decide +kernel
/-- `DynVecNegOpsDoubleTest` (`ops/vec_ops.cc:15-29`). -/
example : isVec (negOp ten) [-1, -2, -3, -4, -5, -6, -7, -8, -9, -10] = true := by decide +kernel

/-- `SizedVecSizedVecAddOpsDoubleTest` (`ops/vec_ops.cc:33-41`), in two of the orders the elements may be visited in. -/
example : isVec (addOp [0, 1, 2] [1, 2, 3] [2, 3, 4]) [3, 5, 7] = true ∧
    isVec (addOp [1, 0, 2] [1, 2, 3] [2, 3, 4]) [3, 5, 7] = true := by decide +kernel

/-- `SizedVecSizedVecAddOpsDoubleComplexTest` (`ops/vec_ops.cc:43-54`), `SizedVecSizedVecSubOpsDoubleComplexTest` (`ops/vec_ops.cc:94-105`). -/
def cx (a b : Dbl) : Cx Dbl := ⟨a, b⟩
def isCx (r : Res (List (Cx Dbl))) (e : List Dbl) : Bool := isVec (r.map fun l => l.flatMap fun z => [z.re, z.im]) e
example : isCx (addOp [0, 1, 2] [cx 1 3, cx 2 2, cx 3 1] [cx 2 4, cx 3 3, cx 4 2]) [3, 7, 5, 5, 7, 3] = true := by decide +kernel
example : isCx (subOp [0, 1, 2] [cx 1 3, cx 2 2, cx 3 1] [cx 2 4, cx 3 3, cx 4 2]) [-1, -1, -1, -1, -1, -1] = true := by decide +kernel

/-- `DynVecDynVecAddOpsDoubleTest` (`ops/vec_ops.cc:56-70`). -/
example : isVec (addOp (List.range 10) ten ten') [3, 5, 7, 9, 11, 13, 15, 17, 19, 21] = true := by decide +kernel
/-- `DynVecDynVecAddOpsDoubleSizeMismatchedTest` (`ops/vec_ops.cc:72-81`). -/
example : throws (addOp (List.range 10) ten (ten'.take 9)) (.sizeMismatched 10 9) = true := by decide +kernel
/-- `SizedVecSizedVecSubOpsDoubleTest` (`ops/vec_ops.cc:84-92`). -/
example : isVec (subOp [0, 1, 2] [1, 2, 3] [2, 3, 4]) [-1, -1, -1] = true := by decide +kernel
/-- `DynVecDynVecSubOpsDoubleTest` (`ops/vec_ops.cc:107-121`). -/
example : isVec (subOp (List.range 10) ten ten') [-1, -1, -1, -1, -1, -1, -1, -1, -1, -1] = true := by decide +kernel
/-- `DynVecDynVecSubOpsDoubleSizeMismatchedTest` (`ops/vec_ops.cc:123-132`). -/
example : throws (subOp (List.range 10) ten (ten'.take 9)) (.sizeMismatched 10 9) = true := by decide +kernel

/-- `SizedVecAxpyTest` (`ops/vec_ops.cc:134-147`): four times `axpy` into a vector made by `uninit`.  The test relies on the elements of
`uninit()` being zero.  They are: `SizedVec()` is defaulted in the class (`sized_vec.hpp:84`), so `SizedVec<T, N>()`
(`sized_vec.hpp:126`) zero-initialises. -/
example : isVec (buf 1 ((List.range 4).foldlM (fun m _ => axpyS 3 2 m 0 1) (Mem.ofList [[1, 2, 3], dynVecUninit 3]))) [8, 16, 24] = true := by
  decide +kernel
/-- `SizedVecScalarScaleTest` (`ops/vec_ops.cc:149-158`). -/
example : isVec (buf 0 (scaleV 2 (Mem.ofList [[1, 2, 3]]) 0)) [2, 4, 6] = true := by decide +kernel
/-- `SizedVecScalarScaleOpTest` (`ops/vec_ops.cc:160-174`). -/
example : isVec (smulOp 2 [1, 2, 3]) [2, 4, 6] = true ∧ isVec (mulsOp [1, 2, 3] 2) [2, 4, 6] = true := by decide +kernel
/-- `SizedVecScalarDivOpTest` (`ops/vec_ops.cc:176-185`). -/
example : isVec (divOp [1, 2, 3] 2) [frac 1 2, 1, frac 3 2] = true := by decide +kernel
/-- `DynVecAxpyTest` (`ops/vec_ops.cc:187-202`). -/
example : isVec (buf 1 ((List.range 4).foldlM (fun m _ => axpyD 2 m 0 1) (Mem.ofList [[1, 2, 3, 2, 4], dynVecUninit 5]))) [8, 16, 24, 16, 32] = true := by
  decide +kernel
/-- `DynVecScalarScaleTest` (`ops/vec_ops.cc:204-215`). -/
example : isVec (buf 0 (scaleV 3 (Mem.ofList [[1, 2, 3, 2, 4]]) 0)) [3, 6, 9, 6, 12] = true := by decide +kernel
/-- `DynVecScalarScaleOpTest` (`ops/vec_ops.cc:217-235`). -/
example : isVec (smulOp 3 [1, 2, 3, 2, 4]) [3, 6, 9, 6, 12] = true ∧ isVec (mulsOp [1, 2, 3, 2, 4] 3) [3, 6, 9, 6, 12] = true := by
  decide +kernel

/-- `DynVecScalarDivOpTest` (`ops/vec_ops.cc:237-248`).  `v / alpha` multiplies by the reciprocal; here that gives the quotients. -/
example : isVec (divOp [1, 2, 3, 2, 4] 3) [Sf.div 1 3, Sf.div 2 3, 1, Sf.div 2 3, Sf.div 4 3] = true := by decide +kernel
/-- Not in the tests: in general it does not.  `5 / 49` comes out one unit in the last place below the quotient. -/
example : isVec (divOp [5] 49) [frac 7352815718155911 (2 ^ 56)] = true ∧
    eq (Sf.div 5 49) (frac 7352815718155912 (2 ^ 56)) = true := by decide +kernel

/-- `SizedVecCross2ProductTest` (`ops/vec_ops.cc:251-257`). -/
example : isNum (cross2 false false false (Mem.ofList [[1, 0], [0, 1]]) 0 1) 1 = true ∧
    isNum (cross2 false false false (Mem.ofList [[1, 0], [0, 1]]) 1 0) (-1) = true := by decide +kernel
/-- `SizedVecCorss3ProductTest` (`ops/vec_ops.cc:259-284`); the third call has its result in an argument, the fourth
returns a new vector. -/
example : isVec (buf 3 (cross3 false false false false (Mem.ofList [[1, 0, 0], [0, 1, 0], [1, 1, 1], [1, 1, 1]]) 0 1 3)) [0, 0, 1] = true ∧
    isVec (buf 3 (cross3 false false false false (Mem.ofList [[1, 0, 0], [0, 1, 0], [1, 1, 1], [1, 1, 1]]) 1 0 3)) [0, 0, -1] = true ∧
    isVec (buf 2 (cross3 false false false false (Mem.ofList [[1, 0, 0], [0, 1, 0], [1, 1, 1], [1, 1, 1]]) 0 2 2)) [0, -1, 1] = true ∧
    isVec (buf 2 (cross3 false false false false (Mem.ofList [[1, 0, 0], [0, 1, 0], dynVecUninit 3]) 1 0 2)) [0, 0, -1] = true := by
  decide +kernel
/-- `SizedVecCross3AccTest` (`ops/vec_ops.cc:287-308`); the third call has its result in an argument. -/
example : isVec (buf 2 (crossAcc false false false false (Mem.ofList [[1, 0, 0], [0, 1, 0], [1, 1, 1]]) 0 1 2)) [1, 1, 2] = true ∧
    isVec (buf 2 (crossAcc false false false false (Mem.ofList [[1, 0, 0], [0, 1, 0], [1, 1, 1]]) 1 0 2)) [1, 1, 0] = true ∧
    isVec (buf 2 (crossAcc false false false false (Mem.ofList [[1, 0, 0], [0, 1, 0], [1, 1, 1]]) 0 2 2)) [1, 0, 2] = true := by
  decide +kernel

/-! ## `test/vec/dyn_vec.cc`, `test/vec/sized_vec.cc` -/

/-- `SizeTest` (`vec/dyn_vec.cc:52-55`), `FilledTest` (`vec/dyn_vec.cc:57-68`). -/
example : (dynVecFilled 3 (0 : UInt32)).length = 3 ∧ dynVecFilled 3 (1 : UInt32) = [1, 1, 1] ∧
    dynVecFilled 4 (1 : UInt32) = [1, 1, 1, 1] := by decide +kernel
/-- `SizeTest` (`vec/sized_vec.cc:49-52`), `FilledTest` (`vec/sized_vec.cc:54-65`). -/
example : (sizedVecFilled 3 (0 : UInt32)).length = 3 ∧ sizedVecFilled 3 (1 : UInt32) = [1, 1, 1] ∧
    sizedVecFilled 4 (1 : UInt32) = [1, 1, 1, 1] := by decide +kernel
/-- `VecConstTest` (`vec/sized_vec.cc:10-18`), `InitListConstTest` (`vec/sized_vec.cc:20-28`). -/
example : returns (sizedVecNew 3 [(0 : UInt32), 1, 2]) = true ∧ throws (sizedVecNew 3 [(0 : UInt32), 1, 2, 3]) .runtimeError = true := by
  decide +kernel
/-- `DotTest` (`vec/dyn_vec.cc:70-75`), `DotTest` (`vec/sized_vec.cc:67-72`). -/
example : isNum (dynDot (Mem.ofList [dynVecFilled 4 1, [frac 11 10, frac 21 10, 3, 4]]) 0 1) (frac 102 10) = true ∧
    isNum (dotSS 4 (Mem.ofList [sizedVecFilled 4 1, [frac 11 10, frac 21 10, 3, 4]]) 0 1) (frac 102 10) = true := by decide +kernel
/-- `DotTestSizeMismatched` (`vec/dyn_vec.cc:77-86`). -/
example : throws (dynDot (Mem.ofList [dynVecFilled 3 (1 : Dbl), [1, 2, 3, 4]]) 0 1) (.sizeMismatched 3 4) = true := by decide +kernel
/-- `Norm2Test` (`vec/dyn_vec.cc:88-92`), `Norm2Test` (`vec/sized_vec.cc:74-78`). -/
example : isNum (vecNorm2 (Mem.ofList [[1, 2, 3, 4]]) 0) (Sf.sqrt 30) = true := by decide +kernel

end Lalib.Suite
