import Verif.Suite.Common
import Verif.Model.Cgs

/-! # `/repo/test/mat`, the tests of matrices in `/repo/test/ops` -/

namespace Lalib.Suite

open Lalib

/-! ## Dense matrices -/

def m24 : List Dbl := [1, 2, 3, 4, 2, 1, 5, 3]

/-- `VecConstTest` (`mat/sized_mat.cc:5-20`), `InitListConstTest` (`mat/sized_mat.cc:22-37`). -/
example : returns (DMat.newSized 2 4 m24) = true ∧ throws (DMat.newSized 2 3 m24) .runtimeError = true := by decide +kernel
/-- `ShapeTest` (`mat/sized_mat.cc:76-84`), `ShapeTest` (`mat/dyn_mat.cc:41-49`). -/
example : isMat (DMat.newSized 2 4 m24) 2 4 m24 = true ∧ isMat (DMat.new 2 4 m24) 2 4 m24 = true := by decide +kernel
/-- `FilledTest` (`mat/sized_mat.cc:86-93`), `FilledTest` (`mat/dyn_mat.cc:51-58`). -/
example : isMat (DMat.filled 3 3 4) 3 4 [3, 3, 3, 3, 3, 3, 3, 3, 3, 3, 3, 3] = true := by decide +kernel
/-- `DiagTest` (`mat/sized_mat.cc:95-113`). -/
example : isMat (DMat.diagConst 2 3) 3 3 [2, 0, 0, 0, 2, 0, 0, 0, 2] = true ∧
    isMat (DMat.diag [1, 2, 3]) 3 3 [1, 0, 0, 0, 2, 0, 0, 0, 3] = true := by decide +kernel
/-- `DiagTest` (`mat/dyn_mat.cc:60-79`). -/
example : isMat (DMat.diagConst 2 5) 5 5
      [2, 0, 0, 0, 0, 0, 2, 0, 0, 0, 0, 0, 2, 0, 0, 0, 0, 0, 2, 0, 0, 0, 0, 0, 2] = true ∧
    isMat (DMat.diag [1, 2, 3, 4, 5]) 5 5
      [1, 0, 0, 0, 0, 0, 2, 0, 0, 0, 0, 0, 3, 0, 0, 0, 0, 0, 4, 0, 0, 0, 0, 0, 5] = true := by decide +kernel
/-- `InvertTest` (`mat/common_mat.cc:4-20`). -/
example : isVec (buf 0 (invertInPlace 0 (Mem.ofList [[1, 2, 3, 4]]))) [-2, 1, frac 3 2, -frac 1 2] = true ∧
    isVec (buf 1 (invertedAt (Mem.ofList [[1, 2, 3, 4]]) 0 1)) [-2, 1, frac 3 2, -frac 1 2] = true := by decide +kernel

/-! ## Hessenberg and triangular matrices -/

/-- `HessenbergMatTest` (`mat/dyn_mat.cc:81-100`). -/
example : isVec (do let a ← Hess.new Nat.sqrt [1, 2, 3, 4, 5, 6, 7, 8]; entries 3 3 a.get) [1, 3, 6, 2, 4, 7, 0, 5, 8] = true := by
  decide +kernel
/-- `HessenbergMatExtendTest` (`mat/dyn_mat.cc:102-126`). -/
example : isVec (do
      let a ← Hess.new Nat.sqrt [0]
      let a ← a.extendWithZero
      throwIf (a.shape != (2, 2)) .runtimeError
      let a ← a.extendWith [1, 2, 3, 4]
      throwIf (a.shape != (3, 3)) .runtimeError
      entries 3 3 a.get) [0, 0, 2, 0, 0, 3, 0, 1, 4] = true := by decide +kernel
/-- `HessenbergMatGetColTest` (`mat/dyn_mat.cc:128-147`). -/
example : isVec (do let a ← Hess.new Nat.sqrt [1, 2, 3, 4, 5, 6, 7, 8]; a.getCol 0) [1, 2] = true ∧
    isVec (do let a ← Hess.new Nat.sqrt [1, 2, 3, 4, 5, 6, 7, 8]; a.getCol 1) [3, 4, 5] = true ∧
    isVec (do let a ← Hess.new Nat.sqrt [1, 2, 3, 4, 5, 6, 7, 8]; a.getCol 2) [6, 7, 8] = true := by decide +kernel
/-- `DynUpperTriMatTest` (`mat/dyn_mat.cc:149-168`). -/
example : isVec (do let a ← UTri.new Nat.sqrt [1, 2, 3, 4, 5, 6]; entries 3 3 a.get) [1, 2, 4, 0, 3, 5, 0, 0, 6] = true := by
  decide +kernel
/-- `DynUpperTriMatExtendTest` (`mat/dyn_mat.cc:170-193`). -/
example : isVec (do
      let a ← UTri.new Nat.sqrt [0]
      let a ← a.extendWithZero
      throwIf (a.shape != (2, 2)) .runtimeError
      let a ← a.extendWith [1, 2, 3]
      throwIf (a.shape != (3, 3)) .runtimeError
      entries 3 3 a.get) [0, 0, 1, 0, 0, 2, 0, 0, 3] = true := by decide +kernel
/-- `DynUpperTriMatBackSubTest` (`mat/dyn_mat.cc:195-204`). -/
example : isVec (do let a ← UTri.new Nat.sqrt [1, frac 1 2, 1, frac 1 2, 2, 1]; a.backSub [frac 9 2, 4, 1]) [3, 2, 1] = true := by
  decide +kernel

/-! ## Sparse matrices -/

def coo22 : Res (Coo Dbl) := Coo.new Coo.insSort [1, 2, 3, 4] [0, 0, 1, 1] [0, 1, 0, 1]
def csr22 : Res (Csr Dbl) := Csr.new [1, 2, 3, 4] [0, 2, 4] [0, 1, 0, 1]
def csr33 : Res (Csr Dbl) := Csr.new [1, 2, 3, 4, 5] [0, 2, 3, 5] [0, 1, 0, 1, 2]

/-- `SpCooMatCreationTest` (`mat/sp_mat.cc:5-47`). -/
example : returns coo22 = true ∧
    throws (Coo.new Coo.insSort [(1 : Dbl), 2, 3, 4] [0, 0, 1, 1] [0, 1, 0]) .runtimeError = true ∧
    throws (Coo.new Coo.insSort [(1 : Dbl), 2, 3, 4] [0, 0, 1, 1] [0, 1, 0, 1, 2]) .runtimeError = true ∧
    throws (Coo.new Coo.insSort [(1 : Dbl), 2, 3, 4] [0, 0, 1, 1, 2] [0, 1, 0, 1]) .runtimeError = true ∧
    throws (Coo.new Coo.insSort [(1 : Dbl), 2, 3, 4, 5] [0, 0, 1, 1] [0, 1, 0, 1]) .runtimeError = true := by decide +kernel
/-- `SpCooMatShapeTest` (`mat/sp_mat.cc:80-91`), `SpCooMatNnzTest` (`mat/sp_mat.cc:93-103`). -/
example : (coo22.bind Coo.shape).toOption = some (2, 2) ∧ (coo22.map Coo.nnz).toOption = some 4 := by decide +kernel
/-- `SpMatCreationTest` (`mat/sp_mat.cc:108-139`). -/
example : returns csr22 = true ∧ returns csr33 = true ∧
    throws (Csr.new [(1 : Dbl), 2, 3, 4] [0, 2, 4] [0, 1, 0]) .runtimeError = true := by decide +kernel
/-- `SpMatShapeTest` (`mat/sp_mat.cc:172-183`), `SpMatNnzTest` (`mat/sp_mat.cc:185-195`). -/
example : (csr33.bind Csr.shape).toOption = some (3, 3) ∧ (csr22.map Csr.nnz).toOption = some 4 := by decide +kernel
/-- `CooCrsConversionTest` (`mat/sp_mat.cc:197-226`). -/
example : isVec (do
      let a ← Coo.new Coo.insSort [1, 2, 3, 4, 5] [0, 0, 1, 2, 2] [0, 1, 0, 1, 2]
      let a ← Csr.ofCoo a
      entries 3 3 a.get) [1, 2, 0, 3, 0, 0, 0, 4, 5] = true := by decide +kernel
/-- `CooUnitMatrixTest` (`mat/sp_mat.cc:228-240`), `CrsUnitMatrixTest` (`mat/sp_mat.cc:242-254`): both tests call `SpMat::unit`;
`SpCooMat::unit` is added here. -/
example : isVec (do let a ← Csr.unit 3; entries 3 3 a.get) [1, 0, 0, 0, 1, 0, 0, 0, 1] = true ∧
    isVec (do let a ← Coo.unit Coo.insSort 3; entries 3 3 a.get) [1, 0, 0, 0, 1, 0, 0, 0, 1] = true := by decide +kernel
/-- `CooMatrixAddAssignTest` (`mat/sp_mat.cc:256-308`).  The test leaves out the last column but for the last row. -/
example : isVec (do
      let a ← Coo.unit Coo.insSort 2
      let b ← coo22
      let a ← Coo.addAssign Coo.insSort (fun _ => b) a
      entries 2 2 a.get) [2, 2, 3, 5] = true ∧
    isVec (do
      let a ← Coo.unit Coo.insSort 5
      let b ← Coo.new Coo.insSort [1, 2, 3, 4, 2, 5, 6] [0, 0, 1, 2, 3, 3, 4] [0, 1, 0, 1, 0, 3, 0]
      let a ← Coo.addAssign Coo.insSort (fun _ => b) a
      entries 5 5 a.get)
      [2, 2, 0, 0, 0, 3, 1, 0, 0, 0, 0, 4, 1, 0, 0, 2, 0, 0, 6, 0, 6, 0, 0, 0, 1] = true := by decide +kernel
/-- `SpCooMatAdditionTest` (`ops/sp_mat_ops.cc:5-20`), `SpCooMatSubtractionTest` (`ops/sp_mat_ops.cc:22-37`). -/
example : isVec (do
      let a ← Coo.new Coo.insSort [1, 3, 5, 7] [0, 0, 1, 1] [0, 1, 0, 1]
      let c ← Coo.add Coo.insSort a a
      entries 2 2 c.get) [2, 6, 10, 14] = true ∧
    isVec (do
      let a ← Coo.new Coo.insSort [1, 3, 5, 7] [0, 0, 1, 1] [0, 1, 0, 1]
      let c ← Coo.sub Coo.insSort a a
      entries 2 2 c.get) [0, 0, 0, 0] = true := by decide +kernel

/-! ## Operations -/

/-- `ScaleTest` (`ops/mat_ops.cc:4-24`). -/
example : isVec (buf 0 (matScale 2 ⟨0, 2, 3⟩ (Mem.ofList [[1, 2, 3, 4, 5, 6]]))) [2, 4, 6, 8, 10, 12] = true ∧
    isMat (matSmul 2 ⟨2, 3, [1, 2, 3, 4, 5, 6]⟩) 2 3 [2, 4, 6, 8, 10, 12] = true := by decide +kernel
/-- `SpCooScaleTest` (`ops/mat_ops.cc:26-50`). -/
example : isVec (do let a ← coo22; let a ← Coo.scale 2 a; entries 2 2 a.get) [2, 4, 6, 8] = true ∧
    isVec (do let a ← coo22; let a ← Coo.smul 2 a; entries 2 2 a.get) [2, 4, 6, 8] = true := by decide +kernel
/-- `SpScaleTest` (`ops/mat_ops.cc:52-76`). -/
example : isVec (do let a ← csr22; let a ← Csr.scale 2 a; entries 2 2 a.get) [2, 4, 6, 8] = true ∧
    isVec (do let a ← csr22; let a ← Csr.smul 2 a; entries 2 2 a.get) [2, 4, 6, 8] = true := by decide +kernel

def m23 : DMat Dbl := ⟨2, 3, [1, 3, 5, 2, 4, 6]⟩
def m32 : DMat Dbl := ⟨3, 2, [1, 2, 2, 3, 3, 4]⟩

/-- `SizedMatSizedMatAddTest` (`ops/mat_mat_ops.cc:5-18`), `SizedMatSizedMatSubTest` (`ops/mat_mat_ops.cc:20-33`). -/
example : isMat (matAddOp false (List.range 6) m23 m23) 2 3 [2, 6, 10, 4, 8, 12] = true ∧
    isMat (matSubOp false (List.range 6) m23 m23) 2 3 [0, 0, 0, 0, 0, 0] = true := by decide +kernel
/-- `SizedMatSizedMatMulTest` (`ops/mat_mat_ops.cc:35-61`). -/
example : isVec (buf 2 (gemmSSS 2 ⟨0, 2, 3⟩ ⟨1, 3, 2⟩ 3 ⟨2, 2, 2⟩ (Mem.ofList [m23.elems, m32.elems, [1, 1, 1, 1]]))) [47, 65, 59, 83] = true ∧
    isMat (matMul false m23 m32) 2 2 [22, 31, 28, 40] = true := by decide +kernel
/-- `DynMatDynMatMulTest` (`ops/mat_mat_ops.cc:64-90`). -/
example : isVec (buf 2 (gemmDDD false 2 ⟨0, 2, 3⟩ ⟨1, 3, 2⟩ 3 ⟨2, 2, 2⟩ (Mem.ofList [m23.elems, m32.elems, [1, 1, 1, 1]]))) [47, 65, 59, 83] = true := by
  decide +kernel
/-- `SizedMatSizedMatMulAssignTest` (`ops/mat_mat_ops.cc:92-110`): the result is in the first factor. -/
example : isVec (buf 0 (gemmSSS 2 ⟨0, 2, 2⟩ ⟨1, 2, 2⟩ 3 ⟨0, 2, 2⟩ (Mem.ofList [[1, 3, 2, 4], [1, 2, 2, 3]]))) [17, 31, 26, 44] = true := by
  decide +kernel

def mv : Mem Dbl := Mem.ofList [[1, 2, 3, 4, 2, 4, 1, 3], [2, 3, 4, 1], [1, 1]]

/-- `SizedMatSizedVecMulTest` (`ops/mat_vec_ops.cc:6-36`), `SizedMatDynVecMulTest` (`ops/mat_vec_ops.cc:38-68`). -/
example : isVec (buf 2 (gemvSS 2 ⟨0, 2, 4⟩ 1 3 2 mv)) [51, 49] = true ∧
    isVec (buf 2 (gemvSD false 2 ⟨0, 2, 4⟩ 1 3 2 mv)) [51, 49] = true ∧
    isVec (buf 2 (gemvDD false 2 ⟨0, 2, 4⟩ 1 3 2 mv)) [51, 49] = true ∧
    isVec (matVec false ⟨2, 4, [1, 2, 3, 4, 2, 4, 1, 3]⟩ [2, 3, 4, 1]) [24, 23] = true := by decide +kernel
/-- `SizedMatSizedVecMulAssignTest` (`ops/mat_vec_ops.cc:70-81`): the result is in the argument. -/
example : isVec (buf 1 (gemvSS 1 ⟨0, 2, 2⟩ 1 0 1 (Mem.ofList [[1, 2, 2, 4], [2, 3]]))) [8, 16] = true := by decide +kernel
/-- `SpMatDynVecMulTest` (`ops/mat_vec_ops.cc:83-105`). -/
example : isVec (do
      let a ← Csr.new [1, 2, 3, 4, 1, 2] [0, 2, 3, 6] [0, 1, 2, 0, 1, 2]
      buf 1 (Csr.mul false 2 a 0 3 1 (Mem.ofList [[2, 3, 4], [1, 1, 1]]))) [19, 27, 41] = true := by decide +kernel

/-- `CGSTest` (`ops/orthogonal.cc:6-18`). -/
example : isVec (do
      let m ← Cgs.cgs false (some 3) 3 (Mem.ofList [[1, 0, 0], [1, 1, 0], [0, 1, 1]])
      [(0, 1), (0, 2), (1, 2)].mapM fun p => dotSS 3 m p.1 p.2) [0, 0, 0] = true := by decide +kernel

end Lalib.Suite
