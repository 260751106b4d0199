import Verif.Suite.Common
import Verif.Model.Gmres
import Verif.Model.Tdma
import Verif.Model.Cholesky

/-! # `/repo/test/solver` -/

namespace Lalib.Suite

open Lalib

/-- The matrix of the tests, packed and in full. -/
def spdT : List Dbl := [4, 2, 5, 6, 5, 14]
def spd : List Dbl := [4, 2, 6, 2, 5, 5, 6, 5, 14]

/-- Entries of the lower triangle. -/
def lower (l : Res (List Dbl)) : Res (List Dbl) := do
  let l ← l
  [0, 3, 4, 6, 7, 8].mapM fun i => lrd l i

/-- `CholeskyDecompositionTest` (`solver/cholesky_factorization.cc:26-60`). -/
example : isVec (Chol.new .triangle 3 spdT) [2, 1, 2, 3, 1, 2] = true ∧
    isVec (lower (Chol.new .square 3 spd)) [2, 1, 2, 3, 1, 2] = true := by decide +kernel
/-- `LinearSolverTest` (`solver/cholesky_factorization.cc:62-93`). -/
example : isVec (do let l ← Chol.new .triangle 3 spdT; buf 0 (Chol.solveMutVec false false .triangle 3 l 0 (Mem.ofList [[2, 5, 1]])))
      [frac 5 4, frac 3 2, -1] = true ∧
    isVec (do let l ← Chol.new .square 3 spd; buf 1 (Chol.solveVecAt false false .square 3 l 0 1 (Mem.ofList [[2, 5, 1]])))
      [frac 5 4, frac 3 2, -1] = true := by decide +kernel
/-- `MultiLinearSolverTest` (`solver/cholesky_factorization.cc:95-138`). -/
example : isVec (do let l ← Chol.new .triangle 3 spdT
                    buf 0 (Chol.solveMutMat false false .triangle 3 l ⟨0, 3, 2⟩ (Mem.ofList [[2, 0, 5, 2, 1, -1]])))
      [frac 5 4, frac 3 8, frac 3 2, frac 3 4, -1, -frac 1 2] = true ∧
    isVec (do let l ← Chol.new .square 3 spd
              buf 1 (Chol.solveMatAt false false .square 3 l ⟨0, 3, 2⟩ 1 (Mem.ofList [[2, 0, 5, 2, 1, -1]])))
      [frac 5 4, frac 3 8, frac 3 2, frac 3 4, -1, -frac 1 2] = true := by decide +kernel
/-- `DecompositionTest` (`solver/cholesky_factorization.cc:140-158`). -/
example : isVec (lower (Chol.modNew .square 3 spd)) [4, 2, 4, 6, 2, 4] = true := by decide +kernel
/-- `LinearSolverTest` (`solver/cholesky_factorization.cc:160-176`). -/
example : isVec (do let l ← Chol.modNew .square 3 spd; buf 1 (Chol.solveVecAt false true .square 3 l 0 1 (Mem.ofList [[2, 5, 1]])))
      [frac 5 4, frac 3 2, -1] = true := by decide +kernel
/-- `MultiLinearSolverTest` (`solver/cholesky_factorization.cc:178-203`). -/
example : isVec (do let l ← Chol.modNew .square 3 spd
                    buf 1 (Chol.solveMatAt false true .square 3 l ⟨0, 3, 2⟩ 1 (Mem.ofList [[2, 0, 5, 2, 1, -1]])))
      [frac 5 4, frac 3 8, frac 3 2, frac 3 4, -1, -frac 1 2] = true := by decide +kernel

def tri : TriDiag Dbl := ⟨[1, 1, 1], [2, 2, 2, 2], [1, 1, 1]⟩
def rhs43 : List Dbl := [4, 2, 8, 8, 4, 16, 12, 6, 24, 11, frac 11 2, 22]

/-- `SizedLinearSolverTest` (`solver/tri_diag.cc:4-21`), `DynLinearSolverTest` (`solver/tri_diag.cc:23-40`): the right hand side is
overwritten.  The first number is four representable numbers below 1, the most the tests accept. -/
example : stepsVec (buf 0 (Tdma.solveVec false tri 0 0 (Mem.ofList [[4, 8, 12, 11]]))) [(1, 4), (2, 2), (3, 2), (4, 1)] = true := by
  decide +kernel
/-- `SizedMatLinearSolverTest` (`solver/tri_diag.cc:42-70`), `DynMatLinearSolverTest` (`solver/tri_diag.cc:72-100`).  The columns are
multiples of each other by powers of two, so the errors are the same. -/
example : stepsVec (buf 0 (Tdma.solveMat false tri ⟨0, 4, 3⟩ ⟨0, 4, 3⟩ (Mem.ofList [rhs43])))
    [(1, 4), (frac 1 2, 4), (2, 4), (2, 2), (1, 2), (4, 2), (3, 2), (frac 3 2, 2), (6, 2), (4, 1), (2, 1), (8, 1)] = true := by
  decide +kernel

/-- `DenseDecompositionTest` (`solver/ilu.cc:5-30`). -/
example : isMat (Ilu.new dOps ⟨3, 3, [2, -1, -2, -4, 6, 3, -4, -2, 8]⟩) 3 3 [2, -1, -2, -2, 4, -1, -2, -1, 3] = true ∧
    isVec (do let a ← Ilu.new dOps ⟨3, 3, [2, -1, -2, -4, 6, 3, -4, -2, 8]⟩; Ilu.solve dOps a [-1, 5, 2]) [1, 1, 1] = true := by
  decide +kernel
/-- `SparseDecompositionTest` (`solver/ilu.cc:32-43`). -/
example : isVec (do
      let a ← Coo.new Coo.insSort [2, -1, -2, -4, 4, -4, 11] [0, 0, 0, 1, 1, 2, 2] [0, 1, 2, 0, 1, 0, 2]
      let a ← Ilu.new cooOps a
      [(1, 2), (2, 1)].mapM fun p => Coo.get a p.1 p.2) [0, 0] = true := by decide +kernel

set_option maxRecDepth 100000 in
/-- `GmresTest` (`solver/gmres.cc:46-59`). -/
example : nearVec (frac 1 1000000) (do
      let g ← Gmres.new (dGOps false) ⟨3, 3, spd⟩ (frac 1 1000000)
      Gmres.solve Nat.sqrt false (dGOps false) g [2, 5, 1]) [frac 5 4, frac 3 2, -1] = true := by decide +kernel
set_option maxRecDepth 100000 in
/-- `SpGmresTest` (`solver/gmres.cc:61-74`). -/
example : nearVec (frac 1 1000000) (do
      let a ← Csr.new spd [0, 3, 6, 9] [0, 1, 2, 0, 1, 2, 0, 1, 2]
      let g ← Gmres.new (csrGOps false) a (frac 1 1000000)
      Gmres.solve Nat.sqrt false (csrGOps false) g [2, 5, 1]) [frac 5 4, frac 3 2, -1] = true := by decide +kernel

end Lalib.Suite
