import Verif.Model.Dense

/-!
# The BLAS backend (`LALIB_BLAS_BACKEND`)

`cblasGemv` and `cblasGemm` are the documented behaviour of `cblas_?gemv` / `cblas_?gemm` for row-major,
non-transposed operands (reference BLAS): parameter checks, quick returns, and the element formula.  They
are assumptions about an external library, not a model of code in /repo.
-/

namespace Lalib

variable {T : Type}

/-- An external routine's parameter check. -/
def blasCheck (c : Bool) : Res Unit := if c then .ok () else .error .blasParam

@[simp] theorem blasCheck_true : blasCheck true = .ok () := rfl
@[simp] theorem blasCheck_false : blasCheck false = .error .blasParam := rfl

/-- External contract used at `mat_vec_ops_core.hpp:77, 80, 93, 96`:
`cblas_dgemv(RowMajor, NoTrans, n, m, alpha, a, lda, x, 1, beta, y, 1)`; `a`, `x` are read from `s`, `y` is
the list which is updated. Returns at once, without touching `y`, if `n = 0` or `m = 0`. -/
def cblasGemv [Zero T] [Add T] [Mul T] (n m : Nat) (alpha : T) (a : List T) (lda : Nat)
    (x : List T) (beta : T) (y : List T) : Res (List T) := do
  blasCheck (decide (max 1 m ≤ lda))
  if n = 0 ∨ m = 0 then .ok y
  else
    forRange 0 n (fun i y => do
      let d ← forRange 0 m (fun k d => do
        let aik ← lrd a (i * lda + k)
        let xk ← lrd x k
        .ok (d + aik * xk)) 0
      let yi ← lrd y i
      lwr y i (alpha * d + beta * yi)) y

/-- External contract used at `mat_mat_ops_core.hpp:64, 67, 81, 84`:
`cblas_dgemm(RowMajor, NoTrans, NoTrans, n, m, k, alpha, a, lda, b, ldb, beta, c, ldc)`. -/
def cblasGemm [Zero T] [Add T] [Mul T] (n m k : Nat) (alpha : T) (a : List T) (lda : Nat)
    (b : List T) (ldb : Nat) (beta : T) (c : List T) (ldc : Nat) : Res (List T) := do
  blasCheck (decide (max 1 k ≤ lda))
  blasCheck (decide (max 1 m ≤ ldb))
  blasCheck (decide (max 1 m ≤ ldc))
  forRange 0 n (fun i c =>
    forRange 0 m (fun j c => do
      let d ← forRange 0 k (fun t d => do
        let x ← lrd a (i * lda + t)
        let y ← lrd b (t * ldb + j)
        .ok (d + x * y)) 0
      let cij ← lrd c (i * ldc + j)
      lwr c (i * ldc + j) (alpha * d + beta * cij)) c) c

/-- `mul_core<float>` / `mul_core<double>` for matrix-vector products with the BLAS backend,
`mat_vec_ops_core.hpp:72-102`. -/
def gemvBlas [Zero T] [Add T] [Mul T] (n m : Nat) (alpha : T) (mat x : Nat) (beta : T) (y : Nat)
    (s : Mem T) : Res (Mem T) :=
  if x = y then do
    let tmp ← cblasGemv n m alpha (s mat) (max 1 m) (s x) beta (List.replicate n 0)
    copyTo tmp n y s
  else do
    let l ← cblasGemv n m alpha (s mat) (max 1 m) (s x) beta (s y)
    .ok (s.setBuf y l)

/-- `std::copy(src, src + n, dst)` from a buffer to a new array of `n` elements. -/
def copyFrom [Zero T] (s : Mem T) (src n : Nat) : Res (List T) :=
  forRange 0 n (fun i l => do
    let v ← s.rd src i
    lwr l i v) (List.replicate n 0)

/-- `mul_core<float>` / `mul_core<double>` for matrix-matrix products with the BLAS backend,
`mat_mat_ops_core.hpp:58-90`: the leading dimension of `c` is passed as `n`. -/
def gemmBlas [Zero T] [Add T] [Mul T] (n m l : Nat) (alpha : T) (a b : Nat) (beta : T) (c : Nat)
    (s : Mem T) : Res (Mem T) :=
  if a = c ∨ b = c then do
    let tmp ← copyFrom s c (n * m)
    let tmp ← cblasGemm n m l alpha (s a) l (s b) m beta tmp n
    copyTo tmp (n * m) c s
  else do
    let r ← cblasGemm n m l alpha (s a) l (s b) m beta (s c) n
    .ok (s.setBuf c r)

end Lalib
