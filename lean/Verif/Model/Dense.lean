import Verif.Model.VecOps

/-!
# Model of the dense matrices

Files: `include/lalib/mat/dyn_mat.hpp`, `include/lalib/mat/sized_mat.hpp`, `include/lalib/ops/mat_ops.hpp`,
`include/lalib/ops/mat_vec_ops*.hpp`, `include/lalib/ops/mat_mat_ops*.hpp`.
-/

namespace Lalib

variable {T : Type}

/-- `DynMat<T>` (`dyn_mat.hpp:93-94`): elements and shape.  A `SizedMat<T,N,M>` (`sized_mat.hpp:91`) is the
same with the shape fixed by its type and exactly `N*M` elements. -/
structure DMat (T : Type) where
  n : Nat
  m : Nat
  elems : List T
  deriving Repr, DecidableEq

namespace DMat

/-- `DynMat(n, m, std::vector)` / `DynMat(n, m, initializer_list)`, `dyn_mat.hpp:21-33`: no check. -/
def new (n m : Nat) (arr : List T) : Res (DMat T) := .ok ⟨n, m, arr⟩

/-- `SizedMat(initializer_list)` / `SizedMat(std::vector)`, `sized_mat.hpp:98-122`. -/
def newSized (N M : Nat) (arr : List T) : Res (DMat T) := do
  throwIf (arr.length != N * M) .runtimeError
  .ok ⟨N, M, arr⟩

/-- `operator()(i, j) const`, `at`: `dyn_mat.hpp:147-153, 163-167`, `sized_mat.hpp:172-177, 186-190`. -/
def get (a : DMat T) (i j : Nat) : Res T := lrd a.elems (i * a.m + j)

/-- `mat(i, j) = v` through `operator()` / `mut_at`: `dyn_mat.hpp:155-161, 169-173`,
`sized_mat.hpp:179-184, 192-196`. -/
def set (a : DMat T) (i j : Nat) (v : T) : Res (DMat T) := do
  let e ← lwr a.elems (i * a.m + j) v
  .ok { a with elems := e }

/-- `uninit`, `dyn_mat.hpp:100-104` (`std::vector<T>(n*m)` value-initialises), `sized_mat.hpp:124-128`
(`SizedMat()` value-initialises because its defaulted constructor is not user-provided). -/
def uninit [Zero T] (n m : Nat) : DMat T := ⟨n, m, List.replicate (n * m) 0⟩

/-- `filled`, `dyn_mat.hpp:106-116`, `sized_mat.hpp:130-140`. -/
def filled [Zero T] (v : T) (n m : Nat) : Res (DMat T) :=
  forRange 0 n (fun i a => forRange 0 m (fun j a => a.set i j v) a) (uninit n m)

/-- `diag(std::vector)`, `dyn_mat.hpp:118-127`, `sized_mat.hpp:142-151`. -/
def diag [Zero T] (v : List T) : Res (DMat T) :=
  forRange 0 v.length (fun i a => do
    let x ← lrd v i
    a.set i i x) (uninit v.length v.length)

/-- `diag(value, n)`, `dyn_mat.hpp:129-137`, `sized_mat.hpp:153-162`. -/
def diagConst [Zero T] (v : T) (n : Nat) : Res (DMat T) :=
  forRange 0 n (fun i a => a.set i i v) (uninit n n)

/-- `identity`, `dyn_mat.hpp:139-144`, `sized_mat.hpp:164-170`. -/
def identity [Zero T] [One T] (n : Nat) : Res (DMat T) := diagConst 1 n

end DMat

/-! ## Matrix-vector product -/

/-- `std::copy(src, src + n, dst)`. -/
def copyTo (src : List T) (n : Nat) (dst : Nat) (m : Mem T) : Res (Mem T) :=
  forRange 0 n (fun i m => do
    let t ← lrd src i
    m.wr dst i t) m

/-- `__mul_core_simd`, `mat_vec_ops_core.hpp:28-52`, and `mul_core`, `:66-102`, of the internal backend.
`mat`, `x`, `y` are buffers; `tmp` is the local array, `make_unique<T[]>(n)` zero-initialises. -/
def gemvCore [Zero T] [Add T] [Mul T] (n m : Nat) (alpha : T) (mat x : Nat) (beta : T) (y : Nat)
    (s : Mem T) : Res (Mem T) :=
  if x = y then do
    let tmp ← forRange 0 n (fun i tmp => do
      let yi ← s.rd y i
      let tmp ← lwr tmp i (beta * yi)
      forRange 0 m (fun k tmp => do
        let t ← lrd tmp i
        let a ← s.rd mat (i * m + k)
        let xk ← s.rd x k
        lwr tmp i (t + alpha * a * xk)) tmp) (List.replicate n 0)
    copyTo tmp n y s
  else
    forRange 0 n (fun i s => do
      let yi ← s.rd y i
      let s ← s.wr y i (beta * yi)
      forRange 0 m (fun k s => do
        let t ← s.rd y i
        let a ← s.rd mat (i * m + k)
        let xk ← s.rd x k
        s.wr y i (t + alpha * a * xk)) s) s

/-- A matrix argument: its buffer and its shape. -/
structure MatRef where
  buf : Nat
  n : Nat
  m : Nat

/-- The storage of the matrix has `n*m` elements (always so for `SizedMat`). -/
def MatRef.Wf (a : MatRef) (s : Mem T) : Prop := s.len a.buf = a.n * a.m

/-- `mul(alpha, SizedMat, SizedVec, beta, SizedVec&)`, `mat_vec_ops.hpp:16-21`. -/
def gemvSS [Zero T] [Add T] [Mul T] (alpha : T) (a : MatRef) (v : Nat) (beta : T) (vr : Nat)
    (s : Mem T) : Res (Mem T) := noexcept (gemvCore a.n a.m alpha a.buf v beta vr s)

/-- `mul(alpha, SizedMat, DynVec, beta, SizedVec&)`, `mat_vec_ops.hpp:23-29`. -/
def gemvSD [Zero T] [Add T] [Mul T] (nd : Bool) (alpha : T) (a : MatRef) (v : Nat) (beta : T)
    (vr : Nat) (s : Mem T) : Res (Mem T) := noexcept do
  cassert nd (a.m == s.len v)
  gemvCore a.n a.m alpha a.buf v beta vr s

/-- `mul(alpha, DynMat, DynVec, beta, DynVec&)`, `mat_vec_ops.hpp:40-47`, and
`mul(alpha, DynMat, SizedVec, beta, DynVec&)`, `:31-38`. -/
def gemvDD [Zero T] [Add T] [Mul T] (nd : Bool) (alpha : T) (a : MatRef) (v : Nat) (beta : T)
    (vr : Nat) (s : Mem T) : Res (Mem T) := noexcept do
  cassert nd (a.m == s.len v)
  cassert nd (a.n == s.len vr)
  gemvCore a.n a.m alpha a.buf v beta vr s

/-- `operator*(DynMat, DynVec)`, `mat_vec_ops.hpp:83-90` (with a `SizedVec`: `:74-81`; for `SizedMat`:
`:59-72`); `r` is the new vector. -/
def matVecAt [Zero T] [One T] [Add T] [Mul T] (nd : Bool) (s : Mem T) (a : MatRef) (v r : Nat) :
    Res (Mem T) := noexcept do
  cassert nd (a.m == s.len v)
  gemvCore a.n a.m 1 a.buf v 0 r (s.setBuf r (List.replicate a.n 0))

/-- The value of `a * v`, `mat_vec_ops.hpp:59-90`. -/
def matVec [Zero T] [One T] [Add T] [Mul T] (nd : Bool) (a : DMat T) (v : List T) :
    Res (List T) := do
  let s ← matVecAt nd (Mem.ofList [a.elems, v]) ⟨0, a.n, a.m⟩ 1 2
  .ok (s 2)

/-! ## Matrix-matrix product -/

/-- `__mul_core_simd`, `mat_mat_ops_core.hpp:26-50`, and `mul_core`, `:52-90`, of the internal backend. -/
def gemmCore [Zero T] [Add T] [Mul T] (n m o : Nat) (alpha : T) (a b : Nat) (beta : T) (c : Nat)
    (s : Mem T) : Res (Mem T) :=
  if a = c ∨ b = c then do
    let tmp ← forRange 0 n (fun i tmp =>
      forRange 0 m (fun j tmp => do
        let cij ← s.rd c (i * m + j)
        let tmp ← lwr tmp (i * m + j) (beta * cij)
        forRange 0 o (fun k tmp => do
          let t ← lrd tmp (i * m + j)
          let aik ← s.rd a (i * o + k)
          let bkj ← s.rd b (k * m + j)
          lwr tmp (i * m + j) (t + alpha * aik * bkj)) tmp) tmp) (List.replicate (n * m) 0)
    copyTo tmp (n * m) c s
  else
    forRange 0 n (fun i s =>
      forRange 0 m (fun j s => do
        let cij ← s.rd c (i * m + j)
        let s ← s.wr c (i * m + j) (cij * beta)
        forRange 0 o (fun k s => do
          let t ← s.rd c (i * m + j)
          let aik ← s.rd a (i * o + k)
          let bkj ← s.rd b (k * m + j)
          s.wr c (i * m + j) (t + alpha * aik * bkj)) s) s) s

/-- `mul(alpha, a, b, beta, c)` for `DynMat`s, `mat_mat_ops.hpp:171-180`. -/
def gemmDDD [Zero T] [Add T] [Mul T] (nd : Bool) (alpha : T) (a b : MatRef) (beta : T) (c : MatRef)
    (s : Mem T) : Res (Mem T) := noexcept do
  cassert nd (a.n == c.n)
  cassert nd (b.m == c.m)
  cassert nd (a.m == b.n)
  gemmCore c.n c.m a.m alpha a.buf b.buf beta c.buf s

/-- `mul(alpha, SizedMat, SizedMat, beta, SizedMat&)`, `mat_mat_ops.hpp:111-115`; here
`a : N x L`, `b : L x M`, `c : N x M` by type. -/
def gemmSSS [Zero T] [Add T] [Mul T] (alpha : T) (a b : MatRef) (beta : T) (c : MatRef)
    (s : Mem T) : Res (Mem T) := noexcept (gemmCore c.n c.m a.m alpha a.buf b.buf beta c.buf s)

/-- `mul(alpha, DynMat, SizedMat, beta, SizedMat&)`, `mat_mat_ops.hpp:117-123`; `N`, `M`, `L` are the
shapes of the sized arguments. -/
def gemmDSS [Zero T] [Add T] [Mul T] (nd : Bool) (alpha : T) (a b : MatRef) (beta : T) (c : MatRef)
    (s : Mem T) : Res (Mem T) := noexcept do
  cassert nd (a.n == c.n)
  cassert nd (a.m == b.n)
  gemmCore c.n c.m b.n alpha a.buf b.buf beta c.buf s

/-- `mul(alpha, SizedMat, DynMat, beta, SizedMat&)`, `mat_mat_ops.hpp:125-131`. -/
def gemmSDS [Zero T] [Add T] [Mul T] (nd : Bool) (alpha : T) (a b : MatRef) (beta : T) (c : MatRef)
    (s : Mem T) : Res (Mem T) := noexcept do
  cassert nd (b.n == a.m)
  cassert nd (b.m == c.m)
  gemmCore c.n c.m a.m alpha a.buf b.buf beta c.buf s

/-- `mul(alpha, DynMat, DynMat, beta, SizedMat&)`, `mat_mat_ops.hpp:133-141`. -/
def gemmDDS [Zero T] [Add T] [Mul T] (nd : Bool) (alpha : T) (a b : MatRef) (beta : T) (c : MatRef)
    (s : Mem T) : Res (Mem T) := noexcept do
  cassert nd (a.n == c.n)
  cassert nd (b.m == c.m)
  cassert nd (a.m == b.n)
  gemmCore c.n c.m a.m alpha a.buf b.buf beta c.buf s

/-- `mul(alpha, DynMat, SizedMat, beta, DynMat&)`, `mat_mat_ops.hpp:151-159`.  (The overload `:143-149`
has the typo `frist` inside an `assert` and compiles only with `NDEBUG`.) -/
def gemmDSD [Zero T] [Add T] [Mul T] (nd : Bool) (alpha : T) (a b : MatRef) (beta : T) (c : MatRef)
    (s : Mem T) : Res (Mem T) := noexcept do
  cassert nd (a.n == c.n)
  cassert nd (b.m == c.m)
  cassert nd (a.m == b.n)
  gemmCore a.n b.m b.n alpha a.buf b.buf beta c.buf s

/-- `mul(alpha, SizedMat, DynMat, beta, DynMat&)`, `mat_mat_ops.hpp:161-169`. -/
def gemmSDD [Zero T] [Add T] [Mul T] (nd : Bool) (alpha : T) (a b : MatRef) (beta : T) (c : MatRef)
    (s : Mem T) : Res (Mem T) := noexcept do
  cassert nd (b.n == a.m)
  cassert nd (a.n == c.n)
  cassert nd (b.m == c.m)
  gemmCore a.n b.m a.m alpha a.buf b.buf beta c.buf s

/-- `operator*(DynMat, DynMat)`, `mat_mat_ops.hpp:190-195` (`SizedMat`: `:183-188`); `r` is the new
matrix, of shape `a.n x b.m`. -/
def matMulAt [Zero T] [One T] [Add T] [Mul T] (nd : Bool) (s : Mem T) (a b : MatRef) (r : Nat) :
    Res (Mem T) :=
  noexcept (gemmDDD nd 1 a b 0 ⟨r, a.n, b.m⟩ (s.setBuf r (DMat.uninit a.n b.m).elems))

/-- The value of `a * b`, `mat_mat_ops.hpp:183-195`. -/
def matMul [Zero T] [One T] [Add T] [Mul T] (nd : Bool) (a b : DMat T) : Res (DMat T) := do
  let s ← matMulAt nd (Mem.ofList [a.elems, b.elems]) ⟨0, a.n, a.m⟩ ⟨1, b.n, b.m⟩ 2
  .ok ⟨a.n, b.m, s 2⟩

/-! ## Element-wise matrix operations -/

/-- `add(DynMat, DynMat, DynMat&)`, `mat_mat_ops.hpp:37-43`. -/
def matAddDD [Add T] (nd : Bool) (ord : List Nat) (m1 m2 mr : MatRef) (s : Mem T) : Res (Mem T) :=
  noexcept do
    cassert nd (m1.n == m2.n && m1.m == m2.m)
    cassert nd (m1.n == mr.n && m1.m == mr.m)
    addCore ord s m1.buf m2.buf mr.buf (m1.n * m1.m)

/-- `add` with a `SizedMat` result and at least one `DynMat` operand, `mat_mat_ops.hpp:23-35`. -/
def matAddSD [Add T] (nd : Bool) (ord : List Nat) (m1 m2 mr : MatRef) (s : Mem T) : Res (Mem T) :=
  noexcept do
    cassert nd (m1.n == m2.n && m1.m == m2.m)
    addCore ord s m1.buf m2.buf mr.buf (m1.n * m1.m)

/-- `add(SizedMat, SizedMat, SizedMat&)`, `mat_mat_ops.hpp:17-21`. -/
def matAddSS [Add T] (ord : List Nat) (m1 m2 mr : MatRef) (s : Mem T) : Res (Mem T) :=
  noexcept (addCore ord s m1.buf m2.buf mr.buf (m1.n * m1.m))

/-- `sub(DynMat, DynMat, DynMat&)`, `mat_mat_ops.hpp:84-90`. -/
def matSubDD [Sub T] (nd : Bool) (ord : List Nat) (m1 m2 mr : MatRef) (s : Mem T) : Res (Mem T) :=
  noexcept do
    cassert nd (m1.n == m2.n && m1.m == m2.m)
    cassert nd (m1.n == mr.n && m1.m == mr.m)
    subCore ord s m1.buf m2.buf mr.buf (m1.n * m1.m)

/-- `sub` with a `SizedMat` result and at least one `DynMat` operand, `mat_mat_ops.hpp:70-82`. -/
def matSubSD [Sub T] (nd : Bool) (ord : List Nat) (m1 m2 mr : MatRef) (s : Mem T) : Res (Mem T) :=
  noexcept do
    cassert nd (m1.n == m2.n && m1.m == m2.m)
    subCore ord s m1.buf m2.buf mr.buf (m1.n * m1.m)

/-- `sub(SizedMat, SizedMat, SizedMat&)`, `mat_mat_ops.hpp:64-68`. -/
def matSubSS [Sub T] (ord : List Nat) (m1 m2 mr : MatRef) (s : Mem T) : Res (Mem T) :=
  noexcept (subCore ord s m1.buf m2.buf mr.buf (m1.n * m1.m))

/-- `operator+(DynMat, DynMat)`, `mat_mat_ops.hpp:52-57` (`SizedMat`: `:45-50`); `r` is the new matrix,
a copy of `a`. -/
def matAddAt [Add T] (nd : Bool) (ord : List Nat) (s : Mem T) (a b : MatRef) (r : Nat) :
    Res (Mem T) :=
  noexcept (matAddDD nd ord a b ⟨r, a.n, a.m⟩ (s.setBuf r (s a.buf)))

/-- The value of `a + b`, `mat_mat_ops.hpp:45-50, 52-57`. -/
def matAddOp [Add T] (nd : Bool) (ord : List Nat) (a b : DMat T) : Res (DMat T) := do
  let s ← matAddAt nd ord (Mem.ofList [a.elems, b.elems]) ⟨0, a.n, a.m⟩ ⟨1, b.n, b.m⟩ 2
  .ok ⟨a.n, a.m, s 2⟩

/-- `operator-(DynMat, DynMat)`, `mat_mat_ops.hpp:99-104` (`SizedMat`: `:92-97`); `r` is the new matrix,
a copy of `a`. -/
def matSubAt [Sub T] (nd : Bool) (ord : List Nat) (s : Mem T) (a b : MatRef) (r : Nat) :
    Res (Mem T) :=
  noexcept (matSubDD nd ord a b ⟨r, a.n, a.m⟩ (s.setBuf r (s a.buf)))

/-- The value of `a - b`, `mat_mat_ops.hpp:92-97, 99-104`. -/
def matSubOp [Sub T] (nd : Bool) (ord : List Nat) (a b : DMat T) : Res (DMat T) := do
  let s ← matSubAt nd ord (Mem.ofList [a.elems, b.elems]) ⟨0, a.n, a.m⟩ ⟨1, b.n, b.m⟩ 2
  .ok ⟨a.n, a.m, s 2⟩

/-- `scale(alpha, DynMat&)` / `scale(alpha, SizedMat&)`, `mat_ops.hpp:17-29`. -/
def matScale [Mul T] (alpha : T) (a : MatRef) (s : Mem T) : Res (Mem T) :=
  noexcept (scalCore alpha s a.buf (a.n * a.m))

/-- `operator*(alpha, DynMat)` / `(alpha, SizedMat)`, `mat_ops.hpp:44-56`; `r` is the new matrix, a copy
of `a`. -/
def matSmulAt [Mul T] (alpha : T) (s : Mem T) (a : MatRef) (r : Nat) : Res (Mem T) :=
  noexcept (matScale alpha ⟨r, a.n, a.m⟩ (s.setBuf r (s a.buf)))

/-- The value of `alpha * a`, `mat_ops.hpp:44-56`. -/
def matSmul [Mul T] (alpha : T) (a : DMat T) : Res (DMat T) := do
  let s ← matSmulAt alpha (Mem.ofList [a.elems]) ⟨0, a.n, a.m⟩ 1
  .ok ⟨a.n, a.m, s 1⟩

/-- unary `operator-` on `DynMat` / `SizedMat`, `mat_ops.hpp:77-91`: a copy scaled by `-1.0`. -/
def matNegAt [Neg T] [One T] [Mul T] (s : Mem T) (a : MatRef) (r : Nat) : Res (Mem T) :=
  noexcept (matScale (-1) ⟨r, a.n, a.m⟩ (s.setBuf r (s a.buf)))

/-- The value of `-a`, `mat_ops.hpp:77-91`. -/
def matNeg [Neg T] [One T] [Mul T] (a : DMat T) : Res (DMat T) := do
  let s ← matNegAt (Mem.ofList [a.elems]) ⟨0, a.n, a.m⟩ 1
  .ok ⟨a.n, a.m, s 1⟩

/-! ## 2x2 inversion -/

/-- Read `mat(i,j)` of a `SizedMat<T,2,2>` stored in buffer `a`. -/
def rd22 (s : Mem T) (a i j : Nat) : Res T := s.rd a (i * 2 + j)

/-- Write `mat(i,j)` of a `SizedMat<T,2,2>` stored in buffer `a`. -/
def wr22 (s : Mem T) (a i j : Nat) (v : T) : Res (Mem T) := s.wr a (i * 2 + j) v

/-- `invert(mat, rmat)`, `mat.hpp:29-47`. -/
def invert22 [Zero T] [One T] [Neg T] [Sub T] [Mul T] [CDiv T] (a r : Nat)
    (s : Mem T) : Res (Mem T) :=
  if a ≠ r then do
    let a00 ← rd22 s a 0 0
    let a11 ← rd22 s a 1 1
    let a01 ← rd22 s a 0 1
    let a10 ← rd22 s a 1 0
    let denom := a00 * a11 - a01 * a10
    let s ← wr22 s r 0 0 (← rd22 s a 1 1)
    let s ← wr22 s r 1 1 (← rd22 s a 0 0)
    let s ← wr22 s r 0 1 (-(← rd22 s a 0 1))
    let s ← wr22 s r 1 0 (-(← rd22 s a 1 0))
    let d ← divC 1 denom
    matScale d ⟨r, 2, 2⟩ s
  else do
    let a00 ← rd22 s a 0 0
    let a11 ← rd22 s a 1 1
    let a01 ← rd22 s a 0 1
    let a10 ← rd22 s a 1 0
    let denom := a00 * a11 - a01 * a10
    -- std::swap(rmat(0,0), rmat(1,1))
    let t ← rd22 s r 0 0
    let s ← wr22 s r 0 0 (← rd22 s r 1 1)
    let s ← wr22 s r 1 1 t
    let s ← wr22 s r 0 1 ((← rd22 s r 0 1) * -1)
    let s ← wr22 s r 1 0 ((← rd22 s r 1 0) * -1)
    let d ← divC 1 denom
    matScale d ⟨r, 2, 2⟩ s

/-- `invert(mat)` in place, `mat.hpp:49-53`. -/
def invertInPlace [Zero T] [One T] [Neg T] [Sub T] [Mul T] [CDiv T] (a : Nat)
    (s : Mem T) : Res (Mem T) := invert22 a a s

/-- `inverted(mat)`, `mat.hpp:55-60`; `r` is the new matrix. -/
def invertedAt [Zero T] [One T] [Neg T] [Sub T] [Mul T] [CDiv T] (s : Mem T)
    (a r : Nat) : Res (Mem T) :=
  invert22 a r (s.setBuf r (List.replicate 4 0))

end Lalib
