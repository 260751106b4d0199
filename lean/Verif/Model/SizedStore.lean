import Verif.Model.Views
import Mathlib.Data.Nat.Pairing

/-!
# Programs over vectors and matrices of fixed size

Files: `include/lalib/vec/sized_vec.hpp`, `include/lalib/mat/sized_mat.hpp`, `include/lalib/ops/vec_ops.hpp`,
`include/lalib/ops/mat_ops.hpp`, `include/lalib/ops/mat_vec_ops.hpp`, `include/lalib/ops/mat_mat_ops.hpp`.

Named `SizedVec<T, N>` and `SizedMat<T, N, M>` objects of all sizes, and `DynVec` objects where an overload takes one
of each.  A name is a size and a number, so that a statement which is written down here also compiles: `x N` is the
variable number `x` among those of type `SizedVec<T, N>`.

The elements are in the object (`std::array`, `sized_vec.hpp:82`, `sized_mat.hpp:91`).  Both classes declare their copy
operations and no move operations (`sized_vec.hpp:35, 49`, `sized_mat.hpp:36, 62`), so `x = y` and `x = std::move(y)` copy the
elements one by one, and so does `x = f(...)` from the temporary that `f` returns.

`SizedMat::Iter` is the iterator of `std::array<T, N>` and `begin()` returns one of `std::array<T, M * N>`
(`sized_mat.hpp:71, 216-219`); where these are pointers, as in libstdc++, this compiles, and it is taken to.
-/

namespace Lalib

variable {T : Type}

/-- The elements of `SizedVec<T, N>` number `x`; buffer `0` is for temporaries. -/
def svBuf (N x : Nat) : Nat := 3 * Nat.pair N x + 1

/-- The elements of `SizedMat<T, N, M>` number `x`. -/
def smBuf (N M x : Nat) : Nat := 3 * Nat.pair (Nat.pair N M) x + 2

/-- The elements of `DynVec` number `d`. -/
def dvBuf (d : Nat) : Nat := 3 * d + 3

/-- `SizedMat<T, N, M>` number `x` as an argument. -/
def smRef (N M x : Nat) : MatRef := ⟨smBuf N M x, N, M⟩

/-- `x = t;` for a temporary `t` of `n` elements: copy assignment, `sized_vec.hpp:49`, `sized_mat.hpp:62`; the temporary
dies. -/
def fromTmp (n p : Nat) (s : Mem T) : Res (Mem T) := do
  let s ← copyTo (s 0) n p s
  .ok (s.setBuf 0 [])

/-- Statements. -/
inductive SzStmt (T : Type)
  /-- `x = SizedVec<T, N>(l);` -/
  | vecNew (N x : Nat) (l : List T)
  /-- `x = SizedVec<T, N>::uninit();`: `SizedVec<T, N>()` value-initialises because its defaulted constructor is not
  user-provided (`sized_vec.hpp:84, 123-127`) -/
  | vecUninit (N x : Nat)
  /-- `x = SizedVec<T, N>::filled(v);` -/
  | vecFilled (N x : Nat) (v : T)
  /-- `x = y;` or `x = std::move(y);` -/
  | vecCopy (N x y : Nat)
  /-- `x[i] = v;` -/
  | vecSet (N x i : Nat) (v : T)
  /-- `add(y, z, x);` -/
  | vecAddTo (N y z x : Nat)
  /-- `sub(y, z, x);` -/
  | vecSubTo (N y z x : Nat)
  /-- `neg(y, x);` -/
  | vecNegTo (N y x : Nat)
  /-- `axpy(alpha, y, x);` -/
  | axpy (N : Nat) (alpha : T) (y x : Nat)
  /-- `scale(alpha, x);` -/
  | vecScale (N : Nat) (alpha : T) (x : Nat)
  /-- `x = y + z;` -/
  | vecAdd (N x y z : Nat)
  /-- `x = y - z;` -/
  | vecSub (N x y z : Nat)
  /-- `x = -y;` -/
  | vecNeg (N x y : Nat)
  /-- `x = alpha * y;` -/
  | vecSmul (N x : Nat) (alpha : T) (y : Nat)
  /-- `x[i] = y.dot(z);` for a vector `x` of size `K` -/
  | dotTo (K x i N y z : Nat)
  /-- `d = DynVec(l);` -/
  | dynNew (d : Nat) (l : List T)
  /-- `d[i] = v;` -/
  | dynSet (d i : Nat) (v : T)
  /-- `add(y, d, x);` for a `DynVec` `d` -/
  | addSizedDyn (N y d x : Nat)
  /-- `add(d, y, x);` for a `DynVec` `d` -/
  | addDynSized (N d y x : Nat)
  /-- `sub(d, y, x);` for a `DynVec` `d` -/
  | subDynSized (N d y x : Nat)
  /-- `x[i] = y.dot(d);` for a `DynVec` `d` -/
  | dotSizedDyn (K x i N y d : Nat)
  /-- `x[i] = d.dot(y);` for a `DynVec` `d` -/
  | dotDynSized (K x i d N y : Nat)
  /-- `x = SizedMat<T, N, M>(l);` -/
  | matNew (N M x : Nat) (l : List T)
  /-- `x = SizedMat<T, N, M>::uninit();` -/
  | matUninit (N M x : Nat)
  /-- `x = SizedMat<T, N, M>::filled(v);` -/
  | matFilled (N M x : Nat) (v : T)
  /-- `x = SizedMat<T, N, N>::diag(l);` for an array `l` of `N` elements -/
  | matDiagOf (x : Nat) (l : List T)
  /-- `x = SizedMat<T, N, N>::diag(v);` -/
  | matDiag (N x : Nat) (v : T)
  /-- `x = SizedMat<T, N, N>::identity();` -/
  | matIdentity (N x : Nat)
  /-- `x = y;` or `x = std::move(y);` -/
  | matCopy (N M x y : Nat)
  /-- `x(i, j) = v;` -/
  | matSet (N M x i j : Nat) (v : T)
  /-- `add(a, b, x);` -/
  | matAddTo (N M a b x : Nat)
  /-- `sub(a, b, x);` -/
  | matSubTo (N M a b x : Nat)
  /-- `scale(alpha, x);` -/
  | matScale (N M : Nat) (alpha : T) (x : Nat)
  /-- `x = a + b;` -/
  | matAdd (N M x a b : Nat)
  /-- `x = a - b;` -/
  | matSub (N M x a b : Nat)
  /-- `x = alpha * a;` -/
  | matSmul (N M x : Nat) (alpha : T) (a : Nat)
  /-- `x = -a;` -/
  | matNeg (N M x a : Nat)
  /-- `mul(alpha, a, v, beta, w);` for a matrix `a` and vectors `v`, `w` -/
  | gemv (N M : Nat) (alpha : T) (a v : Nat) (beta : T) (w : Nat)
  /-- `mul(alpha, a, d, beta, w);` for a `DynVec` `d` -/
  | gemvDyn (N M : Nat) (alpha : T) (a d : Nat) (beta : T) (w : Nat)
  /-- `w = a * v;` for a matrix `a` and vectors `v`, `w` -/
  | matVec (N M w a v : Nat)
  /-- `mul(alpha, a, b, beta, c);` -/
  | gemm (N L M : Nat) (alpha : T) (a b : Nat) (beta : T) (c : Nat)
  /-- `x = a * b;` -/
  | matMul (N L M x a b : Nat)

namespace SzStmt

/-- The effect of a statement on the objects; `nd` and `ord` as in `DnStmt.act`.  A call that throws has modified
nothing: the checks (`sized_vec.hpp:101, 115`, `sized_mat.hpp:102, 115`, `vec_ops.hpp:283, 291, 338`, `dyn_vec.hpp:204`) precede
all writes to existing objects. -/
def act [CommRing T] (nd : Bool) (ord : Nat → List Nat) : SzStmt T → Mem T → Res (Mem T)
  | .vecNew N x l, s => do
    let t ← sizedVecNew N l
    copyTo t N (svBuf N x) s
  | .vecUninit N x, s => copyTo (List.replicate N 0) N (svBuf N x) s
  | .vecFilled N x v, s => copyTo (sizedVecFilled N v) N (svBuf N x) s
  | .vecCopy N x y, s => copyTo (s (svBuf N y)) N (svBuf N x) s
  | .vecSet N x i v, s => s.wr (svBuf N x) i v
  | .vecAddTo N y z x, s => addSS (ord N) N s (svBuf N y) (svBuf N z) (svBuf N x)
  | .vecSubTo N y z x, s => subSS (ord N) N s (svBuf N y) (svBuf N z) (svBuf N x)
  | .vecNegTo N y x, s => negS N s (svBuf N y) (svBuf N x)
  | .axpy N alpha y x, s => axpyS N alpha s (svBuf N y) (svBuf N x)
  | .vecScale N alpha x, s => scaleV alpha s (svBuf N x)
  | .vecAdd N x y z, s => do
    let s ← addOpAt (ord N) s (svBuf N y) (svBuf N z) 0
    fromTmp N (svBuf N x) s
  | .vecSub N x y z, s => do
    let s ← subOpAt (ord N) s (svBuf N y) (svBuf N z) 0
    fromTmp N (svBuf N x) s
  | .vecNeg N x y, s => do
    let s ← negOpAt s (svBuf N y) 0
    fromTmp N (svBuf N x) s
  | .vecSmul N x alpha y, s => do
    let s ← smulOpAt alpha s (svBuf N y) 0
    fromTmp N (svBuf N x) s
  | .dotTo K x i N y z, s => do
    let v ← dotSS N s (svBuf N y) (svBuf N z)
    s.wr (svBuf K x) i v
  | .dynNew d l, s => .ok (s.setBuf (dvBuf d) l)
  | .dynSet d i v, s => s.wr (dvBuf d) i v
  | .addSizedDyn N y d x, s => addSD (ord N) N s (svBuf N y) (dvBuf d) (svBuf N x)
  | .addDynSized N d y x, s => addSD (ord N) N s (dvBuf d) (svBuf N y) (svBuf N x)
  | .subDynSized N d y x, s => subSD (ord N) N s (dvBuf d) (svBuf N y) (svBuf N x)
  | .dotSizedDyn K x i N y d, s => do
    let v ← sizedDotDyn N s (svBuf N y) (dvBuf d)
    s.wr (svBuf K x) i v
  | .dotDynSized K x i d N y, s => do
    let v ← dynDot s (dvBuf d) (svBuf N y)
    s.wr (svBuf K x) i v
  | .matNew N M x l, s => do
    let t ← DMat.newSized N M l
    copyTo t.elems (N * M) (smBuf N M x) s
  | .matUninit N M x, s => copyTo (DMat.uninit N M).elems (N * M) (smBuf N M x) s
  | .matFilled N M x v, s => do
    let t ← DMat.filled v N M
    copyTo t.elems (N * M) (smBuf N M x) s
  | .matDiagOf x l, s => do
    let t ← DMat.diag l
    copyTo t.elems (l.length * l.length) (smBuf l.length l.length x) s
  | .matDiag N x v, s => do
    let t ← DMat.diagConst v N
    copyTo t.elems (N * N) (smBuf N N x) s
  | .matIdentity N x, s => do
    let t ← DMat.identity N
    copyTo t.elems (N * N) (smBuf N N x) s
  | .matCopy N M x y, s => copyTo (s (smBuf N M y)) (N * M) (smBuf N M x) s
  | .matSet N M x i j v, s => s.wr (smBuf N M x) (i * M + j) v
  | .matAddTo N M a b x, s => matAddSS (ord (N * M)) (smRef N M a) (smRef N M b) (smRef N M x) s
  | .matSubTo N M a b x, s => matSubSS (ord (N * M)) (smRef N M a) (smRef N M b) (smRef N M x) s
  | .matScale N M alpha x, s => Lalib.matScale alpha (smRef N M x) s
  | .matAdd N M x a b, s => do
    let s ← matAddAt nd (ord (N * M)) s (smRef N M a) (smRef N M b) 0
    fromTmp (N * M) (smBuf N M x) s
  | .matSub N M x a b, s => do
    let s ← matSubAt nd (ord (N * M)) s (smRef N M a) (smRef N M b) 0
    fromTmp (N * M) (smBuf N M x) s
  | .matSmul N M x alpha a, s => do
    let s ← matSmulAt alpha s (smRef N M a) 0
    fromTmp (N * M) (smBuf N M x) s
  | .matNeg N M x a, s => do
    let s ← matNegAt s (smRef N M a) 0
    fromTmp (N * M) (smBuf N M x) s
  | .gemv N M alpha a v beta w, s => gemvSS alpha (smRef N M a) (svBuf M v) beta (svBuf N w) s
  | .gemvDyn N M alpha a d beta w, s => gemvSD nd alpha (smRef N M a) (dvBuf d) beta (svBuf N w) s
  | .matVec N M w a v, s => do
    let s ← matVecAt nd s (smRef N M a) (svBuf M v) 0
    fromTmp N (svBuf N w) s
  | .gemm N L M alpha a b beta c, s => gemmSSS alpha (smRef N L a) (smRef L M b) beta (smRef N M c) s
  | .matMul N L M x a b, s => do
    let s ← matMulAt nd s (smRef N L a) (smRef L M b) 0
    fromTmp (N * M) (smBuf N M x) s

/-- A program, each statement in a `try` block of its own: the final objects and, for each statement, the exception
it threw.  Every other failure ends the program.  `ord k` gives the orders of the `k`-th statement. -/
def runAll [CommRing T] (nd : Bool) : (Nat → Nat → List Nat) → List (SzStmt T) → Mem T → Res (Mem T × List (Option Exn))
  | _, [], s => .ok (s, [])
  | ord, st :: p, s =>
    match st.act nd (ord 0) s with
    | .ok s' => do
      let r ← runAll nd (fun k => ord (k + 1)) p s'
      .ok (r.1, none :: r.2)
    | .error (.throw e) => do
      let r ← runAll nd (fun k => ord (k + 1)) p s
      .ok (r.1, some e :: r.2)
    | .error f => .error f

/-- Which arrays are replaced: `d = DynVec(l)` moves a new vector into `d` (`dyn_vec.hpp:66`); the elements of the other
objects stay where they are. -/
def upd : SzStmt T → Bool → List Upd
  | .dynNew d _, _ => [.fresh (dvBuf d)]
  | _, _ => []

end SzStmt

/-- The objects with references, pointers and iterators to their elements: `operator[]`, `operator()`, `at`, `mut_at`
(`sized_vec.hpp:176-184`, `sized_mat.hpp:172-196`), `begin`, `cbegin`, `end`, `cend` (`sized_vec.hpp:140-173`,
`sized_mat.hpp:216-244`), `data` (`sized_vec.hpp:187-196`, `sized_mat.hpp:198-208`). -/
def szLang [CommRing T] (nd : Bool) (ord : Nat → List Nat) : Lang (SzStmt T) (Mem T) T where
  act := fun st => st.act nd ord
  val := fun s p => s p
  put := fun s p l => s.setBuf p l
  upd := SzStmt.upd

end Lalib
