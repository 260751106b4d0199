import Verif.Model.Threads
import Verif.Model.Look
import Verif.Model.Tdma
import Verif.Model.Cholesky
import Verif.Model.Lapack

/-!
# Calls made by several threads of a program

A program with several threads, each of which calls functions of the library one after another.  A call is a sequence of
single loads and stores (`Model/Threads.lean`), so calls of different threads interleave in any way.

* The sizes of vectors do not change while the threads run, so they are read without a step.
* `omp simd` loops run in index order.  The loops under `omp parallel for` (`vec_ops_core.hpp:40-46, 90-96`) are carried
  out by a team: the accesses of its members interleave in an order `sched`, and with those of the other threads.
* Local arrays (`std::make_unique` in `mat_vec_ops_core.hpp:32`, `mat_mat_ops_core.hpp:29`) and local variables are
  not accessible to other threads and need no step.  The arrays of a CSR matrix are only read by the functions here.
* The arrays of solver objects (the three diagonals, the factor) are objects of the memory, since threads may share a solver.
-/

namespace Lalib

variable {T : Type}

namespace Thread

/-- One after the other. -/
def andThen : Thread T → Thread T → Thread T
  | stop, u => u
  | load p c k, u => load p c fun v => (k v).andThen u
  | store p c v t, u => store p c v (t.andThen u)
  | fail e, _ => fail e

/-- A loop. -/
def seq (th : Nat → Thread T) : List Nat → Thread T
  | [] => stop
  | i :: l => (th i).andThen (seq th l)

/-- A loop by a team; the order in which the iterations make their next access is given. -/
def team : List Nat → (Nat → Thread T) → Thread T
  | [], _ => stop
  | i :: l, th =>
    match th i with
    | stop => team l th
    | load p c k => load p c fun v => team l fun j => if j = i then k v else th j
    | store p c v t => store p c v (team l fun j => if j = i then t else th j)
    | fail e => fail e

/-- A loop with local variables. -/
def fold {σ : Type} (body : Nat → σ → (σ → Thread T) → Thread T) : (lo n : Nat) → σ → (σ → Thread T) → Thread T
  | _, 0, s, k => k s
  | lo, n + 1, s, k => body lo s fun s => fold body (lo + 1) n s k

/-- A check before anything is read or written; the caller catches exceptions. -/
def guard (r : Res Unit) (t : Thread T) : Thread T :=
  match r with
  | .ok _ => t
  | .error (.throw _) => stop
  | .error e => fail e

end Thread

/-- `add_core`, `sub_core`: `vec_ops_core.hpp:66-77, 116-127`. -/
def sumThread (f : T → T → T) (sched : Nat → List Nat) (v w r n : Nat) : Thread T :=
  if n < 16 then .seq (elem2Thread f v w r) (List.range n) else .team (sched n) (elem2Thread f v w r)

/-- `__dot_core_simd`, `vec_ops_core.hpp:207-214`; the sum goes to `k`. -/
def dotThread [Add T] [Mul T] (v w size : Nat) (k : T → Thread T) : Thread T :=
  .load v 0 fun a => .load w 0 fun b =>
    .fold (fun i s k => .load v i fun a => .load w i fun b => k (s + a * b)) 1 (size - 1) (a * b) k

/-- `std::copy(tmp, tmp + n, dst)`. -/
def copyThread (tmp : List T) (n dst : Nat) : Thread T :=
  .seq (fun i => .ofRes (lrd tmp i) fun t => .store dst i t .stop) (List.range n)

/-- `__mul_core_simd` of a matrix and a vector, `mat_vec_ops_core.hpp:28-52`. -/
def gemvAll [Zero T] [Add T] [Mul T] (n m : Nat) (alpha : T) (mat x : Nat) (beta : T) (y : Nat) : Thread T :=
  if x = y then
    .fold (fun i tmp k => .load y i fun yi => .ofRes (lwr tmp i (beta * yi)) fun tmp =>
      .fold (fun q tmp k => .ofRes (lrd tmp i) fun t => .load mat (i * m + q) fun a => .load x q fun xq =>
        .ofRes (lwr tmp i (t + alpha * a * xq)) k) 0 m tmp k) 0 n (List.replicate n 0)
      fun tmp => copyThread tmp n y
  else
    .seq (gemvThread m alpha mat x beta y y) (List.range n)

/-- `__mul_core_simd` of two matrices, `mat_mat_ops_core.hpp:26-50`. -/
def gemmAll [Zero T] [Add T] [Mul T] (n m o : Nat) (alpha : T) (a b : Nat) (beta : T) (c : Nat) : Thread T :=
  if a = c ∨ b = c then
    .fold (fun i tmp k => .fold (fun j tmp k => .load c (i * m + j) fun cij =>
      .ofRes (lwr tmp (i * m + j) (beta * cij)) fun tmp =>
        .fold (fun q tmp k => .ofRes (lrd tmp (i * m + j)) fun t => .load a (i * o + q) fun aiq =>
          .load b (q * m + j) fun bqj => .ofRes (lwr tmp (i * m + j) (t + alpha * aiq * bqj)) k) 0 o tmp k) 0 m tmp k)
      0 n (List.replicate (n * m) 0) fun tmp => copyThread tmp (n * m) c
  else
    .seq (fun i => .seq (fun j => .load c (i * m + j) fun cij => .store c (i * m + j) (cij * beta)
      (.seq (fun q => .load c (i * m + j) fun t => .load a (i * o + q) fun aiq => .load b (q * m + j) fun bqj =>
        .store c (i * m + j) (t + alpha * aiq * bqj) .stop) (List.range o))) (List.range m)) (List.range n)

section solvers
variable [Zero T] [Add T] [Sub T] [Mul T] [Neg T] [CDiv T]

/-- Forward sweep of column `col`, `tdma.hpp:14-24`; `p` and `q` go to `k`. -/
def tdmaFwd (dl d du n nrow b col : Nat) (k : List T × List T → Thread T) : Thread T :=
  .load du 0 fun u0 => .load d 0 fun d0 => .ofRes (divC (-u0) d0) fun p0 => .load b col fun b0 =>
    .ofRes (divC b0 d0) fun q0 => .fold (fun i pq k => .load d i fun di => .load dl (i - 1) fun l =>
      .ofRes (lrd pq.1 (i - 1)) fun p1 => .load du i fun u => .ofRes (divC (-u) (di + l * p1)) fun p =>
        .load b (col + i * nrow) fun bi => .ofRes (lrd pq.2 (i - 1)) fun q1 =>
          .ofRes (divC (bi - l * q1) (di + l * p1)) fun q => k (pq.1 ++ [p], pq.2 ++ [q])) 1 (n - 1 - 1) ([p0], [q0]) k

/-- The last element, `tdma.hpp:26-27`. -/
def tdmaTail (dl d n nrow b x col : Nat) (pq : List T × List T) : Thread T :=
  .load b (col + (n - 1) * nrow) fun bt => .load dl (subSize (n - 1) 1) fun l => .ofRes (lrd pq.2 (subSize (n - 1) 1)) fun q =>
    .load d (n - 1) fun dt => .ofRes (lrd pq.1 (subSize (n - 1) 1)) fun p => .ofRes (divC (bt - l * q) (dt + l * p)) fun v =>
      .store x (col + (n - 1) * nrow) v .stop

/-- `tdma.hpp:29`. -/
def tdmaBack (nrow x col : Nat) (pq : List T × List T) (i : Nat) : Thread T :=
  .ofRes (lrd pq.1 i) fun p => .load x (col + (i + 1) * nrow) fun xn => .ofRes (lrd pq.2 i) fun q =>
    .store x (col + i * nrow) (p * xn + q) .stop

/-- `tdma`, `tdma.hpp:12-33`. -/
def tdmaThread (dl d du n nrow b x : Nat) : Thread T :=
  .seq (fun col => tdmaFwd dl d du n nrow b col fun pq => (tdmaTail dl d n nrow b x col pq).andThen
    (.seq (tdmaBack nrow x col pq) (List.range (n - 1)).reverse)) (List.range nrow)

end solvers

section cholesky
variable [Sub T] [Mul T] [CDiv T]

/-- `rslt[at'] -= c * rslt[p]`; `c` is computed by loads. -/
def subCellThread (x at' p : Nat) (c : (T → Thread T) → Thread T) : Thread T :=
  .load x at' fun v => c fun c => .load x p fun y => .store x at' (v - c * y) .stop

/-- `rslt[at'] /= l[q]`. -/
def divCellThread (x at' l q : Nat) : Thread T :=
  .load x at' fun v => .load l q fun d => .ofRes (divC v d) fun w => .store x at' w .stop

/-- Forward process, one row, `cholesky_decomposition.hpp:56-60`, and of the modified factorisation (`md`), `:94-97`. -/
def fwdRowThread (md : Bool) (ix : Nat → Nat → Nat) (nrow l rhs x col i : Nat) : Thread T :=
  .load rhs (i * nrow + col) fun b => .store x (i * nrow + col) b
    (if md then
      .seq (fun j => subCellThread x (i * nrow + col) (j * nrow + col) fun k => .load l (ix i j) fun a => .load l (ix j j) fun d =>
        .ofRes (divC a d) k) (List.range i)
    else
      (Thread.seq (fun j => subCellThread x (i * nrow + col) (j * nrow + col) fun k => .load l (ix i j) k) (List.range i)).andThen
        (divCellThread x (i * nrow + col) l (ix i i)))

/-- Backward process, one row, `cholesky_decomposition.hpp:65-68, 102-105`. -/
def bwdRowThread (ix : Nat → Nat → Nat) (n nrow l x col i : Nat) : Thread T :=
  (Thread.seq (fun j => subCellThread x (i * nrow + col) (j * nrow + col) fun k => .load l (ix j i) k)
    (List.range' (i + 1) (n - (i + 1)))).andThen (divCellThread x (i * nrow + col) l (ix i i))

/-- `cholesky_linear`, `mod_cholesky_linear` (`md`), `cholesky_decomposition.hpp:51-72, 89-108`. -/
def cholThread (md : Bool) (mt : MemType) (n nrow l rhs x : Nat) : Thread T :=
  .seq (fun col => (Thread.seq (fwdRowThread md (cIndex mt n) nrow l rhs x col) (List.range n)).andThen
    (.seq (bwdRowThread (cIndex mt n) n nrow l x col) (List.range n).reverse)) (List.range nrow)

end cholesky

/-- Calls of functions that write to an object of the caller. -/
inductive Job (T : Type)
  /-- `neg(v, r);` -/
  | neg (v r : Nat)
  /-- `add(v, w, r);` -/
  | add (v w r : Nat)
  /-- `sub(v, w, r);` -/
  | sub (v w r : Nat)
  /-- `axpy(alpha, x, y);` -/
  | axpy (alpha : T) (x y : Nat)
  /-- `scale(alpha, x);` -/
  | scale (alpha : T) (x : Nat)
  /-- `r[i] = x.dot(y);` -/
  | dot (x y r i : Nat)
  /-- `mul(alpha, a, x, beta, y);` -/
  | gemv (alpha : T) (a : MatRef) (x : Nat) (beta : T) (y : Nat)
  /-- `mul(alpha, a, x, beta, y);` with a CSR matrix -/
  | spmv (alpha : T) (a : Csr T) (x : Nat) (beta : T) (y : Nat)
  /-- `mul(alpha, a, b, beta, c);` -/
  | gemm (alpha : T) (a b : MatRef) (beta : T) (c : MatRef)
  /-- `add(a, b, c);` of matrices -/
  | matAdd (a b c : MatRef)
  /-- `sub(a, b, c);` of matrices -/
  | matSub (a b c : MatRef)
  /-- `s.solve_linear(b, x);` with a `TriDiag` whose diagonals are `dl`, `d`, `du` -/
  | triVec (dl d du b x : Nat)
  /-- the same with matrices -/
  | triMat (dl d du : Nat) (b x : MatRef)
  /-- `s.solve_linear_mut(rhs);` with a Cholesky factorisation (`md`: modified) of order `n0` with the factor `l` -/
  | cholVec (md : Bool) (mt : MemType) (n0 l rhs : Nat)
  /-- the same with a matrix -/
  | cholMat (md : Bool) (mt : MemType) (n0 l : Nat) (rhs : MatRef)
  /-- `auto r = s.f(...); for (i = 0; i < r.size(); ++i) x[i] = r[i];` with a const member function `f` that returns a vector.
  `body` gives the loads of `f`, from the sizes of the vectors; `ps` are the arguments and the members of `s` -/
  | look (ps : List Nat) (body : (Nat → Nat) → Look T (List T)) (x : Nat)

namespace Job

/-- `auto r = s.solve(b);` and a copy to `x`, with an `Ilu` whose factors are `f`, `ilu.hpp:74-93`. -/
def ilu [Zero T] [Sub T] [Mul T] [CDiv T] (f : MatRef) (b x : Nat) : Job T :=
  .look [f.buf, b] (fun sz => .ilu (fun i j => .elem f.buf (i * f.m + j)) (sz b) (.elem b)) x

/-- The same with the factors in a CSR matrix. -/
def iluCsr [Zero T] [Sub T] [Mul T] [CDiv T] (f : Csr T) (b x : Nat) : Job T :=
  .look [b] (fun sz => .ilu (fun i j => .lift (f.get i j)) (sz b) (.elem b)) x

section
variable [Zero T] [One T] [Add T] [Sub T] [Mul T] [Neg T] [CDiv T] [CSqrt T] [LT T] [DecidableLT T]

/-- `auto r = s.solve(b);` and a copy to `x`, with a `Gmres` whose members are the matrices `a` and `lu` and `tol`,
`gmres.hpp:41-89`. -/
def gmres (rt : Nat → Nat) (nd : Bool) (a lu : MatRef) (tol : T) (b x : Nat) : Job T :=
  .look [a.buf, lu.buf, b] (fun sz => .gmres rt nd (.dense nd a lu tol) (sz b) (.elem b)) x

/-- The same with CSR matrices. -/
def gmresCsr (rt : Nat → Nat) (nd : Bool) (a lu : Csr T) (tol : T) (b x : Nat) : Job T :=
  .look [b] (fun sz => .gmres rt nd (.csr nd a lu tol) (sz b) (.elem b)) x

end

/-- The call in a program without other threads (`vec_ops.hpp:247-253, 296-301, 343-348, 375-381, 393-396`,
`dyn_vec.hpp:182-189`, `mat_vec_ops.hpp:40-56`, `mat_mat_ops.hpp:37-43, 84-90, 171-180`, `tri_diag.hpp:51-84`,
`cholesky_factorization.hpp:105-112, 126-135, 174-186, 204-217, 250-257, 272-281`). -/
def act [Zero T] [Add T] [Sub T] [Mul T] [Neg T] [CDiv T] [CZero T] (nd : Bool) : Job T → Mem T → Res (Mem T)
  | .neg v r, m => negD m v r
  | .add v w r, m => addDD (List.range (m.len v)) m v w r
  | .sub v w r, m => subDD (List.range (m.len v)) m v w r
  | .axpy alpha x y, m => axpyD alpha m x y
  | .scale alpha x, m => scaleV alpha m x
  | .dot x y r i, m => do
    let s ← dynDot m x y
    m.wr r i s
  | .gemv alpha a x beta y, m => gemvDD nd alpha a x beta y m
  | .spmv alpha a x beta y, m => Csr.mul nd alpha a x beta y m
  | .gemm alpha a b beta c, m => gemmDDD nd alpha a b beta c m
  | .matAdd a b c, m => matAddDD nd (List.range (a.n * a.m)) a b c m
  | .matSub a b c, m => matSubDD nd (List.range (a.n * a.m)) a b c m
  | .triVec dl d du b x, m => Tdma.solveVec nd ⟨m dl, m d, m du⟩ b x m
  | .triMat dl d du b x, m => Tdma.solveMat nd ⟨m dl, m d, m du⟩ b x m
  | .cholVec md mt n0 l rhs, m => Chol.solveMutVec nd md mt n0 (m l) rhs m
  | .cholMat md mt n0 l rhs, m => Chol.solveMutMat nd md mt n0 (m l) rhs m
  | .look _ f x, m => do
    let r ← (f m.len).run m
    copyTo r r.length x m

/-- The calls of a thread without other threads, each in a `try` block (a call that throws has written nothing). -/
def runAll [Zero T] [Add T] [Sub T] [Mul T] [Neg T] [CDiv T] [CZero T] (nd : Bool) : List (Job T) → Mem T → Res (Mem T)
  | [], m => .ok m
  | c :: cs, m =>
    match c.act nd m with
    | .ok m => runAll nd cs m
    | .error (.throw _) => runAll nd cs m
    | .error e => .error e

/-- The accesses of a call.  `sz` gives the sizes of the vectors. -/
def thread [Zero T] [Add T] [Sub T] [Mul T] [Neg T] [CDiv T] (nd : Bool) (sz : Nat → Nat) (sched : Nat → List Nat) : Job T → Thread T
  | .neg v r => .guard (noexcept (checkSize (sz v) (sz r))) (.seq (elem1Thread (fun a => -a) v r) (List.range (sz v)))
  | .add v w r => .guard (checkSize (sz v) (sz w)) (sumThread (· + ·) sched v w r (sz v))
  | .sub v w r => .guard (checkSize (sz v) (sz w)) (sumThread (· - ·) sched v w r (sz v))
  | .axpy alpha x y => .guard (noexcept (checkSize (sz x) (sz y)))
      (.seq (elem2Thread (fun a b => alpha * a + b) x y y) (List.range (sz x)))
  | .scale alpha x => .seq (elem1Thread (fun a => alpha * a) x x) (List.range (sz x))
  | .dot x y r i => .guard (checkSize (sz x) (sz y)) (dotThread x y (sz x) fun s => .store r i s .stop)
  | .gemv alpha a x beta y => .guard (noexcept do cassert nd (a.m == sz x); cassert nd (a.n == sz y))
      (gemvAll a.n a.m alpha a.buf x beta y)
  | .spmv alpha a x beta y => .ofRes (noexcept a.shape) fun sh =>
      .guard (noexcept do cassert nd (sh.2 == sz x); cassert nd (sh.1 == sz y))
        (.seq (csrThread a alpha x beta y) (List.range sh.1))
  | .gemm alpha a b beta c => .guard (noexcept do
        cassert nd (a.n == c.n); cassert nd (b.m == c.m); cassert nd (a.m == b.n))
      (gemmAll c.n c.m a.m alpha a.buf b.buf beta c.buf)
  | .matAdd a b c => .guard (noexcept do cassert nd (a.n == b.n && a.m == b.m); cassert nd (a.n == c.n && a.m == c.m))
      (sumThread (· + ·) sched a.buf b.buf c.buf (a.n * a.m))
  | .matSub a b c => .guard (noexcept do cassert nd (a.n == b.n && a.m == b.m); cassert nd (a.n == c.n && a.m == c.m))
      (sumThread (· - ·) sched a.buf b.buf c.buf (a.n * a.m))
  | .triVec dl d du b x => .guard (noexcept (cassert nd (sz d == sz b))) (tdmaThread dl d du (sz d) 1 b x)
  | .triMat dl d du b x => .guard (noexcept do cassert nd (sz d == b.n); cassert nd (b.n == x.n && b.m == x.m))
      (tdmaThread dl d du (sz d) b.m b.buf x.buf)
  | .cholVec md mt n0 l rhs => .guard (cassert nd (n0 == sz rhs)) (cholThread md mt (if md then n0 else sz rhs) 1 l rhs rhs)
  | .cholMat md mt n0 l rhs => .guard (cassert nd (n0 == rhs.n))
      (cholThread md mt (if md then n0 else rhs.n) rhs.m l rhs.buf rhs.buf)
  | .look _ f x => (f sz).thread fun r => copyThread r r.length x

/-- The accesses of a thread with the calls `cs`; `sched k` is for the teams of call `k`. -/
def threads [Zero T] [Add T] [Sub T] [Mul T] [Neg T] [CDiv T] (nd : Bool) (sz : Nat → Nat) (sched : Nat → Nat → List Nat) : (k : Nat) → List (Job T) → Thread T
  | _, [] => .stop
  | k, c :: cs => (c.thread nd sz (sched k)).andThen (threads nd sz sched (k + 1) cs)

/-- The start of a program: thread `t` makes the calls `progs[t]`. -/
def start [Zero T] [Add T] [Sub T] [Mul T] [Neg T] [CDiv T] (nd : Bool) (sched : Nat → Nat → Nat → List Nat) (progs : List (List (Job T))) (m : Mem T) :
    Pool T :=
  ⟨m, fun t => threads nd m.len (sched t) 0 (progs[t]?.getD [])⟩

/-- The object a call writes to. -/
def target : Job T → Nat
  | .neg _ r | .add _ _ r | .sub _ _ r | .axpy _ _ r | .scale _ r | .dot _ _ r _ | .gemv _ _ _ _ r | .spmv _ _ _ _ r
  | .triVec _ _ _ _ r | .cholVec _ _ _ _ r | .look _ _ r => r
  | .gemm _ _ _ _ c | .matAdd _ _ c | .matSub _ _ c | .triMat _ _ _ _ c | .cholMat _ _ _ _ c => c.buf

/-- The arrays of the solver object of a call. -/
def arrays : Job T → List Nat
  | .triVec dl d du _ _ | .triMat dl d du _ _ => [dl, d, du]
  | .cholVec _ _ _ l _ | .cholMat _ _ _ l _ => [l]
  | _ => []

/-- The objects a call is given, apart from the result and the arrays of a solver. -/
def operands : Job T → List Nat
  | .neg v _ => [v]
  | .add v w _ | .sub v w _ | .dot v w _ _ => [v, w]
  | .axpy _ x _ | .spmv _ _ x _ _ => [x]
  | .scale _ _ | .cholVec _ _ _ _ _ | .cholMat _ _ _ _ _ => []
  | .triVec _ _ _ b _ => [b]
  | .triMat _ _ _ b _ => [b.buf]
  | .gemv _ a x _ _ => [a.buf, x]
  | .look ps _ _ => ps
  | .gemm _ a b _ _ | .matAdd a b _ | .matSub a b _ => [a.buf, b.buf]

end Job

/-- External: the elimination of the first column by `?gtsv` (`Lapack.gtStep`), up to its first store to the diagonals, and
whatever follows (`rest`). -/
def gtsvThread [Field T] [LinearOrder T] (dl d du : Nat) (rest : Thread T) : Thread T :=
  .load d 0 fun d0 => .load dl 0 fun l =>
    if |l| ≤ |d0| then
      if d0 = 0 then .stop else .load d 1 fun d1 => .load du 0 fun u => .store d 1 (d1 - l / d0 * u) rest
    else .store d 0 l rest

/-- `s.solve_linear(b, x);` of a `TriDiag` of order `n` with the LAPACK backend, `tri_diag.hpp:51-58`. -/
def lapackThread [Field T] [LinearOrder T] (n dl d du b x : Nat) (rest : Thread T) : Thread T :=
  (Thread.seq (elem1Thread id b x) (List.range n)).andThen (gtsvThread dl d du rest)

end Lalib
