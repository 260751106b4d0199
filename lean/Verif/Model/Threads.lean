import Verif.Model.Dense
import Verif.Model.Sparse

/-!
# Loops whose iterations run at the same time

`#pragma omp simd`, `parallel for simd` and `target teams distribute parallel for` allow the iterations of a loop to
be executed in SIMD lanes or by threads.  Here every iteration is a thread of its own, a sequence of single loads and
stores, and a schedule is an arbitrary sequence of iteration numbers, each entry letting that iteration do its next
access.  Threads, chunks and lanes only restrict the schedules.  The other model files run these loops in index order.
-/

namespace Lalib

variable {T : Type}

/-- What an iteration still has to do. -/
inductive Thread (T : Type) where
  | stop
  /-- `p[c]` is loaded, the rest depends on the value -/
  | load (p c : Nat) (k : T → Thread T)
  /-- `p[c] = v` -/
  | store (p c : Nat) (v : T) (next : Thread T)
  | fail (e : Fault)

namespace Thread

/-- The next access. -/
def step : Thread T → Mem T → Res (Thread T × Mem T)
  | stop, m => .ok (stop, m)
  | load p c k, m => do
    let v ← m.rd p c
    .ok (k v, m)
  | store p c v t, m => do
    let m ← m.wr p c v
    .ok (t, m)
  | fail e, _ => .error e

/-- The iteration without any other. -/
def run : Thread T → Mem T → Res (Mem T)
  | stop, m => .ok m
  | load p c k, m => m.rd p c >>= fun v => (k v).run m
  | store p c v t, m => m.wr p c v >>= fun m => t.run m
  | fail e, _ => .error e

/-- A computation without access to the memory. -/
def ofRes {α : Type} (r : Res α) (k : α → Thread T) : Thread T :=
  match r with
  | .ok a => k a
  | .error e => fail e

end Thread

/-- Memory and the iterations. -/
structure Pool (T : Type) where
  mem : Mem T
  th : Nat → Thread T

/-- The next access of iteration `i`. -/
def Pool.step (i : Nat) (s : Pool T) : Res (Pool T) := do
  let r ← (s.th i).step s.mem
  .ok ⟨r.2, fun j => if j = i then r.1 else s.th j⟩

/-- Run a schedule. -/
def Pool.exec : List Nat → Pool T → Res (Pool T)
  | [], s => .ok s
  | i :: is, s => s.step i >>= exec is

/-! ## The iterations of the library's loops -/

/-- `vr[i] = f(v[i])`: `vec_ops_core.hpp:16, 25` (`f` the negation), `:280` (`f` the product with `alpha`). -/
def elem1Thread (f : T → T) (v vr i : Nat) : Thread T :=
  .load v i fun a => .store vr i (f a) .stop

/-- `vr[i] = f(v1[i], v2[i])`: `vec_ops_core.hpp:34, 43, 52, 84, 93, 102, 134, 143, 152`. -/
def elem2Thread (f : T → T → T) (v1 v2 vr i : Nat) : Thread T :=
  .load v1 i fun a => .load v2 i fun b => .store vr i (f a b) .stop

/-- `r[i] += alpha * mat[i * m + k] * x[k]` for `r` further values of `k`, `mat_vec_ops_core.hpp:36-38, 46-48`. -/
def gemvLoop [Add T] [Mul T] (m : Nat) (alpha : T) (mat x r i : Nat) : (k n : Nat) → Thread T
  | _, 0 => .stop
  | k, n + 1 => .load r i fun t => .load mat (i * m + k) fun a => .load x k fun xk =>
      .store r i (t + alpha * a * xk) (gemvLoop m alpha mat x r i (k + 1) n)

/-- Row `i` of `__mul_core_simd`, `mat_vec_ops_core.hpp:34-39` (`r` is `tmp`) and `:44-49` (`r` is `y`). -/
def gemvThread [Add T] [Mul T] (m : Nat) (alpha : T) (mat x : Nat) (beta : T) (y r i : Nat) : Thread T :=
  .load y i fun yi => .store r i (beta * yi) (gemvLoop m alpha mat x r i 0 m)

/-- `y[i] += alpha * mat[k] * x[col_ids[k]]` for `n` further values of `k`, `mat_vec_ops_core.hpp:59-61`.  The arrays
of the matrix are not written by anybody and are read without a step. -/
def csrLoop [Add T] [Mul T] (a : Csr T) (alpha : T) (x y i : Nat) : (k n : Nat) → Thread T
  | _, 0 => .stop
  | k, n + 1 => .load y i fun t => .ofRes (lrd a.val k) fun v => .ofRes (lrd a.col k) fun c => .load x c fun xc =>
      .store y i (t + alpha * v * xc) (csrLoop a alpha x y i (k + 1) n)

/-- Row `i` of `_sp_mul_core`, `mat_vec_ops_core.hpp:57-62`. -/
def csrThread [Add T] [Mul T] (a : Csr T) (alpha : T) (x : Nat) (beta : T) (y i : Nat) : Thread T :=
  .load y i fun yi => .store y i (beta * yi) (.ofRes (lrd a.rowPtr i) fun b => .ofRes (lrd a.rowPtr (i + 1)) fun e =>
    csrLoop a alpha x y i b (e - b))

end Lalib
