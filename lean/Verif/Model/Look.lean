import Verif.Model.Threads
import Verif.Model.Gmres

/-!
# Const member functions that return a vector, seen by other threads

`Ilu::solve` and `Gmres::solve` read the right-hand side and the members of the solver, element by element, and work on
vectors of their own.  What other threads could notice are the single loads; all the rest is local and needs no step.  The
arrays of a CSR matrix are read without a step, as in `Model/Threads.lean`.
-/

namespace Lalib

variable {T α β σ ρ : Type}

/-- A computation that loads elements of objects and stores nothing. -/
inductive Look (T α : Type) where
  | ret (a : α)
  /-- `p[c]` is loaded, the rest depends on the value -/
  | load (p c : Nat) (k : T → Look T α)
  | fail (e : Fault)

namespace Look

def bind : Look T α → (α → Look T β) → Look T β
  | ret a, f => f a
  | load p c k, f => load p c fun v => (k v).bind f
  | fail e, _ => fail e

instance : Monad (Look T) where
  pure := ret
  bind := bind

/-- A computation without access to the memory. -/
def lift : Res α → Look T α
  | .ok a => ret a
  | .error e => fail e

/-- The element `p[c]`. -/
def elem (p c : Nat) : Look T T := load p c ret

/-- An exception that would leave a `noexcept` function ends the program. -/
def sealed : Look T α → Look T α
  | ret a => ret a
  | load p c k => load p c fun v => (k v).sealed
  | fail (.throw _) => fail .terminate
  | fail e => fail e

/-- `n` iterations starting at `lo`. -/
def loop (f : Nat → σ → Look T σ) : (lo n : Nat) → σ → Look T σ
  | _, 0, s => ret s
  | lo, n + 1, s => (f lo s).bind (loop f (lo + 1) n)

/-- From `n - 1` down to 0. -/
def down (f : Nat → σ → Look T σ) : (n : Nat) → σ → Look T σ
  | 0, s => ret s
  | n + 1, s => (f n s).bind (down f n)

/-- `n` iterations starting at `lo`, with `break` (`.inr`). -/
def loopRet (f : Nat → σ → Look T (σ ⊕ ρ)) : (lo n : Nat) → σ → Look T (σ ⊕ ρ)
  | _, 0, s => ret (.inl s)
  | lo, n + 1, s => (f lo s).bind fun
    | .inl s' => loopRet f (lo + 1) n s'
    | .inr r => ret (.inr r)

/-- Without other threads. -/
def run (m : Mem T) : Look T α → Res α
  | ret a => .ok a
  | load p c k => m.rd p c >>= fun v => (k v).run m
  | fail e => .error e

/-- With other threads.  The caller catches exceptions. -/
def thread (k : α → Thread T) : Look T α → Thread T
  | ret a => k a
  | load p c g => .load p c fun v => (g v).thread k
  | fail (.throw _) => .stop
  | fail e => .fail e

section
variable [Zero T] [Sub T] [Mul T] [CDiv T]

/-- `Ilu::solve`, `ilu.hpp:74-93`: `f(i, j)` is the element of the factors, `rhs(i)` that of the right-hand side. -/
def ilu (f : Nat → Nat → Look T T) (n : Nat) (rhs : Nat → Look T T) : Look T (List T) := sealed do
  let y ← loop (fun i y => do
    let b ← rhs i
    let sum ← loop (fun j sum => do
      let l ← f i j
      let yj ← lift (lrd y j)
      pure (sum - l * yj)) 0 i b
    lift (lwr y i sum)) 0 n (List.replicate n 0)
  down (fun i x => do
    let v ← lift (lrd y i)
    let sum ← loop (fun j sum => do
      let u ← f i j
      let xj ← lift (lrd x j)
      pure (sum - u * xj)) (i + 1) (n - (i + 1)) v
    let d ← f i i
    let q ← lift (divC sum d)
    lift (lwr x i q)) n (List.replicate n 0)

end

/-- `a * v` for a `DynMat` and a local vector, `mat_vec_ops.hpp:83-90`, `mat_vec_ops_core.hpp:42-50`. -/
def matVec [Zero T] [One T] [Add T] [Mul T] (nd : Bool) (a : MatRef) (v : List T) : Look T (List T) := sealed do
  lift (cassert nd (a.m == v.length))
  loop (fun i y => do
    let yi ← lift (lrd y i)
    let y ← lift (lwr y i (0 * yi))
    loop (fun k y => do
      let t ← lift (lrd y i)
      let aik ← elem a.buf (i * a.m + k)
      let xk ← lift (lrd v k)
      lift (lwr y i (t + 1 * aik * xk))) 0 a.m y) 0 a.n (List.replicate a.n 0)

/-- How `Gmres::solve` gets at the members of the solver. -/
structure Members (T : Type) where
  shape : Look T (Nat × Nat)
  mul : List T → Look T (List T)
  lu : Nat → Nat → Look T T
  tol : T

/-- The members of a `Gmres<T, DynMat<T>>`: the matrix and the factors are objects of the memory. -/
def Members.dense [Zero T] [One T] [Add T] [Mul T] (nd : Bool) (a lu : MatRef) (tol : T) : Members T :=
  ⟨ret (a.n, a.m), matVec nd a, fun i j => elem lu.buf (i * lu.m + j), tol⟩

/-- The members of a `Gmres<T, SpMat<T>>`. -/
def Members.csr [Zero T] [One T] [Add T] [Mul T] (nd : Bool) (a lu : Csr T) (tol : T) : Members T :=
  ⟨lift a.shape, fun v => lift (a.mulVec nd v), fun i j => lift (lu.get i j), tol⟩

section
variable [Zero T] [One T] [Add T] [Sub T] [Mul T] [Neg T] [CDiv T] [CZero T] [CSqrt T] [LT T] [DecidableLT T]

open Gmres

/-- `_arnoldi`, `gmres.hpp:92-113`. -/
def arnoldi (nd : Bool) (g : Members T) (st : St T) : Look T (St T) := do
  let i := st.q.length - 1
  let hess ← lift (st.hess.extendWithZero)
  let hess ← lift (setSub i st.h hess)
  lift (cassert nd (hess.shape.1 == i + 1))
  let qi ← lift (qAt st.q i)
  let rhs ← g.mul qi
  let v ← ilu g.lu rhs.length fun i => lift (lrd rhs i)
  let hess ← lift (project st.q i v hess)
  let v ← lift (subtract st.q i hess v)
  let h ← lift (norm2 v)
  let qn ← lift (normalised h v)
  pure { st with q := st.q ++ [qn], hess := hess, h := h }

/-- `Gmres::solve`, `gmres.hpp:41-89`; `_givens_rot` works on local variables only. -/
def gmres (rt : Nat → Nat) (nd : Bool) (g : Members T) (len : Nat) (rhs : Nat → Look T T) : Look T (List T) := do
  let sh ← g.shape
  let b' ← ilu g.lu len rhs
  let nb ← lift (norm2 b')
  let q0 ← lift (normalised nb b')
  let r ← lift (UTri.withCapacity rt sh.1)
  let hess ← lift (Hess.withCapacity rt sh.1)
  let st ← loopRet (fun _ st => do
    let st ← arnoldi nd g st
    let st ← lift (givensRot nd st)
    lift (check g.tol st)) 0 sh.1 ⟨[q0], hess, 0, [], [], r, [nb]⟩
  let st := after st
  let bend := st.beta.length - 1
  let y ← lift (st.r.backSub (st.beta.take bend))
  lift (combine sh.1 bend (y ++ st.beta.drop bend) st.q)

end

end Look

end Lalib
