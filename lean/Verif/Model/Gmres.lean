import Verif.Model.Ilu
import Verif.Model.Struct
import Verif.Model.VecOps

/-!
# Model of the GMRES solver

File: `include/lalib/solver/gmres.hpp:14-148`.

All vectors and matrices of `solve` are its own objects (or constant members), so they are values here.

A basis vector is `some v`, or `none` when it was computed as `(1.0 / h) * v` and the quotient is not a number of the
scalar type: such a vector has no finite component, and storing it is harmless as long as it is never used (reading it
is `nonFinite`).  An empty vector has no component at all, but an `n = 0` run never reads its only basis vector.  Over
the numbers with infinities and NaN (`Spec/Ieee.lean`) every quotient is a number and every basis vector is `some v`.
`h / delta` and the other quotients are checked as usual.
-/

namespace Lalib

variable {T M : Type}

/-- The operations of the matrix class which `Gmres` uses: those of `Ilu` and `operator*(M, DynVec)`. -/
structure GOps (M T : Type) extends MatOps M T where
  mul : M → List T → Res (List T)

/-- `DynMat`: `operator*`, `mat_vec_ops.hpp:59-90`. -/
def dGOps [Zero T] [One T] [Add T] [Mul T] (nd : Bool) : GOps (DMat T) T := ⟨dOps, matVec nd⟩

/-- `SpMat`: `operator*`, `mat_vec_ops.hpp:92-99`.  (`SpCooMat` has no product with a vector.) -/
def csrGOps [Zero T] [One T] [Add T] [Mul T] (nd : Bool) : GOps (Csr T) T := ⟨csrOps, Csr.mulVec nd⟩

/-- The members of `Gmres<T, M>`, `gmres.hpp:30-32`. -/
structure Gmres (M T : Type) where
  mat : M
  lu : M
  tol : T

namespace Gmres

/-- The local variables of `solve`, `gmres.hpp:43-66`. -/
structure St (T : Type) where
  q : List (Option (List T))
  hess : Hess T
  h : T
  s : List T
  c : List T
  r : UTri T
  beta : List T

/-- `dot(x, y)` of two vectors, `vec_ops.hpp:460-466`. -/
def dot [Add T] [Mul T] (x y : List T) : Res T := dotDD (Mem.ofList [x, y]) 0 1

/-- The value of `y` after `axpy(a, x, y)`, `vec_ops.hpp:375-381`. -/
def axpy [Add T] [Mul T] (a : T) (x y : List T) : Res (List T) := do
  let m ← axpyD a (Mem.ofList [x, y]) 0 1
  .ok (m 1)

/-- `x.norm2()`, `dyn_vec.hpp:191-197`. -/
def norm2 [Zero T] [Add T] [Mul T] [CSqrt T] (x : List T) : Res T :=
  vecNorm2 (Mem.ofList [x]) 0

/-- Use of the basis vector `q[i]`, `gmres.hpp:85, 102, 105, 108`. -/
def qAt (q : List (Option (List T))) (i : Nat) : Res (List T) := do
  match ← lrd q i with
  | some v => .ok v
  | none => .error .nonFinite

/-- `(1.0 / h) * v`, `gmres.hpp:51, 112`. -/
def normalised [One T] [Mul T] [CDiv T] (h : T) (v : List T) :
    Res (Option (List T)) :=
  match divC 1 h with
  | .ok f => do
    let w ← smulOp f v
    .ok (some w)
  | .error _ => .ok none

section
variable [Zero T] [One T] [Add T] [Sub T] [Mul T] [Neg T] [CDiv T] [CZero T] [CSqrt T] [LT T] [DecidableLT T]

/-- Constructor, `gmres.hpp:22`. -/
def new (ops : GOps M T) (a : M) (tol : T) : Res (Gmres M T) := do
  let lu ← Ilu.new ops.toMatOps a
  .ok ⟨a, lu, tol⟩

/-- `if (i > 0) { hess(i, i - 1) = h; }`, `gmres.hpp:98-100`. -/
def setSub (i : Nat) (h : T) (hess : Hess T) : Res (Hess T) :=
  if 0 < i then hess.set i (i - 1) h else .ok hess

/-- The projections `hess(j, i) = dot(q[j], v)`, `gmres.hpp:104-106`. -/
def project (q : List (Option (List T))) (i : Nat) (v : List T) (hess : Hess T) : Res (Hess T) :=
  forRange 0 (i + 1) (fun j hess => do
    let qj ← qAt q j
    let d ← dot qj v
    hess.set j i d) hess

/-- The subtractions `axpy(-1.0, hess(j, i) * q[j], v)`, `gmres.hpp:107-109`. -/
def subtract (q : List (Option (List T))) (i : Nat) (hess : Hess T) (v : List T) : Res (List T) :=
  forRange 0 (i + 1) (fun j v => do
    let hji ← hess.getMut j i
    let qj ← qAt q j
    let w ← smulOp hji qj
    axpy (-1) w v) v

/-- `_arnoldi`, `gmres.hpp:92-113`.  (`q` is never empty, `:51`.) -/
def arnoldi (nd : Bool) (ops : GOps M T) (g : Gmres M T) (st : St T) : Res (St T) := do
  let i := st.q.length - 1
  let hess ← st.hess.extendWithZero
  let hess ← setSub i st.h hess
  cassert nd (hess.shape.1 == i + 1)
  let qi ← qAt st.q i
  let rhs ← ops.mul g.mat qi
  let v ← Ilu.solve ops.toMatOps g.lu rhs
  let hess ← project st.q i v hess
  let v ← subtract st.q i hess v
  let h ← norm2 v
  let qn ← normalised h v
  .ok { st with q := st.q ++ [qn], hess := hess, h := h }

/-- The earlier rotations applied to the new column, `gmres.hpp:129-133`. -/
def rotate (hess : Hess T) (s c : List T) (n : Nat) (r : UTri T) : Res (UTri T) :=
  forRange 0 (n - 1) (fun i r => do
    let ci ← lrd c i
    let si ← lrd s i
    let rin ← r.getMut i (n - 1)
    let hin ← hess.get (i + 1) (n - 1)
    let r ← r.set (i + 1) (n - 1) (-si * rin + ci * hin)
    r.set i (n - 1) (ci * rin + si * hin)) r

/-- `_givens_rot`, `gmres.hpp:115-148`. -/
def givensRot (nd : Bool) (st : St T) : Res (St T) := do
  let n := st.hess.shape.1
  let col ← st.hess.getCol (n - 1)
  let r ← st.r.extendWith col
  cassert nd (r.shape.1 == n)
  let beta := st.beta ++ [0]
  cassert nd (beta.length == n + 1)
  let r ← rotate st.hess st.s st.c n r
  let rnn ← r.getMut (n - 1) (n - 1)
  let delta ← sqrtC (rnn * rnn + st.h * st.h)
  let sn ← divC st.h delta
  let s := st.s ++ [sn]
  let cn ← divC rnn delta
  let c := st.c ++ [cn]
  cassert nd (c.length == n)
  cassert nd (s.length == n)
  let sl ← lrd s (n - 1)
  let cl ← lrd c (n - 1)
  let bl ← lrd beta (n - 1)
  let beta ← lwr beta n (-sl * bl)
  let beta ← lwr beta (n - 1) (cl * bl)
  let r ← r.set (n - 1) (n - 1) (cl * rnn + sl * st.h)
  .ok { st with s := s, c := c, r := r, beta := beta }

/-- `std::abs`, used in `gmres.hpp:75`. -/
def abs' (x : T) : T := if x < 0 then -x else x

/-- The convergence test, `gmres.hpp:75`; `.inr` is `break`. -/
def check (tol : T) (st : St T) : Res (St T ⊕ St T) := do
  let last ← lrd st.beta (st.beta.length - 1)
  if abs' last < tol then .ok (.inr st) else .ok (.inl st)

/-- Body of the iteration, `gmres.hpp:69-76`. -/
def iterate (nd : Bool) (ops : GOps M T) (g : Gmres M T) (_i : Nat) (st : St T) : Res (St T ⊕ St T) := do
  let st ← arnoldi nd ops g st
  let st ← givensRot nd st
  check g.tol st

/-- The sum `x = beta[0] q[0] + beta[1] q[1] + ...`, `gmres.hpp:82-86`; `bend` is `beta.size() - 1`. -/
def combine (n bend : Nat) (beta : List T) (q : List (Option (List T))) : Res (List T) :=
  forRange 0 bend (fun i x => do
    let bi ← lrd beta i
    let qi ← qAt q i
    let w ← smulOp bi qi
    axpy 1 w x) (List.replicate n 0)

/-- The state before the iteration, `gmres.hpp:45-66`. -/
def start (rt : Nat → Nat) (ops : GOps M T) (g : Gmres M T) (n : Nat) (rhs : List T) : Res (St T) := do
  let b' ← Ilu.solve ops.toMatOps g.lu rhs
  let nb ← norm2 b'
  let q0 ← normalised nb b'
  let r ← UTri.withCapacity rt n
  let hess ← Hess.withCapacity rt n
  .ok ⟨[q0], hess, 0, [], [], r, [nb]⟩

/-- The state behind the loop (`break` or end of the range), `gmres.hpp:76`. -/
def after : St T ⊕ St T → St T
  | .inl st => st
  | .inr st => st

/-- `solve`, `gmres.hpp:41-89`.  `rt` is the integer square root used by the constructors of the structured
matrices (`Hess.calcSize`). -/
def solve (rt : Nat → Nat) (nd : Bool) (ops : GOps M T) (g : Gmres M T) (rhs : List T) : Res (List T) := do
  let sh ← ops.shape g.mat
  let n := sh.1
  let st ← start rt ops g n rhs
  let st ← forRet 0 n (iterate nd ops g) st
  let st := after st
  let bend := st.beta.length - 1
  let y ← st.r.backSub (st.beta.take bend)
  combine n bend (y ++ st.beta.drop bend) st.q

end

end Gmres

end Lalib
