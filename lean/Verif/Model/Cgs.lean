import Verif.Model.VecOps

/-!
# Model of the Gram-Schmidt orthogonalisation

File: `include/lalib/ops/orthogonal.hpp:11-26`.

The range `vecs` has `M` elements; element `k` is the object `k` of the memory, and the copy `vj` is the object
`M`.  The element type is `DynVec<T>` (`sz = none`) or `SizedVec<T, N>` (`sz = some N`).
-/

namespace Lalib.Cgs

variable {T : Type}

/-- `vecs[k]`, `orthogonal.hpp:17, 20-23`: unchecked indexing of a random access range. -/
def at' (M k : Nat) : Res Nat := if k < M then .ok k else .error (.ub .oob)

/-- `lalib::dot`, `vec_ops.hpp:454-466`. -/
def dot [Add T] [Mul T] (sz : Option Nat) (m : Mem T) (x y : Nat) : Res T :=
  match sz with
  | none => dotDD m x y
  | some N => dotSS N m x y

/-- The member `dot`, `dyn_vec.hpp:182-189`, `sized_vec.hpp:198-205`. -/
def mdot [Add T] [Mul T] (sz : Option Nat) (m : Mem T) (x y : Nat) : Res T :=
  match sz with
  | none => dynDot m x y
  | some N => dotSS N m x y

/-- `lalib::axpy`, `vec_ops.hpp:369-381`. -/
def axpy [Add T] [Mul T] (sz : Option Nat) (a : T) (m : Mem T) (x y : Nat) : Res (Mem T) :=
  match sz with
  | none => axpyD a m x y
  | some N => axpyS N a m x y

variable [Zero T] [Add T] [Mul T] [Neg T] [CDiv T]

/-- Body of the inner loop, `orthogonal.hpp:23`. -/
def inner (sz : Option Nat) (M j k : Nat) (m : Mem T) : Res (Mem T) := do
  let vk ← at' M k
  let vj ← at' M j
  let num ← dot sz m vk M
  let den ← mdot sz m vk vk
  let a ← divC (-num) den
  axpy sz a m vk vj

/-- Body of the outer loop, `orthogonal.hpp:20-24`. -/
def outer (nd : Bool) (sz : Option Nat) (M n j : Nat) (m : Mem T) : Res (Mem T) := do
  let v1 ← at' M 1
  cassert nd (n == m.len v1)
  let vj ← at' M j
  let m := m.setBuf M (m vj)
  forRange 0 j (inner sz M j) m

/-- `cgs`, `orthogonal.hpp:13-26`. -/
def cgs (nd : Bool) (sz : Option Nat) (M : Nat) (m : Mem T) : Res (Mem T) := do
  let v0 ← at' M 0
  forRange 1 M (outer nd sz M (m.len v0)) m

end Lalib.Cgs
