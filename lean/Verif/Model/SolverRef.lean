import Verif.Model.Gmres

/-!
# Model of the iterative solvers instantiated with a reference to a matrix

Files: `include/lalib/solver/ilu.hpp:13-93`, `include/lalib/solver/gmres.hpp:18-89`.

`Ilu<T, X&>` and `Gmres<T, X&>`, where `X` is a matrix class.  With `M = X&` the parameter `M&&` of the constructors
(`ilu.hpp:18`, `gmres.hpp:22`) is `X&`, so they take a variable of the caller; the members `M _mat` (`ilu.hpp:32`) and
`const M _mat` (`gmres.hpp:30`) are references to it (`const` on a reference type is ignored), and so are
`std::forward<M>(mat)` and `M(mat)` in the initialisers.  The solver then owns no matrix: the state is the contents of
the variable of the caller, which the constructor and every call of `solve` take as an argument.
-/

namespace Lalib

variable {T M : Type} [Zero T] [Sub T] [Mul T] [CDiv T] [CZero T]

/-- `Ilu<T, X&>(x)`, `ilu.hpp:66-71`: the outcome and the contents of `x` afterwards, also after the exception. -/
def Ilu.newRef (ops : MatOps M T) (x : M) : Kept M :=
  match Ilu.decomp ops x with
  | .ok r => ⟨throwIf (!r.1) .runtimeError, r.2⟩
  | .error e => ⟨.error e, x⟩

/-- `solve` of an `Ilu<T, X&>`, `ilu.hpp:73-93`: `_mat` is `x` as it is now. -/
def Ilu.solveRef (ops : MatOps M T) (x : M) (rhs : List T) : Res (List T) := Ilu.solve ops x rhs

/-- `Gmres<T, X&>(x, tol)`, `gmres.hpp:22`: `_mat(M(mat))` binds `x`, then `_lu(std::forward<M>(mat))` is
`Ilu<T, X&>(x)`. -/
def Gmres.newRef (ops : GOps M T) (x : M) : Kept M := Ilu.newRef ops.toMatOps x

/-- `solve` of a `Gmres<T, X&>`, `gmres.hpp:41-89`: both `_mat` and the matrix of `_lu` are `x` as it is now. -/
def Gmres.solveRef [One T] [Add T] [Neg T] [CSqrt T] [LT T] [DecidableLT T] (rt : Nat → Nat) (nd : Bool)
    (ops : GOps M T) (x : M) (tol : T) (rhs : List T) : Res (List T) :=
  Gmres.solve rt nd ops ⟨x, x, tol⟩ rhs

end Lalib
