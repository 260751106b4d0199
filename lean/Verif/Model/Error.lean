import Verif.Core.Res

/-!
# Model of the exceptions

Files: `include/lalib/err/error.hpp:11-25`; the standard classes thrown by the library.

A text (`std::string`) is a list of characters.  Running out of memory while the text is made is not modelled here
(the constructor is `noexcept`, so that would be `std::terminate`).
-/

namespace Lalib

/-- `std::to_string(size_t)`: decimal digits, most significant first. -/
def toStr (n : Nat) : List Char :=
  if n < 10 then [Char.ofNat (48 + n)] else toStr (n / 10) ++ [Char.ofNat (48 + n % 10)]
termination_by n

/-- The text given to `std::runtime_error` by `SizeMismatched(n1, n2, message)`, `error.hpp:16-23`. -/
def sizeMismatchedWhat (n1 n2 : Nat) (message : List Char) : List Char :=
  "VecError::SizeMismatched: The number of elements in two vectors does not matched.\n".toList ++
    "|- number of elements in vec1: ".toList ++ toStr n1 ++ "\n".toList ++
    "|- number of elements in vec2: ".toList ++ toStr n2 ++ "\n".toList ++
    message

/-- `what()` of the exceptions thrown with the default argument `message = ""`
(`vec_ops.hpp:231-235`, `dyn_vec.hpp:213-217`); the text of the others is not modelled. -/
def Exn.what : Exn → Option (List Char)
  | .sizeMismatched n1 n2 => some (sizeMismatchedWhat n1 n2 [])
  | _ => none

/-- The exception classes a handler can name. -/
inductive ExnClass where
  | exception | runtimeError | logicError | invalidArgument | outOfRange | sizeMismatched
  deriving DecidableEq, Repr

/-- The direct base class: `error.hpp:12` and the standard library. -/
def ExnClass.base : ExnClass → Option ExnClass
  | .exception => none
  | .runtimeError => some .exception
  | .logicError => some .exception
  | .invalidArgument => some .logicError
  | .outOfRange => some .logicError
  | .sizeMismatched => some .runtimeError

/-- The class of a thrown object. -/
def Exn.cls : Exn → ExnClass
  | .runtimeError => .runtimeError
  | .invalidArgument => .invalidArgument
  | .outOfRange => .outOfRange
  | .sizeMismatched _ _ => .sizeMismatched

/-- `catch (const h&)` takes an object of class `c`: `h` is `c` or one of its bases (two steps reach the top). -/
def ExnClass.catches (h c : ExnClass) : Bool :=
  h == c || c.base == some h || (c.base.bind ExnClass.base) == some h

end Lalib
