import Mathlib.Tactic.Common

/-!
# Outcomes of C++ code

`Res α` is the outcome of running a piece of the library: a value, or one of the ways in which a C++
execution can fail to deliver a value.  Undefined behaviour is an outcome of its own, so that
`f x = .ok r` states in particular that no undefined behaviour occurs.
-/

namespace Lalib

/-- Kinds of undefined behaviour which the library can run into. -/
inductive UB where
  /-- access outside a buffer / `std::vector::operator[]` out of range -/
  | oob
  /-- use of a reference to a destroyed temporary -/
  | dangling
  /-- dereferencing the end iterator (e.g. `*std::max_element` on an empty range) -/
  | derefEnd
  /-- a binary search on a range which is not partitioned -/
  | unsorted
  /-- use of an invalidated iterator -/
  | iterInvalid
  /-- read of an indeterminate value -/
  | uninit
  /-- overflow of a signed integer -/
  | overflow
  deriving DecidableEq, Repr

/-- Exceptions thrown by the library (`include/lalib/err/error.hpp:12-23` and `<stdexcept>`). -/
inductive Exn where
  | runtimeError
  | invalidArgument
  | outOfRange
  | sizeMismatched (n1 n2 : Nat)
  deriving DecidableEq, Repr

/-- The ways in which an execution fails to deliver a value. -/
inductive Fault where
  | ub (k : UB)
  /-- an exception reaches the caller -/
  | throw (e : Exn)
  /-- `std::terminate`: an exception left a `noexcept` function -/
  | terminate
  /-- an `assert` fails in a build without `NDEBUG` -/
  | assertFail
  /-- a floating point operation leaves the finite numbers (division by zero, root of a negative) -/
  | nonFinite
  /-- an external BLAS routine rejects its parameters -/
  | blasParam
  /-- no termination -/
  | diverge
  deriving DecidableEq, Repr

abbrev Res (α : Type) := Except Fault α

@[simp] theorem ok_bind {α β : Type} (a : α) (f : α → Res β) : (Except.ok a >>= f) = f a := rfl
@[simp] theorem error_bind {α β : Type} (e : Fault) (f : α → Res β) :
    ((Except.error e : Res α) >>= f) = Except.error e := rfl
@[simp] theorem pure_eq_ok {α : Type} (a : α) : (pure a : Res α) = Except.ok a := rfl

/-- A C++ `noexcept` function: an exception which would leave it ends the program. -/
def noexcept {α : Type} : Res α → Res α
  | .error (.throw _) => .error .terminate
  | r => r

@[simp] theorem noexcept_ok {α : Type} (a : α) : noexcept (.ok a : Res α) = .ok a := rfl
@[simp] theorem noexcept_throw {α : Type} (e : Exn) :
    noexcept (.error (.throw e) : Res α) = .error .terminate := rfl

/-- `assert(c)`; `nd` tells whether `NDEBUG` is defined (CI builds are Release builds: `nd = true`). -/
def cassert (nd : Bool) (c : Bool) : Res Unit :=
  if nd || c then .ok () else .error .assertFail

@[simp] theorem cassert_true (nd : Bool) : cassert nd true = .ok () := by simp [cassert]
@[simp] theorem cassert_nd (c : Bool) : cassert true c = .ok () := by simp [cassert]
@[simp] theorem cassert_false : cassert false false = .error .assertFail := rfl

theorem cassert_ne {a b : Nat} (h : a ≠ b) : cassert false (a == b) = .error .assertFail := by
  simp [cassert, h]

/-- `if (c) throw e;` -/
def throwIf (c : Bool) (e : Exn) : Res Unit := if c then .error (.throw e) else .ok ()

@[simp] theorem throwIf_false (e : Exn) : throwIf false e = .ok () := rfl
@[simp] theorem throwIf_true (e : Exn) : throwIf true e = .error (.throw e) := rfl

theorem throwIf_ne {a b : Nat} (h : a ≠ b) (e : Exn) : throwIf (a != b) e = .error (.throw e) := by
  simp [throwIf, h]

/-! ## Functions which modify an object and may throw

`Res σ` forgets the object when an exception is thrown; `Kept σ` keeps it. -/

/-- Outcome of a call together with the object it leaves behind. -/
structure Kept (σ : Type) where
  res : Res Unit
  obj : σ

/-- Statements executed one after another.  A statement that fails leaves the object as it was before the statement. -/
def Kept.run {σ : Type} : List (σ → Res σ) → σ → Kept σ
  | [], s => ⟨.ok (), s⟩
  | f :: fs, s =>
    match f s with
    | .ok s' => Kept.run fs s'
    | .error e => ⟨.error e, s⟩

/-- A check as a statement. -/
def Kept.check {σ : Type} (c : σ → Res Unit) (s : σ) : Res σ := c s >>= fun _ => .ok s

/-- Forgetting the object. -/
def Kept.toRes {σ : Type} (k : Kept σ) : Res σ := k.res.map fun _ => k.obj

/-- Outcome predicate: `P` holds of the value, or `Q` of the fault. -/
def Sat {α : Type} (P : α → Prop) (Q : Fault → Prop) : Res α → Prop
  | .ok a => P a
  | .error e => Q e

/-- Total correctness: the outcome is a value which satisfies `P`. -/
abbrev Ok {α : Type} (P : α → Prop) (r : Res α) : Prop := Sat P (fun _ => False) r

@[simp] theorem sat_ok {α : Type} {P : α → Prop} {Q} {a : α} : Sat P Q (.ok a) ↔ P a := Iff.rfl
@[simp] theorem sat_error {α : Type} {P : α → Prop} {Q} {e : Fault} :
    Sat P Q (.error e) ↔ Q e := Iff.rfl

theorem Sat.bind {α β : Type} {P : α → Prop} {P' : β → Prop} {Q} {r : Res α} {f : α → Res β}
    (h : Sat P Q r) (hf : ∀ a, P a → Sat P' Q (f a)) : Sat P' Q (r >>= f) := by
  cases r with
  | ok a => exact hf a h
  | error e => exact h

theorem Sat.mono {α : Type} {P P' : α → Prop} {Q Q' : Fault → Prop} {r : Res α}
    (h : Sat P Q r) (hP : ∀ a, P a → P' a) (hQ : ∀ e, Q e → Q' e) : Sat P' Q' r := by
  cases r with
  | ok a => exact hP a h
  | error e => exact hQ e h

theorem Ok.exists {α : Type} {P : α → Prop} {r : Res α} (h : Ok P r) : ∃ a, r = .ok a ∧ P a := by
  cases r with
  | ok a => exact ⟨a, rfl, h⟩
  | error e => exact h.elim

theorem Ok.of_exists {α : Type} {P : α → Prop} {r : Res α} (h : ∃ a, r = .ok a ∧ P a) : Ok P r := by
  obtain ⟨a, rfl, h⟩ := h; exact h

theorem Sat.of_ok {α : Type} {P : α → Prop} {Q} {r : Res α} {a : α} (h : Sat P Q r)
    (hr : r = .ok a) : P a := by subst hr; exact h

theorem Sat.of_error {α : Type} {P : α → Prop} {Q} {r : Res α} {e : Fault} (h : Sat P Q r)
    (hr : r = .error e) : Q e := by subst hr; exact h

end Lalib
