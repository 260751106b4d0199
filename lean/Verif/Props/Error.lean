import Verif.Model.Error
import Verif.Props.Vec

/-! # Property C101: what the exception for a size mismatch tells -/

namespace Lalib.Props

open Lalib

variable {T : Type}

/-- Specification of decimal numerals: the digits of `cs`, read from the left, make `n`. -/
def readDec (cs : List Char) : Nat := cs.foldl (fun v c => 10 * v + (c.toNat - '0'.toNat)) 0

theorem digit_toNat {d : Nat} (hd : d < 10) : (Char.ofNat (48 + d)).toNat = 48 + d := by
  have h : d = 0 ∨ d = 1 ∨ d = 2 ∨ d = 3 ∨ d = 4 ∨ d = 5 ∨ d = 6 ∨ d = 7 ∨ d = 8 ∨ d = 9 := by omega
  rcases h with rfl | rfl | rfl | rfl | rfl | rfl | rfl | rfl | rfl | rfl <;> rfl

/-- `std::to_string` writes the decimal numeral of its argument: digits only, of the right value, without leading
zeros. -/
theorem C101_decimal (n : Nat) : readDec (toStr n) = n ∧ (∀ c ∈ toStr n, '0' ≤ c ∧ c ≤ '9') ∧ toStr n ≠ [] ∧
    (n ≠ 0 → (toStr n).head? ≠ some '0') := by
  have hdig : ∀ d, d < 10 → '0' ≤ Char.ofNat (48 + d) ∧ Char.ofNat (48 + d) ≤ '9' := by
    intro d hd
    have h : d = 0 ∨ d = 1 ∨ d = 2 ∨ d = 3 ∨ d = 4 ∨ d = 5 ∨ d = 6 ∨ d = 7 ∨ d = 8 ∨ d = 9 := by omega
    rcases h with rfl | rfl | rfl | rfl | rfl | rfl | rfl | rfl | rfl | rfl <;> decide
  induction n using Nat.strongRecOn with
  | ind n ih =>
    unfold toStr
    by_cases h : n < 10
    · rw [if_pos h]
      refine ⟨?_, fun c hc => ?_, by simp, fun h0 => ?_⟩
      · show 10 * 0 + ((Char.ofNat (48 + n)).toNat - '0'.toNat) = n
        rw [digit_toNat h]
        show 10 * 0 + (48 + n - 48) = n
        omega
      · rw [List.mem_singleton.mp hc]; exact hdig n h
      · intro hc
        have hc : Char.ofNat (48 + n) = '0' := by simpa using hc
        have := digit_toNat h
        rw [hc] at this
        have h48 : ('0' : Char).toNat = 48 := rfl
        omega
    · rw [if_neg h]
      obtain ⟨h1, h2, h3, h4⟩ := ih (n / 10) (by omega)
      refine ⟨?_, fun c hc => ?_, by simp, fun _ => ?_⟩
      · unfold readDec at h1 ⊢
        rw [List.foldl_append, h1]
        show 10 * (n / 10) + ((Char.ofNat (48 + n % 10)).toNat - 48) = n
        rw [digit_toNat (by omega)]
        omega
      · rcases List.mem_append.mp hc with hc | hc
        · exact h2 c hc
        · rw [List.mem_singleton.mp hc]; exact hdig _ (by omega)
      · rw [List.head?_append]
        cases e : (toStr (n / 10)).head? with
        | none => exact absurd (List.head?_eq_none_iff.mp e) h3
        | some c =>
          have := h4 (by omega)
          rw [e] at this
          simpa using this

theorem toStr_inj {n n' : Nat} (h : toStr n = toStr n') : n = n' := by
  rw [← (C101_decimal n).1, h, (C101_decimal n').1]

theorem split_line {a a' b b' : List Char} (h : a ++ '\n' :: b = a' ++ '\n' :: b') (ha : '\n' ∉ a) (ha' : '\n' ∉ a') :
    a = a' ∧ b = b' := by
  induction a generalizing a' with
  | nil =>
    cases a' with
    | nil => simpa using h
    | cons c cs => simp at h; exact absurd (by rw [h.1]; simp) ha'
  | cons c cs ih =>
    cases a' with
    | nil => simp at h; exact absurd (by rw [h.1]; simp) ha
    | cons c' cs' =>
      simp only [List.cons_append, List.cons.injEq] at h
      have := ih h.2 (fun hc => ha (List.mem_cons_of_mem _ hc)) (fun hc => ha' (List.mem_cons_of_mem _ hc))
      exact ⟨by rw [h.1, this.1], this.2⟩

theorem toStr_no_line (n : Nat) : '\n' ∉ toStr n := fun h => by
  have := ((C101_decimal n).2.1 _ h).1
  revert this
  decide

/-- The text: a heading, a line for each of the two vectors which ends with the numeral of its size, the message. -/
theorem C101_text (n1 n2 : Nat) (msg : List Char) :
    ∃ line1 line2, line1 = "|- number of elements in vec1: ".toList ++ toStr n1 ++ ['\n'] ∧
      line2 = "|- number of elements in vec2: ".toList ++ toStr n2 ++ ['\n'] ∧
      sizeMismatchedWhat n1 n2 msg =
        "VecError::SizeMismatched: The number of elements in two vectors does not matched.\n".toList ++ line1 ++ line2 ++ msg := by
  have e : "\n".toList = ['\n'] := by decide +kernel
  unfold sizeMismatchedWhat
  rw [e]
  generalize "VecError::SizeMismatched: The number of elements in two vectors does not matched.\n".toList = s0
  generalize "|- number of elements in vec1: ".toList = s1
  generalize "|- number of elements in vec2: ".toList = s2
  exact ⟨_, _, rfl, rfl, by simp only [List.append_assoc]⟩

/-- The text tells the two sizes, their order, and the message. -/
theorem C101_tells (n1 n2 n1' n2' : Nat) (msg msg' : List Char)
    (h : sizeMismatchedWhat n1 n2 msg = sizeMismatchedWhat n1' n2' msg') : n1 = n1' ∧ n2 = n2' ∧ msg = msg' := by
  unfold sizeMismatchedWhat at h
  simp only [List.append_assoc] at h
  have h := List.append_cancel_left (List.append_cancel_left h)
  have e : "\n".toList = ['\n'] := by decide +kernel
  rw [e] at h
  obtain ⟨h1, h⟩ := split_line h (toStr_no_line _) (toStr_no_line _)
  replace h := List.append_cancel_left (bs := toStr n2 ++ (['\n'] ++ msg)) h
  obtain ⟨h2, h3⟩ := split_line h (toStr_no_line _) (toStr_no_line _)
  exact ⟨toStr_inj h1, toStr_inj h2, h3⟩

/-- Whoever catches the exception of a sum, a difference or the member function `dot` is told the sizes of the
first and of the second operand, in this order. -/
theorem C101_operations [Add T] [Sub T] [Mul T] (ord : List Nat) (m : Mem T) (x y r N : Nat) (h : m.len x ≠ m.len y)
    (p : Res Unit) (hp : p = (addDDOut ord m x y r).res ∨ p = (subDDOut ord m x y r).res ∨
      p = (addSDOut ord N m x y r).res ∨ p = (subSDOut ord N m x y r).res ∨ p = (dynDot m x y).map fun _ => ()) :
    ∃ e, p = .error (.throw e) ∧ e.what = some (sizeMismatchedWhat (m.len x) (m.len y) []) := by
  refine ⟨.sizeMismatched (m.len x) (m.len y), ?_, rfl⟩
  rcases hp with rfl | rfl | rfl | rfl | rfl
  · exact (C02_add ord m x y r h).2.1
  · exact (C02_sub ord m x y r h).2.1
  · exact (C02_add_mixed ord N m x y r h).2.1
  · exact (C02_sub_mixed ord N m x y r h).2.1
  · rw [C02_member_dot m x y h]; rfl

/-- Which handlers take which exceptions. -/
theorem C101_handlers (e : Exn) :
    ExnClass.exception.catches e.cls = true ∧
    (ExnClass.runtimeError.catches e.cls = true ↔ e = .runtimeError ∨ ∃ n1 n2, e = .sizeMismatched n1 n2) ∧
    (ExnClass.logicError.catches e.cls = true ↔ e = .invalidArgument ∨ e = .outOfRange) ∧
    (ExnClass.sizeMismatched.catches e.cls = true ↔ ∃ n1 n2, e = .sizeMismatched n1 n2) := by
  cases e <;> simp [Exn.cls, ExnClass.catches, ExnClass.base]

/-! ## Examples -/

example : String.ofList (sizeMismatchedWhat 2 3 "Additional Messages".toList) =
  "VecError::SizeMismatched: The number of elements in two vectors does not matched.\n|- number of elements in vec1: 2\n|- number of elements in vec2: 3\nAdditional Messages" := by decide +kernel
example : toStr 1024 = ['1', '0', '2', '4'] := by decide +kernel
example : toStr 0 = ['0'] := by decide +kernel
example : readDec ['1', '0', '2', '4'] = 1024 := by decide +kernel

end Lalib.Props
