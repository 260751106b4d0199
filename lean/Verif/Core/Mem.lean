import Verif.Core.Loop
import Mathlib.Algebra.BigOperators.Group.Finset.Basic
import Mathlib.Algebra.BigOperators.Intervals
import Mathlib.Tactic.Ring

/-!
# Buffers and aliasing

`Mem T` maps buffer identifiers to their contents.  A C++ pointer, iterator or reference to a vector or
matrix is the identifier of its buffer; two references alias when the identifiers are equal.  Every
access is checked; an access outside the buffer is undefined behaviour.
-/

namespace Lalib

/-- Checked read of a `std::vector` / array (`v[i]`). -/
def lrd {T : Type} (l : List T) (i : Nat) : Res T :=
  match l[i]? with
  | some v => .ok v
  | none => .error (.ub .oob)

/-- Checked write of a `std::vector` / array (`v[i] = x`). -/
def lwr {T : Type} (l : List T) (i : Nat) (x : T) : Res (List T) :=
  if i < l.length then .ok (l.set i x) else .error (.ub .oob)

/-- Buffer identifier -> contents. -/
abbrev Mem (T : Type) := Nat → List T

namespace Mem
variable {T : Type}

/-- `p[i]` (read). -/
def rd (m : Mem T) (p i : Nat) : Res T := lrd (m p) i

/-- `m` with cell `i` of buffer `p` replaced. -/
def upd (m : Mem T) (p i : Nat) (x : T) : Mem T := fun q => if q = p then (m p).set i x else m q

/-- `p[i] = x`. -/
def wr (m : Mem T) (p i : Nat) (x : T) : Res (Mem T) :=
  if i < (m p).length then .ok (m.upd p i x) else .error (.ub .oob)

/-- `m` with the whole contents of buffer `p` replaced. -/
def setBuf (m : Mem T) (p : Nat) (l : List T) : Mem T := fun q => if q = p then l else m q

/-- A memory with the listed buffers `0, 1, ...`. -/
def ofList (bs : List (List T)) : Mem T := fun q => bs.getD q []

theorem rd_eq (m : Mem T) (p i : Nat) : m.rd p i = lrd (m p) i := rfl

end Mem

section list
variable {T : Type}

theorem lrd_ok {l : List T} {i : Nat} (h : i < l.length) : lrd l i = .ok l[i] := by
  simp [lrd, h]

theorem lrd_some {l : List T} {i : Nat} {v : T} (h : l[i]? = some v) : lrd l i = .ok v := by
  simp [lrd, h]

theorem lrd_oob {l : List T} {i : Nat} (h : l.length ≤ i) : lrd l i = .error (.ub .oob) := by
  simp [lrd, h]

theorem lwr_ok {l : List T} {i : Nat} (h : i < l.length) (x : T) : lwr l i x = .ok (l.set i x) := by
  simp [lwr, h]

theorem lwr_oob {l : List T} {i : Nat} (h : l.length ≤ i) (x : T) :
    lwr l i x = .error (.ub .oob) := by
  simp [lwr, Nat.not_lt.mpr h]

end list

/-- Total view of a list, used in specifications together with a length hypothesis. -/
def val0 {T : Type} [Zero T] (l : List T) (i : Nat) : T := l.getD i 0

section val
variable {T : Type} [Zero T]

theorem val0_of_lt {l : List T} {i : Nat} (h : i < l.length) : val0 l i = l[i] := by
  simp [val0, h]

theorem val0_of_le {l : List T} {i : Nat} (h : l.length ≤ i) : val0 l i = 0 := by
  simp [val0, h]

theorem lrd_val {l : List T} {i : Nat} (h : i < l.length) : lrd l i = .ok (val0 l i) := by
  rw [lrd_ok h, val0_of_lt h]

theorem val0_set {l : List T} {i : Nat} (h : i < l.length) (x : T) (j : Nat) :
    val0 (l.set i x) j = if j = i then x else val0 l j := by
  unfold val0
  by_cases hj : j = i
  · subst hj; simp [h]
  · simp [hj, List.getD_eq_getElem?_getD, List.getElem?_set_ne (Ne.symm hj)]

theorem list_ext_val0 {l l' : List T} (hl : l.length = l'.length)
    (h : ∀ i, i < l.length → val0 l i = val0 l' i) : l = l' := by
  apply List.ext_getElem hl
  intro i h1 h2
  have := h i h1
  rwa [val0_of_lt h1, val0_of_lt h2] at this

@[simp] theorem val0_map_range {n : Nat} (f : Nat → T) (i : Nat) :
    val0 ((List.range n).map f) i = if i < n then f i else 0 := by
  by_cases h : i < n
  · simp [val0, h]
  · simp [val0, h]

@[simp] theorem val0_replicate (n : Nat) (v : T) (i : Nat) :
    val0 (List.replicate n v) i = if i < n then v else 0 := by
  by_cases h : i < n
  · simp [val0, h]
  · simp [val0, h]

theorem val0_append (l l' : List T) (i : Nat) :
    val0 (l ++ l') i = if i < l.length then val0 l i else val0 l' (i - l.length) := by
  unfold val0
  by_cases h : i < l.length
  · simp [h, List.getElem?_append_left]
  · simp [h, List.getElem?_append_right (Nat.le_of_not_lt h)]

end val

namespace Mem
variable {T : Type}

/-- Number of elements of a buffer. -/
abbrev len (m : Mem T) (p : Nat) : Nat := (m p).length

@[simp] theorem len_upd (m : Mem T) (p i : Nat) (x : T) (q : Nat) :
    (m.upd p i x).len q = m.len q := by
  unfold len upd; split
  · next h => subst h; simp
  · rfl

theorem len_eq (m : Mem T) (p : Nat) : m.len p = (m p).length := rfl

theorem wr_ok {m : Mem T} {p i : Nat} (h : i < m.len p) (x : T) : m.wr p i x = .ok (m.upd p i x) := by
  simp only [wr, ← len_eq, h, if_true]

theorem wr_oob {m : Mem T} {p i : Nat} (h : m.len p ≤ i) (x : T) :
    m.wr p i x = .error (.ub .oob) := by
  simp only [wr, ← len_eq, Nat.not_lt.mpr h, if_false]

theorem rd_oob {m : Mem T} {p i : Nat} (h : m.len p ≤ i) : m.rd p i = .error (.ub .oob) :=
  lrd_oob h

theorem upd_upd (m : Mem T) (p i : Nat) (x y : T) : (m.upd p i x).upd p i y = m.upd p i y := by
  funext q; unfold upd; split
  · next h => subst h; simp
  · rfl

theorem upd_same_buf (m : Mem T) (p i : Nat) (x : T) : m.upd p i x p = (m p).set i x := by
  simp [upd]

theorem upd_other (m : Mem T) {p q : Nat} (h : q ≠ p) (i : Nat) (x : T) : m.upd p i x q = m q := by
  simp [upd, h]

@[simp] theorem setBuf_self (m : Mem T) (p : Nat) (l : List T) : m.setBuf p l p = l := by
  simp [setBuf]

theorem setBuf_other (m : Mem T) {p q : Nat} (h : q ≠ p) (l : List T) : m.setBuf p l q = m q := by
  simp [setBuf, h]

theorem setBuf_same (m : Mem T) (p : Nat) : m.setBuf p (m p) = m := by
  funext q; unfold setBuf; split
  · next h => subst h; rfl
  · rfl

theorem setBuf_setBuf (m : Mem T) (p : Nat) (l l' : List T) :
    (m.setBuf p l).setBuf p l' = m.setBuf p l' := by
  funext q; unfold setBuf; split <;> rfl

theorem upd_eq_setBuf (m : Mem T) (p i : Nat) (x : T) : m.upd p i x = m.setBuf p ((m p).set i x) := rfl

section zero
variable [Zero T]

/-- Element `i` of buffer `p` (specification view, meaningful for `i < m.len p`). -/
def val (m : Mem T) (p i : Nat) : T := val0 (m p) i

theorem rd_ok {m : Mem T} {p i : Nat} (h : i < m.len p) : m.rd p i = .ok (m.val p i) := lrd_val h

theorem val_upd {m : Mem T} {p i : Nat} (h : i < m.len p) (x : T) (q j : Nat) :
    (m.upd p i x).val q j = if q = p ∧ j = i then x else m.val q j := by
  unfold val
  by_cases hq : q = p
  · subst hq
    rw [upd_same_buf, val0_set h]; simp
  · rw [upd_other _ hq]; simp [hq]

theorem upd_val {m : Mem T} {p i : Nat} (h : i < m.len p) : m.upd p i (m.val p i) = m := by
  funext q; unfold upd; split
  · next hq =>
    subst hq
    have h' : i < (m q).length := h
    unfold val
    rw [val0_of_lt h']; simp
  · rfl

theorem ext {m m' : Mem T} (hl : ∀ p, m.len p = m'.len p)
    (hv : ∀ p i, i < m.len p → m.val p i = m'.val p i) : m = m' := by
  funext p
  exact list_ext_val0 (hl p) (hv p)

end zero

/-- A loop which only rewrites one cell: the cell is folded, the rest of the memory is untouched. -/
theorem cell_loop {m : Mem T} {p ix : Nat} {f : Nat → Mem T → Res (Mem T)} {g : Nat → T → T}
    {lo n : Nat} (hf : ∀ k v, lo ≤ k → k < lo + n → f k (m.upd p ix v) = .ok (m.upd p ix (g k v))) :
    ∀ v0, forUp f lo n (m.upd p ix v0) =
      .ok (m.upd p ix ((List.range' lo n).foldl (fun v k => g k v) v0)) := by
  induction n generalizing lo with
  | zero => intro v0; rfl
  | succ n ih =>
    intro v0
    simp only [forUp, List.range'_succ, List.foldl_cons]
    rw [hf lo v0 (Nat.le_refl _) (by omega), ok_bind]
    exact ih (fun k v h1 h2 => hf k v (by omega) (by omega)) _

section sums
variable [AddCommGroup T]

theorem foldl_add_range' (g : Nat → T) (lo n : Nat) (v0 : T) :
    (List.range' lo n).foldl (fun v k => v + g k) v0 = v0 + ∑ k ∈ Finset.Ico lo (lo + n), g k := by
  induction n generalizing lo v0 with
  | zero => simp
  | succ n ih =>
    rw [List.range'_succ, List.foldl_cons, ih, show lo + (n + 1) = lo + 1 + n by omega,
      Finset.sum_eq_sum_Ico_succ_bot (show lo < lo + 1 + n by omega), add_assoc]

theorem foldl_sub_range' (g : Nat → T) (lo n : Nat) (v0 : T) :
    (List.range' lo n).foldl (fun v k => v - g k) v0 = v0 - ∑ k ∈ Finset.Ico lo (lo + n), g k := by
  simp only [sub_eq_add_neg]
  rw [foldl_add_range' (fun k => - g k), Finset.sum_neg_distrib]

/-- `for (k = lo; k < hi; ++k) p[ix] += g(k)`. -/
theorem acc_loop {m : Mem T} {p ix : Nat} {f : Nat → Mem T → Res (Mem T)} {g : Nat → T}
    {lo hi : Nat} (hle : lo ≤ hi) (hix : ix < m.len p)
    (hf : ∀ k v, lo ≤ k → k < hi → f k (m.upd p ix v) = .ok (m.upd p ix (v + g k))) :
    forRange lo hi f m = .ok (m.upd p ix (m.val p ix + ∑ k ∈ Finset.Ico lo hi, g k)) := by
  have h := cell_loop (m := m) (p := p) (ix := ix) (f := f) (g := fun k v => v + g k) (lo := lo)
    (n := hi - lo) (fun k v h1 h2 => hf k v h1 (by omega)) (m.val p ix)
  rw [upd_val hix, foldl_add_range', show lo + (hi - lo) = hi by omega] at h
  exact h

/-- `for (k = lo; k < hi; ++k) p[ix] -= g(k)`. -/
theorem sub_loop {m : Mem T} {p ix : Nat} {f : Nat → Mem T → Res (Mem T)} {g : Nat → T}
    {lo hi : Nat} (hle : lo ≤ hi) (hix : ix < m.len p)
    (hf : ∀ k v, lo ≤ k → k < hi → f k (m.upd p ix v) = .ok (m.upd p ix (v - g k))) :
    forRange lo hi f m = .ok (m.upd p ix (m.val p ix - ∑ k ∈ Finset.Ico lo hi, g k)) := by
  have h := cell_loop (m := m) (p := p) (ix := ix) (f := f) (g := fun k v => v - g k) (lo := lo)
    (n := hi - lo) (fun k v h1 h2 => hf k v h1 (by omega)) (m.val p ix)
  rw [upd_val hix, foldl_sub_range', show lo + (hi - lo) = hi by omega] at h
  exact h

end sums
end Mem

/-- A loop which only rewrites a local scalar. -/
theorem scalar_loop {S : Type} {f : Nat → S → Res S} {g : Nat → S → S} {lo n : Nat}
    (hf : ∀ k v, lo ≤ k → k < lo + n → f k v = .ok (g k v)) :
    ∀ v0, forUp f lo n v0 = .ok ((List.range' lo n).foldl (fun v k => g k v) v0) := by
  induction n generalizing lo with
  | zero => intro v0; rfl
  | succ n ih =>
    intro v0
    simp only [forUp, List.range'_succ, List.foldl_cons]
    rw [hf lo v0 (Nat.le_refl _) (by omega), ok_bind]
    exact ih (fun k v h1 h2 => hf k v (by omega) (by omega)) _

theorem scalar_acc_loop {T : Type} [AddCommGroup T] {f : Nat → T → Res T} {g : Nat → T}
    {lo hi : Nat} (hle : lo ≤ hi) (v0 : T)
    (hf : ∀ k v, lo ≤ k → k < hi → f k v = .ok (v + g k)) :
    forRange lo hi f v0 = .ok (v0 + ∑ k ∈ Finset.Ico lo hi, g k) := by
  have h := scalar_loop (f := f) (g := fun k v => v + g k) (lo := lo) (n := hi - lo)
    (fun k v h1 h2 => hf k v h1 (by omega)) v0
  rw [Mem.foldl_add_range', show lo + (hi - lo) = hi by omega] at h
  exact h

/-! ## Operations that can leave the finite numbers

Division, square root and the comparison `== 0` are taken from classes, so that the functions of the model run over
different kinds of numbers.  In a type of finite numbers (exact or rounded) they are the instances below: a zero divisor,
or the root of a negative number, is the outcome `nonFinite`.  The type `Fp` of `Verif/Model/Ieee.lean` has instances of
its own, in which infinities and NaN are values. -/

/-- The operator `/`. -/
class CDiv (T : Type) where
  divC : T → T → Res T

/-- The comparison `x == 0`. -/
class CZero (T : Type) where
  IsZ : T → Prop
  dec : DecidablePred IsZ

/-- `std::sqrt`. -/
class CSqrt (T : Type) where
  sqrtC : T → Res T

export CDiv (divC)
export CZero (IsZ)
export CSqrt (sqrtC)

instance {T : Type} [CZero T] (x : T) : Decidable (IsZ x) := CZero.dec x

/-- Checked division: a zero divisor leaves the finite numbers. -/
instance (priority := low) finiteDiv {T : Type} [Zero T] [DecidableEq T] [Div T] : CDiv T :=
  ⟨fun a b => if b = 0 then .error .nonFinite else .ok (a / b)⟩

instance (priority := low) finiteZero {T : Type} [Zero T] [DecidableEq T] : CZero T :=
  ⟨fun a => a = 0, fun a => inferInstanceAs (Decidable (a = 0))⟩

/-- Square root function of the scalar type. -/
class Sqrt (T : Type) where
  sqrt : T → T

/-- Checked `std::sqrt`: the root of a negative number is not finite. -/
instance (priority := low) finiteSqrt {T : Type} [Zero T] [LT T] [DecidableLT T] [Sqrt T] : CSqrt T :=
  ⟨fun x => if x < 0 then .error .nonFinite else .ok (Sqrt.sqrt x)⟩

theorem divC_eq {T : Type} [Zero T] [DecidableEq T] [Div T] (a b : T) :
    divC a b = if b = 0 then .error .nonFinite else .ok (a / b) := rfl

theorem sqrtC_eq {T : Type} [Zero T] [LT T] [DecidableLT T] [Sqrt T] (x : T) :
    sqrtC x = if x < 0 then .error .nonFinite else .ok (Sqrt.sqrt x) := rfl

@[simp] theorem isZ_iff {T : Type} [Zero T] [DecidableEq T] (a : T) : IsZ a ↔ a = 0 := Iff.rfl

theorem if_isZ {T α : Type} [Zero T] [DecidableEq T] {a : T} (h : a = 0) (x y : α) : (if IsZ a then x else y) = x :=
  if_pos h

theorem if_not_isZ {T α : Type} [Zero T] [DecidableEq T] {a : T} (h : a ≠ 0) (x y : α) : (if IsZ a then x else y) = y :=
  if_neg h

theorem divC_ok {T : Type} [Zero T] [DecidableEq T] [Div T] {a b : T} (h : b ≠ 0) :
    divC a b = .ok (a / b) := by simp [divC_eq, h]

@[simp] theorem divC_zero {T : Type} [Zero T] [DecidableEq T] [Div T] (a : T) :
    divC a 0 = .error .nonFinite := by simp [divC_eq]

/-- Dividing by `b` gives a number. -/
def DivAt {T : Type} [Div T] [CDiv T] (b : T) : Prop := ∀ a, divC a b = .ok (a / b)

/-- Whether a division gives a number depends on the divisor only. -/
class DivCases (T : Type) [Div T] [CDiv T] : Prop where
  cases : ∀ b : T, DivAt b ∨ ∀ a, divC a b = .error .nonFinite

theorem divAt_iff {T : Type} [Zero T] [DecidableEq T] [Div T] {b : T} : DivAt b ↔ b ≠ 0 := by
  refine ⟨fun h hb => ?_, fun h a => divC_ok h⟩
  have := h b
  rw [hb, divC_zero] at this
  exact nomatch this

theorem divAt_of {T : Type} [Zero T] [DecidableEq T] [Div T] {b : T} (h : b ≠ 0) : DivAt b := divAt_iff.mpr h

theorem not_divAt {T : Type} [Zero T] [DecidableEq T] [Div T] {b : T} : ¬ DivAt b ↔ b = 0 := by
  rw [divAt_iff]; exact Decidable.not_not

instance {T : Type} [Zero T] [DecidableEq T] [Div T] : DivCases T :=
  ⟨fun b => if h : b = 0 then .inr fun a => by rw [h, divC_zero] else .inl (divAt_of h)⟩

end Lalib
