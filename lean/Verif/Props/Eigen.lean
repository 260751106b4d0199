import Verif.Spec.Eigen
import Verif.Proofs.Minimise
import Verif.Props.Vec
import Verif.Props.Dense
import Verif.Props.Cholesky
import Verif.Props.Tdma
import Mathlib.Algebra.BigOperators.Field

/-! # Property C117: inverse iteration and power iteration

In exact arithmetic. -/

namespace Lalib.Props

open Lalib Finset

variable {T : Type} [Field T] [LinearOrder T] [IsStrictOrderedRing T]

section
variable {n : Nat} {A : Nat → Nat → T} {y : Nat → T}

private theorem ip_self_pos (h : NonZero n y) : 0 < ip n y y := by
  obtain ⟨i, hi, h0⟩ := h
  exact sum_pos' (fun j _ => mul_self_nonneg _) ⟨i, mem_range.mpr hi, mul_self_pos.mpr h0⟩

omit [LinearOrder T] [IsStrictOrderedRing T] in
private theorem nonzero_of_ip (h : ip n y y ≠ 0) : NonZero n y := by
  by_contra hc
  unfold NonZero at hc
  push Not at hc
  exact h (sum_eq_zero fun i hi => by rw [hc i (mem_range.mp hi), zero_mul])

omit [IsStrictOrderedRing T] in
private theorem mul_nonzero (hp : PosDef n A) (h : NonZero n y) : NonZero n (mulVec n A y) := by
  by_contra hc
  unfold NonZero at hc
  push Not at hc
  have : 0 < ip n y (mulVec n A y) := hp.ip_pos h
  rw [show ip n y (mulVec n A y) = 0 from sum_eq_zero fun i hi => by rw [hc i (mem_range.mp hi), mul_zero]] at this
  exact lt_irrefl _ this

/-- The quotient is between every lower and every upper bound of the form. -/
theorem C117_between (h : NonZero n y) (lo hi : T) (hlo : ∀ z : Nat → T, lo * ip n z z ≤ ip n z (mulVec n A z))
    (hhi : ∀ z : Nat → T, ip n z (mulVec n A z) ≤ hi * ip n z z) : lo ≤ rayleigh n A y ∧ rayleigh n A y ≤ hi :=
  ⟨(le_div_iff₀ (ip_self_pos h)).mpr (hlo y), (div_le_iff₀ (ip_self_pos h)).mpr (hhi y)⟩

/-- A step of either iteration moves the quotient by at least as much as says how far `y` is from being an eigenvector. -/
theorem C117_residual (hs : Symm n A) (hp : PosDef n A) (h : NonZero n y) :
    0 < rayleigh n A y ∧
    ip n (fun i => mulVec n A y i - rayleigh n A y * y i) (fun i => mulVec n A y i - rayleigh n A y * y i) ≤
      rayleigh n A y * (rayleigh n A (mulVec n A y) - rayleigh n A y) * ip n y y := by
  have h2 := mul_nonzero hp h
  have a0 := ip_self_pos h
  have c0 := ip_self_pos h2
  have b0 : 0 < ip n y (mulVec n A y) := hp.ip_pos h
  have cs := energy_schwarz hs hp (x := y) (b := mulVec n A y) (fun _ _ => rfl) (mulVec n A y)
  have e : ip n (mulVec n A y) y = ip n y (mulVec n A y) := sum_congr rfl fun i _ => mul_comm _ _
  rw [e] at cs
  set a := ip n y y with ha
  set b := ip n y (mulVec n A y) with hb
  set c := ip n (mulVec n A y) (mulVec n A y) with hc
  set d := ip n (mulVec n A y) (mulVec n A (mulVec n A y)) with hd
  have r1 : rayleigh n A y = b / a := rfl
  have r2 : rayleigh n A (mulVec n A y) = d / c := rfl
  have w : ∀ t : T, ip n (fun i => mulVec n A y i - t * y i) (fun i => mulVec n A y i - t * y i) = c - 2 * t * b + t ^ 2 * a := by
    intro t
    rw [ha, hb, hc]
    simp only [ip, mul_sum, ← sum_sub_distrib, ← sum_add_distrib]
    exact sum_congr rfl fun i _ => by ring
  rw [r1, r2, w]
  refine ⟨div_pos b0 a0, ?_⟩
  have h1 : c ≤ b * d / c := by
    rw [le_div_iff₀ c0]
    nlinarith
  have e1 : c - 2 * (b / a) * b + (b / a) ^ 2 * a = c - b ^ 2 / a := by field_simp; ring
  have e2 : b / a * (d / c - b / a) * a = b * d / c - b ^ 2 / a := by field_simp
  rw [e1, e2]
  linarith

/-- The quotient of `A y` is not smaller than that of `y`. -/
theorem C117_monotone (hs : Symm n A) (hp : PosDef n A) (h : NonZero n y) : rayleigh n A y ≤ rayleigh n A (mulVec n A y) := by
  obtain ⟨h1, h2⟩ := C117_residual hs hp h
  have h3 : 0 ≤ ip n (fun i => mulVec n A y i - rayleigh n A y * y i) (fun i => mulVec n A y i - rayleigh n A y * y i) :=
    sum_nonneg fun i _ => mul_self_nonneg _
  by_contra hc
  push Not at hc
  have := mul_pos (mul_pos h1 (sub_pos.mpr hc)) (ip_self_pos h)
  nlinarith

/-- Nothing moves only if `y` is an eigenvector. -/
theorem C117_stationary (hs : Symm n A) (hp : PosDef n A) (h : NonZero n y) (e : rayleigh n A (mulVec n A y) = rayleigh n A y) :
    ∀ i, i < n → mulVec n A y i = rayleigh n A y * y i := by
  have h2 := (C117_residual hs hp h).2
  rw [e, sub_self, mul_zero, zero_mul] at h2
  intro i hi
  have h3 := (sum_eq_zero_iff_of_nonneg fun j _ => mul_self_nonneg _).mp (le_antisymm h2 (sum_nonneg fun i _ => mul_self_nonneg _)) i
    (mem_range.mpr hi)
  exact sub_eq_zero.mp (mul_self_eq_zero.mp h3)

omit [LinearOrder T] [IsStrictOrderedRing T] in
private theorem rayleigh_div {z : Nat → T} {r : T} (hr : r ≠ 0) (hz : ∀ i, i < n → z i = y i / r) : rayleigh n A z = rayleigh n A y := by
  have e1 : ip n z (mulVec n A z) = ip n y (mulVec n A y) / r ^ 2 := by
    unfold ip mulVec
    rw [sum_div]
    refine sum_congr rfl fun i hi => ?_
    rw [hz i (mem_range.mp hi), sum_congr rfl fun j hj => by rw [hz j (mem_range.mp hj)]]
    simp only [mul_div_assoc', ← sum_div]
    field_simp
  have e2 : ip n z z = ip n y y / r ^ 2 := by
    unfold ip
    rw [sum_div]
    refine sum_congr rfl fun i hi => ?_
    rw [hz i (mem_range.mp hi)]
    field_simp
  unfold rayleigh
  rw [e1, e2, div_div_div_cancel_right₀ (pow_ne_zero 2 hr)]

end

/-! ## The programs -/

section
variable [Sqrt T] [LawfulSqrt T] {n : Nat} {A : Nat → Nat → T}

omit [LinearOrder T] [IsStrictOrderedRing T] [Sqrt T] [LawfulSqrt T] in
private theorem dot_ip (m : Mem T) (x y : Nat) (hx : m.len x = n) (hy : m.len y = n) (hn : 0 < n) :
    dotDD m x y = .ok (ip n (m.val x) (m.val y)) := by
  rw [(C05_dot_partial m x y (by omega) (by omega)).2.1, dotSpec_eq_range (hx.trans hy.symm)]
  have : (m x).length = n := hx
  rw [this]
  rfl

/-- The last line of the loop: the vector gets the length 1. -/
private theorem normalise (m : Mem T) (x y : Nat) (hy : m.len y = n) (h : NonZero n (m.val y)) :
    ∃ r l, r ≠ 0 ∧ vecNorm2 m y = .ok r ∧ divOpAt m y r x = .ok (m.setBuf x l) ∧ l.length = n ∧ (∀ i, i < n → val0 l i = m.val y i / r) ∧
      ip n (val0 l) (val0 l) = 1 := by
  obtain ⟨r, e, r0, r2, rz⟩ := C06_norm2 m y
  have ly : (m y).length = n := hy
  have q : r * r = ip n (m.val y) (m.val y) := by
    rw [r2, dotSpec_eq_range rfl, ly]
    rfl
  have hr : r ≠ 0 := by
    rintro rfl
    have := ip_self_pos h
    rw [← q] at this
    simp at this
  have v : ∀ i, i < n → val0 ((m y).map fun a => a / r) i = m.val y i / r := by
    intro i hi
    rw [val0_of_lt (by simp [ly, hi]), List.getElem_map, ← val0_of_lt]
    rfl
  refine ⟨r, (m y).map fun a => a / r, hr, e, divOpAt_eq hr, by simp [ly], v, ?_⟩
  have : ip n (val0 ((m y).map fun a => a / r)) (val0 ((m y).map fun a => a / r)) = ip n (m.val y) (m.val y) / (r * r) := by
    unfold ip
    rw [sum_div]
    refine sum_congr rfl fun i hi => ?_
    rw [v i (mem_range.mp hi)]
    field_simp
  rw [this, ← q, div_self (mul_ne_zero hr hr)]

/-- One step of the inverse iteration: it does not fail, the new vector has length 1, the number is its quotient, not greater than that of
the old vector, and the difference says how far the new vector is from an eigenvector. -/
theorem C117_inverse_step (hs : Symm n A) (hp : PosDef n A) (solve : Mem T → Res (Mem T)) (x y : Nat) (hxy : x ≠ y) (m : Mem T)
    (hsol : ∃ l, l.length = n ∧ solve m = .ok (m.setBuf y l) ∧ Solves n A (val0 l) (m.val x)) (hx : m.len x = n)
    (h0 : NonZero n (m.val x)) :
    ∃ l z, invStep solve x y m = .ok (rayleigh n A (val0 z), (m.setBuf y l).setBuf x z) ∧ l.length = n ∧ z.length = n ∧
      ip n (val0 z) (val0 z) = 1 ∧ rayleigh n A (val0 z) ≤ rayleigh n A (m.val x) ∧
      ip n (fun i => mulVec n A (val0 z) i - rayleigh n A (val0 z) * val0 z i) (fun i => mulVec n A (val0 z) i - rayleigh n A (val0 z) * val0 z i) ≤
        rayleigh n A (val0 z) * (rayleigh n A (m.val x) - rayleigh n A (val0 z)) := by
  obtain ⟨l, hl, e, sol⟩ := hsol
  have hn : 0 < n := by
    obtain ⟨i, hi, -⟩ := h0
    omega
  have hyy : (m.setBuf y l) y = l := Mem.setBuf_self _ _ _
  have hxx : (m.setBuf y l) x = m x := Mem.setBuf_other _ hxy _
  have vy : (m.setBuf y l).val y = val0 l := by
    funext i
    show val0 ((m.setBuf y l) y) i = _
    rw [hyy]
  have vx : (m.setBuf y l).val x = m.val x := by
    funext i
    show val0 ((m.setBuf y l) x) i = _
    rw [hxx]
    rfl
  have ly : (m.setBuf y l).len y = n := by
    show ((m.setBuf y l) y).length = n
    rw [hyy, hl]
  have lx : (m.setBuf y l).len x = n := by
    show ((m.setBuf y l) x).length = n
    rw [hxx]
    exact hx
  have nl : NonZero n (val0 l) := by
    by_contra hc
    unfold NonZero at hc
    push Not at hc
    obtain ⟨i, hi, h⟩ := h0
    apply h
    rw [← sol i hi]
    exact sum_eq_zero fun j hj => by rw [hc j (mem_range.mp hj), mul_zero]
  have d1 := dot_ip (m.setBuf y l) x y lx ly hn
  have d2 := dot_ip (m.setBuf y l) y y ly ly hn
  obtain ⟨r, z, hr, er, ez, lz, vz, uz⟩ := normalise (m.setBuf y l) x y ly (by rwa [vy])
  rw [vy] at d1 d2 vz
  rw [vx] at d1
  have rz : rayleigh n A (val0 z) = rayleigh n A (val0 l) := rayleigh_div hr vz
  have rx : rayleigh n A (mulVec n A (val0 l)) = rayleigh n A (m.val x) := rayleigh_div one_ne_zero (fun i hi => by rw [div_one]; exact sol i hi)
  have lam : ip n (m.val x) (val0 l) / ip n (val0 l) (val0 l) = rayleigh n A (val0 l) := by
    unfold rayleigh
    congr 1
    exact sum_congr rfl fun i hi => by rw [sol i (mem_range.mp hi), mul_comm]
  have nz : NonZero n (val0 z) := nonzero_of_ip (by rw [uz]; exact one_ne_zero)
  have rz' : rayleigh n A (mulVec n A (val0 z)) = rayleigh n A (m.val x) := by
    rw [← rx]
    refine rayleigh_div hr fun i _ => ?_
    unfold mulVec
    rw [sum_div]
    exact sum_congr rfl fun j hj => by rw [vz j (mem_range.mp hj), mul_div_assoc]
  have res := (C117_residual hs hp nz).2
  rw [uz, mul_one, rz'] at res
  refine ⟨l, z, ?_, hl, lz, uz, ?_, res⟩
  · unfold invStep
    rw [e, Lalib.ok_bind, d1, Lalib.ok_bind, d2, Lalib.ok_bind, divC_ok (ip_self_pos nl).ne', Lalib.ok_bind, er, Lalib.ok_bind, ez, Lalib.ok_bind,
      lam, rz]
  · have := C117_monotone hs hp nz
    rwa [rz'] at this

/-- One step of the power iteration: the number is the quotient of the old vector, not greater than that of the new one. -/
theorem C117_power_step (hs : Symm n A) (hp : PosDef n A) (mul : Mem T → Res (Mem T)) (x y : Nat) (hxy : x ≠ y) (m : Mem T)
    (hmul : ∃ l, l.length = n ∧ mul m = .ok (m.setBuf y l) ∧ ∀ i, i < n → val0 l i = mulVec n A (m.val x) i) (hx : m.len x = n)
    (h0 : NonZero n (m.val x)) :
    ∃ l z, powStep mul x y m = .ok (rayleigh n A (m.val x), (m.setBuf y l).setBuf x z) ∧ l.length = n ∧ z.length = n ∧
      ip n (val0 z) (val0 z) = 1 ∧ rayleigh n A (m.val x) ≤ rayleigh n A (val0 z) ∧
      ip n (fun i => mulVec n A (m.val x) i - rayleigh n A (m.val x) * m.val x i)
          (fun i => mulVec n A (m.val x) i - rayleigh n A (m.val x) * m.val x i) ≤
        rayleigh n A (m.val x) * (rayleigh n A (val0 z) - rayleigh n A (m.val x)) * ip n (m.val x) (m.val x) := by
  obtain ⟨l, hl, e, sol⟩ := hmul
  have hn : 0 < n := by
    obtain ⟨i, hi, -⟩ := h0
    omega
  have hyy : (m.setBuf y l) y = l := Mem.setBuf_self _ _ _
  have hxx : (m.setBuf y l) x = m x := Mem.setBuf_other _ hxy _
  have vy : (m.setBuf y l).val y = val0 l := by
    funext i
    show val0 ((m.setBuf y l) y) i = _
    rw [hyy]
  have vx : (m.setBuf y l).val x = m.val x := by
    funext i
    show val0 ((m.setBuf y l) x) i = _
    rw [hxx]
    rfl
  have ly : (m.setBuf y l).len y = n := by
    show ((m.setBuf y l) y).length = n
    rw [hyy, hl]
  have lx : (m.setBuf y l).len x = n := by
    show ((m.setBuf y l) x).length = n
    rw [hxx]
    exact hx
  have nl : NonZero n (val0 l) := by
    obtain ⟨i, hi, h⟩ := mul_nonzero hp h0
    exact ⟨i, hi, by rwa [sol i hi]⟩
  have d1 := dot_ip (m.setBuf y l) x y lx ly hn
  have d2 := dot_ip (m.setBuf y l) x x lx lx hn
  obtain ⟨r, z, hr, er, ez, lz, vz, uz⟩ := normalise (m.setBuf y l) x y ly (by rwa [vy])
  rw [vy] at d1 vz
  rw [vx] at d1 d2
  have lam : ip n (m.val x) (val0 l) / ip n (m.val x) (m.val x) = rayleigh n A (m.val x) := by
    unfold rayleigh
    congr 1
    exact sum_congr rfl fun i hi => by rw [sol i (mem_range.mp hi)]
  have rz : rayleigh n A (val0 z) = rayleigh n A (mulVec n A (m.val x)) :=
    rayleigh_div hr fun i hi => by rw [vz i hi, sol i hi]
  refine ⟨l, z, ?_, hl, lz, uz, ?_, ?_⟩
  · unfold powStep
    rw [e, Lalib.ok_bind, d1, Lalib.ok_bind, d2, Lalib.ok_bind, divC_ok (ip_self_pos h0).ne', Lalib.ok_bind, er, Lalib.ok_bind, ez, Lalib.ok_bind,
      lam]
  · rw [rz]
    exact C117_monotone hs hp h0
  · rw [rz]
    exact (C117_residual hs hp h0).2

/-- The inverse iteration: no step fails; the numbers do not increase, and none is below a lower bound of the form. -/
theorem C117_inverse (hs : Symm n A) (hp : PosDef n A) (solve : Mem T → Res (Mem T)) (x y : Nat) (hxy : x ≠ y)
    (hsol : ∀ m : Mem T, m.len x = n → m.len y = n → ∃ l, l.length = n ∧ solve m = .ok (m.setBuf y l) ∧ Solves n A (val0 l) (m.val x))
    (m : Mem T) (hx : m.len x = n) (hy : m.len y = n) (h0 : NonZero n (m.val x)) (k : Nat) :
    ∃ ls m', iterate (invStep solve x y) k m = .ok (ls, m') ∧ ls.length = k ∧ m'.len x = n ∧ m'.len y = n ∧ (∀ q, q ≠ x → q ≠ y → m' q = m q) ∧
      NonZero n (m'.val x) ∧ ls.Pairwise (· ≥ ·) ∧ (∀ l ∈ ls, rayleigh n A (m'.val x) ≤ l ∧ l ≤ rayleigh n A (m.val x)) ∧
      (0 < k → ls.getLast? = some (rayleigh n A (m'.val x)) ∧ ip n (m'.val x) (m'.val x) = 1) ∧
      ∀ lo, (∀ z : Nat → T, lo * ip n z z ≤ ip n z (mulVec n A z)) → ∀ l ∈ ls, lo ≤ l := by
  suffices h : ∃ ls m', iterate (invStep solve x y) k m = .ok (ls, m') ∧ ls.length = k ∧ m'.len x = n ∧ m'.len y = n ∧
      (∀ q, q ≠ x → q ≠ y → m' q = m q) ∧ NonZero n (m'.val x) ∧ ls.Pairwise (· ≥ ·) ∧
      (∀ l ∈ ls, rayleigh n A (m'.val x) ≤ l ∧ l ≤ rayleigh n A (m.val x)) ∧
      (0 < k → ls.getLast? = some (rayleigh n A (m'.val x)) ∧ ip n (m'.val x) (m'.val x) = 1) ∧ rayleigh n A (m'.val x) ≤ rayleigh n A (m.val x) by
    obtain ⟨ls, m', h1, h2, h3, h4, h5, h6, h7, h8, h9, -⟩ := h
    exact ⟨ls, m', h1, h2, h3, h4, h5, h6, h7, h8, h9, fun lo hlo l hl =>
      ((le_div_iff₀ (ip_self_pos h6)).mpr (hlo _)).trans (h8 l hl).1⟩
  induction k with
  | zero => exact ⟨[], m, rfl, rfl, hx, hy, fun _ _ _ => rfl, h0, List.Pairwise.nil, by simp, by simp, le_rfl⟩
  | succ k ih =>
    obtain ⟨ls, m', h1, h2, h3, h4, h5, h6, h7, h8, -, h9⟩ := ih
    obtain ⟨l, z, e, hl, hz, uz, le, -⟩ := C117_inverse_step hs hp solve x y hxy m' (hsol m' h3 h4) h3 h6
    have hxx : ((m'.setBuf y l).setBuf x z) x = z := Mem.setBuf_self _ _ _
    have hyy : ((m'.setBuf y l).setBuf x z) y = l := by rw [Mem.setBuf_other _ hxy.symm, Mem.setBuf_self]
    have vx : ((m'.setBuf y l).setBuf x z).val x = val0 z := by
      funext i
      show val0 (((m'.setBuf y l).setBuf x z) x) i = _
      rw [hxx]
    refine ⟨ls ++ [rayleigh n A (val0 z)], (m'.setBuf y l).setBuf x z, ?_, by simp [h2], ?_, ?_, ?_, ?_, ?_, ?_, ?_, ?_⟩
    · simp only [iterate, h1, Lalib.ok_bind, e]
    · show (((m'.setBuf y l).setBuf x z) x).length = n
      rw [hxx, hz]
    · show (((m'.setBuf y l).setBuf x z) y).length = n
      rw [hyy, hl]
    · intro q q1 q2
      rw [Mem.setBuf_other _ q1, Mem.setBuf_other _ q2, h5 q q1 q2]
    · rw [vx]
      exact nonzero_of_ip (by rw [uz]; exact one_ne_zero)
    · rw [List.pairwise_append]
      refine ⟨h7, by simp, fun a ha b hb => ?_⟩
      rw [List.mem_singleton.mp hb]
      exact le.trans (h8 a ha).1
    · rw [vx]
      intro a ha
      rcases List.mem_append.mp ha with ha | ha
      · exact ⟨le.trans (h8 a ha).1, (h8 a ha).2⟩
      · rw [List.mem_singleton.mp ha]
        exact ⟨le_rfl, le.trans h9⟩
    · rw [vx]
      exact fun _ => ⟨by simp, uz⟩
    · rw [vx]
      exact le.trans h9

/-- The power iteration: no step fails; the numbers do not decrease, and none is above an upper bound of the form. -/
theorem C117_power (hs : Symm n A) (hp : PosDef n A) (mul : Mem T → Res (Mem T)) (x y : Nat) (hxy : x ≠ y) (ok : Mem T → Prop)
    (hok : ∀ m l z, ok m → l.length = n → z.length = n → ok ((m.setBuf y l).setBuf x z))
    (hmul : ∀ m : Mem T, ok m → m.len x = n → ∃ l, l.length = n ∧ mul m = .ok (m.setBuf y l) ∧ ∀ i, i < n → val0 l i = mulVec n A (m.val x) i)
    (m : Mem T) (h : ok m) (hx : m.len x = n) (h0 : NonZero n (m.val x)) (k : Nat) :
    ∃ ls m', iterate (powStep mul x y) k m = .ok (ls, m') ∧ ls.length = k ∧ ok m' ∧ m'.len x = n ∧ (∀ q, q ≠ x → q ≠ y → m' q = m q) ∧
      NonZero n (m'.val x) ∧ ls.Pairwise (· ≤ ·) ∧ (∀ l ∈ ls, rayleigh n A (m.val x) ≤ l ∧ l ≤ rayleigh n A (m'.val x)) ∧
      (0 < k → ip n (m'.val x) (m'.val x) = 1) ∧
      ∀ hi, (∀ z : Nat → T, ip n z (mulVec n A z) ≤ hi * ip n z z) → ∀ l ∈ ls, l ≤ hi := by
  suffices g : ∃ ls m', iterate (powStep mul x y) k m = .ok (ls, m') ∧ ls.length = k ∧ ok m' ∧ m'.len x = n ∧
      (∀ q, q ≠ x → q ≠ y → m' q = m q) ∧ NonZero n (m'.val x) ∧ ls.Pairwise (· ≤ ·) ∧
      (∀ l ∈ ls, rayleigh n A (m.val x) ≤ l ∧ l ≤ rayleigh n A (m'.val x)) ∧
      (0 < k → ip n (m'.val x) (m'.val x) = 1) ∧ rayleigh n A (m.val x) ≤ rayleigh n A (m'.val x) by
    obtain ⟨ls, m', h1, h2, h3, h4, h5, h6, h7, h8, h9, -⟩ := g
    exact ⟨ls, m', h1, h2, h3, h4, h5, h6, h7, h8, h9, fun hi hhi l hl =>
      (h8 l hl).2.trans ((div_le_iff₀ (ip_self_pos h6)).mpr (hhi _))⟩
  induction k with
  | zero => exact ⟨[], m, rfl, rfl, h, hx, fun _ _ _ => rfl, h0, List.Pairwise.nil, by simp, by simp, le_rfl⟩
  | succ k ih =>
    obtain ⟨ls, m', h1, h2, h3, h4, h5, h6, h7, h8, -, h9⟩ := ih
    obtain ⟨l, z, e, hl, hz, uz, le, -⟩ := C117_power_step hs hp mul x y hxy m' (hmul m' h3 h4) h4 h6
    have hxx : ((m'.setBuf y l).setBuf x z) x = z := Mem.setBuf_self _ _ _
    have vx : ((m'.setBuf y l).setBuf x z).val x = val0 z := by
      funext i
      show val0 (((m'.setBuf y l).setBuf x z) x) i = _
      rw [hxx]
    refine ⟨ls ++ [rayleigh n A (m'.val x)], (m'.setBuf y l).setBuf x z, ?_, by simp [h2], hok m' l z h3 hl hz, ?_, ?_, ?_, ?_, ?_, ?_, ?_⟩
    · simp only [iterate, h1, Lalib.ok_bind, e]
    · show (((m'.setBuf y l).setBuf x z) x).length = n
      rw [hxx, hz]
    · intro q q1 q2
      rw [Mem.setBuf_other _ q1, Mem.setBuf_other _ q2, h5 q q1 q2]
    · rw [vx]
      exact nonzero_of_ip (by rw [uz]; exact one_ne_zero)
    · rw [List.pairwise_append]
      refine ⟨h7, by simp, fun a ha b hb => ?_⟩
      rw [List.mem_singleton.mp hb]
      exact (h8 a ha).2
    · rw [vx]
      intro a ha
      rcases List.mem_append.mp ha with ha | ha
      · exact ⟨(h8 a ha).1, (h8 a ha).2.trans le⟩
      · rw [List.mem_singleton.mp ha]
        exact ⟨h9, le⟩
    · rw [vx]
      exact fun _ => uz
    · rw [vx]
      exact h9.trans le

/-! ## With the classes of the library -/

/-- `solve_linear` of the Cholesky factorisations is a solver for the inverse iteration. -/
theorem C117_chol (nd : Bool) (mt : MemType) (l L : List T) (hl : Lower mt n l A) (hs : Symm n A) (hp : PosDef n A) (x y : Nat) (hxy : x ≠ y) :
    (Chol.new mt n l = .ok L → ∀ m : Mem T, m.len x = n →
      ∃ z, z.length = n ∧ Chol.solveVecAt nd false mt n L x y m = .ok (m.setBuf y z) ∧ Solves n A (val0 z) (m.val x)) ∧
    (Chol.modNew mt n l = .ok L → ∀ m : Mem T, m.len x = n →
      ∃ z, z.length = n ∧ Chol.solveVecAt nd true mt n L x y m = .ok (m.setBuf y z) ∧ Solves n A (val0 z) (m.val x)) := by
  refine ⟨fun e m hx => ?_, fun e m hx => ?_⟩
  · obtain ⟨z, hz, sz, -, ez⟩ := C37_vec nd mt n l L A hl hs hp e m x y hx hxy.symm
    exact ⟨z, hz, ez, sz⟩
  · obtain ⟨z, hz, sz, -, ez⟩ := C39_vec nd mt n l L A hl hs e m x y hx hxy.symm
    exact ⟨z, hz, ez, sz⟩

omit [IsStrictOrderedRing T] [Sqrt T] [LawfulSqrt T] in
/-- The tri-diagonal solver too. -/
theorem C117_tdma (nd : Bool) (a : TriDiag T) (hw : TriWf a n) (hn : 2 ≤ n) (hr : Regular (triFull a) n) (x y : Nat) (m : Mem T)
    (hx : m.len x = n) (hy : m.len y = n) :
    ∃ z, z.length = n ∧ Tdma.solveVec nd a x y m = .ok (m.setBuf y z) ∧ Solves n (triFull a) (val0 z) (m.val x) := by
  obtain ⟨l, m', e, hs, hl, hsol⟩ := C34_vec_partial nd a n hw hn x y m hx hy hr
  exact ⟨l, hl, hs.eq ▸ e, hsol⟩

omit [LinearOrder T] [IsStrictOrderedRing T] [Sqrt T] [LawfulSqrt T] in
/-- The product with a dense matrix serves the power iteration. -/
theorem C117_dense (nd : Bool) (a : MatRef) (hn : a.n = n) (hm : a.m = n) (x y : Nat) (hxy : x ≠ y) (hay : a.buf ≠ y) (m : Mem T)
    (ha : a.Wf m) (hx : m.len x = n) :
    ∃ z, z.length = n ∧ matVecAt nd m a x y = .ok (m.setBuf y z) ∧ ∀ i, i < n → val0 z i = mulVec n (entry n (m a.buf)) (m.val x) i := by
  refine ⟨_, ?_, matVecAt_eq ha (hx.trans hm.symm) hay hxy, fun i hi => ?_⟩
  · simp [hn]
  · rw [val0_of_lt (by simp [hn, hi]), List.getElem_map, List.getElem_range, hm]
    rfl

/-- All together for Cholesky. -/
theorem C117_inverse_chol (nd : Bool) (mt : MemType) (l L : List T) (hl : Lower mt n l A) (hs : Symm n A) (hp : PosDef n A)
    (hL : Chol.new mt n l = .ok L) (x y : Nat) (hxy : x ≠ y) (m : Mem T) (hx : m.len x = n) (hy : m.len y = n) (h0 : NonZero n (m.val x)) (k : Nat) :
    ∃ ls m', iterate (invStep (Chol.solveVecAt nd false mt n L x y) x y) k m = .ok (ls, m') ∧ ls.length = k ∧ ls.Pairwise (· ≥ ·) ∧
      (0 < k → ls.getLast? = some (rayleigh n A (m'.val x)) ∧ ip n (m'.val x) (m'.val x) = 1) ∧
      ∀ lo, (∀ z : Nat → T, lo * ip n z z ≤ ip n z (mulVec n A z)) → ∀ l ∈ ls, lo ≤ l := by
  obtain ⟨ls, m', h1, h2, -, -, -, -, h7, -, h9, h10⟩ := C117_inverse hs hp _ x y hxy
    (fun m hx _ => (C117_chol nd mt l L hl hs hp x y hxy).1 hL m hx) m hx hy h0 k
  exact ⟨ls, m', h1, h2, h7, h9, h10⟩

/-- All together for a dense matrix. -/
theorem C117_power_dense (nd : Bool) (a : MatRef) (hn : a.n = n) (hm : a.m = n) (x y : Nat) (hxy : x ≠ y) (hax : a.buf ≠ x) (hay : a.buf ≠ y)
    (m : Mem T) (ha : a.Wf m) (hs : Symm n (entry n (m a.buf))) (hp : PosDef n (entry n (m a.buf))) (hx : m.len x = n)
    (h0 : NonZero n (m.val x)) (k : Nat) :
    ∃ ls m', iterate (powStep (fun m => matVecAt nd m a x y) x y) k m = .ok (ls, m') ∧ ls.length = k ∧ m' a.buf = m a.buf ∧ ls.Pairwise (· ≤ ·) ∧
      (∀ l ∈ ls, rayleigh n (entry n (m a.buf)) (m.val x) ≤ l ∧ l ≤ rayleigh n (entry n (m a.buf)) (m'.val x)) ∧
      ∀ hi, (∀ z : Nat → T, ip n z (mulVec n (entry n (m a.buf)) z) ≤ hi * ip n z z) → ∀ l ∈ ls, l ≤ hi := by
  obtain ⟨ls, m', h1, h2, -, -, h5, -, h7, h8, -, h10⟩ := C117_power hs hp (fun m => matVecAt nd m a x y) x y hxy (fun m' => m' a.buf = m a.buf)
    (fun m' l z h _ _ => by rw [Mem.setBuf_other _ hax, Mem.setBuf_other _ hay, h]) (fun m' h hx => by
      have := C117_dense nd a hn hm x y hxy hay m' (by
        show (m' a.buf).length = _
        rw [h]
        exact ha) hx
      rwa [h] at this) m rfl hx h0 k
  exact ⟨ls, m', h1, h2, h5 _ hax hay, h7, h8, h10⟩

end

/-! ## Cases -/

-- the quotients of `(1, 0)`, and of its image, for a positive definite matrix: the second is greater
example : rayleigh 2 (fun i j => if i = j then 2 else 1) (fun i => if i = 0 then (1 : ℚ) else 0) = 2 ∧
    rayleigh 2 (fun i j => if i = j then (2 : ℚ) else 1) (fun i => if i = 0 then 2 else 1) = 14 / 5 := by decide +kernel

-- without a definite matrix the quotients can decrease: `diag(1, -2)`, `(5, 4)` and its image
example : rayleigh 2 (fun i j => if i = j then (if i = 0 then 1 else -2) else 0) (fun i => if i = 0 then (5 : ℚ) else 4) = -7 / 41 ∧
    rayleigh 2 (fun i j => if i = j then (if i = 0 then 1 else -2) else 0) (fun i => if i = 0 then (5 : ℚ) else -8) = -103 / 89 := by
  decide +kernel

-- the assumptions hold for the unit matrix
example : Symm 2 (fun i j => if i = j then (1 : ℚ) else 0) ∧ PosDef 2 (fun i j => if i = j then (1 : ℚ) else 0) ∧
    NonZero 2 (fun i => if i = 0 then (1 : ℚ) else 0) := by
  refine ⟨fun i j _ _ => by simp only [eq_comm], fun x hx => ?_, 0, by norm_num, by norm_num⟩
  have e : ∑ i ∈ range 2, ∑ j ∈ range 2, x i * (if i = j then (1 : ℚ) else 0) * x j = ip 2 x x := by
    simp [ip, sum_range_succ]
  rw [e]
  exact ip_self_pos hx

end Lalib.Props
