import Verif.Spec.Cyclic
import Verif.Props.Vec
import Verif.Props.Tdma

/-! # Property C122: periodic tri-diagonal systems with two calls of the solver

In exact arithmetic. -/

namespace Lalib.Props

open Lalib Finset

variable {T : Type} [Field T]

section
variable {n : Nat} {A B : Nat → Nat → T} {u v : Nat → T}

private theorem mul_change (h : ∀ i j, i < n → j < n → B i j = A i j + u i * v j) (x : Nat → T) (i : Nat) (hi : i < n) :
    mulVec n B x i = mulVec n A x i + u i * ∑ j ∈ range n, v j * x j := by
  unfold mulVec
  rw [mul_sum, ← sum_add_distrib]
  refine sum_congr rfl fun j hj => ?_
  rw [h i j hi (mem_range.mp hj)]
  ring

private theorem mul_comb' (A : Nat → Nat → T) (x y : Nat → T) (t : T) (i : Nat) :
    mulVec n A (fun j => x j - t * y j) i = mulVec n A x i - t * mulVec n A y i := by
  unfold mulVec
  rw [mul_sum, ← sum_sub_distrib]
  exact sum_congr rfl fun j _ => by ring

/-- A matrix changed by `u v^T`: with the solutions `y` and `z` for `b` and `u`, the changed system has exactly one solution if
`1 + v·z` is not zero, and is singular otherwise. -/
theorem C122_change (hA : minor A n ≠ 0) (h : ∀ i j, i < n → j < n → B i j = A i j + u i * v j) {b y z : Nat → T} (hy : Solves n A y b)
    (hz : Solves n A z u) (hu : ∃ i, i < n ∧ u i ≠ 0) :
    (1 + ∑ j ∈ range n, v j * z j ≠ 0 →
      Solves n B (fun i => y i - (∑ j ∈ range n, v j * y j) / (1 + ∑ j ∈ range n, v j * z j) * z i) b ∧
      ∀ w, Solves n B w b → ∀ i, i < n → w i = y i - (∑ j ∈ range n, v j * y j) / (1 + ∑ j ∈ range n, v j * z j) * z i) ∧
    (1 + ∑ j ∈ range n, v j * z j = 0 → Solves n B z (fun _ => 0) ∧ ∃ i, i < n ∧ z i ≠ 0) := by
  set p := ∑ j ∈ range n, v j * y j with hp
  set s := ∑ j ∈ range n, v j * z j with hs
  have lin : ∀ t, ∑ j ∈ range n, v j * (y j - t * z j) = p - t * s := fun t => by
    rw [hp, hs, mul_sum, ← sum_sub_distrib]
    exact sum_congr rfl fun j _ => by ring
  refine ⟨fun h0 => ⟨fun i hi => ?_, fun w hw i hi => ?_⟩, fun h0 => ⟨fun i hi => ?_, ?_⟩⟩
  · rw [mul_change h _ i hi, mul_comb', hy i hi, hz i hi, lin]
    field_simp
    ring
  · set k := ∑ j ∈ range n, v j * w j with hk
    have e1 : Solves n A w (fun i => b i - k * u i) := fun i hi => by
      have := hw i hi
      rw [mul_change h _ i hi, ← hk] at this
      show mulVec n A w i = b i - k * u i
      linear_combination this
    have e2 : Solves n A (fun i => y i - k * z i) (fun i => b i - k * u i) := fun i hi => by
      rw [mul_comb', hy i hi, hz i hi]
    have e3 := solves_unique hA e1 e2
    have e4 : k = p - k * s := by
      rw [← lin k, hk]
      exact sum_congr rfl fun j hj => by rw [e3 j (mem_range.mp hj)]
    have e5 : k = p / (1 + s) := by
      rw [eq_div_iff h0]
      linear_combination e4
    rw [e3 i hi, e5]
  · rw [mul_change h _ i hi, hz i hi, ← hs]
    linear_combination u i * h0
  · by_contra hc
    push Not at hc
    obtain ⟨i, hi, h1⟩ := hu
    apply h1
    rw [← hz i hi]
    exact sum_eq_zero fun j hj => by rw [hc j (mem_range.mp hj), mul_zero]

/-- The periodic matrix is such a change of a tri-diagonal one: `a` has the first diagonal entry less `gamma` and the last one less
`alpha beta / gamma`. -/
theorem C122_split (hn : 2 ≤ n) (t a : TriDiag T) (alpha beta gamma : T) (hg : gamma ≠ 0)
    (hd : ∀ i, i < n → val0 a.d i = val0 t.d i - (if i = 0 then gamma else if i = n - 1 then alpha * (beta / gamma) else 0))
    (hu : a.du = t.du) (hl : a.dl = t.dl) (i j : Nat) (hi : i < n) (hj : j < n) :
    cyclic n t alpha beta i j = triFull a i j + cycU n gamma alpha i * cycV n (beta / gamma) j := by
  have e : triFull a i j = triFull t i j - if i = j then (if i = 0 then gamma else if i = n - 1 then alpha * (beta / gamma) else 0) else 0 := by
    unfold triFull
    rw [hd i hi, hu, hl]
    split_ifs <;> simp_all
  have hb : gamma * (beta / gamma) = beta := by field_simp
  unfold cyclic cycU cycV
  rw [e]
  by_cases i0 : i = 0
  · subst i0
    by_cases j0 : j = 0
    · subst j0
      simp [show ¬ (0 = n - 1) by omega]
    · by_cases jn : j = n - 1
      · simp [jn, hb, show ¬ (0 = n - 1) by omega, show n - 1 ≠ 0 by omega]
      · simp [j0, jn, Ne.symm j0]
  · by_cases i1 : i = n - 1
    · subst i1
      by_cases j0 : j = 0
      · subst j0
        simp [i0]
      · by_cases jn : j = n - 1
        · subst jn
          simp [i0]
        · simp [i0, j0, jn, Ne.symm jn]
    · simp [i0, i1]

private theorem ends (hn : 2 ≤ n) (g : T) (x : Nat → T) : ∑ j ∈ range n, cycV n g j * x j = x 0 + g * x (n - 1) := by
  obtain ⟨k, rfl⟩ : ∃ k, n = k + 2 := ⟨n - 2, by omega⟩
  rw [sum_range_succ, sum_range_succ', sum_eq_zero fun j hj => ?_]
  · simp [cycV]
  · have := mem_range.mp hj
    simp [cycV]
    omega

end

section
variable [DecidableEq T] {n : Nat}

/-- The program: it returns the only solution, or stops at the division, and then the periodic matrix is singular. -/
theorem C122_program (nd : Bool) (hn : 2 ≤ n) (t a : TriDiag T) (hw : TriWf a n) (hr : Regular (triFull a) n) (alpha beta gamma : T)
    (hg : gamma ≠ 0)
    (hd : ∀ i, i < n → val0 a.d i = val0 t.d i - (if i = 0 then gamma else if i = n - 1 then alpha * (beta / gamma) else 0))
    (hau : a.du = t.du) (hal : a.dl = t.dl) (b u y z : Nat) (m : Mem T) (lb : m.len b = n) (lu : m.len u = n) (ly : m.len y = n) (lz : m.len z = n)
    (huy : u ≠ y) (hyz : y ≠ z) (hu : ∀ i, i < n → m.val u i = cycU n gamma alpha i) :
    (∃ x w : List T, cyclicSolve nd a (beta / gamma) n b u y z m = .ok ((m.setBuf z w).setBuf y x) ∧ x.length = n ∧ w.length = n ∧
      Solves n (cyclic n t alpha beta) (val0 x) (m.val b) ∧
      ∀ x', Solves n (cyclic n t alpha beta) x' (m.val b) → ∀ i, i < n → x' i = val0 x i) ∨
    (cyclicSolve nd a (beta / gamma) n b u y z m = .error .nonFinite ∧
      ∃ w, Solves n (cyclic n t alpha beta) w (fun _ => 0) ∧ ∃ i, i < n ∧ w i ≠ 0) := by
  obtain ⟨Y, m', e', h', lY, sY⟩ := C34_vec_partial nd a n hw hn b y m lb ly hr
  have e1 : Tdma.solveVec nd a b y m = .ok (m.setBuf y Y) := h'.eq ▸ e'
  have fu : (m.setBuf y Y) u = m u := Mem.setBuf_other _ huy _
  have fz : (m.setBuf y Y) z = m z := Mem.setBuf_other _ hyz.symm _
  obtain ⟨Z, m'', e'', h'', lZ, sZ⟩ := C34_vec_partial nd a n hw hn u z (m.setBuf y Y) (by unfold Mem.len; rw [fu]; exact lu)
    (by unfold Mem.len; rw [fz]; exact lz) hr
  have e2 : Tdma.solveVec nd a u z (m.setBuf y Y) = .ok ((m.setBuf y Y).setBuf z Z) := h''.eq ▸ e''
  set m2 := (m.setBuf y Y).setBuf z Z with hm2
  have y2 : m2 y = Y := by rw [hm2, Mem.setBuf_other _ hyz, Mem.setBuf_self]
  have z2 : m2 z = Z := Mem.setBuf_self _ _ _
  have vy : ∀ i, m2.val y i = val0 Y i := fun i => by unfold Mem.val; rw [y2]
  have vz : ∀ i, m2.val z i = val0 Z i := fun i => by unfold Mem.val; rw [z2]
  have ly2 : m2.len y = n := by unfold Mem.len; rw [y2, lY]
  have lz2 : m2.len z = n := by unfold Mem.len; rw [z2, lZ]
  have sZ' : Solves n (triFull a) (val0 Z) (cycU n gamma alpha) := fun i hi => by
    rw [sZ i hi, ← hu i hi]
    show val0 ((m.setBuf y Y) u) i = _
    rw [fu]
    rfl
  have key := C122_change hr.det (C122_split hn t a alpha beta gamma hg hd hau hal) sY sZ' ⟨0, by omega, by simpa [cycU] using hg⟩
  rw [ends hn, ends hn] at key
  have pre : cyclicSolve nd a (beta / gamma) n b u y z m =
      (divC (val0 Y 0 + beta / gamma * val0 Y (n - 1)) (1 + (val0 Z 0 + beta / gamma * val0 Z (n - 1))) >>= fun c => axpyD (-c) m2 z y) := by
    unfold cyclicSolve
    rw [e1, Lalib.ok_bind, e2, Lalib.ok_bind, Mem.rd_ok (m := m2) (p := y) (i := 0) (by omega), Lalib.ok_bind, Mem.rd_ok (m := m2) (p := y) (i := n - 1) (by omega), Lalib.ok_bind,
      Mem.rd_ok (m := m2) (p := z) (i := 0) (by omega), Lalib.ok_bind, Mem.rd_ok (m := m2) (p := z) (i := n - 1) (by omega), Lalib.ok_bind, vy, vy, vz, vz]
  by_cases h0 : 1 + (val0 Z 0 + beta / gamma * val0 Z (n - 1)) = 0
  · right
    refine ⟨?_, val0 Z, key.2 h0⟩
    rw [pre, h0, divC_zero]
    rfl
  · left
    obtain ⟨k1, k2⟩ := key.1 h0
    set c := (val0 Y 0 + beta / gamma * val0 Y (n - 1)) / (1 + (val0 Z 0 + beta / gamma * val0 Z (n - 1))) with hc
    have vx : ∀ i, i < n → val0 (List.zipWith (fun a b => -c * a + b) Z Y) i = val0 Y i - c * val0 Z i := fun i hi => by
      rw [val0_of_lt (by simp [lY, lZ, hi]), List.getElem_zipWith, ← val0_of_lt, ← val0_of_lt]
      ring
    refine ⟨List.zipWith (fun a b => -c * a + b) Z Y, Z, ?_, by simp [lY, lZ], lZ, fun i hi => ?_, fun x' hx' i hi => ?_⟩
    · rw [pre, divC_ok h0, Lalib.ok_bind, ← hc, axpyD_eq (ly2.trans lz2.symm), y2, z2]
      congr 1
      funext w
      by_cases w1 : w = y
      · subst w1
        simp only [Mem.setBuf_self]
      · by_cases w2 : w = z
        · subst w2
          simp only [hm2, Mem.setBuf_self, Mem.setBuf_other _ w1]
        · simp only [hm2, Mem.setBuf_other _ w1, Mem.setBuf_other _ w2]
    · refine Eq.trans ?_ (k1 i hi)
      exact sum_congr rfl fun j hj => by rw [vx j (mem_range.mp hj)]
    · rw [vx i hi]
      exact k2 x' hx' i hi

end

/-- The periodic matrix with `4` on the diagonal and `1` beside it and in the corners, `gamma = 1`: the solution is `(1, 1, 1)`. -/
example : (cyclicSolve (T := ℚ) false ⟨[1, 1], [3, 4, 3], [1, 1]⟩ 1 3 0 1 2 3
    (fun p => if p = 0 then [6, 6, 6] else if p = 1 then [1, 0, 1] else [0, 0, 0])).map (fun m => m 2) = .ok [1, 1, 1] := by
  decide +kernel

/-- With `-2` on the diagonal the periodic matrix is singular, though the tri-diagonal one is not, and the program stops. -/
example : (cyclicSolve (T := ℚ) false ⟨[1, 1], [-3, -2, -3], [1, 1]⟩ 1 3 0 1 2 3
    (fun p => if p = 0 then [6, 6, 6] else if p = 1 then [1, 0, 1] else [0, 0, 0])).map (fun m => m 2) = .error .nonFinite := by
  decide +kernel

end Lalib.Props
