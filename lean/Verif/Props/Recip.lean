import Verif.Props.SoftFloat
import Verif.Proofs.IeeeErr

/-! # Property C96: `v / alpha` in IEEE arithmetic

`operator/(DynVec, T)` (`vec_ops.hpp:437-449`) multiplies by the reciprocal of `alpha`.  Here: what that gives, when it is the
quotient, how far it is from the quotient otherwise, and where it is not a quotient at all. -/

namespace Lalib.Props

open Lalib Fp

variable {F : Fmt}

/-- The call returns for all vectors and all numbers, NaN, infinities and zero included: each element is multiplied by the rounded
reciprocal. -/
theorem C96_value (x : List (Fp F)) (a : Fp F) : divOp x a = .ok (x.map fun v => 1 / a * v) := by
  unfold divOp divOpAt reciprocal
  rw [Fp.divC_eq, ok_bind, scalCore_eq (by simp [Mem.len]), Mem.setBuf_self, Mem.setBuf_setBuf, Lalib.noexcept_ok, ok_bind]
  simp [Mem.ofList]

/-- When the reciprocal is exact, every element is the IEEE quotient, sign of zero, infinities and NaN included. -/
theorem C96_exact_partial (x : List (Fp F)) (a : Fp F) (ha : a.IsFin) (hr : (1 / a).IsFin) (he : (1 / a).val * a.val = 1) :
    divOp x a = .ok (x.map fun v => v / a) := by
  rw [C96_value]
  congr 1
  refine List.map_congr_left fun v _ => ?_
  obtain ⟨t, y, hy, rfl⟩ := ha.cases
  have hy0 : y ≠ 0 := by
    rintro rfl
    simp [val] at he
  have e1 : (1 / fin t y hy : Fp F) = round F t (1 / (fin t y hy : Fp F).val) := by
    rw [one_eq, div_eq]
    simp [div, hy0, val]
  have hv : (1 / fin t y hy : Fp F).val = 1 / (fin t y hy : Fp F).val := by
    have : (fin t y hy : Fp F).val ≠ 0 := fun h => by rw [h, mul_zero] at he; exact zero_ne_one he
    field_simp; exact he
  obtain ⟨s, z, hz, e2⟩ := hr.cases
  have hs : s = t := by
    have hyp : 0 < y := lt_of_le_of_ne hy.1 (Ne.symm hy0)
    have hne : (1 / (fin t y hy : Fp F).val) ≠ 0 := by cases t <;> simp [val, hy0]
    rw [e1] at e2
    unfold Fp.round at e2
    split at e2
    · injection e2 with e3 _
      rw [← e3]
      cases t <;> simp [val, hyp, hyp.le]
    · exact absurd e2 (by simp)
  subst hs
  rw [e2] at hv ⊢
  have hz0 : z ≠ 0 := by
    rintro rfl
    rw [e2] at he
    cases s <;> simp [val] at he
  cases v with
  | nan => rfl
  | inf r => simp [mul_eq, div_eq, mul, div, hz0, Bool.xor_comm]
  | fin r w hw =>
    simp only [mul_eq, div_eq, mul, div, if_neg hy0]
    rw [hv, Bool.xor_comm, one_div, mul_comm, ← div_eq_mul_inv]

/-- The reciprocal neither overflows nor underflows, and the element is finite: the error is at most `2u + u²`, relative to the
quotient, and half the smallest positive number when the product underflows.  (A division would give `u`.) -/
theorem C96_error_partial (x : List (Fp F)) (a : Fp F) (ha : a.IsFin) (hr : (1 / a).IsFin) (hn : F.normal ≤ |1 / a.val|) :
    ∃ y, divOp x a = .ok y ∧ y.length = x.length ∧ ∀ (i : Nat) (v r : Fp F), x[i]? = some v → y[i]? = some r → r.IsFin →
      |r.val - v.val / a.val| ≤ (2 * F.u + F.u ^ 2) * |v.val / a.val| + F.eta ∧
      (F.normal ≤ |(1 / a).val * v.val| → |r.val - v.val / a.val| ≤ (2 * F.u + F.u ^ 2) * |v.val / a.val|) := by
  refine ⟨_, C96_value x a, by simp, fun i v r hv hy hf => ?_⟩
  rw [List.getElem?_map, hv] at hy
  obtain rfl : 1 / a * v = r := by simpa using hy
  have hq : (1 / a).val = F.rnd (1 / a.val) := by
    rw [val_div hr ha]; simp [val]
  have h0 := F.u_nonneg
  have e1 : |(1 / a).val - 1 / a.val| ≤ F.u * |1 / a.val| := by rw [hq]; exact F.rnd_err_normal hn
  have eq : v.val / a.val = 1 / a.val * v.val := by ring
  have e2 : |(1 / a).val * v.val - v.val / a.val| ≤ F.u * |v.val / a.val| := by
    rw [eq, ← sub_mul, abs_mul, abs_mul, ← mul_assoc]
    exact mul_le_mul_of_nonneg_right e1 (abs_nonneg _)
  have e3 : |(1 / a).val * v.val| ≤ (1 + F.u) * |v.val / a.val| := by
    have := abs_add_le ((1 / a).val * v.val - v.val / a.val) (v.val / a.val)
    rw [sub_add_cancel] at this
    linarith
  have key : ∀ E, |F.rnd ((1 / a).val * v.val) - (1 / a).val * v.val| ≤ F.u * |(1 / a).val * v.val| + E →
      |(1 / a * v).val - v.val / a.val| ≤ (2 * F.u + F.u ^ 2) * |v.val / a.val| + E := by
    intro E h
    rw [val_mul hf]
    have t := abs_add_le (F.rnd ((1 / a).val * v.val) - (1 / a).val * v.val) ((1 / a).val * v.val - v.val / a.val)
    rw [sub_add_sub_cancel] at t
    have := mul_le_mul_of_nonneg_left e3 h0
    nlinarith
  refine ⟨key _ ?_, fun h => by simpa using key 0 (by simpa using F.rnd_err_normal h)⟩
  rcases F.rnd_err ((1 / a).val * v.val) with h | h
  · linarith [F.eta_pos]
  · have := mul_nonneg h0 (abs_nonneg ((1 / a).val * v.val))
    linarith

/-- The reciprocal of a finite number is infinite exactly when the number is zero or too small. -/
theorem C96_overflow_iff (a : Fp F) (ha : a.IsFin) : (∃ s, 1 / a = inf s) ↔ IsZ a ∨ F.top ≤ F.rnd |1 / a.val| := by
  obtain ⟨t, y, hy, rfl⟩ := ha.cases
  have e : (1 / fin t y hy : Fp F) = if y = 0 then inf t else round F t (1 / (fin t y hy : Fp F).val) := by
    rw [one_eq, div_eq]; simp [div, val]
  rw [e]
  by_cases h : y = 0
  · simp [h, isZ_eq, isZero]
  · rw [if_neg h]
    have hz : ¬ IsZ (fin t y hy : Fp F) := h
    simp only [hz, false_or]
    constructor
    · rintro ⟨s, hs⟩
      by_contra hc
      have := (isFin_round (F := F) t (1 / (fin t y hy : Fp F).val)).mpr (not_le.mp hc)
      rw [hs] at this
      exact this
    · intro hc
      unfold Fp.round
      rw [dif_neg (not_lt.mpr hc)]
      exact ⟨_, rfl⟩

/-- Then zeros become NaN and all other finite elements become infinite.  For `a` not zero the quotients of the zeros are zeros, so
the result is wrong. -/
theorem C96_overflow_false (x : List (Fp F)) (a : Fp F) (s : Bool) (hr : 1 / a = inf s) :
    ∃ y, divOp x a = .ok y ∧ ∀ (i : Nat) (v r : Fp F), x[i]? = some v → y[i]? = some r → v.IsFin →
      (IsZ v → r = nan ∧ (a.IsFin → ¬ IsZ a → IsZ (v / a))) ∧ (¬ IsZ v → ∃ t, r = inf t) := by
  refine ⟨_, C96_value x a, fun i v r hv hy hf => ?_⟩
  rw [List.getElem?_map, hv] at hy
  obtain rfl : 1 / a * v = r := by simpa using hy
  rw [hr]
  obtain ⟨t, w, hw, rfl⟩ := hf.cases
  refine ⟨fun hz => ⟨inf_mul_zero s hz, fun ha hna => ?_⟩, fun hz => ?_⟩
  · obtain ⟨t', y, hy', rfl⟩ := ha.cases
    have hy0 : ¬ y = 0 := hna
    have hw0 : w = 0 := hz
    subst hw0
    have e : (fin t 0 hw / fin t' y hy' : Fp F) = round F (t ^^ t') 0 := by
      simp [div_eq, div, hy0, val]
    rw [e, Fp.isZ_iff]
    have hfin : (round F (t ^^ t') 0 : Fp F).IsFin := by rw [isFin_round]; simpa [F.rnd_zero] using F.top_pos
    exact ⟨hfin, by rw [val_round hfin, F.rnd_zero]⟩
  · have hw0 : ¬ w = 0 := hz
    exact ⟨s ^^ t, by simp [mul_eq, mul, hw0]⟩

/-- The reciprocal of a power of two is exact unless it overflows or falls below the smallest positive number. -/
theorem C96_power_of_two_partial (x : List (Fp F)) (a : Fp F) (ha : a.IsFin) (k : ℤ) (hk : |a.val| = 2 ^ k) (h1 : F.emin ≤ -k)
    (h2 : -k < F.emax) : divOp x a = .ok (x.map fun v => v / a) := by
  have ha0 : a.val ≠ 0 := fun h => by rw [h, abs_zero] at hk; exact (zpow_pos (by norm_num : (0 : ℝ) < 2) k).ne hk
  have hz : ¬ IsZ a := fun h => ha0 ((Fp.isZ_iff a |>.mp h).2)
  have hn : a ≠ nan := by rintro rfl; exact ha
  have hm := F.isMag_pow h1 h2
  have habs : |1 / a.val| = 2 ^ (-k) := by rw [abs_div, abs_one, hk, zpow_neg, one_div]
  have h1v : (1 : Fp F).val = 1 := by simp
  have hr : (1 / a).IsFin := by
    rw [isFin_div]
    refine ⟨trivial, hn, hz, fun _ => ?_⟩
    rw [h1v, habs, hm.2.1]
    exact hm.2.2
  refine C96_exact_partial x a ha hr ?_
  rw [val_div hr ha, h1v]
  have : F.rnd (1 / a.val) = 1 / a.val := by
    rcases abs_choice (1 / a.val) with h | h
    · rw [← h, habs, hm.2.1]
    · have e : 1 / a.val = -2 ^ (-k) := by rw [← habs, h, neg_neg]
      rw [e, F.rnd_neg, hm.2.1]
  rw [this, one_div, inv_mul_cancel₀ ha0]

/-- Quotients and vectors divided by a number, computed. -/
private theorem run (u : List Dbl) (al : Dbl) (hu : u.all Sf.ok = true) (hal : Sf.ok al = true) {w : List Dbl} (h : divOp u al = .ok w) :
    divOp (u.map Sf.toFp) (Sf.toFp al) = .ok (w.map Sf.toFp) := by
  rw [(C95_vec (fun _ => []) (fun _ => allNum_of_ok rfl) 0 0 (.leaf 0) [] u [] (allNum_of_ok hu) (allNum_of_ok rfl) al
    (Sf.ok_is hal)).2.2.2.2.2.2.2, h]
  rfl

private theorem quot (a b : Dbl) (ha : Sf.ok a = true) (hb : Sf.ok b = true) {c : Dbl} (h : Sf.div a b = c) :
    Sf.toFp a / Sf.toFp b = Sf.toFp c := by
  rw [← h]
  exact Sf.is_toFp (Sf.is_div (Sf.ok_is ha) (Sf.ok_is hb))

private theorem val_is {s : Bool} {m : ℕ} {e : ℤ} {b : Fp F} (h : Sf.Is (.fin s m e) b) :
    b.IsFin ∧ b.val = (if s then -1 else 1) * (m * 2 ^ e) := by
  cases b with
  | fin t x hx => exact ⟨trivial, by rw [Sf.val_fin, ← h.1, h.2]⟩
  | _ => exact h.elim

/-- `double`: `{49, 5} / 49` is `{1 - 2^-53, 7352815718155911 * 2^-56}`, though the IEEE quotients are 1 and one unit more; and with
the smallest positive number `d`, `{0, d} / d` is `{NaN, ∞}`, though the quotients are 0 and 1. -/
theorem C96_quotient_false :
    (let x := [lit false 49 1, lit false 5 1].map Sf.toFp
     let a := Sf.toFp (lit false 49 1)
     divOp x a = .ok ([.fin false 9007199254740991 (-53), .fin false 7352815718155911 (-56)].map Sf.toFp) ∧
     x.map (fun v => v / a) = [lit false 1 1, .fin false 7352815718155912 (-56)].map Sf.toFp ∧
     divOp x a ≠ .ok (x.map fun v => v / a)) ∧
    (let x := [lit false 0 1, lit false 1 (2 ^ 1074)].map Sf.toFp
     let a := Sf.toFp (lit false 1 (2 ^ 1074))
     divOp x a = .ok [nan, inf false] ∧ x.map (fun v => v / a) = [lit false 0 1, lit false 1 1].map Sf.toFp) := by
  have h1 := run [lit false 49 1, lit false 5 1] (lit false 49 1) (by decide +kernel) (by decide +kernel)
    (w := [.fin false 9007199254740991 (-53), .fin false 7352815718155911 (-56)]) (by decide +kernel)
  have h2 : ([lit false 49 1, lit false 5 1].map Sf.toFp).map (fun v => v / Sf.toFp (lit false 49 1)) =
      [lit false 1 1, .fin false 7352815718155912 (-56)].map Sf.toFp := by
    simp only [List.map]
    rw [quot _ _ (by decide +kernel) (by decide +kernel) (c := lit false 1 1) (by decide +kernel),
      quot _ _ (by decide +kernel) (by decide +kernel) (c := .fin false 7352815718155912 (-56)) (by decide +kernel)]
  refine ⟨⟨h1, h2, fun h => ?_⟩, ⟨run _ _ (w := [.nan, .inf false]) (by decide +kernel) (by decide +kernel) (by decide +kernel), ?_⟩⟩
  · rw [h1, h2] at h
    injection h with h
    simp only [List.map, List.cons.injEq] at h
    have e1 := val_is (Sf.ok_is (F := binary64) (a := .fin false 7352815718155911 (-56)) (by decide +kernel))
    have e2 := val_is (Sf.ok_is (F := binary64) (a := .fin false 7352815718155912 (-56)) (by decide +kernel))
    rw [h.2.1] at e1
    have := e1.2.symm.trans e2.2
    norm_num at this
  · simp only [List.map]
    rw [quot _ _ (by decide +kernel) (by decide +kernel) (c := lit false 0 1) (by decide +kernel),
      quot _ _ (by decide +kernel) (by decide +kernel) (c := lit false 1 1) (by decide +kernel)]

/-- The hypotheses of the error bound hold for division by 49 (and the results above are within it). -/
example : (Sf.toFp (lit false 49 1)).IsFin ∧ (1 / Sf.toFp (lit false 49 1)).IsFin ∧
    binary64.normal ≤ |1 / (Sf.toFp (lit false 49 1)).val| := by
  have h : Sf.Is (lit false 49 1) (Sf.toFp (lit false 49 1)) := Sf.ok_is (by decide +kernel)
  have h' := Sf.is_div Sf.is_one h
  have e : lit false 49 1 = .fin false (49 * 2 ^ 47) (-47) := by decide +kernel
  have h2 := val_is (e ▸ h)
  obtain ⟨h1, h2⟩ := (e ▸ h2 : (Sf.toFp (lit false 49 1)).IsFin ∧ _)
  refine ⟨h1, ?_, ?_⟩
  · rw [show Sf.div 1 (lit false 49 1) = .fin false 5882252574524729 (-58) by decide +kernel] at h'
    exact (val_is h').1
  · rw [h2]
    have h6 : binary64.normal ≤ (2 : ℝ) ^ (-6 : ℤ) := zpow_le_zpow_right₀ (by norm_num) (by decide)
    refine h6.trans ?_
    norm_num [abs_of_pos]

/-- Those of the theorem about powers of two, for division by -8. -/
example (x : List (Fp binary64)) : divOp x (Sf.toFp (lit true 8 1)) = .ok (x.map fun v => v / Sf.toFp (lit true 8 1)) := by
  have h : Sf.Is (lit true 8 1) (Sf.toFp (lit true 8 1)) := Sf.ok_is (by decide +kernel)
  rw [show lit true 8 1 = .fin true (2 ^ 52) (-49) by decide +kernel] at h ⊢
  obtain ⟨h1, h2⟩ := val_is h
  refine C96_power_of_two_partial x _ h1 3 ?_ (by decide) (by decide)
  rw [h2]
  norm_num

/-- Overflow of the reciprocal, a number that is not zero. -/
example : ∃ (a : Fp binary64) (s : Bool), a.IsFin ∧ ¬ IsZ a ∧ 1 / a = inf s := by
  have h : Sf.Is (F := binary64) (.fin false 1 (-1074)) (Sf.toFp (.fin false 1 (-1074))) := Sf.ok_is (by decide +kernel)
  refine ⟨_, false, (val_is h).1, ?_, ?_⟩
  · rw [← Sf.is_isZ h]
    decide +kernel
  · have h' := Sf.is_div Sf.is_one h
    rw [show Sf.div 1 (.fin false 1 (-1074)) = (.inf false : Dbl) by decide +kernel] at h'
    exact Sf.is_toFp h'

end Lalib.Props
