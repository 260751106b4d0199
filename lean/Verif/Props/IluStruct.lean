import Verif.Proofs.IluStruct
import Verif.Spec.Struct

/-! # Property C100: incomplete LU factorisation over the packed matrix classes

`Ilu<T, M>` for the matrix classes that C40 - C43 do not cover. -/

namespace Lalib.Props

open Lalib

variable {T M : Type}

/-! ## Tri-diagonal matrices -/

/-- There is no factorisation object over a tri-diagonal matrix with three rows or more: the constructor asks
for the element `(0, 2)`.  In any arithmetic. -/
theorem C100_tri [Zero T] [Sub T] [Mul T] [CDiv T] [CZero T] (sized : Bool) (n : Nat) (hn : 3 ≤ n) (a : TriDiag T)
    (hw : TriWf a n) : Ilu.new (triMut sized) a = .error (.throw (TriDiag.bandExn sized)) := by
  refine Ilu.Sat.eq_error (Ilu.new_sat (n := n) (m := n) (by show Except.ok (a.d.length, a.d.length) = _; rw [hw.1]) ?_)
  refine Sat.mono (forRet_sat (I := fun i b => i = 0 ∧ TriWf b n) (R := fun _ => False) (Nat.zero_le _) ⟨rfl, hw⟩ ?_)
    (P' := Sum.elim (fun _ => False) fun _ => _) ?_ fun _ h => h
  · rintro i b _ _ ⟨rfl, hb⟩
    have : Ilu.row (triMut sized) n 0 b = .error (.throw (TriDiag.bandExn sized)) := by
      refine Ilu.row_err_up (a' := b) rfl (Ilu.Sat.eq_error ?_)
      refine Sat.mono (forRange_sat (I := fun j c => j ≤ 2 ∧ TriWf c n) (Nat.zero_le _) ⟨by omega, hb⟩ ?_)
        (fun c hc => by have := hc.1; omega) fun _ h => h
      rintro j c _ _ ⟨hj, hc⟩
      have h1 := hc.1
      have h2 := hc.2.1
      have h3 := hc.2.2.1
      have hcase : j = 0 ∨ j = 1 ∨ j = 2 := by omega
      rcases hcase with rfl | rfl | rfl
      · obtain ⟨v, hv⟩ : ∃ v, lrd c.d 0 = .ok v := ⟨c.d[0], lrd_ok (by omega)⟩
        refine Sat.mono (Ilu.upCell_first (P := fun c => TriWf c n) (v := v) hc ?_ ?_) (fun c h => ⟨by omega, h⟩) fun _ h => h.elim
        · show TriDiag.getMut sized c 0 0 = _
          unfold TriDiag.getMut; rw [if_pos rfl, hv]
        · refine ⟨{ c with d := c.d.set 0 v }, ?_, by simpa [TriWf] using hc⟩
          show TriDiag.set sized c 0 0 v = _
          unfold TriDiag.set; rw [if_pos rfl, lwr_ok (by omega)]; rfl
      · obtain ⟨v, hv⟩ : ∃ v, lrd c.du 0 = .ok v := ⟨c.du[0], lrd_ok (by omega)⟩
        refine Sat.mono (Ilu.upCell_first (P := fun c => TriWf c n) (v := v) hc ?_ ?_) (fun c h => ⟨by omega, h⟩) fun _ h => h.elim
        · show TriDiag.getMut sized c 0 1 = _
          unfold TriDiag.getMut; rw [if_neg (by omega), if_pos (by simp [subSize]), hv]
        · refine ⟨{ c with du := c.du.set 0 v }, ?_, by simpa [TriWf] using hc⟩
          show TriDiag.set sized c 0 1 v = _
          unfold TriDiag.set; rw [if_neg (by omega), if_pos (by simp [subSize]), lwr_ok (by omega)]; rfl
      · rw [Ilu.upCell_err (e := .throw (TriDiag.bandExn sized))]
        · exact rfl
        · show TriDiag.getMut sized c 0 2 = _
          unfold TriDiag.getMut; rw [if_neg (by omega), if_neg (by simp [subSize]), if_neg (by omega)]
    rw [this]
    exact rfl
  · rintro (b | b) hb
    · exact absurd hb.1 (by omega)
    · exact hb.elim

/-! ## Upper-triangular matrices -/

/-- Nor over an upper-triangular matrix with two rows or more: the constructor asks for the element `(1, 0)`.
In any arithmetic. -/
theorem C100_upper [Zero T] [Sub T] [Mul T] [CDiv T] [CZero T] (n : Nat) (hn : 2 ≤ n) (a : UTri T) (hs : a.n = n)
    (hl : a.u.length = n * (n + 1) / 2) : Ilu.new uTriMut a = .error (.throw .invalidArgument) := by
  refine Ilu.Sat.eq_error (Ilu.new_sat (n := n) (m := n) (by show Except.ok (a.n, a.n) = _; rw [hs]) ?_)
  refine Sat.mono (forRet_sat (I := fun i b => i ≤ 1 ∧ b.u.length = n * (n + 1) / 2) (R := fun _ => False)
    (Nat.zero_le _) ⟨by omega, hl⟩ ?_) (P' := Sum.elim (fun _ => False) fun _ => _) ?_ fun _ h => h
  · rintro i b _ _ ⟨hi, hb⟩
    have hcase : i = 0 ∨ i = 1 := by omega
    rcases hcase with rfl | rfl
    · unfold Ilu.row
      rw [show forRet 0 0 (Ilu.lowCell uTriMut 0) b = .ok (.inl b) from rfl, ok_bind]
      refine Sat.bind (forRange_sat (I := fun _ (c : UTri T) => c.u.length = n * (n + 1) / 2) (Nat.zero_le _) hb ?_)
        fun c hc => (⟨by omega, hc⟩ : _ ∧ _)
      intro j c _ hj hc
      have hlt : (j + 1) * j / 2 + 0 < c.u.length := by
        rw [hc]
        have : packIdx j 0 = (j + 1) * j / 2 + 0 := packIdx_ge (Nat.zero_le _)
        rw [← this]
        exact packIdx_lt hj (by omega)
      refine Sat.mono (Ilu.upCell_first (P := fun c : UTri T => c.u.length = n * (n + 1) / 2)
        (v := c.u[(j + 1) * j / 2 + 0]) hc ?_ ?_) (fun _ h => h) fun _ h => h.elim
      · show UTri.getMut c 0 j = _
        unfold UTri.getMut; rw [if_pos (Nat.zero_le _), lrd_ok hlt]
      · refine ⟨{ c with u := c.u.set ((j + 1) * j / 2 + 0) c.u[(j + 1) * j / 2 + 0] }, ?_, by simpa using hc⟩
        show UTri.set c 0 j _ = _
        unfold UTri.set; rw [if_pos (Nat.zero_le _), lwr_ok hlt]; rfl
    · have : Ilu.row uTriMut n 1 b = .error (.throw .invalidArgument) := by
        unfold Ilu.row
        have : forRet 0 1 (Ilu.lowCell uTriMut 1) b = .error (.throw .invalidArgument) := by
          show (Ilu.lowCell uTriMut 1 0 b >>= _) = _
          rw [Ilu.lowCell_err (e := .throw .invalidArgument)]
          · rfl
          · show UTri.getMut b 1 0 = _
            unfold UTri.getMut; rw [if_neg (by omega)]
        rw [this]; rfl
      rw [this]
      exact rfl
  · rintro (b | b) hb
    · exact absurd hb.1 (by omega)
    · exact hb.elim

/-! ## Hessenberg matrices -/

section
variable [Field T] [DecidableEq T]

omit [Field T] [DecidableEq T] in
theorem hessMut_get {n : Nat} {tail : Bool} {a : Hess T} (hl : HessLen n tail a.h.length) {i j : Nat} (hi : i < n)
    (hj : j < n) (hij : i ≤ j + 1) [Zero T] : (hessMut : MatOps (Hess T) T).get a i j = .ok (val0 a.h (hOff j + i)) := by
  show Hess.getMut a i j = _
  unfold Hess.getMut
  rw [if_pos hij, ← lrd_val (hess_idx hl ⟨hj, hij, .inl hi⟩)]
  rfl

omit [Field T] [DecidableEq T] in
theorem hessMut_set {n : Nat} {tail : Bool} {a : Hess T} (hl : HessLen n tail a.h.length) {i j : Nat} (hi : i < n)
    (hj : j < n) (hij : i ≤ j + 1) (v : T) :
    (hessMut : MatOps (Hess T) T).set a i j v = .ok { a with h := a.h.set (hOff j + i) v } :=
  Hess.set_band a hij (hess_idx hl ⟨hj, hij, .inl hi⟩) v

/-- Nor over a Hessenberg matrix with three rows or more: the constructor asks for the element `(2, 0)`, unless it
stops before because the first pivot is zero. -/
theorem C100_hess (n : Nat) (hn : 3 ≤ n) (a : Hess T) (tail : Bool) (hs : a.n = n) (hl : HessLen n tail a.h.length)
    (A : Nat → Nat → T) (hA : Shows hessOps n a A) :
    Ilu.new hessMut a = .error (.throw (if A 1 0 ≠ 0 ∧ A 0 0 = 0 then .runtimeError else .invalidArgument)) := by
  have e00 : val0 a.h 0 = A 0 0 := by
    have h1 := hA.2 0 0 (by omega) (by omega)
    have h2 := hessMut_get (i := 0) (j := 0) hl (by omega) (by omega) (by omega)
    exact Except.ok.inj (h2.symm.trans h1)
  have e10 : val0 a.h 1 = A 1 0 := by
    have h1 := hA.2 1 0 (by omega) (by omega)
    have h2 := hessMut_get (i := 1) (j := 0) hl (by omega) (by omega) (by omega)
    exact Except.ok.inj (h2.symm.trans h1)
  rw [← e00, ← e10]
  -- the first row stays as it is
  have row0 : Ilu.row hessMut n 0 a = .ok (.inl a) := by
    have hup : ∀ j, j < n → Ilu.upCell hessMut 0 j a = .ok a := by
      intro j hj
      have hlt := hess_idx hl (⟨hj, by omega, .inl (by omega)⟩ : HessStored n tail 0 j)
      unfold Ilu.upCell
      rw [hessMut_get hl (by omega) hj (by omega), Lalib.ok_bind]
      split_ifs
      · rfl
      · show (forRange 0 0 _ _ >>= _) = _
        rw [forRange_of_le (Nat.le_refl 0), Lalib.ok_bind, hessMut_set hl (by omega) hj (by omega)]
        rw [val0_of_lt hlt, List.set_getElem_self]
    have : Ok (fun c => c = a) (forRange 0 n (Ilu.upCell hessMut 0) a) :=
      forRange_sat (I := fun _ c => c = a) (Nat.zero_le _) rfl fun j c _ hj hc => by
        rw [hc, hup j hj]; exact rfl
    obtain ⟨c, e, rfl⟩ := Ok.exists this
    unfold Ilu.row
    rw [show forRet 0 0 (Ilu.lowCell hessMut 0) c = .ok (.inl c) from rfl, Lalib.ok_bind]
    simp only []
    rw [e]
    rfl
  -- what the second row does
  have row1 : Ok (Sum.elim (fun c : Hess T => HessLen n tail c.h.length ∧ ¬ (val0 a.h 1 ≠ 0 ∧ val0 a.h 0 = 0))
      (fun _ => val0 a.h 1 ≠ 0 ∧ val0 a.h 0 = 0)) (Ilu.row hessMut n 1 a) := by
    unfold Ilu.row
    refine Sat.bind (P := Sum.elim (fun c : Hess T => HessLen n tail c.h.length ∧ ¬ (val0 a.h 1 ≠ 0 ∧ val0 a.h 0 = 0))
      (fun _ => val0 a.h 1 ≠ 0 ∧ val0 a.h 0 = 0)) ?_ ?_
    · show Ok _ (Ilu.lowCell hessMut 1 0 a >>= _)
      refine Sat.bind (P := Sum.elim (fun c : Hess T => HessLen n tail c.h.length ∧
        ¬ (val0 a.h 1 ≠ 0 ∧ val0 a.h 0 = 0)) (fun _ => val0 a.h 1 ≠ 0 ∧ val0 a.h 0 = 0)) ?_ ?_
      · unfold Ilu.lowCell
        rw [hessMut_get hl (by omega) (by omega) (by omega), Lalib.ok_bind,
          hessMut_get (i := 0) (j := 0) hl (by omega) (by omega) (by omega), Lalib.ok_bind]
        rw [show hOff 0 + 1 = 1 from rfl, show hOff 0 + 0 = 0 from rfl]
        by_cases h1 : val0 a.h 1 = 0
        · rw [if_neg (show ¬ ¬ IsZ (val0 a.h 1) from fun h => h h1)]
          exact ⟨hl, fun h => h.1 h1⟩
        · rw [if_pos (show ¬ IsZ (val0 a.h 1) from h1)]
          by_cases h0 : val0 a.h 0 = 0
          · rw [if_isZ h0]
            exact ⟨h1, h0⟩
          · rw [if_not_isZ h0, show Ilu.reduce hessMut a 1 0 0 (val0 a.h 1) = .ok (val0 a.h 1) from rfl, Lalib.ok_bind,
              divC_ok h0, Lalib.ok_bind, hessMut_set hl (by omega) (by omega) (by omega), Lalib.ok_bind]
            exact ⟨by simpa using hl, fun h => h0 h.2⟩
      · rintro (c | c) hc <;> exact hc
    · rintro (b | b) hb
      · simp only []
        refine Sat.bind (forRange_sat (I := fun _ (c : Hess T) => HessLen n tail c.h.length) (by omega) hb.1 ?_)
          fun c hc => (⟨hc, hb.2⟩ : _ ∧ _)
        intro j c h1j hj hc
        unfold Ilu.upCell
        rw [hessMut_get hc (by omega) hj (by omega), Lalib.ok_bind]
        split_ifs
        · exact hc
        · have : Ilu.reduce hessMut c 1 j 1 (val0 c.h (hOff j + 1)) =
              .ok (val0 c.h (hOff j + 1) - val0 c.h (hOff 0 + 1) * val0 c.h (hOff j + 0)) := by
            unfold Ilu.reduce
            rw [forRange_head (by omega), hessMut_get hc (by omega) (by omega) (by omega), Lalib.ok_bind,
              hessMut_get hc (by omega) (by omega) (by omega), Lalib.ok_bind]
            rfl
          rw [this, Lalib.ok_bind, hessMut_set hc (by omega) hj (by omega)]
          show HessLen n tail (List.length (List.set _ _ _))
          rw [List.length_set]; exact hc
      · exact hb
  -- the third row
  have row2 : ∀ c : Hess T, Ilu.row hessMut n 2 c = .error (.throw .invalidArgument) := by
    intro c
    unfold Ilu.row
    have : forRet 0 2 (Ilu.lowCell hessMut 2) c = .error (.throw .invalidArgument) := by
      show (Ilu.lowCell hessMut 2 0 c >>= _) = _
      rw [Ilu.lowCell_err (e := .throw .invalidArgument)]
      · rfl
      · show Hess.getMut c 2 0 = _
        unfold Hess.getMut; rw [if_neg (by omega)]
    rw [this]; rfl
  refine Ilu.Sat.eq_error (Ilu.new_sat (n := n) (m := n) (by show Except.ok (a.n, a.n) = _; rw [hs]) ?_)
  rw [forRet_head (by omega), row0, Lalib.ok_bind]
  simp only []
  rw [forRet_head (by omega)]
  obtain ⟨b, e, hb⟩ := Ok.exists row1
  rw [e, Lalib.ok_bind]
  rcases b with b | b
  · simp only []
    rw [forRet_head (by omega), row2 b, if_neg hb.2]
    exact rfl
  · have hb : val0 a.h 1 ≠ 0 ∧ val0 a.h 0 = 0 := hb
    rw [if_pos hb]
    exact rfl

/-! ## Small matrices -/

/-- The classes for which every element of an `n x n` matrix is stored: the accessors of the constructor, those of
`solve`, and the invariant of the objects. -/
inductive Filled (T : Type) [Zero T] (n : Nat) : {M : Type} → MatOps M T → MatOps M T → (M → Prop) → Prop
  | hess (tail : Bool) : n ≤ 2 → Filled T n hessMut hessOps (fun a => a.n = n ∧ HessLen n tail a.h.length)
  | tri (sized : Bool) : n ≤ 2 → Filled T n (triMut sized) (triOps sized) (fun a => TriWf a n)
  | upper : n ≤ 1 → Filled T n uTriMut uTriOps (fun a => a.n = n ∧ a.u.length = n * (n + 1) / 2)

omit [Field T] [DecidableEq T] in
theorem filled_rep [Zero T] {n : Nat} {opsM ops : MatOps M T} {ok : M → Prop} (h : Filled T n opsM ops ok) :
    Rep opsM n n (fun a V => ok a ∧ Shows ops n a V) := by
  cases h with
  | hess tail hn =>
    have hget : ∀ (a : Hess T) i j, HessLen n tail a.h.length → i < n → j < n → hessOps.get a i j = .ok (val0 a.h (hOff j + i)) := by
      intro a i j hl hi hj
      show Hess.get a i j = _
      rw [Hess.get_band a (by omega)]
      exact lrd_val (hess_idx hl ⟨hj, by omega, .inl hi⟩)
    refine ⟨fun a V h => h.2.1, ?_, ?_⟩
    · rintro a V i j ⟨⟨_, hl⟩, hS⟩ hi hj
      rw [hessMut_get hl hi hj (by omega), ← hget a i j hl hi hj]
      exact hS.2 i j hi hj
    · rintro a V i j v ⟨⟨ha, hl⟩, hS⟩ hi hj _
      have hl' : HessLen n tail (a.h.set (hOff j + i) v).length := by rw [List.length_set]; exact hl
      refine ⟨_, hessMut_set hl hi hj (by omega) v, ⟨ha, hl'⟩, hS.1, fun r c hr hc => ?_⟩
      rw [hget _ r c hl' hr hc]
      show Except.ok (val0 (a.h.set _ v) _) = _
      rw [val0_set (hess_idx hl ⟨hj, by omega, .inl hi⟩)]
      unfold updAt
      by_cases he : r = i ∧ c = j
      · rw [if_pos he, if_pos (by rw [he.1, he.2])]
      · rw [if_neg he, if_neg fun h' => he (hOff_inj (by omega) (by omega) h'), ← hS.2 r c hr hc, hget a r c hl hr hc]
  | tri sized hn =>
    have hidx : ∀ i j, i < n → j < n → (i = j ∨ (i = 0 ∧ j = 1) ∨ (i = 1 ∧ j = 0)) := by omega
    have hs1 : subSize 1 1 = 0 := by simp [subSize]
    have hs0 : subSize 0 1 = 2 ^ 64 - 1 := by simp [subSize]
    refine ⟨fun a V h => h.2.1, ?_, ?_⟩
    · rintro a V i j ⟨hw, hS⟩ hi hj
      rw [← hS.2 i j hi hj]
      show TriDiag.getMut sized a i j = TriDiag.get a i j
      unfold TriDiag.getMut TriDiag.get
      rcases hidx i j hi hj with rfl | ⟨rfl, rfl⟩ | ⟨rfl, rfl⟩
      · rw [if_pos rfl, if_pos rfl]
      · rw [if_neg (by omega), if_pos hs1.symm, if_neg (by omega), if_pos hs1.symm]
      · rw [if_neg (by omega), if_neg (by rw [hs0]; omega), if_pos rfl, if_neg (by omega), if_neg (by rw [hs0]; omega), if_pos rfl]
    · rintro a V i j v ⟨hw, hS⟩ hi hj _
      obtain ⟨h1, h2, h3, h4⟩ := hw
      have g00 : ∀ (b : TriDiag T) i, TriDiag.get b i i = lrd b.d i := fun b i => by unfold TriDiag.get; rw [if_pos rfl]
      have g01 : ∀ (b : TriDiag T), TriDiag.get b 0 1 = lrd b.du 0 := fun b => by
        unfold TriDiag.get; rw [if_neg (by omega), if_pos hs1.symm]
      have g10 : ∀ (b : TriDiag T), TriDiag.get b 1 0 = lrd b.dl 0 := fun b => by
        unfold TriDiag.get; rw [if_neg (by omega), if_neg (by rw [hs0]; omega), if_pos rfl]
      have old : ∀ r c, r < n → c < n → TriDiag.get a r c = .ok (V r c) := hS.2
      rcases hidx i j hi hj with rfl | ⟨rfl, rfl⟩ | ⟨rfl, rfl⟩
      · refine ⟨{ a with d := a.d.set i v }, ?_, ⟨by simpa using h1, h2, h3, h4⟩, ?_, fun r c hr hc => ?_⟩
        · show TriDiag.set sized a i i v = _
          unfold TriDiag.set; rw [if_pos rfl, lwr_ok (by omega)]; rfl
        · show Except.ok ((a.d.set i v).length, (a.d.set i v).length) = _
          rw [List.length_set, h1]
        · show TriDiag.get _ r c = _
          have := old r c hr hc
          rcases hidx r c hr hc with rfl | ⟨rfl, rfl⟩ | ⟨rfl, rfl⟩
          · rw [g00] at this ⊢
            show lrd (a.d.set i v) r = _
            rw [lrd_val (by rw [List.length_set]; omega), val0_set (by omega)]
            rw [lrd_val (by omega)] at this
            unfold updAt
            by_cases he : r = i
            · rw [if_pos he, if_pos ⟨he, he⟩]
            · rw [if_neg he, if_neg fun h => he h.1, this]
          · rw [g01] at this ⊢
            show lrd a.du 0 = _
            rw [this, updAt, if_neg (by omega)]
          · rw [g10] at this ⊢
            show lrd a.dl 0 = _
            rw [this, updAt, if_neg (by omega)]
      · refine ⟨{ a with du := a.du.set 0 v }, ?_, ⟨h1, h2, by simpa using h3, h4⟩, hS.1, fun r c hr hc => ?_⟩
        · show TriDiag.set sized a 0 1 v = _
          unfold TriDiag.set; rw [if_neg (by omega), if_pos hs1.symm, lwr_ok (by omega)]; rfl
        · show TriDiag.get _ r c = _
          have := old r c hr hc
          rcases hidx r c hr hc with rfl | ⟨rfl, rfl⟩ | ⟨rfl, rfl⟩
          · rw [g00] at this ⊢
            show lrd a.d r = _
            rw [this, updAt, if_neg (by omega)]
          · rw [g01]
            show lrd (a.du.set 0 v) 0 = _
            rw [lrd_val (by rw [List.length_set]; omega), val0_set (by omega), if_pos rfl, updAt, if_pos ⟨rfl, rfl⟩]
          · rw [g10] at this ⊢
            show lrd a.dl 0 = _
            rw [this, updAt, if_neg (by omega)]
      · refine ⟨{ a with dl := a.dl.set 0 v }, ?_, ⟨h1, by simpa using h2, h3, h4⟩, hS.1, fun r c hr hc => ?_⟩
        · show TriDiag.set sized a 1 0 v = _
          unfold TriDiag.set; rw [if_neg (by omega), if_neg (by rw [hs0]; omega), if_pos rfl, lwr_ok (by omega)]; rfl
        · show TriDiag.get _ r c = _
          have := old r c hr hc
          rcases hidx r c hr hc with rfl | ⟨rfl, rfl⟩ | ⟨rfl, rfl⟩
          · rw [g00] at this ⊢
            show lrd a.d r = _
            rw [this, updAt, if_neg (by omega)]
          · rw [g01] at this ⊢
            show lrd a.du 0 = _
            rw [this, updAt, if_neg (by omega)]
          · rw [g10]
            show lrd (a.dl.set 0 v) 0 = _
            rw [lrd_val (by rw [List.length_set]; omega), val0_set (by omega), if_pos rfl, updAt, if_pos ⟨rfl, rfl⟩]
  | upper hn =>
    refine ⟨fun a V h => h.2.1, ?_, ?_⟩
    · rintro a V i j ⟨⟨_, hl⟩, hS⟩ hi hj
      rw [← hS.2 i j hi hj]
      show UTri.getMut a i j = UTri.get a i j
      unfold UTri.getMut UTri.get
      rw [if_pos (by omega), if_pos (by omega)]
    · rintro a V i j v ⟨⟨ha, hl⟩, hS⟩ hi hj _
      obtain rfl : n = 1 := by omega
      obtain rfl : i = 0 := by omega
      obtain rfl : j = 0 := by omega
      have hl : a.u.length = 1 := hl
      refine ⟨{ a with u := a.u.set 0 v }, ?_, ⟨ha, by rw [List.length_set, hl]⟩, hS.1, fun r c hr hc => ?_⟩
      · show UTri.set a 0 0 v = _
        unfold UTri.set
        rw [if_pos (Nat.le_refl 0), lwr_ok (by omega)]
        rfl
      · obtain rfl : r = 0 := by omega
        obtain rfl : c = 0 := by omega
        show UTri.get _ 0 0 = _
        unfold UTri.get
        rw [if_pos (Nat.le_refl 0), updAt, if_pos ⟨rfl, rfl⟩]
        show lrd (a.u.set 0 v) 0 = _
        rw [lrd_val (by rw [List.length_set]; omega), val0_set (by omega), if_pos rfl]

/-- Where every element is stored, the constructor does what it does for dense matrices: it stores the
factorisation, or throws `runtime_error` if there is none. -/
theorem C100_small {n : Nat} {opsM ops : MatOps M T} {ok : M → Prop} (h : Filled T n opsM ops ok) (a : M)
    (A : Nat → Nat → T) (hok : ok a) (hA : Shows ops n a A) :
    (∃ a' F, Ilu.new opsM a = .ok a' ∧ ok a' ∧ Shows ops n a' F ∧ IsIlu n A F) ∨
      (Ilu.new opsM a = .error (.throw .runtimeError) ∧ ¬ ∃ F, IsIlu n A F) := by
  rcases (Ilu.pair_spec (ops := ops) (filled_rep h) (fun a V h => h.2) ⟨hok, hA⟩).1 with ⟨a', F, e, ⟨h1, h2⟩, h3⟩ | h
  · exact .inl ⟨a', F, e, h1, h2, h3⟩
  · exact .inr h

/-- And `solve` solves the system. -/
theorem C100_small_solves {n : Nat} {opsM ops : MatOps M T} {ok : M → Prop} (h : Filled T n opsM ops ok) (a : M)
    (A : Nat → Nat → T) (hok : ok a) (hA : Shows ops n a A) (hf : NoFill n A) (hr : Regular A n) :
    ∃ a', Ilu.new opsM a = .ok a' ∧ ∀ b : List T, b.length = n →
      ∃ x, Ilu.solve ops a' b = .ok x ∧ x.length = n ∧ Solves n A (val0 x) (val0 b) :=
  (Ilu.pair_spec (ops := ops) (filled_rep h) (fun _ _ h => h.2) ⟨hok, hA⟩).2 hf hr

end

/-! ## Lower-triangular and Hermitian matrices -/

/-- The classes that keep `(i, j)` and `(j, i)` in one place; `mk n l` is the `n x n` object with the elements `l`. -/
inductive Packed (T : Type) : {M : Type} → MatOps M T → (Nat → List T → M) → Prop
  | lower : Packed T lTriOps LTri.mk
  | herm : Packed T hermOps Herm.mk

namespace Packed

variable {ops : MatOps M T} {mk : Nat → List T → M}

theorem shape (h : Packed T ops mk) (n : Nat) (l : List T) : ops.shape (mk n l) = .ok (n, n) := by cases h <;> rfl

theorem get (h : Packed T ops mk) (n : Nat) (l : List T) (i j : Nat) : ops.get (mk n l) i j = lrd l (packIdx i j) := by
  cases h <;> rfl

theorem set (h : Packed T ops mk) (n : Nat) (l : List T) (i j : Nat) (v : T) :
    ops.set (mk n l) i j v = (do let l ← lwr l (packIdx i j) v; .ok (mk n l)) := by cases h <;> rfl

end Packed

section
variable [Field T] [DecidableEq T] {ops : MatOps M T} {mk : Nat → List T → M}

/-- No out-of-range access, no division by zero: the constructor returns an object of the same size or throws
`runtime_error`. -/
theorem C100_packed_total (h : Packed T ops mk) (n : Nat) (l : List T) (hl : l.length = n * (n + 1) / 2) :
    (∃ l', Ilu.new ops (mk n l) = .ok (mk n l') ∧ l'.length = l.length) ∨
      Ilu.new ops (mk n l) = .error (.throw .runtimeError) := by
  let P : M → Prop := fun a => ∃ l', a = mk n l' ∧ l'.length = n * (n + 1) / 2
  have hget : ∀ a, P a → ∀ i j, i < n → j < n → ∃ v, ops.get a i j = .ok v := by
    rintro _ ⟨l', rfl, hl'⟩ i j hi hj
    exact ⟨_, (h.get n l' i j).trans (lrd_val (by rw [hl']; exact packIdx_lt hi hj))⟩
  have hset : ∀ a, P a → ∀ i j v, i < n → j < n → ∃ a', ops.set a i j v = .ok a' ∧ P a' := by
    rintro _ ⟨l', rfl, hl'⟩ i j v hi hj
    refine ⟨mk n (l'.set (packIdx i j) v), ?_, _, rfl, by rw [List.length_set, hl']⟩
    rw [h.set, lwr_ok (by rw [hl']; exact packIdx_lt hi hj)]; rfl
  have hred : ∀ a, P a → ∀ i j c v, i < n → j < n → c ≤ n → Ok (fun _ => True) (Ilu.reduce ops a i j c v) := by
    intro a ha i j c v hi hj hc
    refine forRange_sat (I := fun _ _ => True) (Nat.zero_le _) trivial fun k s _ hk _ => ?_
    obtain ⟨x, hx⟩ := hget a ha i k hi (by omega)
    obtain ⟨y, hy⟩ := hget a ha k j (by omega) hj
    rw [hx, Lalib.ok_bind, hy, Lalib.ok_bind]
    trivial
  have key : Sat P (fun e => e = .throw .runtimeError) (Ilu.new ops (mk n l)) := by
    refine Ilu.new_sat (h.shape n l) ?_
    refine forRet_sat (I := fun _ => P) (R := fun _ => _) (Nat.zero_le _) ⟨l, rfl, hl⟩ fun i a _ hi ha => ?_
    unfold Ilu.row
    refine Sat.bind (P := Sum.elim P fun _ => True) (forRet_sat (I := fun _ => P) (R := fun _ => True)
      (Nat.zero_le _) ha fun j a _ hj ha => ?_) ?_
    · unfold Ilu.lowCell
      obtain ⟨v, hv⟩ := hget a ha i j hi (by omega)
      obtain ⟨d, hd⟩ := hget a ha j j (by omega) (by omega)
      rw [hv, Lalib.ok_bind, hd, Lalib.ok_bind]
      by_cases h0 : v = 0
      · rw [if_neg (show ¬ ¬ IsZ v from fun h => h h0)]
        exact ha
      · rw [if_pos (show ¬ IsZ v from h0)]
        by_cases hd0 : d = 0
        · rw [if_isZ hd0]; trivial
        · rw [if_not_isZ hd0]
          obtain ⟨s, e, _⟩ := Ok.exists (hred a ha i j j v hi (by omega) (by omega))
          obtain ⟨a', e', ha'⟩ := hset a ha i j (s / d) hi (by omega)
          rw [e, Lalib.ok_bind, divC_ok hd0, Lalib.ok_bind, e']
          exact ha'
    · rintro (b | b) hb
      · simp only []
        refine Sat.bind (forRange_sat (I := fun _ => P) (by omega) hb fun j a _ hj ha => ?_) fun _ h => h
        unfold Ilu.upCell
        obtain ⟨v, hv⟩ := hget a ha i j hi hj
        rw [hv, Lalib.ok_bind]
        by_cases h0 : v = 0
        · rw [if_neg (show ¬ ¬ IsZ v from fun h => h h0)]
          exact ha
        · rw [if_pos (show ¬ IsZ v from h0)]
          obtain ⟨s, e, _⟩ := Ok.exists (hred a ha i j i v hi hj (by omega))
          obtain ⟨a', e', ha'⟩ := hset a ha i j s hi hj
          rw [e, Lalib.ok_bind, e']
          exact ha'
      · exact rfl
  cases e : Ilu.new ops (mk n l) with
  | ok a =>
    rw [e] at key
    obtain ⟨l', rfl, hl'⟩ := key
    exact .inl ⟨l', rfl, by rw [hl', hl]⟩
  | error e' =>
    rw [e] at key
    exact .inr (by rw [show e' = _ from key])

/-- Diagonal matrices are right. -/
theorem C100_packed_diag (h : Packed T ops mk) (n : Nat) (l : List T) (hl : l.length = n * (n + 1) / 2)
    (A : Nat → Nat → T) (hA : Shows ops n (mk n l) A) (hz : ∀ i j, i < n → j < n → i ≠ j → A i j = 0)
    (hd : ∀ i, i < n → A i i ≠ 0) :
    ∃ a', Ilu.new ops (mk n l) = .ok a' ∧ Shows ops n a' A ∧ ∀ b : List T, b.length = n →
      ∃ x, Ilu.solve ops a' b = .ok x ∧ x.length = n ∧ Solves n A (val0 x) (val0 b) := by
  let R : M → (Nat → Nat → T) → Prop := fun a V => (∃ l', a = mk n l' ∧ l'.length = n * (n + 1) / 2) ∧ Shows ops n a V ∧
    ∀ i j, i < n → j < n → i ≠ j → V i j = 0
  have hR : Rep ops n n R := by
    refine ⟨fun a V h => h.2.1.1, fun a V i j h => h.2.1.2 i j, ?_⟩
    rintro _ V i j v ⟨⟨l', rfl, hl'⟩, hS, hV⟩ hi hj h0
    obtain rfl : i = j := by by_contra hc; exact h0 (hV i j hi hj hc)
    have hlt : packIdx i i < l'.length := by rw [hl']; exact packIdx_lt hi hj
    refine ⟨mk n (l'.set (packIdx i i) v), ?_, ⟨_, rfl, by rw [List.length_set, hl']⟩, ⟨h.shape n _, ?_⟩, ?_⟩
    · rw [h.set, lwr_ok hlt]; rfl
    · intro r c hr hc
      have hlt' : packIdx r c < l'.length := by rw [hl']; exact packIdx_lt hr hc
      have old := hS.2 r c hr hc
      rw [h.get, lrd_val hlt'] at old
      rw [h.get, lrd_val (by rw [List.length_set]; exact hlt'), val0_set hlt]
      unfold updAt
      by_cases he : r = i ∧ c = i
      · rw [if_pos he, if_pos (by rw [he.1, he.2])]
      · rw [if_neg he, if_neg, old]
        intro h'
        rcases packIdx_inj h' with h' | h' <;> exact he h'
    · intro r c hr hc hrc
      rw [updAt, if_neg (by omega)]
      exact hV r c hr hc hrc
  have hI : IsIlu n A A := by
    refine ⟨fun _ _ _ _ h => h, fun i j hi hj h0 => ?_, fun i j hj hi _ => hd j (by omega)⟩
    obtain rfl : i = j := by by_contra hc; exact h0 (hz i j hi hj hc)
    unfold luProd
    rw [Finset.sum_eq_single i]
    · rw [unitLow, if_neg (by omega), if_pos rfl, upper, if_pos (Nat.le_refl _), one_mul]
    · intro k hk hki
      have hk := Finset.mem_range.mp hk
      unfold upper
      split_ifs
      · rw [hz k i hk hi hki, mul_zero]
      · rw [mul_zero]
    · intro hc; exact absurd (Finset.mem_range.mpr hi) hc
  have hf : NoFill n A := fun i j k hi hj hki hkj h1 _ => absurd (hz i k hi (by omega) (by omega)) h1
  rcases Ilu.new_spec hR le_rfl (show R (mk n l) A from ⟨⟨l, rfl, hl⟩, hA, hz⟩) with ⟨F, a', e, ha', hF⟩ | ⟨e, _, hS⟩
  · have hFA := hF.unique hI
    have hS : Shows ops n a' A := ⟨ha'.2.1.1, fun i j hi hj => by rw [ha'.2.1.2 i j hi hj, hFA i j hi hj]⟩
    refine ⟨a', e, hS, fun b hb => ?_⟩
    obtain ⟨x, ex, hx, hsol⟩ := Ilu.solve_ok hS.2 hd hb
    refine ⟨x, ex, hx, fun i hi => ?_⟩
    rw [← hsol i hi]
    unfold mulVec
    exact Finset.sum_congr rfl fun j hj => by rw [hI.exact hf i j hi (Finset.mem_range.mp hj)]
  · exact absurd ⟨A, hI⟩ (hS.no_ilu le_rfl)

/-- The symmetric matrix of order 2 with the diagonal `p`, `d` and `c` beside it. -/
def sym2 (p c d : T) (i j : Nat) : T := if i = j then (if i = 0 then p else d) else c

/-- What the constructor makes of a matrix of order 2: the quotient `c / p` lands in both `(1, 0)` and `(0, 1)`. -/
theorem C100_packed_two (h : Packed T ops mk) (p c d : T) (hp : p ≠ 0) (hc : c ≠ 0) (hd : d ≠ 0) :
    Ilu.new ops (mk 2 [p, c, d]) = .ok (mk 2 [p, c / p, d - c / p * (c / p)]) := by
  cases h <;>
  simp [Ilu.new, Ilu.decomp, Ilu.row, Ilu.lowCell, Ilu.upCell, Ilu.reduce, forRet, forUpRet, forRange, forUp, lTriOps,
    hermOps, LTri.get, LTri.set, Herm.get, Herm.set, packIdx, lrd, lwr, hp, hc, hd, divC_ok hp, throwIf]

omit [Field T] [DecidableEq T] in
theorem packed_shows (h : Packed T ops mk) (p c d : T) : Shows ops 2 (mk 2 [p, c, d]) (sym2 p c d) := by
  refine ⟨h.shape 2 _, fun i j hi hj => ?_⟩
  rw [h.get]
  have h1 : i = 0 ∨ i = 1 := by omega
  have h2 : j = 0 ∨ j = 1 := by omega
  rcases h1 with rfl | rfl <;> rcases h2 with rfl | rfl <;> rfl

omit [DecidableEq T] in
theorem mulVec_two (A : Nat → Nat → T) (x : Nat → T) (i : Nat) : mulVec 2 A x i = A i 0 * x 0 + A i 1 * x 1 := by
  simp [mulVec, Finset.sum_range_succ]

/-- The exact domain for order 2: solving with the factorisation gives the solution for every right-hand side
exactly if the matrix is diagonal or its first element is 1.  (The pivots are those of the factorisation, so that
`solve` divides by nothing but non-zero numbers.) -/
theorem C100_packed_iff (h : Packed T ops mk) (p c d : T) (hp : p ≠ 0) (hd : d ≠ 0) (hq : d ≠ c / p * (c / p)) :
    (∃ a', Ilu.new ops (mk 2 [p, c, d]) = .ok a' ∧ ∀ b : List T, b.length = 2 →
      ∃ x, Ilu.solve ops a' b = .ok x ∧ x.length = 2 ∧ Solves 2 (sym2 p c d) (val0 x) (val0 b)) ↔ c = 0 ∨ p = 1 := by
  by_cases hc : c = 0
  · refine iff_of_true ?_ (.inl hc)
    subst hc
    obtain ⟨a', e, _, hs⟩ := C100_packed_diag h 2 [p, 0, d] rfl (sym2 p 0 d) (packed_shows h p 0 d)
      (fun i j _ _ hij => if_neg hij) (fun i hi => by
        have h1 : i = 0 ∨ i = 1 := by omega
        rcases h1 with rfl | rfl
        · exact hp
        · exact hd)
    exact ⟨a', e, hs⟩
  · have hn := C100_packed_two h p c d hp hc hd
    have hS := packed_shows h p (c / p) (d - c / p * (c / p))
    have hdF : ∀ i, i < 2 → sym2 p (c / p) (d - c / p * (c / p)) i i ≠ 0 := by
      intro i hi
      have h1 : i = 0 ∨ i = 1 := by omega
      rcases h1 with rfl | rfl
      · exact hp
      · exact sub_ne_zero.mpr hq
    have lu : ∀ i j, i < 2 → j < 2 → luProd 2 (sym2 p (c / p) (d - c / p * (c / p))) i j =
        if i = 0 ∧ j = 1 then c / p else sym2 p c d i j := by
      intro i j hi hj
      have h1 : i = 0 ∨ i = 1 := by omega
      have h2 : j = 0 ∨ j = 1 := by omega
      rcases h1 with rfl | rfl <;> rcases h2 with rfl | rfl <;>
        simp [luProd, unitLow, upper, sym2, Finset.sum_range_succ, hp]
    constructor
    · rintro ⟨a', e, hall⟩
      right
      rw [hn] at e
      injection e with e
      subst e
      obtain ⟨x, ex, hx, hsol⟩ := hall [0, 1] rfl
      obtain ⟨x', ex', hx', hsol'⟩ := Ilu.solve_ok hS.2 hdF (b := [0, 1]) rfl
      rw [ex] at ex'
      injection ex' with ex'
      subst ex'
      have h0 := hsol 0 (by omega)
      have h1 := hsol 1 (by omega)
      have h0' := hsol' 0 (by omega)
      rw [mulVec_two] at h0 h1 h0'
      rw [lu 0 0 (by omega) (by omega), lu 0 1 (by omega) (by omega), if_neg (by omega), if_pos ⟨rfl, rfl⟩] at h0'
      have e00 : sym2 p c d 0 0 = p := rfl
      have e01 : sym2 p c d 0 1 = c := rfl
      have e10 : sym2 p c d 1 0 = c := rfl
      have e11 : sym2 p c d 1 1 = d := rfl
      have b0 : val0 [(0 : T), 1] 0 = 0 := rfl
      have b1 : val0 [(0 : T), 1] 1 = 1 := rfl
      rw [e00, b0] at h0 h0'
      rw [e01] at h0
      rw [e10, e11, b1] at h1
      by_contra hp1
      have hx1 : val0 x 1 = 0 := by
        have : (c - c / p) * val0 x 1 = 0 := by linear_combination h0 - h0'
        rcases mul_eq_zero.mp this with h | h
        · exfalso
          have : c = c / p := sub_eq_zero.mp h
          rw [eq_div_iff hp] at this
          exact hp1 (mul_left_cancel₀ hc (by rw [this, mul_one]))
        · exact h
      have hx0 : val0 x 0 = 0 := by
        rw [hx1, mul_zero, add_zero] at h0
        exact (mul_eq_zero.mp h0).resolve_left hp
      rw [hx0, hx1] at h1
      simp at h1
    · rintro (h0 | rfl)
      · exact absurd h0 hc
      · refine ⟨_, hn, fun b hb => ?_⟩
        obtain ⟨x, ex, hx, hsol⟩ := Ilu.solve_ok hS.2 hdF hb
        refine ⟨x, ex, hx, fun i hi => ?_⟩
        rw [← hsol i hi, mulVec_two, mulVec_two, lu i 0 hi (by omega), lu i 1 hi (by omega), if_neg (by omega)]
        by_cases hi0 : i = 0
        · subst hi0
          rw [if_pos ⟨rfl, rfl⟩, div_one]; rfl
        · rw [if_neg (by omega)]

end

/-! ## Examples -/

/-- A regular symmetric matrix for which `solve` gives a wrong result: `2 x + y = 3`, `x + 2 y = 3` has the
solution `(1, 1)`. -/
theorem C100_packed_false :
    Ilu.new lTriOps (⟨2, [2, 1, 2]⟩ : LTri ℚ) = .ok ⟨2, [2, 1 / 2, 7 / 4]⟩ ∧
    Ilu.solve lTriOps (⟨2, [2, 1 / 2, 7 / 4]⟩ : LTri ℚ) [3, 3] = .ok [9 / 7, 6 / 7] ∧
    Ilu.new hermOps (⟨2, [2, 1, 2]⟩ : Herm ℚ) = .ok ⟨2, [2, 1 / 2, 7 / 4]⟩ ∧
    Ilu.solve hermOps (⟨2, [2, 1 / 2, 7 / 4]⟩ : Herm ℚ) [3, 3] = .ok [9 / 7, 6 / 7] ∧
    ¬ Solves 2 (sym2 (2 : ℚ) 1 2) (val0 [9 / 7, 6 / 7]) (val0 [3, 3]) := by
  refine ⟨by decide +kernel, by decide +kernel, by decide +kernel, by decide +kernel, fun h => ?_⟩
  have := h 0 (by omega)
  rw [mulVec_two] at this
  norm_num [sym2, val0] at this

example : TriWf (⟨[1, 1], [4, 4, 4], [1, 1]⟩ : TriDiag ℚ) 3 := by simp [TriWf]
example : Ilu.new (triMut false) (⟨[1, 1], [4, 4, 4], [1, 1]⟩ : TriDiag ℚ) = .error (.throw .invalidArgument) := by
  decide +kernel
example : Ilu.new (triMut true) (⟨[1, 1], [4, 4, 4], [1, 1]⟩ : TriDiag ℚ) = .error (.throw .outOfRange) := by
  decide +kernel
example : Ilu.new (triMut true) (⟨[1], [4, 4], [1]⟩ : TriDiag ℚ) = .ok ⟨[1 / 4], [4, 15 / 4], [1]⟩ := by
  decide +kernel
example : Ilu.solve (triOps true) (⟨[1 / 4], [4, 15 / 4], [1]⟩ : TriDiag ℚ) [5, 5] = .ok [1, 1] := by
  decide +kernel
example : Ilu.new uTriMut (⟨2, [1, 2, 3]⟩ : UTri ℚ) = .error (.throw .invalidArgument) := by decide +kernel
example : Ilu.new uTriMut (⟨1, [5]⟩ : UTri ℚ) = .ok ⟨1, [5]⟩ := by decide +kernel
example : HessLen 3 false 8 := by simp [HessLen]
example : Ilu.new hessMut (⟨3, [1, 2, 3, 4, 5, 6, 7, 8]⟩ : Hess ℚ) = .error (.throw .invalidArgument) := by decide +kernel
example : Ilu.new hessMut (⟨3, [0, 2, 3, 4, 5, 6, 7, 8]⟩ : Hess ℚ) = .error (.throw .runtimeError) := by decide +kernel
example : Ilu.new hessMut (⟨2, [1, 2, 3, 4]⟩ : Hess ℚ) = .ok ⟨2, [1, 2, 3, -2]⟩ := by decide +kernel
example : Filled ℚ 2 hessMut hessOps (fun a => a.n = 2 ∧ HessLen 2 false a.h.length) := .hess false (by omega)
example : Ilu.new lTriOps (⟨2, [2, 0, 5]⟩ : LTri ℚ) = .ok ⟨2, [2, 0, 5]⟩ := by decide +kernel
example : Ilu.new lTriOps (⟨2, [0, 1, 5]⟩ : LTri ℚ) = .error (.throw .runtimeError) := by decide +kernel

end Lalib.Props
