import Verif.Proofs.IeeeSum
import Verif.Proofs.IeeeMono
import Verif.Proofs.EvalSolve

/-! # The recurrences of the solvers over IEEE 754 numbers -/

namespace Lalib

namespace Fp
variable {F : Fmt}

theorem fin_of_div {a b : Fp F} (h : (a / b).IsFin) : a.IsFin ∧ b ≠ nan ∧ ¬ IsZ b :=
  ⟨((isFin_div a b).mp h).1, ((isFin_div a b).mp h).2.1, ((isFin_div a b).mp h).2.2.1⟩

theorem sqrt_nz {a : Fp F} (h0 : ¬ IsZ a) : ¬ IsZ (Sqrt.sqrt a) := by
  intro hz
  obtain ⟨hf, hv⟩ := (isZ_iff _).mp hz
  obtain ⟨ha, hp⟩ := isFin_sqrt_imp hf
  rw [val_sqrt hf] at hv
  have hpos : 0 < a.val := lt_of_le_of_ne hp fun he => h0 ((isZ_iff a).mpr ⟨ha, he.symm⟩)
  have hm : 0 < min a.val 1 := lt_min hpos one_pos
  have h1 : min a.val 1 ≤ Real.sqrt a.val := by
    apply Real.le_sqrt_of_sq_le
    rcases le_total a.val 1 with h | h
    · rw [min_eq_left h]; nlinarith
    · rw [min_eq_right h]; nlinarith
  have h2 : F.rnd (min a.val 1) = min a.val 1 := by
    rcases le_total a.val 1 with h | h
    · rw [min_eq_left h]; exact rnd_val a
    · rw [min_eq_right h]; simpa using rnd_val (1 : Fp F)
  have := F.rnd_mono h1
  rw [h2, hv] at this
  linarith

theorem sq_ok (v : Fp F) (_ : ¬ v < 0) (_ : ¬ IsZ v) : sqrtC v = .ok (Sqrt.sqrt v) ∧ DivAt (Sqrt.sqrt v) :=
  ⟨rfl, divAt _⟩

theorem nn_of_sqrt {a : Fp F} (h : Sqrt.sqrt a ≠ nan) : a ≠ nan := by
  rintro rfl; exact h rfl

theorem not_nan_of_stop {a : Fp F} (h : IsZ a ∨ a < 0) : a ≠ nan := by
  rintro rfl
  rcases h with h | h
  · exact not_isZ_nan h
  · exact not_nan_lt _ h

end Fp

variable {F : Fmt} {n : Nat}

theorem BackSubRec.fin_step {R : Nat → Nat → Fp F} {y x : Nat → Fp F} (h : BackSubRec n R y x) {i : Nat} (hi : i < n)
    (hf : (x i).IsFin) : (y i).IsFin ∧ R i i ≠ .nan ∧ ¬ IsZ (R i i) ∧
      ∀ k, i < k → k < n → (R i k).IsFin ∧ (x k).IsFin := by
  rw [h i hi] at hf
  obtain ⟨h1, h2, h3⟩ := Fp.fin_of_div hf
  obtain ⟨h4, h5⟩ := Fp.isFin_subUp h1
  exact ⟨h4, h2, h3, fun k hk hn => Fp.fin_of_mul _ _ (h5 k hk hn)⟩

/-- One finite component. -/
theorem BackSubRec.fin {R : Nat → Nat → Fp F} {y x : Nat → Fp F} (h : BackSubRec n R y x) {i : Nat} (hi : i < n)
    (hf : (x i).IsFin) {j : Nat} (hij : i ≤ j) (hj : j < n) : (x j).IsFin ∧ (y j).IsFin ∧ R j j ≠ .nan ∧
      ¬ IsZ (R j j) ∧ ∀ k, j < k → k < n → (R j k).IsFin := by
  have hx : (x j).IsFin := by
    rcases Nat.lt_or_eq_of_le hij with hlt | rfl
    · exact ((h.fin_step hi hf).2.2.2 j hlt hj).2
    · exact hf
  obtain ⟨h1, h2, h3, h4⟩ := h.fin_step hj hx
  exact ⟨hx, h1, h2, h3, fun k hk hn => (h4 k hk hn).1⟩

theorem BackSubRec.nn_step {R : Nat → Nat → Fp F} {y x : Nat → Fp F} (h : BackSubRec n R y x) {i : Nat} (hi : i < n)
    (hf : x i ≠ .nan) : y i ≠ .nan ∧ R i i ≠ .nan ∧ ∀ k, i < k → k < n → R i k ≠ .nan ∧ x k ≠ .nan := by
  rw [h i hi] at hf
  obtain ⟨h1, h2⟩ := Fp.nn_of_div _ _ hf
  obtain ⟨h4, h5⟩ := Fp.nn_subUp h1
  exact ⟨h4, h2, fun k hk hn => Fp.nn_of_mul _ _ (h5 k hk hn)⟩

/-- One component that is not NaN. -/
theorem BackSubRec.nn {R : Nat → Nat → Fp F} {y x : Nat → Fp F} (h : BackSubRec n R y x) {i : Nat} (hi : i < n)
    (hf : x i ≠ .nan) {j : Nat} (hij : i ≤ j) (hj : j < n) : x j ≠ .nan ∧ y j ≠ .nan ∧
      ∀ k, j ≤ k → k < n → R j k ≠ .nan := by
  have hx : x j ≠ .nan := by
    rcases Nat.lt_or_eq_of_le hij with hlt | rfl
    · exact ((h.nn_step hi hf).2.2 j hlt hj).2
    · exact hf
  obtain ⟨h1, h2, h4⟩ := h.nn_step hj hx
  refine ⟨hx, h1, fun k hk hn => ?_⟩
  rcases Nat.lt_or_eq_of_le hk with hlt | rfl
  · exact (h4 k hlt hn).1
  · exact h2

theorem FwdSubRec.fin {L : Nat → Nat → Fp F} {b y : Nat → Fp F} (h : FwdSubRec n L b y) {i : Nat} (hi : i < n)
    (hf : (y i).IsFin) {j : Nat} (hj : j ≤ i) : (y j).IsFin ∧ (b j).IsFin ∧ L j j ≠ .nan ∧ ¬ IsZ (L j j) ∧
      ∀ k, k < j → (L j k).IsFin := by
  have step : ∀ i, i < n → (y i).IsFin → (b i).IsFin ∧ L i i ≠ .nan ∧ ¬ IsZ (L i i) ∧
      ∀ k, k < i → (L i k).IsFin ∧ (y k).IsFin := by
    intro i hi hf
    rw [h i hi] at hf
    obtain ⟨h1, h2, h3⟩ := Fp.fin_of_div hf
    obtain ⟨h4, h5⟩ := Fp.isFin_subUp h1
    exact ⟨h4, h2, h3, fun k hk => Fp.fin_of_mul _ _ (h5 k (Nat.zero_le _) hk)⟩
  have hy : (y j).IsFin := by
    rcases Nat.lt_or_eq_of_le hj with hlt | rfl
    · exact ((step i hi hf).2.2.2 j hlt).2
    · exact hf
  obtain ⟨h1, h2, h3, h4⟩ := step j (by omega) hy
  exact ⟨hy, h1, h2, h3, fun k hk => (h4 k hk).1⟩

theorem FwdSubRec.nn {L : Nat → Nat → Fp F} {b y : Nat → Fp F} (h : FwdSubRec n L b y) {i : Nat} (hi : i < n)
    (hf : y i ≠ .nan) {j : Nat} (hj : j ≤ i) : y j ≠ .nan ∧ b j ≠ .nan ∧ ∀ k, k ≤ j → L j k ≠ .nan := by
  have step : ∀ i, i < n → y i ≠ .nan → b i ≠ .nan ∧ L i i ≠ .nan ∧ ∀ k, k < i → L i k ≠ .nan ∧ y k ≠ .nan := by
    intro i hi hf
    rw [h i hi] at hf
    obtain ⟨h1, h2⟩ := Fp.nn_of_div _ _ hf
    obtain ⟨h4, h5⟩ := Fp.nn_subUp h1
    exact ⟨h4, h2, fun k hk => Fp.nn_of_mul _ _ (h5 k (Nat.zero_le _) hk)⟩
  have hy : y j ≠ .nan := by
    rcases Nat.lt_or_eq_of_le hj with hlt | rfl
    · exact ((step i hi hf).2.2 j hlt).2
    · exact hf
  obtain ⟨h1, h2, h4⟩ := step j (by omega) hy
  refine ⟨hy, h1, fun k hk => ?_⟩
  rcases Nat.lt_or_eq_of_le hk with hlt | rfl
  · exact (h4 k hlt).1
  · exact h2

theorem FwdUnitRec.fin {L : Nat → Nat → Fp F} {b y : Nat → Fp F} (h : FwdUnitRec n L b y) {i : Nat} (hi : i < n)
    (hf : (y i).IsFin) {j : Nat} (hj : j ≤ i) : (y j).IsFin ∧ (b j).IsFin ∧ ∀ k, k < j → (L j k).IsFin := by
  have step : ∀ i, i < n → (y i).IsFin → (b i).IsFin ∧ ∀ k, k < i → (L i k).IsFin ∧ (y k).IsFin := by
    intro i hi hf
    rw [h i hi] at hf
    obtain ⟨h4, h5⟩ := Fp.isFin_subUp hf
    exact ⟨h4, fun k hk => Fp.fin_of_mul _ _ (h5 k (Nat.zero_le _) hk)⟩
  have hy : (y j).IsFin := by
    rcases Nat.lt_or_eq_of_le hj with hlt | rfl
    · exact ((step i hi hf).2 j hlt).2
    · exact hf
  obtain ⟨h1, h4⟩ := step j (by omega) hy
  exact ⟨hy, h1, fun k hk => (h4 k hk).1⟩

theorem FwdUnitRec.nn {L : Nat → Nat → Fp F} {b y : Nat → Fp F} (h : FwdUnitRec n L b y) {i : Nat} (hi : i < n)
    (hf : y i ≠ .nan) {j : Nat} (hj : j ≤ i) : y j ≠ .nan ∧ b j ≠ .nan ∧ ∀ k, k < j → L j k ≠ .nan := by
  have step : ∀ i, i < n → y i ≠ .nan → b i ≠ .nan ∧ ∀ k, k < i → L i k ≠ .nan ∧ y k ≠ .nan := by
    intro i hi hf
    rw [h i hi] at hf
    obtain ⟨h4, h5⟩ := Fp.nn_subUp hf
    exact ⟨h4, fun k hk => Fp.nn_of_mul _ _ (h5 k (Nat.zero_le _) hk)⟩
  have hy : y j ≠ .nan := by
    rcases Nat.lt_or_eq_of_le hj with hlt | rfl
    · exact ((step i hi hf).2 j hlt).2
    · exact hf
  obtain ⟨h1, h4⟩ := step j (by omega) hy
  exact ⟨hy, h1, fun k hk => (h4 k hk).1⟩

/-- One finite component of the solution. -/
theorem CholSolveRec.fin {md : Bool} {L : Nat → Nat → Fp F} {b x : Nat → Fp F} (h : CholSolveRec md n L b x) {i : Nat}
    (hi : i < n) (hf : (x i).IsFin) :
    (∀ j, i ≤ j → j < n → (x j).IsFin) ∧ ∀ j, j < n → (b j).IsFin ∧ L j j ≠ .nan ∧ ¬ IsZ (L j j) ∧
      ∀ k, k < j → (L j k).IsFin := by
  obtain ⟨y, h1, h2⟩ := h
  refine ⟨fun j hij hj => (h2.fin hi hf hij hj).1, ?_⟩
  obtain ⟨_, hy, hn1, hn2, _⟩ := h2.fin hi hf (show i ≤ n - 1 by omega) (by omega)
  unfold CholFwdRec at h1
  intro j hj
  split_ifs at h1 with hmd
  · obtain ⟨_, hb, hL⟩ := h1.fin (show n - 1 < n by omega) hy (show j ≤ n - 1 by omega)
    refine ⟨hb, ?_, ?_, fun k hk => (Fp.fin_of_div (hL k hk)).1⟩
    all_goals
      rcases Nat.lt_or_eq_of_le (show j ≤ n - 1 by omega) with hlt | rfl
      · have := Fp.fin_of_div ((h1.fin (show n - 1 < n by omega) hy (Nat.le_refl _)).2.2 j hlt)
        first | exact this.2.1 | exact this.2.2
      · first | exact hn1 | exact hn2
  · obtain ⟨_, hb, hd1, hd2, hL⟩ := h1.fin (show n - 1 < n by omega) hy (show j ≤ n - 1 by omega)
    exact ⟨hb, hd1, hd2, hL⟩

/-- One component of the solution that is not NaN. -/
theorem CholSolveRec.nn {md : Bool} {L : Nat → Nat → Fp F} {b x : Nat → Fp F} (h : CholSolveRec md n L b x) {i : Nat}
    (hi : i < n) (hf : x i ≠ .nan) : ∀ j, j < n → b j ≠ .nan ∧ ∀ k, k ≤ j → L j k ≠ .nan := by
  obtain ⟨y, h1, h2⟩ := h
  obtain ⟨_, hy, hd⟩ := h2.nn hi hf (show i ≤ n - 1 by omega) (by omega)
  unfold CholFwdRec at h1
  intro j hj
  split_ifs at h1 with hmd
  · obtain ⟨_, hb, hL⟩ := h1.nn (show n - 1 < n by omega) hy (show j ≤ n - 1 by omega)
    refine ⟨hb, fun k hk => ?_⟩
    rcases Nat.lt_or_eq_of_le hk with hlt | rfl
    · exact (Fp.nn_of_div _ _ (hL k hlt)).1
    · rcases Nat.lt_or_eq_of_le (show k ≤ n - 1 by omega) with hlt | rfl
      · exact (Fp.nn_of_div _ _ ((h1.nn (show n - 1 < n by omega) hy (Nat.le_refl _)).2.2 k hlt)).2
      · exact hd _ (Nat.le_refl _) hj
  · obtain ⟨_, hb, hL⟩ := h1.nn (show n - 1 < n by omega) hy (show j ≤ n - 1 by omega)
    exact ⟨hb, hL⟩

/-- One finite component of the solution. -/
theorem IluSolveRec.fin {A : Nat → Nat → Fp F} {b x : Nat → Fp F} (h : IluSolveRec n A b x) {i : Nat}
    (hi : i < n) (hf : (x i).IsFin) :
    (∀ j, j < n → (b j).IsFin ∧ ∀ k, k < j → (A j k).IsFin) ∧
      ∀ j, i ≤ j → j < n → (x j).IsFin ∧ A j j ≠ .nan ∧ ¬ IsZ (A j j) ∧ ∀ k, j < k → k < n → (A j k).IsFin := by
  obtain ⟨y, h1, h2⟩ := h
  obtain ⟨_, hy, hn1, hn2, _⟩ := h2.fin hi hf (show i ≤ n - 1 by omega) (by omega)
  refine ⟨fun j hj => ?_, fun j hij hj => ?_⟩
  · exact (h1.fin (show n - 1 < n by omega) hy (show j ≤ n - 1 by omega)).2
  · obtain ⟨a1, _, a2⟩ := h2.fin hi hf hij hj
    exact ⟨a1, a2⟩

/-- One component of the solution that is not NaN. -/
theorem IluSolveRec.nn {A : Nat → Nat → Fp F} {b x : Nat → Fp F} (h : IluSolveRec n A b x) {i : Nat}
    (hi : i < n) (hf : x i ≠ .nan) :
    (∀ j, j < n → b j ≠ .nan ∧ ∀ k, k < j → A j k ≠ .nan) ∧
      ∀ j, i ≤ j → j < n → ∀ k, j ≤ k → k < n → A j k ≠ .nan := by
  obtain ⟨y, h1, h2⟩ := h
  obtain ⟨_, hy, _⟩ := h2.nn hi hf (show i ≤ n - 1 by omega) (by omega)
  refine ⟨fun j hj => ?_, fun j hij hj => ?_⟩
  · exact (h1.nn (show n - 1 < n by omega) hy (show j ≤ n - 1 by omega)).2
  · exact (h2.nn hi hf hij hj).2.2

section tdma
variable {a : TriDiag (Fp F)} {b x D P Q : Nat → Fp F}

theorem TdmaEq.q_fin (h : TdmaEq n a b x D P Q) {i : Nat} (hi : i < n) (hf : (Q i).IsFin) :
    (b i).IsFin ∧ D i ≠ .nan ∧ ¬ IsZ (D i) ∧ (0 < i → (val0 a.dl (i - 1)).IsFin ∧ (Q (i - 1)).IsFin) := by
  cases i with
  | zero =>
    rw [h.q0] at hf
    obtain ⟨h1, h2, h3⟩ := Fp.fin_of_div hf
    exact ⟨h1, h2, h3, fun h => absurd h (by omega)⟩
  | succ i =>
    rw [h.q i hi] at hf
    obtain ⟨h1, h2, h3⟩ := Fp.fin_of_div hf
    obtain ⟨h4, h5⟩ := Fp.fin_of_sub _ _ h1
    exact ⟨h4, h2, h3, fun _ => Fp.fin_of_mul _ _ h5⟩

theorem TdmaEq.q_nn (h : TdmaEq n a b x D P Q) {i : Nat} (hi : i < n) (hf : Q i ≠ .nan) :
    b i ≠ .nan ∧ D i ≠ .nan ∧ (0 < i → val0 a.dl (i - 1) ≠ .nan ∧ Q (i - 1) ≠ .nan) := by
  cases i with
  | zero =>
    rw [h.q0] at hf
    obtain ⟨h1, h2⟩ := Fp.nn_of_div _ _ hf
    exact ⟨h1, h2, fun h => absurd h (by omega)⟩
  | succ i =>
    rw [h.q i hi] at hf
    obtain ⟨h1, h2⟩ := Fp.nn_of_div _ _ hf
    obtain ⟨h4, h5⟩ := Fp.nn_of_sub _ _ h1
    exact ⟨h4, h2, fun _ => Fp.nn_of_mul _ _ h5⟩

theorem down {p : Nat → Prop} (hs : ∀ i, i < n → p i → 0 < i → p (i - 1)) {k : Nat} (hk : k < n) (h : p k) :
    ∀ j, j ≤ k → p j := by
  have : ∀ d, d ≤ k → p (k - d) := by
    intro d
    induction d with
    | zero => intro _; exact h
    | succ d ih =>
      intro hd
      have := hs (k - d) (by omega) (ih (by omega)) (by omega)
      rwa [show k - d - 1 = k - (d + 1) by omega] at this
  intro j hj
  have := this (k - j) (by omega)
  rwa [show k - (k - j) = j by omega] at this

theorem up {p : Nat → Prop} {i : Nat} (hs : ∀ j, i ≤ j → j + 1 < n → p j → p (j + 1)) (h : p i) :
    ∀ j, i ≤ j → j < n → p j := by
  intro j hij
  induction j, hij using Nat.le_induction with
  | base => intro _; exact h
  | succ j hij ih => intro hj; exact hs j hij hj (ih (by omega))

/-- One finite component of the solution. -/
theorem TdmaEq.fin (h : TdmaEq n a b x D P Q) {i : Nat} (hi : i < n) (hf : (x i).IsFin) :
    (∀ j, j < n → (b j).IsFin ∧ D j ≠ .nan ∧ ¬ IsZ (D j) ∧ (j + 1 < n → (val0 a.dl j).IsFin)) ∧
      ∀ j, i ≤ j → j < n → (x j).IsFin ∧ (j + 1 < n → (val0 a.du j).IsFin) := by
  have hx : ∀ j, i ≤ j → j < n → (x j).IsFin := up (fun j _ hj hp => by
    rw [h.back j hj] at hp
    exact (Fp.fin_of_mul _ _ (Fp.fin_of_add _ _ hp).1).2) hf
  have hQ : (Q (n - 1)).IsFin := by rw [← h.last]; exact hx _ (by omega) (by omega)
  have hq := down (n := n) (p := fun j => (Q j).IsFin) (fun j hj hp h0 => ((h.q_fin hj hp).2.2.2 h0).2)
    (show n - 1 < n by omega) hQ
  refine ⟨fun j hj => ?_, fun j hij hj => ⟨hx j hij hj, fun hj' => ?_⟩⟩
  · obtain ⟨h1, h2, h3, _⟩ := h.q_fin hj (hq j (by omega))
    exact ⟨h1, h2, h3, fun hj' => ((h.q_fin hj' (hq (j + 1) (by omega))).2.2.2 (by omega)).1⟩
  · have hp := hx j hij hj
    rw [h.back j hj', h.p j hj'] at hp
    have := (Fp.fin_of_div (Fp.fin_of_mul _ _ (Fp.fin_of_add _ _ hp).1).1).1
    simpa using this

/-- One component of the solution that is not NaN. -/
theorem TdmaEq.nn (h : TdmaEq n a b x D P Q) {i : Nat} (hi : i < n) (hf : x i ≠ .nan) :
    ∀ j, j < n → b j ≠ .nan ∧ val0 a.d j ≠ .nan ∧ (j + 1 < n → val0 a.dl j ≠ .nan ∧ val0 a.du j ≠ .nan) := by
  have hx : ∀ j, i ≤ j → j < n → x j ≠ .nan := up (fun j _ hj hp => by
    rw [h.back j hj] at hp
    exact (Fp.nn_of_mul _ _ (Fp.nn_of_add _ _ hp).1).2) hf
  have hQ : Q (n - 1) ≠ .nan := by rw [← h.last]; exact hx _ (by omega) (by omega)
  have hq := down (n := n) (p := fun j => Q j ≠ .nan) (fun j hj hp h0 => ((h.q_nn hj hp).2.2 h0).2)
    (show n - 1 < n by omega) hQ
  intro j hj
  obtain ⟨h1, h2, _⟩ := h.q_nn hj (hq j (by omega))
  refine ⟨h1, ?_, fun hj' => ?_⟩
  · cases j with
    | zero => rwa [← h.d0]
    | succ j =>
      rw [h.d j hj] at h2
      exact (Fp.nn_of_add _ _ h2).1
  · obtain ⟨_, h3, h4⟩ := h.q_nn hj' (hq (j + 1) (by omega))
    refine ⟨(h4 (by omega)).1, ?_⟩
    rw [h.d j hj', h.p j hj'] at h3
    have := (Fp.nn_of_div _ _ (Fp.nn_of_mul _ _ (Fp.nn_of_add _ _ h3).2).2).1
    intro h0
    rw [h0] at this
    exact this rfl

end tdma

/-! ## The factorisations -/

section fac
variable {A L : Nat → Nat → Fp F}

/-- A pivot that is not NaN has seen no NaN. -/
theorem Chol.Upto.nn {r : Nat} (h : Chol.Upto A L r) (hp : subUp (fun k => L r k * L r k) 0 r (A r r) ≠ .nan) :
    ∀ i j, j ≤ i → i ≤ r → A i j ≠ .nan := by
  induction r using Nat.strong_induction_on with
  | _ r ih =>
    obtain ⟨h0, h1⟩ := Fp.nn_subUp hp
    have hrow : ∀ k, k < r → A r k ≠ .nan ∧ L k k ≠ .nan := by
      intro k hk
      have := (Fp.nn_of_mul _ _ (h1 k (Nat.zero_le _) hk)).1
      rw [h.off r k hk (Nat.le_refl _)] at this
      obtain ⟨h2, h3⟩ := Fp.nn_of_div _ _ this
      exact ⟨(Fp.nn_subUp h2).1, h3⟩
    intro i j hj hi
    rcases Nat.lt_or_eq_of_le hi with hlt | rfl
    · have hd := (hrow i hlt).2
      rw [h.diag i hlt] at hd
      exact ih i hlt ⟨fun r' c hc hr' => h.off r' c hc (by omega), fun r' hr' => h.diag r' (by omega)⟩ (Fp.nn_of_sqrt hd) i j hj
        (Nat.le_refl _)
    · rcases Nat.lt_or_eq_of_le hj with hlt | rfl
      · exact (hrow j hlt).1
      · exact h0

/-- The same for the modified factorisation. -/
theorem modRec_nn {r : Nat} (h : ∀ i j, j ≤ i → i ≤ r → L i j = subUp (fun k => L i k * L j k / L k k) 0 j (A i j))
    (hp : L r r ≠ .nan) : ∀ i j, j ≤ i → i ≤ r → A i j ≠ .nan := by
  have step : ∀ i j, j ≤ i → i ≤ r → L i j ≠ .nan → A i j ≠ .nan ∧ ∀ k, k < j → L i k ≠ .nan ∧ L k k ≠ .nan := by
    intro i j hj hi hn
    rw [h i j hj hi] at hn
    obtain ⟨h0, h1⟩ := Fp.nn_subUp hn
    refine ⟨h0, fun k hk => ?_⟩
    obtain ⟨h2, h3⟩ := Fp.nn_of_div _ _ (h1 k (Nat.zero_le _) hk)
    exact ⟨(Fp.nn_of_mul _ _ h2).1, h3⟩
  intro i j hj hi
  have hd : L i i ≠ .nan := by
    rcases Nat.lt_or_eq_of_le hi with hlt | rfl
    · exact ((step r r (Nat.le_refl _) (Nat.le_refl _) hp).2 i hlt).2
    · exact hp
  rcases Nat.lt_or_eq_of_le hj with hlt | rfl
  · exact (step i j hj hi ((step i i (Nat.le_refl _) hi hd).2 j hlt).1).1
  · exact (step j j hj hi hd).1

/-- With a NaN in row `i` the outcome is that of the leading `i` rows. -/
theorem Chol.decomp_nan (mt mt' : MemType) {l l' : List (Fp F)} {i j : Nat} (hi : i < n)
    (hl : storeLen mt n ≤ l.length) (hl' : storeLen mt' i ≤ l'.length)
    (hA : ∀ i j, j ≤ i → i < n → val0 l (cIndex mt n i j) = A i j)
    (hA' : ∀ r c, c ≤ r → r < i → val0 l' (cIndex mt' i r c) = A r c) (hj : j ≤ i) (hn : A i j = .nan) :
    ∃ c L L', decomp mt n l = .ok (c, L) ∧ decomp mt' i l' = .ok (c, L') := by
  obtain ⟨⟨c, L⟩, e, h⟩ := decomp_raw Fp.sq_ok mt n l hl
  obtain ⟨⟨c', L'⟩, e', h'⟩ := decomp_raw Fp.sq_ok mt' i l' hl'
  have bad : ∀ {n n' : Nat} {ix ix' : Nat → Nat → Nat} {l l' L L' : List (Fp F)} {r : Nat}, r < n' →
      (∀ i j, j ≤ i → i < n → val0 l (ix i j) = A i j) → (∀ i j, j ≤ i → i < n' → val0 l' (ix' i j) = A i j) →
      RStop ix n l r L → Chol.Upto A (fun i j => val0 L' (ix' i j)) r →
      ¬ (¬ Chol.pivot ix' l' L' r < 0 ∧ ¬ IsZ (Chol.pivot ix' l' L' r)) := by
    intro n n' ix ix' l l' L L' r hr hA hA' hS hU hp
    have hlt := hS.lt
    have e := (hS.upto hA (Nat.le_refl r)).pivot hU
    have hpv := hS.piv
    unfold Chol.pivot at hpv hp
    rw [hA r r (Nat.le_refl _) hlt, e] at hpv
    rw [hA' r r (Nat.le_refl _) hr] at hp
    rcases hpv with h | h
    · exact hp.2 h
    · exact hp.1 h
  have low : ∀ {L : List (Fp F)} {r : Nat}, RStop (cIndex mt n) n l r L → r < i := by
    intro L r hS
    by_contra hc
    have hp := Fp.not_nan_of_stop hS.piv
    unfold Chol.pivot at hp
    rw [hA r r (Nat.le_refl _) hS.lt] at hp
    exact (hS.upto hA (Nat.le_refl r)).nn hp i j hj (by omega) hn
  rcases h with ⟨h0, hI⟩ | hS <;> rcases h' with ⟨h0', hI'⟩ | hS'
  · simp only at h0 h0'
    subst h0 h0'
    exact ⟨_, _, _, e, e'⟩
  · simp only at hS' hI
    exact absurd (hI.pos c' (by have := hS'.lt; omega))
      (bad (by have := hS'.lt; omega) hA' hA hS' (hI.upto hA (by have := hS'.lt; omega)))
  · simp only at hS hI'
    exact absurd (hI'.pos c (low hS)) (bad (low hS) hA hA' hS (hI'.upto hA' (low hS)))
  · simp only at hS hS'
    have h1 : ¬ c < c' := fun hlt =>
      absurd (hS'.pos c hlt) (bad (low hS) hA hA' hS (hS'.upto hA' (by omega)))
    have h2 : ¬ c' < c := fun hlt =>
      absurd (hS.pos c' hlt) (bad (by have := low hS; omega) hA' hA hS' (hS.upto hA (by omega)))
    obtain rfl : c = c' := by omega
    exact ⟨_, _, _, e, e'⟩

end fac

end Lalib
