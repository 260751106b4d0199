import Verif.Model.Lapack
import Verif.Proofs.Tdma

/-! # Lemmas about the LAPACK backend: the reference `?gtsv` -/

namespace Lalib.Lapack

variable {T : Type}

theorem val0_map [Zero T] {len i : Nat} (h : i < len) (f : Nat → T) :
    val0 ((List.range len).map f) i = f i := by
  rw [val0_of_lt (by simpa using h)]
  simp

variable [Field T] [LinearOrder T]

/-- Row `r` of the system after the elimination of the columns below `i`. -/
def cur (n i : Nat) (s : Gt T) (x : Nat → T) (r : Nat) : T :=
  if r < i then s.d r * x r + s.du r * x (r + 1) + (if r + 2 < n then s.dl r * x (r + 2) else 0)
  else (if r = i then 0 else s.dl (r - 1) * x (r - 1)) + s.d r * x r +
    (if r + 1 < n then s.du r * x (r + 1) else 0)

/-- `x` solves the current system, with right-hand side `c * b_j`. -/
def CurSol (n i : Nat) (s : Gt T) (x : Nat → T) (c : T) (j : Nat) : Prop :=
  ∀ r, r < n → cur n i s x r = c * s.b r j

/-- Invariant of the elimination. -/
structure Inv (n : Nat) (s0 : Gt T) (i : Nat) (s : Gt T) : Prop where
  sol : ∀ x c j, CurSol n i s x c j ↔ CurSol n 0 s0 x c j
  piv : ∀ r, r < i → s.d r ≠ 0

/-- The outcome "info = i + 1". -/
structure Sing (n : Nat) (s0 : Gt T) (i : Nat) (s : Gt T) : Prop where
  inv : Inv n s0 i s
  lt : i < n
  zd : s.d i = 0
  zl : i + 1 < n → s.dl i = 0

omit [LinearOrder T] in
theorem cur_other {n i : Nat} {s t : Gt T} {x : Nat → T} {r : Nat} (h1 : r ≠ i) (h2 : r ≠ i + 1)
    (hd : t.d r = s.d r) (hu : t.du r = s.du r) (hl : r < i → t.dl r = s.dl r)
    (hl' : i + 1 < r → t.dl (r - 1) = s.dl (r - 1)) :
    cur n (i + 1) t x r = cur n i s x r := by
  unfold cur
  by_cases h : r < i
  · rw [if_pos (by omega), if_pos h, hd, hu, hl h]
  · rw [if_neg (by omega), if_neg h, if_neg h2, if_neg h1, hd, hu, hl' (by omega)]

omit [LinearOrder T] in
theorem cur_at (n i : Nat) (s : Gt T) (x : Nat → T) (hi : i + 1 < n) :
    cur n i s x i = s.d i * x i + s.du i * x (i + 1) := by
  unfold cur
  rw [if_neg (by omega), if_pos rfl, if_pos hi, zero_add]

omit [LinearOrder T] in
theorem cur_next (n i : Nat) (s : Gt T) (x : Nat → T) :
    cur n i s x (i + 1) = s.dl i * x i + s.d (i + 1) * x (i + 1) +
      (if i + 2 < n then s.du (i + 1) * x (i + 2) else 0) := by
  unfold cur
  rw [if_neg (by omega), if_neg (by omega), Nat.add_sub_cancel]

omit [LinearOrder T] in
theorem cur_at' (n i : Nat) (s : Gt T) (x : Nat → T) :
    cur n (i + 1) s x i = s.d i * x i + s.du i * x (i + 1) + (if i + 2 < n then s.dl i * x (i + 2) else 0) := by
  unfold cur
  rw [if_pos (by omega)]

omit [LinearOrder T] in
theorem cur_next' (n i : Nat) (s : Gt T) (x : Nat → T) :
    cur n (i + 1) s x (i + 1) = s.d (i + 1) * x (i + 1) + (if i + 2 < n then s.du (i + 1) * x (i + 2) else 0) := by
  unfold cur
  rw [if_neg (by omega), if_pos rfl, zero_add]

omit [LinearOrder T] in
/-- The two rows are replaced by an invertible combination. -/
theorem curSol_iff {n i : Nat} {s t : Gt T} (hi : i + 1 < n) (f : T)
    (ho : ∀ x r, r ≠ i → r ≠ i + 1 → cur n (i + 1) t x r = cur n i s x r)
    (hb : ∀ r, r ≠ i → r ≠ i + 1 → t.b r = s.b r)
    (h : (∀ x, cur n (i + 1) t x i = cur n i s x i ∧
          cur n (i + 1) t x (i + 1) = cur n i s x (i + 1) - f * cur n i s x i) ∧
        (∀ j, t.b i j = s.b i j ∧ t.b (i + 1) j = s.b (i + 1) j - f * s.b i j) ∨
      (∀ x, cur n (i + 1) t x i = cur n i s x (i + 1) ∧
          cur n (i + 1) t x (i + 1) = cur n i s x i - f * cur n i s x (i + 1)) ∧
        (∀ j, t.b i j = s.b (i + 1) j ∧ t.b (i + 1) j = s.b i j - f * s.b (i + 1) j)) (x : Nat → T) (c : T)
    (j : Nat) : CurSol n (i + 1) t x c j ↔ CurSol n i s x c j := by
  have key : (cur n (i + 1) t x i = c * t.b i j ∧ cur n (i + 1) t x (i + 1) = c * t.b (i + 1) j) ↔
      (cur n i s x i = c * s.b i j ∧ cur n i s x (i + 1) = c * s.b (i + 1) j) := by
    rcases h with ⟨h, h'⟩ | ⟨h, h'⟩ <;> rw [(h x).1, (h x).2, (h' j).1, (h' j).2]
    · constructor
      · rintro ⟨e1, e2⟩; exact ⟨e1, by linear_combination e2 + f * e1⟩
      · rintro ⟨e1, e2⟩; exact ⟨e1, by linear_combination e2 - f * e1⟩
    · constructor
      · rintro ⟨e1, e2⟩; exact ⟨by linear_combination e2 + f * e1, e1⟩
      · rintro ⟨e1, e2⟩; exact ⟨e2, by linear_combination e1 - f * e2⟩
  constructor
  · intro hx r hr
    by_cases h1 : r = i
    · rw [h1]; exact (key.mp ⟨hx i (by omega), hx (i + 1) hi⟩).1
    by_cases h2 : r = i + 1
    · rw [h2]; exact (key.mp ⟨hx i (by omega), hx (i + 1) hi⟩).2
    have := hx r hr
    rwa [ho x r h1 h2, hb r h1 h2] at this
  · intro hx r hr
    by_cases h1 : r = i
    · rw [h1]; exact (key.mpr ⟨hx i (by omega), hx (i + 1) hi⟩).1
    by_cases h2 : r = i + 1
    · rw [h2]; exact (key.mpr ⟨hx i (by omega), hx (i + 1) hi⟩).2
    have := hx r hr
    rwa [← ho x r h1 h2, ← hb r h1 h2] at this

theorem step_sat [IsStrictOrderedRing T] {n i : Nat} {s0 s : Gt T} (hi : i + 1 < n) (h : Inv n s0 i s) :
    Ok (fun r => match r with
      | .inl t => Inv n s0 (i + 1) t
      | .inr (info, t) => info = i + 1 ∧ t = s ∧ Sing n s0 i t) (gtStep n i s) := by
  unfold gtStep
  by_cases hc : |s.dl i| ≤ |s.d i|
  · rw [if_pos hc]
    by_cases hd : s.d i = 0
    · rw [if_pos hd]
      refine ⟨rfl, rfl, h, by omega, hd, fun _ => ?_⟩
      rw [hd, abs_zero] at hc
      exact abs_nonpos_iff.mp hc
    · rw [if_neg hd]
      have hf : s.dl i / s.d i * s.d i = s.dl i := div_mul_cancel₀ _ hd
      refine ⟨fun x c j => (curSol_iff hi (s.dl i / s.d i) (fun x r h1 h2 => ?_) (fun r h1 h2 => ?_)
        (Or.inl ⟨fun x => ⟨?_, ?_⟩, fun j => ⟨?_, ?_⟩⟩) x c j).trans (h.sol x c j), fun r hr => ?_⟩
      · refine cur_other h1 h2 ?_ rfl (fun _ => ?_) (fun _ => ?_)
        · simp only [Function.update_of_ne h2]
        · simp only; split_ifs <;> simp [h1]
        · simp only
          split_ifs
          · rw [Function.update_of_ne (by omega)]
          · rfl
      · simp only [Function.update_of_ne h2]
      · rw [cur_at', cur_at n i s x hi]
        simp only
        rw [Function.update_of_ne (by omega)]
        split_ifs <;> simp
      · rw [cur_next', cur_at n i s x hi, cur_next]
        simp only [Function.update_self]
        linear_combination x i * hf
      · simp
      · simp
      · simp only
        rw [Function.update_of_ne (by omega)]
        by_cases h1 : r = i
        · rw [h1]; exact hd
        · exact h.piv r (by omega)
  · rw [if_neg hc]
    have hl : s.dl i ≠ 0 := by
      intro h0
      rw [h0, abs_zero] at hc
      exact hc (abs_nonneg _)
    have hf : s.d i / s.dl i * s.dl i = s.d i := div_mul_cancel₀ _ hl
    refine ⟨fun x c j => (curSol_iff hi (s.d i / s.dl i) (fun x r h1 h2 => ?_) (fun r h1 h2 => ?_)
      (Or.inr ⟨fun x => ⟨?_, ?_⟩, fun j => ⟨?_, ?_⟩⟩) x c j).trans (h.sol x c j), fun r hr => ?_⟩
    · refine cur_other h1 h2 ?_ ?_ (fun _ => ?_) (fun _ => ?_)
      · simp only [Function.update_of_ne h2, Function.update_of_ne h1]
      · simp only [Function.update_of_ne h1]
        split_ifs <;> simp [h2]
      · simp only; split_ifs <;> simp [h1]
      · simp only
        split_ifs
        · rw [Function.update_of_ne (by omega)]
        · rfl
    · simp only [Function.update_of_ne h2, Function.update_of_ne h1]
    · rw [cur_at', cur_next]
      simp only [Function.update_self]
      rw [Function.update_of_ne (by omega)]
      simp only [Function.update_self]
      split_ifs <;> simp
    · rw [cur_next', cur_at n i s x hi, cur_next]
      simp only [Function.update_self]
      rw [Function.update_of_ne (by omega)]
      split_ifs
      · simp only [Function.update_self]
        linear_combination x i * hf
      · linear_combination x i * hf
    · simp
    · simp
    · simp only
      by_cases h1 : r = i
      · rw [h1, Function.update_of_ne (by omega), Function.update_self]; exact hl
      · rw [Function.update_of_ne (by omega), Function.update_of_ne h1]; exact h.piv r (by omega)

theorem elim_sat [IsStrictOrderedRing T] {n : Nat} (hn : 1 ≤ n) (s0 : Gt T) :
    Ok (fun r => (r.1 = 0 ∧ Inv n s0 (n - 1) r.2 ∧ r.2.d (n - 1) ≠ 0) ∨
      (r.1 ≠ 0 ∧ Sing n s0 (r.1 - 1) r.2)) (gtElim n s0) := by
  unfold gtElim
  have h := forRet_sat (f := gtStep n) (lo := 0) (hi := n - 1) (s := s0) (Q := fun _ => False)
    (I := fun i s => Inv n s0 i s) (R := fun r => r.1 ≠ 0 ∧ Sing n s0 (r.1 - 1) r.2) (by omega)
    ⟨fun _ _ _ => Iff.rfl, fun r hr => by omega⟩ (fun i s _ hi hI =>
      Sat.mono (step_sat (by omega) hI) (fun r hr => by
        match r with
        | .inl t => exact hr
        | .inr (info, t) =>
          obtain ⟨rfl, rfl, hs⟩ := hr
          exact ⟨by simp, hs⟩) (fun _ h => h))
  refine Sat.bind h fun r hr => ?_
  match r with
  | .inr r => exact Or.inr hr
  | .inl s =>
    simp only
    split_ifs with h0
    · exact Or.inr ⟨by simp only; omega, hr, by simp only; omega, h0, fun h => by simp only at h; omega⟩
    · exact Or.inl ⟨rfl, hr, h0⟩

/-- What back substitution leaves. -/
theorem back_spec (n : Nat) (s : Gt T) : ∀ k (x : Nat → Nat → T), (∀ r, r < k → s.d r ≠ 0) →
    (∀ r, k ≤ r → gtBack n s k x r = x r) ∧
    ∀ r, r < k → ∀ j, s.d r * gtBack n s k x r j + (if r + 1 < n then s.du r * gtBack n s k x (r + 1) j else 0) +
      (if r + 2 < n then s.dl r * gtBack n s k x (r + 2) j else 0) = x r j := by
  intro k
  induction k with
  | zero => exact fun x _ => ⟨fun _ _ => rfl, fun r hr => by omega⟩
  | succ k ih =>
    intro x hd
    obtain ⟨h1, h2⟩ := ih (Function.update x k fun j =>
      (x k j - (if k + 1 < n then s.du k * x (k + 1) j else 0)
        - (if k + 2 < n then s.dl k * x (k + 2) j else 0)) / s.d k) (fun r hr => hd r (by omega))
    refine ⟨fun r hr => ?_, fun r hr j => ?_⟩
    · rw [gtBack, h1 r (by omega), Function.update_of_ne (by omega)]
    · rcases Nat.lt_or_ge r k with h | h
      · have := h2 r h j
        rw [Function.update_of_ne (by omega)] at this
        rw [gtBack]; exact this
      · have : r = k := by omega
        subst this
        rw [gtBack, h1 r (Nat.le_refl _), h1 (r + 1) (by omega), h1 (r + 2) (by omega),
          Function.update_self, Function.update_of_ne (by omega), Function.update_of_ne (by omega)]
        rw [mul_div_cancel₀ _ (hd r (by omega))]
        ring

/-- A singular current system has a non-trivial kernel. -/
theorem Sing.kernel {n i : Nat} {s0 s : Gt T} (h : Sing n s0 i s) :
    ∃ x, x i = 1 ∧ CurSol n 0 s0 x 0 0 := by
  -- solve rows above `i` with a right-hand side that makes `x i = 1`
  have hd : ∀ r, r < i → s.d r ≠ 0 := h.inv.piv
  obtain ⟨h1, h2⟩ := back_spec n s i (fun r _ => if r = i then 1 else 0) hd
  refine ⟨fun r => gtBack n s i (fun r _ => if r = i then 1 else 0) r 0, by simp [h1 i (Nat.le_refl _)],
    (h.inv.sol _ _ _).mp fun r hr => ?_⟩
  have hge : ∀ r, i ≤ r → gtBack n s i (fun r _ => if r = i then 1 else 0) r 0 = if r = i then (1 : T) else 0 :=
    fun r hr => by rw [h1 r hr]
  rw [zero_mul]
  unfold cur
  beta_reduce
  have hlt := h.lt
  by_cases hri : r < i
  · rw [if_pos hri]
    have := h2 r hri 0
    rw [if_pos (show r + 1 < n by omega), if_neg (show r ≠ i by omega)] at this
    exact this
  · rw [if_neg hri]
    by_cases h3 : r = i
    · subst h3
      rw [if_pos rfl, h.zd, hge (r + 1) (by omega), if_neg (show ¬ r + 1 = r by omega)]
      simp
    · rw [if_neg h3, hge r (by omega), if_neg h3, hge (r + 1) (by omega), if_neg (show ¬ r + 1 = i by omega)]
      by_cases h4 : r = i + 1
      · subst h4
        rw [Nat.add_sub_cancel, h.zl (by omega)]
        simp
      · rw [hge (r - 1) (by omega), if_neg (by omega)]
        simp

omit [LinearOrder T] in
/-- With non-zero pivots the homogeneous system has only the trivial solution. -/
theorem Inv.trivial {n : Nat} {s0 s : Gt T} (h : Inv n s0 (n - 1) s) (hd : s.d (n - 1) ≠ 0) {x : Nat → T} {j : Nat}
    (hx : CurSol n (n - 1) s x 0 j) : ∀ i, i < n → x i = 0 := by
  suffices H : ∀ k, ∀ i, i < n → n - 1 - k ≤ i → x i = 0 from fun i hi => H (n - 1) i hi (by omega)
  intro k
  induction k using Nat.strong_induction_on with
  | _ k ih =>
    intro i hi hk
    by_cases hlt : n - 1 - k < i ∨ n - 1 < k
    · exact ih (n - 1 - i) (by omega) i hi (by omega)
    · have e := hx i hi
      rw [zero_mul] at e
      unfold cur at e
      by_cases hl : i < n - 1
      · rw [if_pos hl, ih (k - 1) (by omega) (i + 1) (by omega) (by omega), mul_zero, add_zero] at e
        have e2 : (if i + 2 < n then s.dl i * x (i + 2) else 0) = 0 := by
          split_ifs with h2
          · rw [ih (k - 1) (by omega) (i + 2) h2 (by omega), mul_zero]
          · rfl
        rw [e2, add_zero] at e
        exact (mul_eq_zero.mp e).resolve_left (h.piv i hl)
      · rw [if_neg hl, if_pos (by omega), if_neg (by omega), zero_add, add_zero] at e
        have : i = n - 1 := by omega
        rw [this] at e ⊢
        exact (mul_eq_zero.mp e).resolve_left hd

omit [LinearOrder T] in
theorem cur_zero (a : TriDiag T) {n r : Nat} (hr : r < n) (b : Nat → Nat → T) (x : Nat → T) :
    cur n 0 ⟨val0 a.dl, val0 a.d, val0 a.du, b⟩ x r = mulVec n (triFull a) x r := by
  rw [Tdma.triFull_sum a hr]
  unfold cur
  rw [if_neg (by omega)]
  by_cases h : r = 0
  · subst h; simp
  · rw [if_neg h, if_pos (Nat.pos_of_ne_zero h)]; ring

/-- `?gtsv` on arrays of the right size. -/
theorem gtsv_spec [IsStrictOrderedRing T] {n nrhs : Nat} (hn : 1 ≤ n) {a : TriDiag T} (hw : TriWf a n)
    {b : List T} (hb : b.length = n * nrhs) :
    ∃ info a' x, gtsv n nrhs a b = .ok (info, a', x) ∧ TriWf a' n ∧ x.length = b.length ∧
      (info = 0 ↔ minor (triFull a) n ≠ 0) ∧
      (info = 0 → ∀ j, j < nrhs →
        Solves n (triFull a) (fun i => val0 x (i * nrhs + j)) (fun i => val0 b (i * nrhs + j))) := by
  obtain ⟨w1, w2, w3, w4⟩ := hw
  unfold gtsv
  rw [if_neg (by omega), if_neg (by omega)]
  obtain ⟨⟨info, s⟩, e, h⟩ := Ok.exists (elim_sat hn
    (⟨val0 a.dl, val0 a.d, val0 a.du, fun i j => val0 b (i * nrhs + j)⟩ : Gt T))
  rw [e, ok_bind]
  refine ⟨_, _, _, rfl, ⟨by simpa using w1, by simpa using w2, by simpa using w3, w4⟩, by simp, ?_, ?_⟩
  · rcases h with ⟨h0, hI, hd⟩ | ⟨h0, hs⟩
    · refine ⟨fun _ hdet => ?_, fun _ => h0⟩
      obtain ⟨x, ⟨i, hi, hx⟩, _, hk⟩ := exists_kernel hdet
      have hc : CurSol n (n - 1) s x 0 0 := (hI.sol x 0 0).mpr fun r hr => by
        rw [cur_zero a hr, hk r hr, zero_mul]
      exact hx (hI.trivial hd hc i hi)
    · refine ⟨fun h => absurd h h0, fun hdet => ?_⟩
      obtain ⟨x, hx, hk⟩ := hs.kernel
      exfalso
      have h1 : Solves n (triFull a) x (fun _ => 0) := fun r hr => by
        rw [← cur_zero a hr (fun i j => val0 b (i * nrhs + j)), hk r hr, zero_mul]
      have h2 : Solves n (triFull a) (fun _ => 0) (fun _ => (0 : T)) := fun r hr => by simp [mulVec]
      have := solves_unique hdet h1 h2 _ hs.lt
      rw [hx] at this
      exact one_ne_zero this
  · intro hi j hj
    rcases h with ⟨h0, hI, hd⟩ | ⟨h0, _⟩
    · simp only at h0 hI hd
      subst h0
      obtain ⟨_, h2⟩ := back_spec n s n s.b (fun r hr => by
        by_cases h : r = n - 1
        · rw [h]; exact hd
        · exact hI.piv r (by omega))
      have hc : CurSol n (n - 1) s (fun i => gtBack n s n s.b i j) 1 j := fun r hr => by
        have := h2 r hr j
        rw [one_mul, ← this]
        unfold cur
        by_cases h : r < n - 1
        · rw [if_pos h, if_pos (show r + 1 < n by omega)]
        · rw [if_neg h, if_pos (show r = n - 1 by omega), if_neg (show ¬ r + 1 < n by omega),
            if_neg (show ¬ r + 2 < n by omega)]
          ring
      have := (hI.sol _ _ _).mp hc
      intro r hr
      have h3 := this r hr
      rw [cur_zero a hr, one_mul] at h3
      refine Eq.trans ?_ h3
      unfold mulVec
      refine Finset.sum_congr rfl fun i hi => ?_
      have hin := Finset.mem_range.mp hi
      congr 1
      have hlt : i * nrhs + j < n * nrhs := cell_lt hin hj
      beta_reduce
      rw [val0_map (show i * nrhs + j < b.length by omega)]
      rw [if_pos hlt, if_pos rfl]
      have h4 : (i * nrhs + j) / nrhs = i := by
        rw [Nat.mul_comm, Nat.mul_add_div (by omega), Nat.div_eq_of_lt hj, Nat.add_zero]
      have h5 : (i * nrhs + j) % nrhs = j := by
        rw [Nat.mul_comm, Nat.mul_add_mod, Nat.mod_eq_of_lt hj]
      rw [h4, h5]
    · exact absurd hi h0

/-- What is left of the first two rows: an off-diagonal pair does not survive. -/
theorem elim_changes {n : Nat} (hn : 2 ≤ n) {s0 : Gt T} {r : Nat × Gt T} (he : gtElim n s0 = .ok r)
    (h0 : r.1 = 0) :
    (|s0.d 0| < |s0.dl 0| ∧ r.2.d 0 = s0.dl 0) ∨ (3 ≤ n ∧ r.2.dl 0 = 0) ∨
      (n = 2 ∧ s0.d 0 ≠ 0 ∧ r.2.d 1 = s0.d 1 - s0.dl 0 / s0.d 0 * s0.du 0) := by
  unfold gtElim at he
  have h := forRet_sat (f := gtStep n) (lo := 0) (hi := n - 1) (s := s0) (Q := fun _ => True)
    (I := fun i s => (i = 0 → s = s0) ∧ (1 ≤ i → (|s0.d 0| < |s0.dl 0| ∧ s.d 0 = s0.dl 0) ∨ (3 ≤ n ∧ s.dl 0 = 0) ∨
      (n = 2 ∧ s0.d 0 ≠ 0 ∧ s.d 1 = s0.d 1 - s0.dl 0 / s0.d 0 * s0.du 0))) (R := fun r => r.1 ≠ 0) (by omega)
    ⟨fun _ => rfl, fun h => by omega⟩ (fun i s _ hi hI => by
      unfold gtStep
      rcases Nat.eq_zero_or_pos i with rfl | hp
      · have hs := hI.1 rfl
        subst hs
        by_cases hc : |s.dl 0| ≤ |s.d 0|
        · rw [if_pos hc]
          by_cases hd : s.d 0 = 0
          · rw [if_pos hd]; exact Nat.succ_ne_zero 0
          · rw [if_neg hd]
            refine ⟨fun h => by omega, fun _ => Or.inr ?_⟩
            by_cases h3 : 3 ≤ n
            · exact Or.inl ⟨h3, by simp only; rw [if_pos (by omega)]; simp⟩
            · exact Or.inr ⟨by omega, hd, by simp⟩
        · rw [if_neg hc]
          exact ⟨fun h => by omega, fun _ => Or.inl ⟨not_le.mp hc, by simp⟩⟩
      · have hs := hI.2 hp
        have hn2 : n ≠ 2 := by omega
        have key : ∀ t : Gt T, t.d 0 = s.d 0 → t.dl 0 = s.dl 0 →
            (|s0.d 0| < |s0.dl 0| ∧ t.d 0 = s0.dl 0) ∨ (3 ≤ n ∧ t.dl 0 = 0) ∨
            (n = 2 ∧ s0.d 0 ≠ 0 ∧ t.d 1 = s0.d 1 - s0.dl 0 / s0.d 0 * s0.du 0) := by
          intro t e1 e2
          rw [e1, e2]
          rcases hs with h | h | h
          · exact Or.inl h
          · exact Or.inr (Or.inl h)
          · exact absurd h.1 hn2
        have hne : (0 : Nat) ≠ i := by omega
        by_cases hc : |s.dl i| ≤ |s.d i|
        · rw [if_pos hc]
          by_cases hd : s.d i = 0
          · rw [if_pos hd]; exact Nat.succ_ne_zero i
          · rw [if_neg hd]
            refine ⟨fun h => by omega, fun _ => key _ ?_ ?_⟩
            · simp only; rw [Function.update_of_ne (by omega)]
            · simp only; split_ifs <;> simp [hne]
        · rw [if_neg hc]
          refine ⟨fun h => by omega, fun _ => key _ ?_ ?_⟩
          · simp only; rw [Function.update_of_ne (by omega), Function.update_of_ne (by omega)]
          · simp only; split_ifs <;> simp [hne])
  cases hf : forRet 0 (n - 1) (gtStep n) s0 with
  | error e => rw [hf] at he; cases he
  | ok q =>
    rw [hf] at he h
    match q with
    | .inr q =>
      injection he with he
      subst he
      exact absurd h0 h
    | .inl t =>
      simp only [ok_bind] at he
      split_ifs at he
      · injection he with he; subst he; simp only at h0; omega
      · injection he with he; subst he; exact h.2 (by omega)

/-- The solver's matrix is not the same afterwards. -/
theorem gtsv_changes {n nrhs : Nat} (hn : 2 ≤ n) {a a' : TriDiag T} (hw : TriWf a n) {b x : List T}
    (he : gtsv n nrhs a b = .ok (0, a', x)) (hl : val0 a.dl 0 ≠ 0) (hu : val0 a.du 0 ≠ 0) :
    ∃ i j, i < n ∧ j < n ∧ triFull a' i j ≠ triFull a i j := by
  obtain ⟨w1, w2, w3, w4⟩ := hw
  unfold gtsv at he
  split_ifs at he with h1 h2
  · omega
  cases hg : gtElim n (⟨val0 a.dl, val0 a.d, val0 a.du, fun i j => val0 b (i * nrhs + j)⟩ : Gt T) with
  | error e => rw [hg] at he; cases he
  | ok r =>
    rw [hg, ok_bind] at he
    injection he with he
    obtain ⟨e1, e2⟩ := Prod.mk.inj he
    obtain ⟨rfl, _⟩ := Prod.mk.inj e2
    rcases elim_changes hn hg e1 with ⟨h, hd⟩ | ⟨h, hd⟩ | ⟨h, h0, hd⟩
    · refine ⟨0, 0, by omega, by omega, ?_⟩
      simp only [triFull, if_true]
      rw [val0_map (by omega), hd]
      intro hc
      simp only at hc h
      rw [hc] at h
      exact lt_irrefl _ h
    · refine ⟨1, 0, by omega, by omega, ?_⟩
      have e : ∀ c : TriDiag T, triFull c 1 0 = val0 c.dl 0 := fun c => by simp [triFull]
      rw [e, e, val0_map (by omega), hd]
      exact hl.symm
    · refine ⟨1, 1, by omega, by omega, ?_⟩
      simp only [triFull, if_true]
      rw [val0_map (by omega), hd]
      simp only
      intro hc
      have : val0 a.dl 0 / val0 a.d 0 * val0 a.du 0 = 0 := by linear_combination -hc
      exact mul_ne_zero (div_ne_zero hl h0) hu this

end Lalib.Lapack
