import Verif.Proofs.Order
import Verif.Proofs.EvalSolve
import Verif.Proofs.Tdma

/-! # Order carried through the recurrences -/

namespace Lalib

namespace OrdArith
variable {T : Type} [Zero T] [Add T] [Sub T] [Mul T] [Neg T] [Div T] [CDiv T] [CZero T] [LT T] [Sqrt T] [CSqrt T]
  {S : OrdArith T} {n : Nat}

/-! ## Triangular systems -/

theorem backSub_fin {R : Nat → Nat → T} {y x : Nat → T} (h : BackSubRec n R y x) (hp : ∀ i, i < n → S.Pos (R i i))
    (hx : ∀ i, i < n → S.fin (x i)) : ∀ i, i < n → S.fin (y i) := fun i hi =>
  (subUp_fin (S.div_fin (hp i hi).1 (hp i hi).ne (by rw [← h i hi]; exact hx i hi)).1).1

theorem backSub {R R' : Nat → Nat → T} {y y' x x' : Nat → T} (h : BackSubRec n R y x) (h' : BackSubRec n R' y' x')
    (hd : ∀ i, i < n → S.Ls (R i i) (R' i i)) (hp : ∀ i, i < n → S.Pos (R' i i))
    (hR : ∀ i j, i < j → j < n → S.Np (R i j) (R' i j)) (hy : ∀ i, i < n → S.Nn (y i) (y' i))
    (hx : ∀ i, i < n → S.fin (x' i)) : ∀ i, i < n → S.Nn (x i) (x' i) := by
  have : ∀ d i, i < n → n - i ≤ d → S.Nn (x i) (x' i) := by
    intro d
    induction d with
    | zero => intro i hi hd; omega
    | succ d ih =>
      intro i hi hdi
      have hf := hx i hi
      rw [h' i hi] at hf ⊢
      rw [h i hi]
      have h1 := (S.div_fin (hp i hi).1 (hp i hi).ne hf).1
      exact (nn_subUp h1 (fun _ => hy i hi) fun j h2 h3 hj => (hR i j (by omega) h3).mulNn (ih j h3 (by omega)) hj).div
        (hd i hi) (hp i hi) hf
  exact fun i hi => this (n - i) i hi (Nat.le_refl _)

theorem fwdSub {L L' : Nat → Nat → T} {b b' y y' : Nat → T} (h : FwdSubRec n L b y) (h' : FwdSubRec n L' b' y')
    (hd : ∀ i, i < n → S.Ls (L i i) (L' i i)) (hp : ∀ i, i < n → S.Pos (L' i i))
    (hL : ∀ i j, j < i → i < n → S.Np (L i j) (L' i j)) (hb : ∀ i, i < n → S.Nn (b i) (b' i))
    (hy : ∀ i, i < n → S.fin (y' i)) : ∀ i, i < n → S.Nn (y i) (y' i) := by
  intro i
  induction i using Nat.strong_induction_on with
  | _ i ih =>
    intro hi
    have hf := hy i hi
    rw [h' i hi] at hf ⊢
    rw [h i hi]
    have h1 := (S.div_fin (hp i hi).1 (hp i hi).ne hf).1
    exact (nn_subUp h1 (fun _ => hb i hi) fun j _ h3 hj => (hL i j h3 hi).mulNn (ih j h3 (by omega)) hj).div
      (hd i hi) (hp i hi) hf

theorem fwdUnit {L L' : Nat → Nat → T} {b b' y y' : Nat → T} (h : FwdUnitRec n L b y) (h' : FwdUnitRec n L' b' y')
    (hL : ∀ i j, j < i → i < n → S.fin (L' i j) → S.Np (L i j) (L' i j)) (hb : ∀ i, i < n → S.Nn (b i) (b' i))
    (hy : ∀ i, i < n → S.fin (y' i)) : ∀ i, i < n → S.Nn (y i) (y' i) := by
  intro i
  induction i using Nat.strong_induction_on with
  | _ i ih =>
    intro hi
    have hf := hy i hi
    rw [h' i hi] at hf ⊢
    rw [h i hi]
    exact nn_subUp hf (fun _ => hb i hi) fun j _ h3 hj =>
      (hL i j h3 hi (S.mul_fin hj).1).mulNn (ih j h3 (by omega)) hj

theorem cholSolve {md : Bool} {L L' : Nat → Nat → T} {b b' x x' : Nat → T} (h : CholSolveRec md n L b x)
    (h' : CholSolveRec md n L' b' x') (hL : S.MLow n L L') (hp : ∀ i, i < n → S.Pos (L' i i))
    (hb : ∀ i, i < n → S.Nn (b i) (b' i)) (hx : ∀ i, i < n → S.fin (x' i)) : ∀ i, i < n → S.Nn (x i) (x' i) := by
  obtain ⟨y, h1, h2⟩ := h
  obtain ⟨y', h1', h2'⟩ := h'
  have hyf := backSub_fin h2' hp hx
  have hy : ∀ i, i < n → S.Nn (y i) (y' i) := by
    cases md with
    | false => exact fwdSub (show FwdSubRec n L b y from h1) (show FwdSubRec n L' b' y' from h1') hL.diag hp hL.off hb hyf
    | true =>
      refine fwdUnit (show FwdUnitRec n _ b y from h1) (show FwdUnitRec n _ b' y' from h1') (fun i j hj hi hf => ?_) hb hyf
      exact (hL.off i j hj hi).div (hL.diag j (by omega)) (hp j (by omega)) hf
  exact backSub h2 h2' hL.diag hp (fun i j hij hj => hL.off j i hij hj) hy hx

theorem iluSolve {F F' : Nat → Nat → T} {b b' x x' : Nat → T} (h : IluSolveRec n F b x) (h' : IluSolveRec n F' b' x')
    (hF : S.MMat n F F') (hp : ∀ i, i < n → S.Pos (F' i i)) (hb : ∀ i, i < n → S.Nn (b i) (b' i))
    (hx : ∀ i, i < n → S.fin (x' i)) : ∀ i, i < n → S.Nn (x i) (x' i) := by
  obtain ⟨y, h1, h2⟩ := h
  obtain ⟨y', h1', h2'⟩ := h'
  have hy := fwdUnit h1 h1' (fun i j hj hi _ => hF.off i j hi (by omega) (by omega)) hb (backSub_fin h2' hp hx)
  exact backSub h2 h2' hF.diag hp (fun i j hij hj => hF.off i j (by omega) hj (by omega)) hy hx

/-! ## Cholesky factors -/

variable {A A' : Nat → Nat → T}

/-- The rows of the factor above row `i`, and row `i` without its diagonal. -/
theorem upto {L L' : Nat → Nat → T} {i : Nat} (hA : S.MLow n A A') (h : Chol.Upto A L i) (h' : Chol.Upto A' L' i)
    (hi : i < n) (hf : ∀ r c, c < r → r ≤ i → S.fin (L' r c)) (hp : ∀ r, r < i → S.Pos (L' r r))
    (hq : ∀ r, r < i → ¬ Lalib.subUp (fun k => L' r k * L' r k) 0 r (A' r r) < 0) :
    ∀ r c, c ≤ r → r ≤ i → (c < r → S.Np (L r c) (L' r c)) ∧ (c = r → r < i → S.Ls (L r r) (L' r r)) := by
  intro r
  induction r using Nat.strong_induction_on with
  | _ r ihr =>
    intro c
    induction c using Nat.strong_induction_on with
    | _ c ihc =>
      intro hc hr
      have hrow : ∀ k, k < c → S.Np (L r k) (L' r k) := fun k hk => (ihc k hk (by omega) hr).1 (by omega)
      refine ⟨fun hcr => ?_, fun e hri => ?_⟩
      · have hff := hf r c hcr hr
        rw [h'.off r c hcr hr] at hff ⊢
        rw [h.off r c hcr hr]
        have hpc := hp c (by omega)
        refine (np_subUp (S.div_fin hpc.1 hpc.ne hff).1 (fun _ => hA.off r c hcr (by omega)) fun k _ hk hkf => ?_).div
          ((ihr c hcr c (Nat.le_refl _) (by omega)).2 rfl (by omega)) hpc hff
        exact (hrow k hk).mul ((ihr c hcr k (by omega) (by omega)).1 hk) hkf
      · subst e
        have hff := (hp c hri).1
        rw [h'.diag c hri] at hff ⊢
        rw [h.diag c hri]
        have h1 := S.sqrt_fin hff
        refine (ls_subUp h1 (fun _ => hA.diag c (by omega)) fun k _ hk hkf => (hrow k hk).mul (hrow k hk) hkf).sqrt ?_
        have := hq c hri
        rw [S.lt h1 S.zero.1, S.zero.2] at this
        exact not_lt.mp this

theorem uptoPivot {L L' : Nat → Nat → T} {i : Nat} (hA : S.MLow n A A') (h : Chol.Upto A L i) (h' : Chol.Upto A' L' i)
    (hi : i < n) (hf : ∀ r c, c < r → r ≤ i → S.fin (L' r c)) (hp : ∀ r, r < i → S.Pos (L' r r))
    (hq : ∀ r, r < i → ¬ Lalib.subUp (fun k => L' r k * L' r k) 0 r (A' r r) < 0)
    (hpv : S.fin (Lalib.subUp (fun k => L' i k * L' i k) 0 i (A' i i))) :
    S.Ls (Lalib.subUp (fun k => L i k * L i k) 0 i (A i i)) (Lalib.subUp (fun k => L' i k * L' i k) 0 i (A' i i)) := by
  refine ls_subUp hpv (fun _ => hA.diag i hi) fun k _ hk hkf => ?_
  have := (upto hA h h' hi hf hp hq i k (by omega) (Nat.le_refl _)).1 hk
  exact this.mul this hkf

/-- Rows below `k` of the modified factor. -/
theorem mod {L L' : Nat → Nat → T} {k : Nat} (hk : k ≤ n) (hA : S.MLow n A A') (h : ModRec k A L) (h' : ModRec k A' L')
    (hf : ∀ r c, c < r → r < k → S.fin (L' r c)) (hp : ∀ r, r < k → S.Pos (L' r r)) : S.MLow k L L' := by
  have key : ∀ r, r < k → ∀ c, c ≤ r → (c < r → S.Np (L r c) (L' r c)) ∧ (c = r → S.Ls (L r r) (L' r r)) := by
    intro r
    induction r using Nat.strong_induction_on with
    | _ r ihr =>
      intro hr c
      induction c using Nat.strong_induction_on with
      | _ c ihc =>
        intro hc
        have hrow : ∀ q, q < c → S.Np (L r q) (L' r q) := fun q hq => (ihc q hq (by omega)).1 (by omega)
        have term : ∀ q, q < c → S.Np (L c q) (L' c q) → S.fin (L' r q * L' c q / L' q q) →
            S.Nn (L r q * L c q / L q q) (L' r q * L' c q / L' q q) := by
          intro q hq h1 hqf
          have hpq := hp q (by omega)
          exact ((hrow q hq).mul h1 (S.div_fin hpq.1 hpq.ne hqf).1).div ((ihr q (by omega) (by omega) q (Nat.le_refl _)).2 rfl)
            hpq hqf
        refine ⟨fun hcr => ?_, fun e => ?_⟩
        · have hff := hf r c hcr hr
          rw [h' r c hc hr] at hff ⊢
          rw [h r c hc hr]
          exact np_subUp hff (fun _ => hA.off r c hcr (by omega)) fun q _ hq hqf =>
            term q hq ((ihr c hcr (by omega) q (by omega)).1 hq) hqf
        · subst e
          have hff := (hp c hr).1
          rw [h' c c hc hr] at hff ⊢
          rw [h c c hc hr]
          exact ls_subUp hff (fun _ => hA.diag c (by omega)) fun q _ hq hqf => term q hq (hrow q hq) hqf
  exact ⟨fun i hi => (key i hi i (Nat.le_refl _)).2 rfl, fun i j hj hi => (key i hi j (by omega)).1 hj⟩

/-! ## Incomplete factors -/

theorem ilu {F F' : Nat → Nat → T} {i j : Nat} (hA : S.MMat n A A')
    (h : ∀ p q, p < n → q < n → (p < i ∨ p = i ∧ q < j) → IluCell A F p q) (h' : IluRec n A' F')
    (hf : ∀ p q, p < n → q < n → S.fin (F' p q)) (hp : ∀ p, p < n → S.Pos (F' p p)) :
    ∀ p q, p < n → q < n → (p < i ∨ p = i ∧ q < j) → (p ≠ q → S.Np (F p q) (F' p q)) ∧ (p = q → S.Ls (F p p) (F' p p)) := by
  intro p
  induction p using Nat.strong_induction_on with
  | _ p ihp =>
    intro q
    induction q using Nat.strong_induction_on with
    | _ q ihq =>
      intro hpn hqn hb
      have hrow : ∀ k, k < q → k < p → S.Np (F p k) (F' p k) := fun k hk hkp =>
        (ihq k hk hpn (by omega) (by omega)).1 (by omega)
      have hcol : ∀ k, k < p → k < q → S.Np (F k q) (F' k q) := fun k hk hkq =>
        (ihp k hk q (by omega) hqn (by omega)).1 (by omega)
      have term : ∀ k, k < p → k < q → S.fin (F' p k * F' k q) → S.Nn (F p k * F k q) (F' p k * F' k q) :=
        fun k h1 h2 hkf => (hrow k h2 h1).mul (hcol k h1 h2) hkf
      obtain ⟨c1, c2, c3⟩ := h p q hpn hqn hb
      obtain ⟨c1', c2', c3'⟩ := h' p q hpn hqn
      have hff := hf p q hpn hqn
      refine ⟨fun hne => ?_, fun e => ?_⟩
      · have hAA := hA.off p q hpn hqn hne
        by_cases hz' : IsZ (A' p q)
        · have h0 := (S.isZ hAA.fin').mp hz'
          have hz : IsZ (A p q) := (S.isZ hAA.fin).mpr (le_antisymm hAA.np (h0 ▸ hAA.le))
          rw [c1 hz, c1' hz']
          exact hAA
        rcases Nat.lt_or_ge q p with hqp | hpq
        · have hpq := hp q hqn
          have e' := (c2' hqp hz').2
          rw [e'] at hff
          have hN := np_subUp (g := fun k => F p k * F k q) (S.div_fin hpq.1 hpq.ne hff).1 (fun _ => hAA)
            fun k _ hk hkf => term k (by omega) hk hkf
          by_cases hz : IsZ (A p q)
          · rw [c1 hz, e']
            have := (hN.right.div ⟨hpq.1, hpq.1, le_refl _⟩ hpq hff).np
            exact ⟨hAA.fin, hff, hAA.np, by rw [(S.isZ hAA.fin).mp hz]; exact this⟩
          · rw [(c2 hqp hz).2, e']
            exact hN.div ((ihp q hqp q hqn hqn (by omega)).2 rfl) hpq hff
        · have e' := c3' hpq hz'
          rw [e'] at hff
          have hN := np_subUp (g := fun k => F p k * F k q) hff (fun _ => hAA) fun k _ hk hkf => term k hk (by omega) hkf
          by_cases hz : IsZ (A p q)
          · rw [c1 hz, e']
            exact ⟨hAA.fin, hff, hAA.np, by rw [(S.isZ hAA.fin).mp hz]; exact hN.right.np⟩
          · rw [c3 hpq hz, e']
            exact hN
      · subst e
        have hAA := hA.diag p hpn
        have hpp := hp p hpn
        have hz' : ¬ IsZ (A' p p) := fun hz' => hpp.not_isZ (by rw [c1' hz']; exact hz')
        have e' := c3' (Nat.le_refl _) hz'
        rw [e'] at hff hpp
        have hA0 : S.Pos (A' p p) := by
          refine ⟨hAA.fin', ?_⟩
          by_contra hn
          have := (np_subUp (g := fun k => F' p k * F' k p) hff (fun _ => ⟨hAA.fin', hAA.fin', not_lt.mp hn, le_refl _⟩)
            fun k _ hk hkf => (term k hk hk hkf).right).np
          exact absurd hpp.2 (not_lt.mpr this)
        rw [c3 (Nat.le_refl _) (hAA.pos hA0).not_isZ, e']
        exact ls_subUp hff (fun _ => hAA) fun k _ hk hkf => term k hk hk hkf

/-! ## Tri-diagonal systems -/

variable {a a' : TriDiag T}

theorem triDP (ha : S.MTri n a a') (hp : ∀ i, i < n → S.Pos (Tdma.D a' i)) :
    ∀ i, i < n → S.Ls (Tdma.D a i) (Tdma.D a' i) := by
  intro i
  induction i with
  | zero => intro hi; exact ha.d 0 hi
  | succ i ih =>
    intro hi
    have hf := (hp _ hi).1
    have hf' : S.fin (val0 a'.d (i + 1) + val0 a'.dl i * Tdma.P a' i) := hf
    have hm := (S.add_fin hf').2.1
    have hP : S.Nn (Tdma.P a i) (Tdma.P a' i) := by
      have := (S.mul_fin hm).2.1
      rw [Tdma.P_eq] at this ⊢
      rw [Tdma.P_eq]
      exact (ha.du i hi).neg.div (ih (by omega)) (hp i (by omega)) this
    exact (ha.d _ hi).add ((ha.dl i hi).mulNn hP hm) hf'

theorem triP (ha : S.MTri n a a') (hp : ∀ i, i < n → S.Pos (Tdma.D a' i)) {i : Nat} (hi : i + 1 < n)
    (hf : S.fin (Tdma.P a' i)) : S.Nn (Tdma.P a i) (Tdma.P a' i) := by
  rw [Tdma.P_eq] at hf ⊢
  rw [Tdma.P_eq]
  exact (ha.du i hi).neg.div (triDP ha hp i (by omega)) (hp i (by omega)) hf

theorem triQ {B B' : Nat → T} (ha : S.MTri n a a') (hp : ∀ i, i < n → S.Pos (Tdma.D a' i))
    (hB : ∀ i, i < n → S.Nn (B i) (B' i)) :
    ∀ i, i < n → S.fin (Tdma.Q a' B' i) → S.Nn (Tdma.Q a B i) (Tdma.Q a' B' i) := by
  intro i
  induction i with
  | zero => intro hi hf; exact (hB 0 hi).div (ha.d 0 hi) (hp 0 hi) hf
  | succ i ih =>
    intro hi hf
    have hf' : S.fin ((B' (i + 1) - val0 a'.dl i * Tdma.Q a' B' i) / Tdma.D a' (i + 1)) := hf
    have hn := (S.div_fin (hp _ hi).1 (hp _ hi).ne hf').1
    have hm := (S.sub_fin hn).2.1
    exact ((hB _ hi).sub ((ha.dl i hi).mulNn (ih (by omega) (S.mul_fin hm).2.1) hm) hn).div (triDP ha hp _ hi) (hp _ hi) hf'

theorem triX {B B' X X' : Nat → T} (ha : S.MTri n a a') (hp : ∀ i, i < n → S.Pos (Tdma.D a' i))
    (hB : ∀ i, i < n → S.Nn (B i) (B' i)) (h : Tdma.BackEq a B n X) (h' : Tdma.BackEq a' B' n X')
    (hX : ∀ i, i < n → S.fin (X' i)) : ∀ i, i < n → S.Nn (X i) (X' i) := by
  have : ∀ k i, i < n → n - i ≤ k → S.Nn (X i) (X' i) := by
    intro k
    induction k with
    | zero => intro i hi hd; omega
    | succ k ih =>
      intro i hi hk
      have hf := hX i hi
      by_cases hl : i = n - 1
      · subst hl
        rw [h'.1] at hf ⊢
        rw [h.1]
        exact triQ ha hp hB _ hi hf
      · rw [h'.2 i (by omega)] at hf ⊢
        rw [h.2 i (by omega)]
        obtain ⟨hm, hq, -⟩ := S.add_fin hf
        exact ((triP ha hp (by omega) (S.mul_fin hm).1).mul (ih (i + 1) (by omega) (by omega)) hm).add
          (triQ ha hp hB i hi hq) hf
  exact fun i hi => this (n - i) i hi (Nat.le_refl _)

end OrdArith

end Lalib
