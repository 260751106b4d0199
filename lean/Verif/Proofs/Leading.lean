import Verif.Proofs.EvalSolve
import Verif.Proofs.GmresRaw
import Verif.Spec.CgsEval

/-! # Leading blocks: what a factorisation does to the first rows does not depend on the rows after them -/

namespace Lalib

variable {T : Type}

namespace Chol

section ordered
variable [Zero T] [Sub T] [Mul T] [Div T] [CDiv T] [CZero T] [LT T] [DecidableLT T] [Sqrt T]

/-- The whole matrix has order `n`, the leading block order `k`.  Either both stop at the same row, or the block is done
and the whole matrix stops at a later row or not at all; in each case the cells of the block agree. -/
theorem decomp_leading [CSqrt T]
    (hsq : ∀ v : T, ¬ v < 0 → ¬ IsZ v → sqrtC v = .ok (Sqrt.sqrt v) ∧ DivAt (Sqrt.sqrt v)) (mt mt' : MemType) {n k : Nat}
    (hk : k ≤ n) {l l' : List T} {A : Nat → Nat → T} (hl : storeLen mt n ≤ l.length) (hl' : storeLen mt' k ≤ l'.length)
    (hA : ∀ i j, j ≤ i → i < n → val0 l (cIndex mt n i j) = A i j)
    (hA' : ∀ i j, j ≤ i → i < k → val0 l' (cIndex mt' k i j) = A i j) :
    ∃ c c' L L', decomp mt n l = .ok (c, L) ∧ decomp mt' k l' = .ok (c', L') ∧
      (c = c' ∨ c' = 0 ∧ k ≤ c) ∧
      ∀ i j, j ≤ i → i < k → val0 L (cIndex mt n i j) = val0 L' (cIndex mt' k i j) := by
  obtain ⟨⟨c, L⟩, e, h⟩ := decomp_raw hsq mt n l hl
  obtain ⟨⟨c', L'⟩, e', h'⟩ := decomp_raw hsq mt' k l' hl'
  have hx := layout mt n l.length hl
  have hx' := layout mt' k l'.length hl'
  have bad : ∀ {n n' : Nat} {ix ix' : Nat → Nat → Nat} {l l' L L' : List T} {i : Nat}, i < n' →
      (∀ i j, j ≤ i → i < n → val0 l (ix i j) = A i j) → (∀ i j, j ≤ i → i < n' → val0 l' (ix' i j) = A i j) →
      RStop ix n l i L → Upto A (fun i j => val0 L' (ix' i j)) i →
      ¬ (¬ Chol.pivot ix' l' L' i < 0 ∧ ¬ IsZ (Chol.pivot ix' l' L' i)) := by
    intro n n' ix ix' l l' L L' i hi hA hA' hS hU hp
    have hlt := hS.lt
    have e := (hS.upto hA (Nat.le_refl i)).pivot hU
    have hpv := hS.piv
    unfold Chol.pivot at hpv hp
    rw [hA i i (Nat.le_refl _) hlt, e] at hpv
    rw [hA' i i (Nat.le_refl _) hi] at hp
    rcases hpv with h | h
    · exact hp.2 h
    · exact hp.1 h
  rcases h with ⟨h0, hI⟩ | hS <;> rcases h' with ⟨h0', hI'⟩ | hS'
  · simp only at h0 hI h0' hI'
    subst h0 h0'
    refine ⟨0, 0, L, L', e, e', .inl rfl, fun i j hj hi => ?_⟩
    have hin : i < n := by omega
    rcases Nat.lt_or_ge j i with hji | hij
    · exact (hI.upto hA hin).unique (hI'.upto hA' hi) i j hj (Nat.le_refl _) (.inr hji)
    · obtain rfl : j = i := by omega
      have := (hI.upto hA hin).pivot (hI'.upto hA' hi)
      rw [hI.diag j hin, hI'.diag j hi, Chol.pivot, Chol.pivot, hA j j hj hin, hA' j j hj hi, this]
  · have hlt := hS'.lt
    simp only at hlt
    exact absurd (hI.pos c' (by omega)) (bad (by omega) hA' hA hS' (hI.upto hA (by omega)))
  · simp only at h0' hI' hS
    subst h0'
    have hlt := hS.lt
    by_cases hck : c < k
    · exact absurd (hI'.pos c hck) (bad hck hA hA' hS (hI'.upto hA' hck))
    · refine ⟨c, 0, L, L', e, e', .inr ⟨rfl, by omega⟩, fun i j hj hi => ?_⟩
      have hU := hS.upto hA (i' := i) (by omega)
      have hU' := hI'.upto hA' hi
      rcases Nat.lt_or_ge j i with hji | hij
      · exact hU.unique hU' i j hj (Nat.le_refl _) (.inr hji)
      · obtain rfl : j = i := by omega
        rw [hS.diag j (by omega), hI'.diag j hi, Chol.pivot, Chol.pivot, hA j j hj (by omega), hA' j j hj hi]
        exact congrArg _ (hU.pivot hU')
  · simp only at hS hS'
    have hlt := hS.lt
    have hlt' := hS'.lt
    rcases Nat.lt_trichotomy c c' with hcc | rfl | hcc
    · exact absurd (hS'.pos c hcc) (bad (by omega) hA hA' hS (hS'.upto hA' (by omega)))
    · refine ⟨c, c, L, L', e, e', .inl rfl, fun i j hj hi => ?_⟩
      have hU := hS.upto hA (Nat.le_refl c)
      have hU' := hS'.upto hA' (Nat.le_refl c)
      by_cases hic : i ≤ c
      · by_cases hd : i < c ∨ j < i
        · exact hU.unique hU' i j hj hic hd
        · obtain ⟨rfl, rfl⟩ : i = c ∧ j = i := by omega
          rw [hS.cell, hS'.cell]
          unfold Chol.pivot
          rw [hA j j hj (by omega), hA' j j hj hi]
          exact hU.pivot hU'
      · rw [hS.frame _ fun r k h1 h2 he => ?_, hS'.frame _ fun r k h1 h2 he => ?_, hA i j hj (by omega), hA' i j hj hi]
        · have := (hx'.inj i j r k hj hi h1 (by omega) he).1; omega
        · have := (hx.inj i j r k hj (by omega) h1 (by omega) he).1; omega
    · exact absurd (hS.pos c' hcc) (bad (by omega) hA' hA hS' (hS.upto hA (by omega)))

end ordered

section mod
variable [Zero T] [Sub T] [Mul T] [Div T] [CDiv T]

theorem modNew_leading [CZero T] (hdv : ∀ v : T, ¬ IsZ v → DivAt v) (mt mt' : MemType) {n k : Nat} (hk : k ≤ n)
    {l l' : List T} {A : Nat → Nat → T} (hl : storeLen mt n ≤ l.length) (hl' : storeLen mt' k ≤ l'.length)
    (hA : ∀ i j, j ≤ i → i < n → val0 l (cIndex mt n i j) = A i j)
    (hA' : ∀ i j, j ≤ i → i < k → val0 l' (cIndex mt' k i j) = A i j) :
    modNew mt n l = .error (.throw .runtimeError) ∨
    ∃ L L', modNew mt n l = .ok L ∧ modNew mt' k l' = .ok L' ∧
      ∀ i j, j ≤ i → i < k → val0 L (cIndex mt n i j) = val0 L' (cIndex mt' k i j) := by
  have toRec : ∀ {n k : Nat} {ix : Nat → Nat → Nat} {l L : List T}, k ≤ n →
      (∀ i j, j ≤ i → i < n → val0 l (ix i j) = A i j) →
      (∀ r c, c ≤ r → r < k → val0 L (ix r c) =
        subUp (fun k => val0 L (ix r k) * val0 L (ix c k) / val0 L (ix k k)) 0 c (val0 l (ix r c))) →
      ModRec k A (fun i j => val0 L (ix i j)) := by
    intro n k ix l L hk hA h i j hj hi
    show val0 L (ix i j) = _
    rw [h i j hj hi, hA i j hj (by omega)]
  have h := modNew_raw hdv mt n l hl
  have h' := modNew_raw hdv mt' k l' hl'
  cases e : modNew mt n l with
  | error f => rw [e] at h; obtain ⟨rfl, _⟩ := h; exact .inl rfl
  | ok L =>
    rw [e] at h
    right
    cases e' : modNew mt' k l' with
    | error f' =>
      rw [e'] at h'
      obtain ⟨_, i, L', hS⟩ := h'
      have hlt := hS.lt
      have eq := (toRec (n := n) (k := i + 1) (by omega) hA (fun r c h1 h2 => h.fac r c h1 (by omega))).unique
        (toRec (n := k) (k := i + 1) (by omega) hA' (fun r c h1 h2 => hS.fac r c h1 (by omega))) i i (Nat.le_refl _) (by omega)
      exact (h.piv i (by omega) (by rw [eq]; exact hS.zero)).elim
    | ok L' =>
      rw [e'] at h'
      exact ⟨L, L', rfl, rfl, (toRec (n := n) hk hA (fun r c h1 h2 => h.fac r c h1 (by omega))).unique
        (toRec (Nat.le_refl k) hA' h'.fac)⟩

end mod

end Chol

namespace Ilu
variable [Zero T] [Sub T] [Mul T] [Div T] [CDiv T] [CZero T]
variable {M M' : Type} {ops : MatOps M T} {ops' : MatOps M' T} {R : M → (Nat → Nat → T) → Prop}
  {R' : M' → (Nat → Nat → T) → Prop} {A : Nat → Nat → T}

theorem new_leading (hz : IsZ (0 : T)) (hdv : ∀ v : T, ¬ IsZ v → DivAt v) {n k : Nat} (hk : k ≤ n) (hR : Rep ops n n R)
    (hR' : Rep ops' k k R') {a : M} {a' : M'} (ha : R a A) (ha' : R' a' A) :
    new ops a = .error (.throw .runtimeError) ∨
    ∃ f f' F F', new ops a = .ok f ∧ new ops' a' = .ok f' ∧ R f F ∧ R' f' F' ∧ IluRec n A F ∧
      ∀ i j, i < k → j < k → F i j = F' i j := by
  rcases new_raw hz hdv hR ha with ⟨F, f, e, hf, hF⟩ | ⟨e, _, _⟩
  · right
    have hFk : IluRec k A F := fun i j hi hj => hF i j (by omega) (by omega)
    rcases new_raw hz hdv hR' ha' with ⟨F', f', e', hf', hF'⟩ | ⟨e', _, i, j, V, hj, hi, hI, h0, hV⟩
    · exact ⟨f, f', F, F', e, e', hf, hf', hF, hFk.unique hF'⟩
    · have eq := IluCell.unique_before (n := k) (i := i) (j := j) (fun r c hr hc _ => hFk r c hr hc)
        (fun r c hr hc hb => hI.done r c hr hc hb) j j (by omega) (by omega) (by omega)
      exact (((hFk i j hi (by omega)).2.1 hj h0).1 (by rw [eq]; exact hV)).elim
  · exact .inl e

end Ilu

namespace CgsRec
variable [Add T] [Mul T] [Neg T] [CDiv T] {n J : Nat} {a w w' c c' : Nat → Nat → T}

theorem mono {J' : Nat} (h : CgsRec n J a w c) (hJ : J' ≤ J) : CgsRec n J' a w c :=
  ⟨fun j hj => h.coef j (by omega), fun j hj => h.vec j (by omega)⟩

omit [Neg T] [CDiv T] in
theorem dot_congr (h0 : 0 < n) {x x' y y' : Nat → T} (h : ∀ l, l < n → x l = x' l)
    (h' : ∀ l, l < n → y l = y' l) : dotUp n x y = dotUp n x' y' := by
  unfold dotUp
  rw [addUp_congr fun l _ hl => by rw [h l hl, h' l hl], h 0 h0, h' 0 h0]

/-- The vectors and the coefficients are determined. -/
theorem unique (hn : 0 < n) (h : CgsRec n J a w c) (h' : CgsRec n J a w' c') :
    ∀ j, j < J → (∀ i, i < n → w j i = w' j i) ∧ ∀ k, k < j → c k j = c' k j := by
  intro j
  induction j using Nat.strong_induction_on with
  | _ j ih =>
    intro hj
    have hc : ∀ k, k < j → c k j = c' k j := by
      intro k hk
      have hw := (ih k hk (by omega)).1
      have e := h.coef j hj k hk
      rw [dot_congr hn hw (fun _ _ => rfl), dot_congr hn hw hw, h'.coef j hj k hk] at e
      exact (Except.ok.inj e).symm
    refine ⟨fun i hi => ?_, hc⟩
    rw [h.vec j hj i hi, h'.vec j hj i hi]
    refine addUpL_congr (fun k hk => ?_) _
    rw [hc k hk, (ih k hk (by omega)).1 i hi]

end CgsRec

section back
variable [Sub T] [Mul T] [Div T]

theorem BackSubRec.tail {n k : Nat} {R R' : Nat → Nat → T} {y y' x x' : Nat → T} (h : BackSubRec n R y x)
    (h' : BackSubRec (n - k) R' y' x') (hR : ∀ i j, i ≤ j → j < n - k → R' i j = R (k + i) (k + j))
    (hy : ∀ i, i < n - k → y' i = y (k + i)) : ∀ i, i < n - k → x' i = x (k + i) := by
  have hs : BackSubRec (n - k) R' y' (fun i => x (k + i)) := by
    intro i hi
    show x (k + i) = _
    rw [h (k + i) (by omega), hy i hi, hR i i (Nat.le_refl _) hi]
    congr 1
    unfold subUp
    have e : List.range' (k + i + 1) (n - (k + i + 1)) = (List.range' (i + 1) (n - k - (i + 1))).map (k + ·) := by
      rw [List.map_add_range']
      congr 1; omega
    rw [e, List.foldl_map]
    exact subUp_congr (g := fun j => R (k + i) (k + j) * x (k + j)) (g' := fun j => R' i j * x (k + j))
      (fun j h1 h2 => by rw [hR i j (by omega) h2]) _
  exact h'.unique hs

end back

end Lalib
