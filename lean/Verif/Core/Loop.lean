import Verif.Core.Res

/-!
# Loops

The loop shapes of the library, and one invariant rule for each.
-/

namespace Lalib

variable {σ ρ : Type}

/-- `n` iterations of `f` with the counter starting at `lo`. -/
def forUp (f : Nat → σ → Res σ) : (lo n : Nat) → σ → Res σ
  | _, 0, s => .ok s
  | lo, n + 1, s => f lo s >>= forUp f (lo + 1) n

/-- `for (i = lo; i < hi; ++i) s = f(i, s);` -/
def forRange (lo hi : Nat) (f : Nat → σ → Res σ) (s : σ) : Res σ := forUp f lo (hi - lo) s

/-- `for (i = n - 1; i >= 0; --i) s = f(i, s);` -/
def forDown (f : Nat → σ → Res σ) : (n : Nat) → σ → Res σ
  | 0, s => .ok s
  | n + 1, s => f n s >>= forDown f n

/-- The iterations listed in `order`, one after another (a parallel loop executed in that order). -/
def forOrder (f : Nat → σ → Res σ) : List Nat → σ → Res σ
  | [], s => .ok s
  | i :: is, s => f i s >>= forOrder f is

/-- `n` iterations starting at `lo`; a body result `.inr r` is a `return r` out of the loop. -/
def forUpRet (f : Nat → σ → Res (σ ⊕ ρ)) : (lo n : Nat) → σ → Res (σ ⊕ ρ)
  | _, 0, s => .ok (.inl s)
  | lo, n + 1, s => do
    match ← f lo s with
    | .inl s' => forUpRet f (lo + 1) n s'
    | .inr r => .ok (.inr r)

/-- `for (i = lo; i < hi; ++i)` with an early `return`. -/
def forRet (lo hi : Nat) (f : Nat → σ → Res (σ ⊕ ρ)) (s : σ) : Res (σ ⊕ ρ) :=
  forUpRet f lo (hi - lo) s

theorem forUp_sat {I : Nat → σ → Prop} {Q : Fault → Prop} {f : Nat → σ → Res σ} :
    ∀ (n lo : Nat) (s : σ), I lo s →
      (∀ i s, lo ≤ i → i < lo + n → I i s → Sat (I (i + 1)) Q (f i s)) →
      Sat (I (lo + n)) Q (forUp f lo n s)
  | 0, _, _, h0, _ => h0
  | n + 1, lo, s, h0, hs => by
    refine Sat.bind (hs lo s (Nat.le_refl _) (by omega) h0) fun s' h' => ?_
    have := forUp_sat n (lo + 1) s' h' (fun i t h1 h2 => hs i t (by omega) (by omega))
    rwa [show lo + 1 + n = lo + (n + 1) by omega] at this

theorem forRange_sat {I : Nat → σ → Prop} {Q : Fault → Prop} {f : Nat → σ → Res σ} {lo hi : Nat}
    {s : σ} (hle : lo ≤ hi) (h0 : I lo s)
    (hs : ∀ i s, lo ≤ i → i < hi → I i s → Sat (I (i + 1)) Q (f i s)) :
    Sat (I hi) Q (forRange lo hi f s) := by
  have := forUp_sat (I := I) (Q := Q) (f := f) (hi - lo) lo s h0
    (fun i t h1 h2 => hs i t h1 (by omega))
  rwa [show lo + (hi - lo) = hi by omega] at this

theorem forDown_sat {I : Nat → σ → Prop} {Q : Fault → Prop} {f : Nat → σ → Res σ} :
    ∀ (n : Nat) (s : σ), I n s →
      (∀ i s, i < n → I (i + 1) s → Sat (I i) Q (f i s)) → Sat (I 0) Q (forDown f n s)
  | 0, _, h0, _ => h0
  | n + 1, s, h0, hs =>
    Sat.bind (hs n s (by omega) h0) fun s' h' =>
      forDown_sat n s' h' (fun i t h => hs i t (by omega))

theorem forOrder_sat {I : List Nat → σ → Prop} {Q : Fault → Prop} {f : Nat → σ → Res σ}
    {all : List Nat} :
    ∀ (done rest : List Nat) (s : σ), all = done ++ rest → I done s →
      (∀ done i rest s, all = done ++ i :: rest → I done s → Sat (I (done ++ [i])) Q (f i s)) →
      Sat (I all) Q (forOrder f rest s)
  | done, [], s, he, h0, _ => by simpa [forOrder, he] using h0
  | done, i :: rest, s, he, h0, hs =>
    Sat.bind (hs done i rest s he h0) fun s' h' =>
      forOrder_sat (done ++ [i]) rest s' (by simp [he]) h' hs

/-- If every iteration keeps `I` or fails with `e`, and one of them fails, the loop fails with `e`. -/
theorem forOrder_fails {I : σ → Prop} {e : Fault} {f : Nat → σ → Res σ} {j : Nat}
    (hf : ∀ i s, I s → Sat I (fun e' => e' = e) (f i s)) (hj : ∀ s, I s → f j s = .error e) :
    ∀ (l : List Nat) (s : σ), j ∈ l → I s → forOrder f l s = .error e
  | i :: is, s, hm, hs => by
    unfold forOrder
    have := hf i s hs
    cases h : f i s with
    | error e' => rw [h] at this; rw [show e' = e from this]; rfl
    | ok s' =>
      rw [h] at this
      rcases List.mem_cons.mp hm with rfl | hm
      · rw [hj s hs] at h; cases h
      · exact forOrder_fails hf hj is s' hm this

theorem forUpRet_sat {I : Nat → σ → Prop} {R : ρ → Prop} {Q : Fault → Prop}
    {f : Nat → σ → Res (σ ⊕ ρ)} :
    ∀ (n lo : Nat) (s : σ), I lo s →
      (∀ i s, lo ≤ i → i < lo + n → I i s → Sat (Sum.elim (I (i + 1)) R) Q (f i s)) →
      Sat (Sum.elim (I (lo + n)) R) Q (forUpRet f lo n s)
  | 0, _, _, h0, _ => h0
  | n + 1, lo, s, h0, hs => by
    refine Sat.bind (hs lo s (Nat.le_refl _) (by omega) h0) fun s' h' => ?_
    cases s' with
    | inl s' =>
      have := forUpRet_sat n (lo + 1) s' h' (fun i t h1 h2 => hs i t (by omega) (by omega))
      rwa [show lo + 1 + n = lo + (n + 1) by omega] at this
    | inr r => exact h'

theorem forRet_sat {I : Nat → σ → Prop} {R : ρ → Prop} {Q : Fault → Prop}
    {f : Nat → σ → Res (σ ⊕ ρ)} {lo hi : Nat} {s : σ} (hle : lo ≤ hi) (h0 : I lo s)
    (hs : ∀ i s, lo ≤ i → i < hi → I i s → Sat (Sum.elim (I (i + 1)) R) Q (f i s)) :
    Sat (Sum.elim (I hi) R) Q (forRet lo hi f s) := by
  have := forUpRet_sat (I := I) (R := R) (Q := Q) (f := f) (hi - lo) lo s h0
    (fun i t h1 h2 => hs i t h1 (by omega))
  rwa [show lo + (hi - lo) = hi by omega] at this

theorem forUp_succ_last (f : Nat → σ → Res σ) :
    ∀ (n lo : Nat) (s : σ), forUp f lo (n + 1) s = forUp f lo n s >>= f (lo + n)
  | 0, lo, s => by
    show (f lo s >>= forUp f (lo + 1) 0) = _
    cases h : f lo s <;> simp [forUp, h]
  | n + 1, lo, s => by
    rw [forUp]
    conv_rhs => rw [forUp]
    cases h : f lo s with
    | error e => rfl
    | ok s' =>
      simp only [ok_bind]
      rw [forUp_succ_last f n (lo + 1) s', show lo + 1 + n = lo + (n + 1) by omega]

theorem forRange_of_le {lo hi : Nat} (h : hi ≤ lo) (f : Nat → σ → Res σ) (s : σ) :
    forRange lo hi f s = .ok s := by
  simp [forRange, Nat.sub_eq_zero_of_le h, forUp]

theorem forRange_succ {lo hi : Nat} (h : lo ≤ hi) (f : Nat → σ → Res σ) (s : σ) :
    forRange lo (hi + 1) f s = forRange lo hi f s >>= f hi := by
  unfold forRange
  rw [show hi + 1 - lo = (hi - lo) + 1 by omega, forUp_succ_last, show lo + (hi - lo) = hi by omega]

theorem forRange_head {lo hi : Nat} (h : lo < hi) (f : Nat → σ → Res σ) (s : σ) :
    forRange lo hi f s = f lo s >>= forRange (lo + 1) hi f := by
  unfold forRange
  rw [show hi - lo = (hi - (lo + 1)) + 1 by omega, forUp]

/-- Two loops with pointwise equal bodies are equal. -/
theorem forUp_congr {f g : Nat → σ → Res σ} :
    ∀ (n lo : Nat) (s : σ), (∀ i s, lo ≤ i → i < lo + n → f i s = g i s) →
      forUp f lo n s = forUp g lo n s
  | 0, _, _, _ => rfl
  | n + 1, lo, s, h => by
    simp only [forUp]
    rw [h lo s (Nat.le_refl _) (by omega)]
    cases g lo s with
    | error e => rfl
    | ok s' => exact forUp_congr n (lo + 1) s' (fun i s h1 h2 => h i s (by omega) (by omega))

theorem forRange_congr {f g : Nat → σ → Res σ} {lo hi : Nat} {s : σ}
    (h : ∀ i s, lo ≤ i → i < hi → f i s = g i s) : forRange lo hi f s = forRange lo hi g s :=
  forUp_congr _ _ _ (fun i s h1 h2 => h i s h1 (by omega))

theorem forUp_eq_forOrder (f : Nat → σ → Res σ) :
    ∀ (n lo : Nat) (s : σ), forUp f lo n s = forOrder f (List.range' lo n) s
  | 0, _, _ => rfl
  | n + 1, lo, s => by
    simp only [forUp, List.range'_succ, forOrder]
    cases f lo s with
    | error e => rfl
    | ok s' => exact forUp_eq_forOrder f n _ _

theorem forRange_eq_forOrder (n : Nat) (f : Nat → σ → Res σ) (s : σ) :
    forRange 0 n f s = forOrder f (List.range n) s := by
  simp [forRange, forUp_eq_forOrder, List.range_eq_range']

/-- `forOrder_fails` for a counted loop. -/
theorem forRange_fails {I : σ → Prop} {e : Fault} {f : Nat → σ → Res σ} {lo hi j : Nat} {s : σ}
    (hf : ∀ i s, I s → Sat I (fun e' => e' = e) (f i s)) (hj : ∀ s, I s → f j s = .error e)
    (h1 : lo ≤ j) (h2 : j < hi) (hs : I s) : forRange lo hi f s = .error e := by
  unfold forRange
  rw [forUp_eq_forOrder]
  exact forOrder_fails hf hj _ _ (List.mem_range'_1.mpr (by omega)) hs

end Lalib
