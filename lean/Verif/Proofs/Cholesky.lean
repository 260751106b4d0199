import Verif.Model.Cholesky
import Verif.Proofs.LinAlg
import Verif.Proofs.Sweep
import Verif.Proofs.Struct
import Verif.Spec.Sqrt

/-! # Lemmas about the Cholesky kernels -/

namespace Lalib

variable {T : Type}

/-- An injective layout of the lower triangle inside a list. -/
structure Layout (ix : Nat → Nat → Nat) (n len : Nat) : Prop where
  lt : ∀ i j, j ≤ i → i < n → ix i j < len
  inj : ∀ i j i' j', j ≤ i → i < n → j' ≤ i' → i' < n → ix i j = ix i' j' → i = i' ∧ j = j'

theorem layout_square (n len : Nat) (h : n * n ≤ len) : Layout (cIndex .square n) n len := by
  constructor
  · intro i j hj hi
    have := cell_lt hi (show j < n by omega)
    simp only [cIndex]; omega
  · intro i j i' j' h1 h2 h3 h4 he
    exact (cell_inj (by omega) (by omega)).mp he

theorem layout_triangle (n len : Nat) (h : n * (n + 1) / 2 ≤ len) :
    Layout (cIndex .triangle n) n len := by
  have e : ∀ i j, j ≤ i → cIndex .triangle n i j = packIdx i j := by
    intro i j hj
    simp only [cIndex, packIdx, if_neg (Nat.not_lt.mpr hj)]
  constructor
  · intro i j hj hi
    rw [e i j hj]
    have := packIdx_lt hi (show j < n by omega)
    omega
  · intro i j i' j' h1 h2 h3 h4 he
    rw [e i j h1, e i' j' h3] at he
    rcases packIdx_inj he with h | h
    · exact h
    · omega

/-- The length a list must have to hold the matrix. -/
def storeLen : MemType → Nat → Nat
  | .square, n => n * n
  | .triangle, n => n * (n + 1) / 2

theorem layout (mt : MemType) (n len : Nat) (h : storeLen mt n ≤ len) : Layout (cIndex mt n) n len := by
  cases mt
  · exact layout_square n len h
  · exact layout_triangle n len h

namespace Chol

section decomp
variable [Field T] [DecidableEq T]

omit [DecidableEq T] in
theorem subMul_loop {at' J : Nat} {p q : Nat → Nat} {l : List T} (ha : at' < l.length)
    (hp : ∀ k, k < J → p k < l.length ∧ p k ≠ at') (hq : ∀ k, k < J → q k < l.length ∧ q k ≠ at') :
    forRange 0 J (fun k l => subMul at' (p k) (q k) l) l =
      .ok (l.set at' (val0 l at' - ∑ k ∈ Finset.range J, val0 l (p k) * val0 l (q k))) := by
  have := sub_through (emb := fun l : List T => l) (f := fun k l => subMul at' (p k) (q k) l)
    (g := fun k => val0 l (p k) * val0 l (q k)) (Nat.zero_le J) l ha ?_
  · rw [← Finset.range_eq_Ico] at this; exact this
  · intro k v _ hk
    obtain ⟨h1, h2⟩ := hp k hk
    obtain ⟨h3, h4⟩ := hq k hk
    unfold subMul
    rw [lrd_val (by simpa using ha), ok_bind, lrd_val (by simpa using h1), ok_bind,
      lrd_val (by simpa using h3), ok_bind, lwr_ok (by simpa using ha), val0_set ha, if_pos rfl,
      val0_set ha, if_neg h2, val0_set ha, if_neg h4, List.set_set]

variable {ix : Nat → Nat → Nat} {n : Nat}

theorem offDiag_eq {l : List T} (hx : Layout ix n l.length) {i j : Nat} (hj : j < i) (hi : i < n)
    (hd : val0 l (ix j j) ≠ 0) :
    offDiag ix i j l = .ok (l.set (ix i j)
      ((val0 l (ix i j) - ∑ k ∈ Finset.range j, val0 l (ix i k) * val0 l (ix j k)) / val0 l (ix j j))) := by
  have h0 := hx.lt i j (by omega) hi
  have hdl := hx.lt j j (by omega) (by omega)
  unfold offDiag
  rw [subMul_loop h0 (fun k hk => ⟨hx.lt i k (by omega) hi, fun he => by
      have := (hx.inj i k i j (by omega) hi (by omega) hi he).2; omega⟩)
    (fun k hk => ⟨hx.lt j k (by omega) (by omega), fun he => by
      have := (hx.inj j k i j (by omega) (by omega) (by omega) hi he).1; omega⟩), ok_bind,
    lrd_val (by simpa using h0), ok_bind, lrd_val (by simpa using hdl), ok_bind, val0_set h0, if_pos rfl,
    val0_set h0, if_neg, divC_ok hd, ok_bind, lwr_ok (by simpa using h0), List.set_set]
  intro he
  have := (hx.inj j j i j (by omega) (by omega) (by omega) hi he).1
  omega

/-- The strictly lower part of row `i`. -/
theorem offRow_spec {l0 : List T} (hx : Layout ix n l0.length) {i : Nat} (hi : i < n)
    (hd : ∀ c, c < i → val0 l0 (ix c c) ≠ 0) :
    ∃ l, forRange 0 i (offDiag ix i) l0 = .ok l ∧ l.length = l0.length ∧
      (∀ c, c < i → ∑ k ∈ Finset.range c, val0 l (ix i k) * val0 l0 (ix c k) +
        val0 l (ix i c) * val0 l0 (ix c c) = val0 l0 (ix i c)) ∧
      ∀ c, (∀ s, s < i → c ≠ ix i s) → val0 l c = val0 l0 c := by
  obtain ⟨l, e, hl, hv, hf⟩ := sweep_up (emb := fun l : List T => l) (f := offDiag ix i) (pos := ix i) (n := i)
    (G := fun c X => (val0 l0 (ix i c) - ∑ k ∈ Finset.range c, X k * val0 l0 (ix c k)) / val0 l0 (ix c c))
    l0 (fun t ht => hx.lt i t (by omega) hi)
    (fun s t hs ht h => (hx.inj i s i t (by omega) hi (by omega) hi h).2)
    (fun t X Y ht h => by
      have : ∑ k ∈ Finset.range t, X k * val0 l0 (ix t k) = ∑ k ∈ Finset.range t, Y k * val0 l0 (ix t k) :=
        Finset.sum_congr rfl fun k hk => by rw [h k (Finset.mem_range.mp hk)]
      simp only [this])
    (fun t l ht hl hf => by
      have hrow : ∀ r k, k ≤ r → r < i → val0 l (ix r k) = val0 l0 (ix r k) := by
        intro r k hk hr
        apply hf
        intro s hs he
        have := (hx.inj r k i s hk (by omega) (by omega) hi he).1
        omega
      have hcell : val0 l (ix i t) = val0 l0 (ix i t) := by
        apply hf
        intro s hs he
        have := (hx.inj i t i s (by omega) hi (by omega) hi he).2
        omega
      rw [offDiag_eq (by rw [hl]; exact hx) ht hi (by rw [hrow t t (Nat.le_refl _) ht]; exact hd t ht)]
      rw [hcell, hrow t t (Nat.le_refl _) ht]
      have : ∑ k ∈ Finset.range t, val0 l (ix i k) * val0 l (ix t k) =
          ∑ k ∈ Finset.range t, val0 l (ix i k) * val0 l0 (ix t k) :=
        Finset.sum_congr rfl fun k hk => by
          rw [hrow t k (by have := Finset.mem_range.mp hk; omega) ht]
      rw [this])
  refine ⟨l, e, hl, fun c hc => ?_, hf⟩
  rw [hv c hc]
  have := hd c hc
  field_simp
  ring

end decomp

section ordered
variable [Field T] [LinearOrder T] [Sqrt T] [LawfulSqrt T]
variable {ix : Nat → Nat → Nat} {n : Nat}

/-- Rows below `i` hold the factor; everything outside these rows is as in `l0`. -/
structure Inv (ix : Nat → Nat → Nat) (l0 : List T) (i : Nat) (l : List T) : Prop where
  len : l.length = l0.length
  pos : ∀ r, r < i → 0 < val0 l (ix r r)
  fac : ∀ r c, c ≤ r → r < i →
    ∑ k ∈ Finset.range (c + 1), val0 l (ix r k) * val0 l (ix c k) = val0 l0 (ix r c)
  frame : ∀ p, (∀ r c, c ≤ r → r < i → p ≠ ix r c) → val0 l p = val0 l0 p

/-- Where and why the decomposition stops: the pivot of row `i` is not positive. -/
structure Stop (ix : Nat → Nat → Nat) (n : Nat) (l0 : List T) (i : Nat) (l : List T) : Prop where
  lt : i < n
  len : l.length = l0.length
  pos : ∀ r, r < i → 0 < val0 l (ix r r)
  fac : ∀ r c, c ≤ r → c < i → r ≤ i →
    ∑ k ∈ Finset.range (c + 1), val0 l (ix r k) * val0 l (ix c k) = val0 l0 (ix r c)
  piv : val0 l0 (ix i i) - ∑ k ∈ Finset.range i, val0 l (ix i k) * val0 l (ix i k) ≤ 0
  first : i = 0 → l = l0

theorem row_spec {l0 l : List T} (hx : Layout ix n l0.length) {i : Nat} (hi : i < n) (hI : Inv ix l0 i l) :
    Ok (Sum.elim (Inv ix l0 (i + 1)) (fun r => Stop ix n l0 r.1 r.2)) (row ix i l) := by
  obtain ⟨hlen, hpos, hfac, hframe⟩ := hI
  have hxl : Layout ix n l.length := by rw [hlen]; exact hx
  obtain ⟨l1, e1, hl1, hv1, hf1⟩ := offRow_spec hxl hi (fun c hc => ne_of_gt (hpos c hc))
  have hii1 : ix i i < l1.length := by rw [hl1]; exact hxl.lt i i (Nat.le_refl _) hi
  have e2 := subMul_loop (l := l1) (at' := ix i i) (J := i) (p := ix i) (q := ix i) hii1
    (fun k hk => ⟨by rw [hl1]; exact hxl.lt i k (by omega) hi, fun he => by
      have := (hx.inj i k i i (by omega) hi (by omega) hi he).2; omega⟩)
    (fun k hk => ⟨by rw [hl1]; exact hxl.lt i k (by omega) hi, fun he => by
      have := (hx.inj i k i i (by omega) hi (by omega) hi he).2; omega⟩)
  -- rows below i are untouched by l1, row i is new
  have hrow : ∀ r k, k ≤ r → r < i → val0 l1 (ix r k) = val0 l (ix r k) := by
    intro r k hk hr
    apply hf1
    intro s hs he
    have := (hx.inj r k i s hk (by omega) (by omega) hi he).1
    omega
  have hold : ∀ c, c ≤ i → val0 l (ix i c) = val0 l0 (ix i c) := by
    intro c hc
    apply hframe
    intro r c' h1 h2 he
    have := (hx.inj i c r c' hc hi h1 (by omega) he).1
    omega
  have hdiag : val0 l1 (ix i i) = val0 l0 (ix i i) := by
    rw [← hold i (Nat.le_refl _)]
    apply hf1
    intro s hs he
    have := (hx.inj i i i s (by omega) hi (by omega) hi he).2
    omega
  have hfac1 : ∀ r c, c ≤ r → c < i → r ≤ i →
      ∑ k ∈ Finset.range (c + 1), val0 l1 (ix r k) * val0 l1 (ix c k) = val0 l0 (ix r c) := by
    intro r c hcr hci hri
    by_cases hr : r = i
    · subst hr
      rw [Finset.sum_range_succ, ← hold c (by omega), ← hv1 c hci, hrow c c (Nat.le_refl _) hci]
      congr 1
      exact Finset.sum_congr rfl fun k hk => by
        rw [hrow c k (by have := Finset.mem_range.mp hk; omega) hci]
    · rw [← hfac r c hcr (by omega)]
      apply Finset.sum_congr rfl
      intro k hk
      have := Finset.mem_range.mp hk
      rw [hrow r k (by omega) (by omega), hrow c k (by omega) (by omega)]
  -- the list after the diagonal has been reduced
  have hset : ∀ v r c, c ≤ r → r ≤ i → c < i → val0 (l1.set (ix i i) v) (ix r c) = val0 l1 (ix r c) := by
    intro v r c hc hr hci
    rw [val0_set hii1, if_neg]
    intro he
    have := (hx.inj r c i i hc (by omega) (by omega) hi he).2
    omega
  have hlen2 : ∀ v, (l1.set (ix i i) v).length = l0.length := by
    intro v; simp [hl1, hlen]
  unfold row
  rw [e1, ok_bind, e2, ok_bind, lrd_val (by simpa using hii1), ok_bind, val0_set hii1, if_pos rfl, hdiag]
  have stop : val0 l0 (ix i i) - ∑ k ∈ Finset.range i, val0 l1 (ix i k) * val0 l1 (ix i k) ≤ 0 →
      Stop ix n l0 i (l1.set (ix i i)
        (val0 l0 (ix i i) - ∑ k ∈ Finset.range i, val0 l1 (ix i k) * val0 l1 (ix i k))) := by
    intro hle
    refine ⟨hi, hlen2 _, ?_, ?_, ?_, ?_⟩
    · intro r hr
      rw [hset _ r r (Nat.le_refl _) (by omega) hr, hrow r r (Nat.le_refl _) hr]
      exact hpos r hr
    · intro r c hcr hci hri
      rw [← hfac1 r c hcr hci hri]
      apply Finset.sum_congr rfl
      intro k hk
      have := Finset.mem_range.mp hk
      rw [hset _ r k (by omega) hri (by omega), hset _ c k (by omega) (by omega) (by omega)]
    · refine le_trans (le_of_eq ?_) hle
      congr 1
      apply Finset.sum_congr rfl
      intro k hk
      have := Finset.mem_range.mp hk
      rw [hset _ i k (by omega) (by omega) (by omega)]
    · rintro rfl
      simp only [Finset.range_zero, Finset.sum_empty, sub_zero]
      rw [forRange_of_le (Nat.le_refl 0)] at e1
      injection e1 with e1
      subst e1
      have hl0 : l = l0 := by
        apply list_ext_val0 hlen
        intro p _
        exact hframe p fun r c _ h => by omega
      subst hl0
      exact set_val0_self hii1
  by_cases h0 : val0 l0 (ix i i) - ∑ k ∈ Finset.range i, val0 l1 (ix i k) * val0 l1 (ix i k) = 0
  · rw [if_isZ h0]
    exact stop (le_of_eq h0)
  rw [if_not_isZ h0]
  by_cases hneg : val0 l0 (ix i i) - ∑ k ∈ Finset.range i, val0 l1 (ix i k) * val0 l1 (ix i k) < 0
  · rw [if_pos hneg]
    exact stop (le_of_lt hneg)
  rw [if_neg hneg]
  have hge := not_lt.mp hneg
  have hsq := LawfulSqrt.mul_self_sqrt _ hge
  have hs0 := LawfulSqrt.sqrt_nonneg
    (val0 l0 (ix i i) - ∑ k ∈ Finset.range i, val0 l1 (ix i k) * val0 l1 (ix i k))
  rw [sqrtC_eq]
  rw [if_neg hneg, ok_bind, lwr_ok (by simpa using hii1), ok_bind, List.set_set]
  show Inv ix l0 (i + 1) _
  refine ⟨hlen2 _, ?_, ?_, ?_⟩
  · intro r hr
    by_cases hri : r = i
    · subst hri
      rw [val0_set hii1, if_pos rfl]
      refine lt_of_le_of_ne hs0 fun h => h0 ?_
      rw [← h, mul_zero] at hsq
      exact hsq.symm
    · rw [hset _ r r (Nat.le_refl _) (by omega) (by omega), hrow r r (Nat.le_refl _) (by omega)]
      exact hpos r (by omega)
  · intro r c hcr hr
    by_cases hci : c = i
    · have : r = i := by omega
      subst this
      subst hci
      rw [Finset.sum_range_succ, val0_set hii1, if_pos rfl, hsq]
      have : ∑ k ∈ Finset.range c, val0 (l1.set (ix c c) (Sqrt.sqrt
          (val0 l0 (ix c c) - ∑ k ∈ Finset.range c, val0 l1 (ix c k) * val0 l1 (ix c k)))) (ix c k) *
          val0 (l1.set (ix c c) (Sqrt.sqrt
          (val0 l0 (ix c c) - ∑ k ∈ Finset.range c, val0 l1 (ix c k) * val0 l1 (ix c k)))) (ix c k) =
          ∑ k ∈ Finset.range c, val0 l1 (ix c k) * val0 l1 (ix c k) := by
        apply Finset.sum_congr rfl
        intro k hk
        have := Finset.mem_range.mp hk
        rw [hset _ c k (by omega) (by omega) (by omega)]
      rw [this]; ring
    · rw [← hfac1 r c hcr (by omega) (by omega)]
      apply Finset.sum_congr rfl
      intro k hk
      have := Finset.mem_range.mp hk
      rw [hset _ r k (by omega) (by omega) (by omega), hset _ c k (by omega) (by omega) (by omega)]
  · intro p hp
    rw [val0_set hii1, if_neg (hp i i (Nat.le_refl _) (by omega)),
      hf1 p (fun s hs => hp i s (by omega) (by omega))]
    exact hframe p fun r c h1 h2 => hp r c h1 (by omega)

/-- The outcome of the decomposition. -/
theorem decomp_spec (mt : MemType) (n : Nat) (l0 : List T) (hl : storeLen mt n ≤ l0.length) :
    ∃ r, decomp mt n l0 = .ok r ∧
      ((r.1 = 0 ∧ Inv (cIndex mt n) l0 n r.2) ∨ Stop (cIndex mt n) n l0 r.1 r.2) := by
  have hx := layout mt n l0.length hl
  have : Ok (Sum.elim (Inv (cIndex mt n) l0 n) (fun r => Stop (cIndex mt n) n l0 r.1 r.2))
      (forRet 0 n (row (cIndex mt n)) l0) := by
    refine forRet_sat (I := Inv (cIndex mt n) l0) (Nat.zero_le _) ?_ ?_
    · exact ⟨rfl, fun r h => by omega, fun r c _ h => by omega, fun _ _ => rfl⟩
    · intro i l _ hi hI
      exact row_spec hx hi hI
  obtain ⟨a, e, h⟩ := Ok.exists this
  unfold decomp
  rw [e, ok_bind]
  cases a with
  | inl l => exact ⟨_, rfl, .inl ⟨rfl, h⟩⟩
  | inr r => exact ⟨_, rfl, .inr h⟩

omit [Sqrt T] [LawfulSqrt T] in
theorem Inv.isChol {l0 l : List T} {A : Nat → Nat → T} (hI : Inv ix l0 n l) (hs : Symm n A)
    (hA : ∀ i j, j ≤ i → i < n → val0 l0 (ix i j) = A i j) : IsChol n (fun i j => val0 l (ix i j)) A := by
  refine ⟨hI.pos, low_full hs fun i j hj hi => ?_⟩
  rw [hI.fac i j hj hi, hA i j hj hi]

omit [Sqrt T] [LawfulSqrt T] in
theorem Stop.not_posDef [IsStrictOrderedRing T] {l0 l : List T} {A : Nat → Nat → T} {i : Nat} (h : Stop ix n l0 i l) (hs : Symm n A)
    (hA : ∀ i j, j ≤ i → i < n → val0 l0 (ix i j) = A i j) : ¬ PosDef n A := by
  refine Lalib.not_posDef (L := fun i j => val0 l (ix i j)) h.lt hs h.pos ?_ ?_
  · intro r c h1 h2 h3
    rw [h.fac r c h1 h2 h3, hA r c h1 (by have := h.lt; omega)]
  · rw [← hA i i (Nat.le_refl _) h.lt]; exact h.piv

end ordered

/-! ## Modified Cholesky -/

section mod
variable [Field T] [DecidableEq T] {ix : Nat → Nat → Nat} {n : Nat}

theorem modSub_loop {l : List T} (hx : Layout ix n l.length) {i j : Nat} (hj : j ≤ i) (hi : i < n)
    (hd : ∀ k, k < j → val0 l (ix k k) ≠ 0) :
    forRange 0 j (modSub ix i j) l = .ok (l.set (ix i j) (val0 l (ix i j) -
      ∑ k ∈ Finset.range j, val0 l (ix i k) * val0 l (ix j k) / val0 l (ix k k))) := by
  have ha := hx.lt i j hj hi
  have := sub_through (emb := fun l : List T => l) (f := modSub ix i j)
    (g := fun k => val0 l (ix i k) * val0 l (ix j k) / val0 l (ix k k)) (Nat.zero_le j) l ha ?_
  · rw [← Finset.range_eq_Ico] at this; exact this
  · intro k v _ hk
    have h1 := hx.lt i k (by omega) hi
    have h2 := hx.lt j k (by omega) (by omega)
    have h3 := hx.lt k k (by omega) (by omega)
    have n1 : ix i k ≠ ix i j := fun he => by
      have := (hx.inj i k i j (by omega) hi hj hi he).2; omega
    have n2 : ix j k ≠ ix i j := fun he => by
      have := (hx.inj j k i j (by omega) (by omega) hj hi he).2; omega
    have n3 : ix k k ≠ ix i j := fun he => by
      have := (hx.inj k k i j (by omega) (by omega) hj hi he).2; omega
    unfold modSub
    rw [lrd_val (by simpa using ha), ok_bind, lrd_val (by simpa using h1), ok_bind,
      lrd_val (by simpa using h2), ok_bind, lrd_val (by simpa using h3), ok_bind,
      val0_set ha, if_neg n1, val0_set ha, if_neg n2, val0_set ha, if_neg n3, divC_ok (hd k hk), ok_bind,
      val0_set ha, if_pos rfl, lwr_ok (by simpa using ha), List.set_set]

/-- Rows below `i` hold the modified factor. -/
structure ModInv (ix : Nat → Nat → Nat) (l0 : List T) (i : Nat) (l : List T) : Prop where
  len : l.length = l0.length
  piv : ∀ r, r < i → val0 l (ix r r) ≠ 0
  fac : ∀ r c, c ≤ r → r < i →
    val0 l (ix r c) + ∑ k ∈ Finset.range c, val0 l (ix r k) * val0 l (ix c k) / val0 l (ix k k) =
      val0 l0 (ix r c)
  frame : ∀ p, (∀ r c, c ≤ r → r < i → p ≠ ix r c) → val0 l p = val0 l0 p

/-- A zero pivot in row `i`. -/
structure ModStop (ix : Nat → Nat → Nat) (n : Nat) (l0 : List T) (i : Nat) (l : List T) : Prop where
  lt : i < n
  piv : ∀ r, r < i → val0 l (ix r r) ≠ 0
  zero : val0 l (ix i i) = 0
  fac : ∀ r c, c ≤ r → r ≤ i →
    val0 l (ix r c) + ∑ k ∈ Finset.range c, val0 l (ix r k) * val0 l (ix c k) / val0 l (ix k k) =
      val0 l0 (ix r c)

theorem modRow_spec {l0 l : List T} (hx : Layout ix n l0.length) {i : Nat} (hi : i < n)
    (hI : ModInv ix l0 i l) :
    Sat (ModInv ix l0 (i + 1)) (fun e => e = .throw .runtimeError ∧ ∃ l', ModStop ix n l0 i l')
      (modRow ix i l) := by
  obtain ⟨hlen, hpiv, hfac, hframe⟩ := hI
  have hxl : Layout ix n l.length := by rw [hlen]; exact hx
  obtain ⟨l1, e1, hl1, hv1, hf1⟩ := sweep_up (emb := fun l : List T => l)
    (f := fun j l => forRange 0 j (modSub ix i j) l) (pos := ix i) (n := i + 1)
    (G := fun c X => val0 l (ix i c) -
      ∑ k ∈ Finset.range c, X k * (if c = i then X k else val0 l (ix c k)) / val0 l (ix k k))
    l (fun t ht => hxl.lt i t (by omega) hi)
    (fun s t hs ht h => (hx.inj i s i t (by omega) hi (by omega) hi h).2)
    (fun t X Y ht h => by
      have : ∑ k ∈ Finset.range t, X k * (if t = i then X k else val0 l (ix t k)) / val0 l (ix k k) =
          ∑ k ∈ Finset.range t, Y k * (if t = i then Y k else val0 l (ix t k)) / val0 l (ix k k) :=
        Finset.sum_congr rfl fun k hk => by rw [h k (Finset.mem_range.mp hk)]
      simp only [this])
    (fun t l' ht hl' hf => by
      have hrow : ∀ r k, k ≤ r → r < i → val0 l' (ix r k) = val0 l (ix r k) := by
        intro r k hk hr
        apply hf
        intro s hs he
        have := (hx.inj r k i s hk (by omega) (by omega) hi he).1
        omega
      have hcell : val0 l' (ix i t) = val0 l (ix i t) := by
        apply hf
        intro s hs he
        have := (hx.inj i t i s (by omega) hi (by omega) hi he).2
        omega
      rw [modSub_loop (by rw [hl']; exact hxl) (show t ≤ i by omega) hi
        (fun k hk => by rw [hrow k k (Nat.le_refl _) (by omega)]; exact hpiv k (by omega))]
      rw [hcell]
      have : ∑ k ∈ Finset.range t, val0 l' (ix i k) * val0 l' (ix t k) / val0 l' (ix k k) =
          ∑ k ∈ Finset.range t, val0 l' (ix i k) *
            (if t = i then val0 l' (ix i k) else val0 l (ix t k)) / val0 l (ix k k) :=
        Finset.sum_congr rfl fun k hk => by
          have hk := Finset.mem_range.mp hk
          rw [hrow k k (Nat.le_refl _) (by omega)]
          by_cases hti : t = i
          · rw [if_pos hti, hti]
          · rw [if_neg hti, hrow t k (by omega) (by omega)]
      rw [this])
  have hrow : ∀ r k, k ≤ r → r < i → val0 l1 (ix r k) = val0 l (ix r k) := by
    intro r k hk hr
    apply hf1
    intro s hs he
    have := (hx.inj r k i s hk (by omega) (by omega) hi he).1
    omega
  have hold : ∀ c, c ≤ i → val0 l (ix i c) = val0 l0 (ix i c) := by
    intro c hc
    apply hframe
    intro r c' h1 h2 he
    have := (hx.inj i c r c' hc hi h1 (by omega) he).1
    omega
  have hpiv1 : ∀ r, r < i → val0 l1 (ix r r) ≠ 0 := fun r hr => by
    rw [hrow r r (Nat.le_refl _) hr]; exact hpiv r hr
  have hfac1 : ∀ r c, c ≤ r → r ≤ i →
      val0 l1 (ix r c) + ∑ k ∈ Finset.range c, val0 l1 (ix r k) * val0 l1 (ix c k) / val0 l1 (ix k k) =
        val0 l0 (ix r c) := by
    intro r c hcr hri
    by_cases hr : r = i
    · subst hr
      rw [hv1 c (by omega), hold c hcr]
      have : ∑ k ∈ Finset.range c, val0 l1 (ix r k) *
            (if c = r then val0 l1 (ix r k) else val0 l (ix c k)) / val0 l (ix k k) =
          ∑ k ∈ Finset.range c, val0 l1 (ix r k) * val0 l1 (ix c k) / val0 l1 (ix k k) :=
        Finset.sum_congr rfl fun k hk => by
          have hk := Finset.mem_range.mp hk
          rw [hrow k k (Nat.le_refl _) (by omega)]
          by_cases hcr' : c = r
          · rw [if_pos hcr', hcr']
          · rw [if_neg hcr', hrow c k (by omega) (by omega)]
      rw [this]; ring
    · rw [← hfac r c hcr (by omega), hrow r c hcr (by omega)]
      congr 1
      apply Finset.sum_congr rfl
      intro k hk
      have := Finset.mem_range.mp hk
      rw [hrow r k (by omega) (by omega), hrow c k (by omega) (by omega), hrow k k (Nat.le_refl _) (by omega)]
  unfold modRow
  rw [e1, ok_bind, lrd_val (by rw [hl1]; exact hxl.lt i i (Nat.le_refl _) hi), ok_bind]
  by_cases h0 : val0 l1 (ix i i) = 0
  · simp only [isZ_iff, h0, decide_true, throwIf_true, error_bind]
    exact ⟨rfl, l1, hi, hpiv1, h0, hfac1⟩
  · simp only [isZ_iff, h0, decide_false, throwIf_false, ok_bind]
    refine ⟨by rw [hl1, hlen], ?_, ?_, ?_⟩
    · intro r hr
      by_cases hri : r = i
      · subst hri; exact h0
      · exact hpiv1 r (by omega)
    · intro r c hcr hr
      exact hfac1 r c hcr (by omega)
    · intro p hp
      rw [hf1 p (fun s hs => hp i s (by omega) (by omega))]
      exact hframe p fun r c h1 h2 => hp r c h1 (by omega)

theorem modNew_spec (mt : MemType) (n : Nat) (l0 : List T) (hl : storeLen mt n ≤ l0.length) :
    Sat (ModInv (cIndex mt n) l0 n)
      (fun e => e = .throw .runtimeError ∧ ∃ i l', ModStop (cIndex mt n) n l0 i l') (modNew mt n l0) := by
  have hx := layout mt n l0.length hl
  unfold modNew
  refine forRange_sat (I := ModInv (cIndex mt n) l0) (Nat.zero_le _) ?_ ?_
  · exact ⟨rfl, fun r h => by omega, fun r c _ h => by omega, fun _ _ => rfl⟩
  · intro i l _ hi hI
    exact Sat.mono (modRow_spec hx hi hI) (fun _ h => h) (fun _ h => ⟨h.1, i, h.2⟩)

omit [DecidableEq T] in
/-- The leading minors in terms of the modified factor. -/
theorem mod_minor {l : List T} {A : Nat → Nat → T} {k : Nat} (hs : Symm (k + 1) A)
    (hp : ∀ r, r < k → val0 l (ix r r) ≠ 0)
    (hf : ∀ r c, c ≤ r → r ≤ k →
      val0 l (ix r c) + ∑ t ∈ Finset.range c, val0 l (ix r t) * val0 l (ix c t) / val0 l (ix t t) = A r c) :
    minor A (k + 1) = ∏ i ∈ Finset.range (k + 1), val0 l (ix i i) := by
  have hsum : ∀ r c, c ≤ r → r ≤ k → A r c = ∑ t ∈ Finset.range (k + 1),
      low (fun i j => val0 l (ix i j)) r t *
      low (fun i j => if i = j then 1 else val0 l (ix i j) / val0 l (ix j j)) c t := by
    intro r c hcr hrk
    rw [low_sum _ _ hcr (by omega), Finset.sum_range_succ, if_pos rfl, mul_one, ← hf r c hcr hrk, add_comm]
    congr 1
    apply Finset.sum_congr rfl
    intro t ht
    have := Finset.mem_range.mp ht
    rw [if_neg (by omega), mul_div_assoc]
  have := minor_LU (A := A) (k := k + 1) (L := low (fun i j => val0 l (ix i j)))
    (U := fun t j => low (fun i j => if i = j then 1 else val0 l (ix i j) / val0 l (ix j j)) j t)
    (fun i t _ _ h => by rw [low, if_neg (by omega)]) (fun t j _ _ h => by rw [low, if_neg (by omega)]) ?_
  · rw [this]
    simp [low]
  · intro i j hi hj
    rcases Nat.le_total j i with h | h
    · exact hsum i j h (by omega)
    · rw [hs i j hi hj, hsum j i h (by omega)]
      apply Finset.sum_congr rfl
      intro t ht
      have ht := Finset.mem_range.mp ht
      unfold low
      by_cases h1 : t ≤ i
      · have h2 : t ≤ j := by omega
        rw [if_pos h1, if_pos h2, if_pos h1, if_pos h2]
        simp only
        by_cases e1 : j = t
        · have e2 : i = t := by omega
          rw [if_pos e1, if_pos e2, e1, e2]
        · rw [if_neg e1]
          by_cases e2 : i = t
          · subst e2
            have := hp i (by omega)
            rw [if_pos rfl]
            field_simp
          · rw [if_neg e2]
            ring
      · rw [if_neg h1, if_neg h1, mul_zero, zero_mul]

end mod

/-! ## Solving -/

section rhs
variable [Zero T] {n : Nat}

/-- The right-hand side read by a sweep over column `k`: in another buffer, or still untouched. -/
structure Rhs (m : Mem T) (rhs x : Nat) (b0 : List T) (n nrow k : Nat) (B : Nat → T) : Prop where
  other : rhs ≠ x → n * nrow ≤ m.len rhs ∧ ∀ i, i < n → entry nrow (m rhs) i k = B i
  same : rhs = x → ∀ i, i < n → entry nrow b0 i k = B i

theorem rhs_rd {m : Mem T} {rhs x : Nat} {b0 b : List T} {nrow k : Nat} {B : Nat → T}
    (h : Rhs m rhs x b0 n nrow k B) (hk : k < nrow) (hb0 : n * nrow ≤ b0.length) (hb : b.length = b0.length)
    {i : Nat} (hi : i < n) (hc : val0 b (i * nrow + k) = val0 b0 (i * nrow + k)) :
    (m.setBuf x b).rd rhs (i * nrow + k) = .ok (B i) := by
  have hlt := cell_lt hi hk
  by_cases hr : rhs = x
  · subst hr
    rw [Mem.setBuf_rd_self, lrd_val (by omega), hc]
    exact congrArg _ (h.same rfl i hi)
  · rw [Mem.setBuf_rd_other _ hr, Mem.rd_ok (by have := (h.other hr).1; omega)]
    exact congrArg _ ((h.other hr).2 i hi)

theorem cell_ne {nrow k i j : Nat} (hk : k < nrow) (h : j ≠ i) : j * nrow + k ≠ i * nrow + k :=
  fun he => h ((cell_inj hk hk).mp he).1

end rhs

section solve
variable [Field T] [DecidableEq T] {ix : Nat → Nat → Nat} {n : Nat}

omit [DecidableEq T] in
theorem subCell_loop {x at' lo hi : Nat} {p : Nat → Nat} {c : Nat → Res T} {C : Nat → T} {m : Mem T} {b : List T}
    (hle : lo ≤ hi) (ha : at' < b.length) (hp : ∀ j, lo ≤ j → j < hi → p j < b.length ∧ p j ≠ at')
    (hc : ∀ j, lo ≤ j → j < hi → c j = .ok (C j)) :
    forRange lo hi (fun j m => subCell x at' (p j) (c j) m) (m.setBuf x b) =
      .ok (m.setBuf x (b.set at' (val0 b at' - ∑ j ∈ Finset.Ico lo hi, C j * val0 b (p j)))) := by
  refine sub_through (emb := fun b : List T => m.setBuf x b) (f := fun j m => subCell x at' (p j) (c j) m)
    (g := fun j => C j * val0 b (p j)) hle b ha ?_
  intro k v h1 h2
  obtain ⟨h3, h4⟩ := hp k h1 h2
  unfold subCell
  rw [Mem.setBuf_rd_self, lrd_val (by simpa using ha), ok_bind, hc k h1 h2, ok_bind, Mem.setBuf_rd_self,
    lrd_val (by simpa using h3), ok_bind, Mem.setBuf_wr _ _ (by simpa using ha), val0_set ha, if_pos rfl,
    val0_set ha, if_neg h4, List.set_set]

theorem divCell_eq {x at' q : Nat} {l b : List T} {m : Mem T} (ha : at' < b.length) (hq : q < l.length)
    (hd : val0 l q ≠ 0) :
    divCell x at' l q (m.setBuf x b) = .ok (m.setBuf x (b.set at' (val0 b at' / val0 l q))) := by
  unfold divCell
  rw [Mem.setBuf_rd_self, lrd_val ha, ok_bind, lrd_val hq, ok_bind, divC_ok hd, ok_bind,
    Mem.setBuf_wr _ _ ha]

theorem fwd_spec {m : Mem T} {rhs x : Nat} {l b0 : List T} {nrow k : Nat} {B : Nat → T}
    (hx : Layout ix n l.length) (hd : ∀ i, i < n → val0 l (ix i i) ≠ 0)
    (hr : Rhs m rhs x b0 n nrow k B) (hk : k < nrow) (hb0 : n * nrow ≤ b0.length) :
    ∃ b, forRange 0 n (fwdRow ix nrow l rhs x k) (m.setBuf x b0) = .ok (m.setBuf x b) ∧
      b.length = b0.length ∧
      (∀ i, i < n → ∑ j ∈ Finset.range (i + 1), val0 l (ix i j) * entry nrow b j k = B i) ∧
      ∀ c, (∀ i, i < n → c ≠ i * nrow + k) → val0 b c = val0 b0 c := by
  obtain ⟨b, e, hl, hv, hf⟩ := sweep_up (emb := fun b : List T => m.setBuf x b)
    (f := fwdRow ix nrow l rhs x k) (pos := fun i => i * nrow + k) (n := n)
    (G := fun i X => (B i - ∑ j ∈ Finset.range i, val0 l (ix i j) * X j) / val0 l (ix i i))
    b0 (fun t ht => by have := cell_lt ht hk; omega) (fun s t _ _ h => ((cell_inj hk hk).mp h).1)
    (fun t X Y ht h => by
      have : ∑ j ∈ Finset.range t, val0 l (ix t j) * X j = ∑ j ∈ Finset.range t, val0 l (ix t j) * Y j :=
        Finset.sum_congr rfl fun j hj => by rw [h j (Finset.mem_range.mp hj)]
      simp only [this])
    (fun t b ht hb hf => by
      have hlt := cell_lt ht hk
      have hc : val0 b (t * nrow + k) = val0 b0 (t * nrow + k) :=
        hf _ fun s hs => cell_ne hk (by omega)
      have hs : ∀ v, (b.set (t * nrow + k) v).length = b.length := by simp
      unfold fwdRow
      rw [rhs_rd hr hk hb0 hb ht hc, ok_bind, Mem.setBuf_wr _ _ (by omega), ok_bind,
        subCell_loop (C := fun j => val0 l (ix t j)) (Nat.zero_le _) (by rw [hs]; omega)
          (fun j _ hj => ⟨by rw [hs]; have := cell_lt (show j < n by omega) hk; omega, cell_ne hk (by omega)⟩)
          (fun j _ hj => lrd_val (hx.lt t j (by omega) ht)), ok_bind,
        divCell_eq (by rw [List.length_set, hs]; omega) (hx.lt t t (Nat.le_refl _) ht) (hd t ht),
        List.set_set, List.set_set, val0_set (by rw [hs]; omega), if_pos rfl, val0_set (by omega), if_pos rfl]
      have : ∑ j ∈ Finset.Ico 0 t, val0 l (ix t j) * val0 (b.set (t * nrow + k) (B t)) (j * nrow + k) =
          ∑ j ∈ Finset.range t, val0 l (ix t j) * val0 b (j * nrow + k) := by
        rw [← Finset.range_eq_Ico]
        apply Finset.sum_congr rfl
        intro j hj
        have := Finset.mem_range.mp hj
        rw [val0_set (by omega), if_neg (cell_ne hk (by omega))]
      rw [this])
  refine ⟨b, e, hl, fun i hi => ?_, hf⟩
  have h := hv i hi
  have hdi := hd i hi
  rw [Finset.sum_range_succ]
  unfold entry
  rw [h]
  field_simp
  ring

theorem modFwd_spec {m : Mem T} {rhs x : Nat} {l b0 : List T} {nrow k : Nat} {B : Nat → T}
    (hx : Layout ix n l.length) (hd : ∀ i, i < n → val0 l (ix i i) ≠ 0)
    (hr : Rhs m rhs x b0 n nrow k B) (hk : k < nrow) (hb0 : n * nrow ≤ b0.length) :
    ∃ b, forRange 0 n (modFwdRow ix nrow l rhs x k) (m.setBuf x b0) = .ok (m.setBuf x b) ∧
      b.length = b0.length ∧
      (∀ i, i < n → ∑ j ∈ Finset.range (i + 1), val0 l (ix i j) / val0 l (ix j j) * entry nrow b j k = B i) ∧
      ∀ c, (∀ i, i < n → c ≠ i * nrow + k) → val0 b c = val0 b0 c := by
  obtain ⟨b, e, hl, hv, hf⟩ := sweep_up (emb := fun b : List T => m.setBuf x b)
    (f := modFwdRow ix nrow l rhs x k) (pos := fun i => i * nrow + k) (n := n)
    (G := fun i X => B i - ∑ j ∈ Finset.range i, val0 l (ix i j) / val0 l (ix j j) * X j)
    b0 (fun t ht => by have := cell_lt ht hk; omega) (fun s t _ _ h => ((cell_inj hk hk).mp h).1)
    (fun t X Y ht h => by
      have : ∑ j ∈ Finset.range t, val0 l (ix t j) / val0 l (ix j j) * X j =
          ∑ j ∈ Finset.range t, val0 l (ix t j) / val0 l (ix j j) * Y j :=
        Finset.sum_congr rfl fun j hj => by rw [h j (Finset.mem_range.mp hj)]
      simp only [this])
    (fun t b ht hb hf => by
      have hlt := cell_lt ht hk
      have hc : val0 b (t * nrow + k) = val0 b0 (t * nrow + k) :=
        hf _ fun s hs => cell_ne hk (by omega)
      have hs : ∀ v, (b.set (t * nrow + k) v).length = b.length := by simp
      unfold modFwdRow
      rw [rhs_rd hr hk hb0 hb ht hc, ok_bind, Mem.setBuf_wr _ _ (by omega), ok_bind,
        subCell_loop (C := fun j => val0 l (ix t j) / val0 l (ix j j)) (Nat.zero_le _) (by rw [hs]; omega)
          (fun j _ hj => ⟨by rw [hs]; have := cell_lt (show j < n by omega) hk; omega, cell_ne hk (by omega)⟩)
          (fun j _ hj => by
            rw [lrd_val (hx.lt t j (by omega) ht), ok_bind, lrd_val (hx.lt j j (Nat.le_refl _) (by omega)),
              ok_bind, divC_ok (hd j (by omega))]),
        List.set_set, val0_set (by omega), if_pos rfl]
      have : ∑ j ∈ Finset.Ico 0 t, val0 l (ix t j) / val0 l (ix j j) *
            val0 (b.set (t * nrow + k) (B t)) (j * nrow + k) =
          ∑ j ∈ Finset.range t, val0 l (ix t j) / val0 l (ix j j) * val0 b (j * nrow + k) := by
        rw [← Finset.range_eq_Ico]
        apply Finset.sum_congr rfl
        intro j hj
        have := Finset.mem_range.mp hj
        rw [val0_set (by omega), if_neg (cell_ne hk (by omega))]
      rw [this])
  refine ⟨b, e, hl, fun i hi => ?_, hf⟩
  have h := hv i hi
  have hdi := hd i hi
  rw [Finset.sum_range_succ]
  unfold entry
  rw [h]
  field_simp
  ring

theorem bwd_spec {m : Mem T} {x : Nat} {l b0 : List T} {nrow k : Nat}
    (hx : Layout ix n l.length) (hd : ∀ i, i < n → val0 l (ix i i) ≠ 0)
    (hk : k < nrow) (hb0 : n * nrow ≤ b0.length) :
    ∃ b, forDown (bwdRow ix n nrow l x k) n (m.setBuf x b0) = .ok (m.setBuf x b) ∧
      b.length = b0.length ∧
      (∀ i, i < n → ∑ j ∈ Finset.Ico i n, val0 l (ix j i) * entry nrow b j k = entry nrow b0 i k) ∧
      ∀ c, (∀ i, i < n → c ≠ i * nrow + k) → val0 b c = val0 b0 c := by
  obtain ⟨b, e, hl, hv, hf⟩ := sweep_down (emb := fun b : List T => m.setBuf x b)
    (f := bwdRow ix n nrow l x k) (pos := fun i => i * nrow + k) (n := n)
    (G := fun i X => (entry nrow b0 i k - ∑ j ∈ Finset.Ico (i + 1) n, val0 l (ix j i) * X j) / val0 l (ix i i))
    b0 (fun t ht => by have := cell_lt ht hk; omega) (fun s t _ _ h => ((cell_inj hk hk).mp h).1)
    (fun t X Y ht h => by
      have : ∑ j ∈ Finset.Ico (t + 1) n, val0 l (ix j t) * X j =
          ∑ j ∈ Finset.Ico (t + 1) n, val0 l (ix j t) * Y j :=
        Finset.sum_congr rfl fun j hj => by
          have := Finset.mem_Ico.mp hj
          rw [h j (by omega) (by omega)]
      simp only [this])
    (fun t b ht hb hf => by
      have hlt := cell_lt ht hk
      have hc : val0 b (t * nrow + k) = val0 b0 (t * nrow + k) :=
        hf _ fun s hs _ => cell_ne hk (by omega)
      unfold bwdRow
      rw [subCell_loop (C := fun j => val0 l (ix j t)) (by omega) (by omega)
          (fun j h1 hj => ⟨by have := cell_lt hj hk; omega, cell_ne hk (by omega)⟩)
          (fun j h1 hj => lrd_val (hx.lt j t (by omega) hj)), ok_bind,
        divCell_eq (by rw [List.length_set]; omega) (hx.lt t t (Nat.le_refl _) ht) (hd t ht),
        List.set_set, val0_set (by omega), if_pos rfl, hc]
      rfl)
  refine ⟨b, e, hl, fun i hi => ?_, hf⟩
  have h := hv i hi
  have hdi := hd i hi
  rw [Finset.sum_eq_sum_Ico_succ_bot hi]
  unfold entry at h ⊢
  rw [h]
  field_simp
  ring

omit [DecidableEq T] in
/-- Both kernels solve the system with the matrix `Σ_k C i k · l(j,k)`. -/
theorem column_solves {l : List T} {C : Nat → Nat → T} {A : Nat → Nat → T} {Y X B : Nat → T}
    (hA : ∀ i j, i < n → j < n → A i j = ∑ k ∈ Finset.range n, low C i k * low (fun i j => val0 l (ix i j)) j k)
    (h1 : ∀ i, i < n → ∑ j ∈ Finset.range (i + 1), C i j * Y j = B i)
    (h2 : ∀ i, i < n → ∑ j ∈ Finset.Ico i n, val0 l (ix j i) * X j = Y i) : Solves n A X B := by
  intro i hi
  unfold mulVec
  have e : ∀ j ∈ Finset.range n, A i j * X j =
      ∑ k ∈ Finset.range n, low C i k * (low (fun i j => val0 l (ix i j)) j k * X j) := by
    intro j hj
    rw [hA i j hi (Finset.mem_range.mp hj), Finset.sum_mul]
    exact Finset.sum_congr rfl fun k _ => by ring
  rw [Finset.sum_congr rfl e, Finset.sum_comm, ← h1 i hi]
  have e2 : ∀ k ∈ Finset.range n, ∑ j ∈ Finset.range n,
      low C i k * (low (fun i j => val0 l (ix i j)) j k * X j) = low C i k * Y k := by
    intro k hk
    have hk' := Finset.mem_range.mp hk
    rw [← Finset.mul_sum, ← h2 k hk']
    congr 1
    rw [Finset.range_eq_Ico, ← Finset.sum_Ico_consecutive _ (Nat.zero_le k) (by omega : k ≤ n)]
    rw [Finset.sum_eq_zero, zero_add]
    · apply Finset.sum_congr rfl
      intro j hj
      have := Finset.mem_Ico.mp hj
      rw [low, if_pos (by omega)]
    · intro j hj
      have := Finset.mem_Ico.mp hj
      rw [low, if_neg (by omega), zero_mul]
  rw [Finset.sum_congr rfl e2]
  symm
  rw [← Finset.sum_subset (Finset.range_subset_range.mpr (show i + 1 ≤ n by omega))]
  · apply Finset.sum_congr rfl
    intro k hk
    have := Finset.mem_range.mp hk
    rw [low, if_pos (by omega)]
  · intro k _ hk
    have : ¬ k ≤ i := by simpa using hk
    rw [low, if_neg this, zero_mul]

/-- The coefficients of the forward process of the two kernels. -/
def fwdCoef (md : Bool) (ix : Nat → Nat → Nat) (l : List T) (i j : Nat) : T :=
  if md then val0 l (ix i j) / val0 l (ix j j) else val0 l (ix i j)

theorem kernel_spec {md : Bool} {mt : MemType} {l : List T} {A : Nat → Nat → T} {m : Mem T} {rhs x nrow : Nat}
    {b0 : List T} (hl : storeLen mt n ≤ l.length) (hd : ∀ i, i < n → val0 l (cIndex mt n i i) ≠ 0)
    (hA : ∀ i j, i < n → j < n → A i j = ∑ k ∈ Finset.range n, low (fwdCoef md (cIndex mt n) l) i k *
      low (fun i j => val0 l (cIndex mt n i j)) j k)
    (hb0 : n * nrow ≤ b0.length) (hrl : rhs ≠ x → n * nrow ≤ m.len rhs) :
    ∃ b, kernel md mt n nrow l rhs x (m.setBuf x b0) = .ok (m.setBuf x b) ∧ b.length = b0.length ∧
      (∀ k, k < nrow → Solves n A (fun i => entry nrow b i k)
        (fun i => entry nrow ((m.setBuf x b0) rhs) i k)) ∧
      ∀ c, n * nrow ≤ c → val0 b c = val0 b0 c := by
  have hx := layout mt n l.length hl
  have main : ∀ f : Nat → Nat → Mem T → Res (Mem T),
      (∀ k c0, k < nrow → n * nrow ≤ c0.length → ∀ B, Rhs m rhs x c0 n nrow k B →
        ∃ b, forRange 0 n (f k) (m.setBuf x c0) = .ok (m.setBuf x b) ∧ b.length = c0.length ∧
        (∀ i, i < n → ∑ j ∈ Finset.range (i + 1), fwdCoef md (cIndex mt n) l i j * entry nrow b j k = B i) ∧
        ∀ c, (∀ i, i < n → c ≠ i * nrow + k) → val0 b c = val0 c0 c) →
      ∃ b, forRange 0 nrow (fun k m => do
          let m ← forRange 0 n (f k) m
          forDown (bwdRow (cIndex mt n) n nrow l x k) n m) (m.setBuf x b0) = .ok (m.setBuf x b) ∧
        b.length = b0.length ∧
        (∀ k, k < nrow → Solves n A (fun i => entry nrow b i k)
          (fun i => entry nrow ((m.setBuf x b0) rhs) i k)) ∧
        ∀ c, n * nrow ≤ c → val0 b c = val0 b0 c := by
    intro f hf
    refine columns_loop (emb := fun b : List T => m.setBuf x b) (n := n)
      (Good := fun k X => Solves n A X (fun i => entry nrow ((m.setBuf x b0) rhs) i k)) b0 ?_ ?_
    · intro k X Y h hg i hi
      rw [← hg i hi]
      unfold mulVec
      exact Finset.sum_congr rfl fun j hj => by rw [h j (Finset.mem_range.mp hj)]
    · intro k c0 hk hc0 hcol
      have hR : Rhs m rhs x c0 n nrow k (fun i => entry nrow ((m.setBuf x b0) rhs) i k) := by
        constructor
        · intro hr
          exact ⟨hrl hr, fun i hi => by rw [Mem.setBuf_other _ hr]⟩
        · intro hr i hi
          subst hr
          rw [Mem.setBuf_self]
          exact hcol i hi
      obtain ⟨b1, e1, hl1, hv1, hf1⟩ := hf k c0 hk (by omega) _ hR
      obtain ⟨b2, e2, hl2, hv2, hf2⟩ := bwd_spec (m := m) (x := x) (b0 := b1) hx hd hk (by omega)
      refine ⟨b2, ?_, by omega, column_solves hA hv1 hv2, ?_⟩
      · rw [e1, ok_bind, e2]
      · intro c hc
        rw [hf2 c hc, hf1 c hc]
  unfold kernel
  cases md with
  | false =>
    exact main (fwdRow (cIndex mt n) nrow l rhs x) fun k c0 hk hc0 B hR => by
      simpa [fwdCoef] using fwd_spec hx hd hR hk hc0
  | true =>
    exact main (modFwdRow (cIndex mt n) nrow l rhs x) fun k c0 hk hc0 B hR => by
      simpa [fwdCoef] using modFwd_spec hx hd hR hk hc0

end solve

/-! ## Solving, for both factorisations -/

section solve2
variable [Field T] [DecidableEq T]

/-- What the four solve functions do on the factor `L` of `A`. -/
def SolveOk (nd md : Bool) (mt : MemType) (n : Nat) (L : List T) (A : Nat → Nat → T) (m : Mem T) : Prop :=
    (∀ b r, m.len b = n → r ≠ b → ∃ x, x.length = n ∧ Solves n A (val0 x) (val0 (m b)) ∧
      solveMutVec nd md mt n L b m = .ok (m.setBuf b x) ∧
      solveVecAt nd md mt n L b r m = .ok (m.setBuf r x)) ∧
    (∀ (b : MatRef) r, b.Wf m → b.n = n → r ≠ b.buf → ∃ x, x.length = n * b.m ∧
      (∀ k, k < b.m → Solves n A (fun i => entry b.m x i k) (fun i => entry b.m (m b.buf) i k)) ∧
      solveMutMat nd md mt n L b m = .ok (m.setBuf b.buf x) ∧
      solveMatAt nd md mt n L b r m = .ok (m.setBuf r x))

theorem solve_spec (nd md : Bool) (mt : MemType) (n : Nat) (L : List T) (A : Nat → Nat → T)
    (hL : L.length = storeLen mt n) (hd : ∀ i, i < n → val0 L (cIndex mt n i i) ≠ 0)
    (hA : ∀ i j, i < n → j < n → A i j = ∑ k ∈ Finset.range n, low (fwdCoef md (cIndex mt n) L) i k *
      low (fun i j => val0 L (cIndex mt n i j)) j k) (hm : minor A n ≠ 0) (m : Mem T) :
    SolveOk nd md mt n L A m := by
  have main : ∀ b r nrow, m.len b = n * nrow → r ≠ b → ∃ x, x.length = n * nrow ∧
      (∀ k, k < nrow → Solves n A (fun i => entry nrow x i k) (fun i => entry nrow (m b) i k)) ∧
      kernel md mt n nrow L b b m = .ok (m.setBuf b x) ∧
      kernel md mt n nrow L b r (m.setBuf r (m b)) = .ok (m.setBuf r x) := by
    intro b r nrow hb hr
    have hb' : (m b).length = n * nrow := hb
    obtain ⟨x, e, hx, hsol, _⟩ := kernel_spec (md := md) (m := m) (rhs := b) (x := b) (nrow := nrow)
      (b0 := m b) hL.ge hd hA (by omega) (fun h => absurd rfl h)
    obtain ⟨y, e', hy, hsol', _⟩ := kernel_spec (md := md) (m := m) (rhs := b) (x := r) (nrow := nrow)
      (b0 := m b) hL.ge hd hA (by omega) (fun _ => by omega)
    rw [Mem.setBuf_same] at e hsol
    rw [Mem.setBuf_other _ hr.symm] at hsol'
    have hxy : y = x := by
      refine mat_ext (n := n) (m := nrow) (by omega) (by omega) fun i k hi hk => ?_
      exact solves_unique hm (hsol' k hk) (hsol k hk) i hi
    subst hxy
    exact ⟨y, by omega, hsol, e, e'⟩
  constructor
  · intro b r hb hr
    obtain ⟨x, hx, hsol, e, e'⟩ := main b r 1 (by omega) hr
    refine ⟨x, by omega, ?_, ?_, ?_⟩
    · have := hsol 0 (by omega)
      simpa [entry] using this
    · unfold solveMutVec; rw [hb]; simp [e]
    · unfold solveVecAt; rw [hb]; simp [e']
  · intro b r hb hn hr
    obtain ⟨x, hx, hsol, e, e'⟩ := main b.buf r b.m (by rw [hb, hn]) hr
    refine ⟨x, hx, hsol, ?_, ?_⟩
    · unfold solveMutMat; rw [hn]; simp [e]
    · unfold solveMatAt; rw [hn]; simp [e']

end solve2

end Chol

end Lalib
