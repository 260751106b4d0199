import Verif.Proofs.Eval

/-! # The Cholesky kernels as expressions: proofs for arbitrary arithmetic -/

namespace Lalib

variable {T : Type}

namespace Chol

section decomp
variable [Zero T] [Sub T] [Mul T]

theorem subMul_raw {at' J : Nat} {p q : Nat → Nat} {l : List T} (ha : at' < l.length)
    (hp : ∀ k, k < J → p k < l.length ∧ p k ≠ at') (hq : ∀ k, k < J → q k < l.length ∧ q k ≠ at') :
    forRange 0 J (fun k l => subMul at' (p k) (q k) l) l =
      .ok (l.set at' (subUp (fun k => val0 l (p k) * val0 l (q k)) 0 J (val0 l at'))) := by
  refine subUp_cell (emb := fun l : List T => l) (f := fun k l => subMul at' (p k) (q k) l)
    (g := fun k => val0 l (p k) * val0 l (q k)) (Nat.zero_le J) l ha ?_
  intro k v _ hk
  obtain ⟨h1, h2⟩ := hp k hk
  obtain ⟨h3, h4⟩ := hq k hk
  unfold subMul
  rw [lrd_val (by simpa using ha), ok_bind, lrd_val (by simpa using h1), ok_bind,
    lrd_val (by simpa using h3), ok_bind, lwr_ok (by simpa using ha), val0_set ha, if_pos rfl,
    val0_set ha, if_neg h2, val0_set ha, if_neg h4, List.set_set]

variable [Div T] [CDiv T] {ix : Nat → Nat → Nat} {n : Nat}

theorem offDiag_raw {l : List T} (hx : Layout ix n l.length) {i j : Nat} (hj : j < i) (hi : i < n)
    (hd : DivAt (val0 l (ix j j))) :
    offDiag ix i j l = .ok (l.set (ix i j)
      (subUp (fun k => val0 l (ix i k) * val0 l (ix j k)) 0 j (val0 l (ix i j)) / val0 l (ix j j))) := by
  have h0 := hx.lt i j (by omega) hi
  have hdl := hx.lt j j (by omega) (by omega)
  unfold offDiag
  rw [subMul_raw h0 (fun k hk => ⟨hx.lt i k (by omega) hi, fun he => by
      have := (hx.inj i k i j (by omega) hi (by omega) hi he).2; omega⟩)
    (fun k hk => ⟨hx.lt j k (by omega) (by omega), fun he => by
      have := (hx.inj j k i j (by omega) (by omega) (by omega) hi he).1; omega⟩), ok_bind,
    lrd_val (by simpa using h0), ok_bind, lrd_val (by simpa using hdl), ok_bind, val0_set h0, if_pos rfl,
    val0_set h0, if_neg, hd, ok_bind, lwr_ok (by simpa using h0), List.set_set]
  intro he
  have := (hx.inj j j i j (by omega) (by omega) (by omega) hi he).1
  omega

/-- The strictly lower part of row `i`. -/
theorem offRow_raw {l0 : List T} (hx : Layout ix n l0.length) {i : Nat} (hi : i < n)
    (hd : ∀ c, c < i → DivAt (val0 l0 (ix c c))) :
    ∃ l, forRange 0 i (offDiag ix i) l0 = .ok l ∧ l.length = l0.length ∧
      (∀ c, c < i → val0 l (ix i c) =
        subUp (fun k => val0 l (ix i k) * val0 l0 (ix c k)) 0 c (val0 l0 (ix i c)) / val0 l0 (ix c c)) ∧
      ∀ c, (∀ s, s < i → c ≠ ix i s) → val0 l c = val0 l0 c := by
  exact sweep_up (emb := fun l : List T => l) (f := offDiag ix i) (pos := ix i) (n := i)
    (G := fun c X => subUp (fun k => X k * val0 l0 (ix c k)) 0 c (val0 l0 (ix i c)) / val0 l0 (ix c c))
    l0 (fun t ht => hx.lt i t (by omega) hi)
    (fun s t hs ht h => (hx.inj i s i t (by omega) hi (by omega) hi h).2)
    (fun t X Y ht h => by
      rw [subUp_congr (g := fun k => X k * val0 l0 (ix t k)) (g' := fun k => Y k * val0 l0 (ix t k))]
      intro k _ hk
      rw [h k hk])
    (fun t l ht hl hf => by
      have hrow : ∀ r k, k ≤ r → r < i → val0 l (ix r k) = val0 l0 (ix r k) := by
        intro r k hk hr
        apply hf
        intro s hs he
        have := (hx.inj r k i s hk (by omega) (by omega) hi he).1
        omega
      have hcell : val0 l (ix i t) = val0 l0 (ix i t) := by
        apply hf
        intro s hs he
        have := (hx.inj i t i s (by omega) hi (by omega) hi he).2
        omega
      rw [offDiag_raw (by rw [hl]; exact hx) ht hi (by rw [hrow t t (Nat.le_refl _) ht]; exact hd t ht)]
      rw [hcell, hrow t t (Nat.le_refl _) ht,
        subUp_congr (g := fun k => val0 l (ix i k) * val0 l (ix t k))
          (g' := fun k => val0 l (ix i k) * val0 l0 (ix t k))]
      intro k _ hk
      rw [hrow t k (by omega) ht])

end decomp

section ordered
variable [Zero T] [Sub T] [Mul T] [Div T] [CDiv T] [CZero T] [LT T] [DecidableLT T] [Sqrt T]
variable {ix : Nat → Nat → Nat} {n : Nat}

/-- The pivot of row `r`. -/
def pivot (ix : Nat → Nat → Nat) (l0 l : List T) (r : Nat) : T :=
  subUp (fun k => val0 l (ix r k) * val0 l (ix r k)) 0 r (val0 l0 (ix r r))

/-- Rows below `i` hold the factor; everything outside these rows is as in `l0`. -/
structure RInv (ix : Nat → Nat → Nat) (l0 : List T) (i : Nat) (l : List T) : Prop where
  len : l.length = l0.length
  off : ∀ r c, c < r → r < i → val0 l (ix r c) =
    subUp (fun k => val0 l (ix r k) * val0 l (ix c k)) 0 c (val0 l0 (ix r c)) / val0 l (ix c c)
  diag : ∀ r, r < i → val0 l (ix r r) = Sqrt.sqrt (pivot ix l0 l r)
  pos : ∀ r, r < i → ¬ pivot ix l0 l r < 0 ∧ ¬ IsZ (pivot ix l0 l r)
  frame : ∀ p, (∀ r c, c ≤ r → r < i → p ≠ ix r c) → val0 l p = val0 l0 p

/-- Where and why the decomposition stops. -/
structure RStop (ix : Nat → Nat → Nat) (n : Nat) (l0 : List T) (i : Nat) (l : List T) : Prop where
  lt : i < n
  len : l.length = l0.length
  piv : IsZ (pivot ix l0 l i) ∨ pivot ix l0 l i < 0
  cell : val0 l (ix i i) = pivot ix l0 l i
  off : ∀ r c, c < r → r ≤ i → val0 l (ix r c) =
    subUp (fun k => val0 l (ix r k) * val0 l (ix c k)) 0 c (val0 l0 (ix r c)) / val0 l (ix c c)
  diag : ∀ r, r < i → val0 l (ix r r) = Sqrt.sqrt (pivot ix l0 l r)
  pos : ∀ r, r < i → ¬ pivot ix l0 l r < 0 ∧ ¬ IsZ (pivot ix l0 l r)
  frame : ∀ p, (∀ r c, c ≤ r → r ≤ i → p ≠ ix r c) → val0 l p = val0 l0 p

theorem row_raw [CSqrt T] (hsq : ∀ v : T, ¬ v < 0 → ¬ IsZ v → sqrtC v = .ok (Sqrt.sqrt v) ∧ DivAt (Sqrt.sqrt v)) {l0 l : List T} (hx : Layout ix n l0.length)
    {i : Nat} (hi : i < n) (hI : RInv ix l0 i l) :
    Ok (Sum.elim (RInv ix l0 (i + 1)) (fun r => RStop ix n l0 r.1 r.2)) (row ix i l) := by
  obtain ⟨hlen, hoff, hdiag, hpos, hframe⟩ := hI
  have hxl : Layout ix n l.length := by rw [hlen]; exact hx
  obtain ⟨l1, e1, hl1, hv1, hf1⟩ := offRow_raw hxl hi
    (fun c hc => by rw [hdiag c hc]; exact (hsq _ (hpos c hc).1 (hpos c hc).2).2)
  have hii1 : ix i i < l1.length := by rw [hl1]; exact hxl.lt i i (Nat.le_refl _) hi
  have e2 := subMul_raw (l := l1) (at' := ix i i) (J := i) (p := ix i) (q := ix i) hii1
    (fun k hk => ⟨by rw [hl1]; exact hxl.lt i k (by omega) hi, fun he => by
      have := (hx.inj i k i i (by omega) hi (by omega) hi he).2; omega⟩)
    (fun k hk => ⟨by rw [hl1]; exact hxl.lt i k (by omega) hi, fun he => by
      have := (hx.inj i k i i (by omega) hi (by omega) hi he).2; omega⟩)
  have hrow : ∀ r k, k ≤ r → r < i → val0 l1 (ix r k) = val0 l (ix r k) := by
    intro r k hk hr
    apply hf1
    intro s hs he
    have := (hx.inj r k i s hk (by omega) (by omega) hi he).1
    omega
  have hold : ∀ c, c ≤ i → val0 l (ix i c) = val0 l0 (ix i c) := by
    intro c hc
    apply hframe
    intro r c' h1 h2 he
    have := (hx.inj i c r c' hc hi h1 (by omega) he).1
    omega
  have hdg : val0 l1 (ix i i) = val0 l0 (ix i i) := by
    rw [← hold i (Nat.le_refl _)]
    apply hf1
    intro s hs he
    have := (hx.inj i i i s (by omega) hi (by omega) hi he).2
    omega
  -- whatever is written to the diagonal of row `i`, the rest is as it should be
  have hset : ∀ v r c, c ≤ r → r ≤ i → (c < i) → val0 (l1.set (ix i i) v) (ix r c) = val0 l1 (ix r c) := by
    intro v r c hc hr hci
    rw [val0_set hii1, if_neg]
    intro he
    have := (hx.inj r c i i hc (by omega) (by omega) hi he).2
    omega
  have hpv : ∀ v r, r < i → pivot ix l0 (l1.set (ix i i) v) r = pivot ix l0 l r := by
    intro v r hr
    unfold pivot
    refine subUp_congr (fun k _ hk => ?_) _
    rw [hset v r k (by omega) (by omega) (by omega), hrow r k (by omega) hr]
  have hpvi : ∀ v, pivot ix l0 (l1.set (ix i i) v) i =
      subUp (fun k => val0 l1 (ix i k) * val0 l1 (ix i k)) 0 i (val0 l0 (ix i i)) := by
    intro v
    unfold pivot
    refine subUp_congr (fun k _ hk => ?_) _
    rw [hset v i k (by omega) (by omega) (by omega)]
  have hoff' : ∀ v r c, c < r → r ≤ i → val0 (l1.set (ix i i) v) (ix r c) =
      subUp (fun k => val0 (l1.set (ix i i) v) (ix r k) * val0 (l1.set (ix i i) v) (ix c k)) 0 c
        (val0 l0 (ix r c)) / val0 (l1.set (ix i i) v) (ix c c) := by
    intro v r c hc hr
    have e3 : subUp (fun k => val0 (l1.set (ix i i) v) (ix r k) * val0 (l1.set (ix i i) v) (ix c k)) 0 c
        (val0 l0 (ix r c)) = subUp (fun k => val0 l1 (ix r k) * val0 l (ix c k)) 0 c (val0 l0 (ix r c)) := by
      refine subUp_congr (fun k _ hk => ?_) _
      rw [hset v r k (by omega) hr (by omega), hset v c k (by omega) (by omega) (by omega),
        hrow c k (by omega) (by omega)]
    rw [e3, hset v c c (Nat.le_refl _) (by omega) (by omega), hrow c c (Nat.le_refl _) (by omega),
      hset v r c (by omega) hr (by omega)]
    by_cases hri : r = i
    · subst hri
      rw [hv1 c hc, hold c (by omega)]
    · rw [hrow r c (by omega) (by omega), hoff r c hc (by omega)]
      congr 1
      refine subUp_congr (fun k _ hk => ?_) _
      rw [hrow r k (by omega) (by omega)]
  have hdiag' : ∀ v r, r < i → val0 (l1.set (ix i i) v) (ix r r) = Sqrt.sqrt (pivot ix l0 (l1.set (ix i i) v) r) := by
    intro v r hr
    rw [hset v r r (Nat.le_refl _) (by omega) hr, hrow r r (Nat.le_refl _) hr, hdiag r hr, hpv v r hr]
  have hpos' : ∀ v r, r < i → ¬ pivot ix l0 (l1.set (ix i i) v) r < 0 ∧
      ¬ IsZ (pivot ix l0 (l1.set (ix i i) v) r) := by
    intro v r hr
    rw [hpv v r hr]
    exact hpos r hr
  have hlen2 : ∀ v, (l1.set (ix i i) v).length = l0.length := by
    intro v; simp [hl1, hlen]
  unfold row
  rw [e1, ok_bind, e2, ok_bind, lrd_val (by simpa using hii1), ok_bind, val0_set hii1, if_pos rfl, hdg]
  generalize hw : subUp (fun k => val0 l1 (ix i k) * val0 l1 (ix i k)) 0 i (val0 l0 (ix i i)) = w at hpvi
  have hfr : ∀ v p, (∀ r c, c ≤ r → r ≤ i → p ≠ ix r c) → val0 (l1.set (ix i i) v) p = val0 l0 p := by
    intro v p hp
    rw [val0_set hii1, if_neg (hp i i (Nat.le_refl _) (by omega)),
      hf1 p (fun s hs => hp i s (by omega) (by omega))]
    exact hframe p fun r c h1 h2 => hp r c h1 (by omega)
  have hcell : val0 (l1.set (ix i i) w) (ix i i) = pivot ix l0 (l1.set (ix i i) w) i := by
    rw [hpvi, val0_set hii1, if_pos rfl]
  by_cases h0 : IsZ w
  · rw [if_pos h0]
    exact ⟨hi, hlen2 _, by rw [hpvi]; exact .inl h0, hcell, hoff' _, hdiag' _, hpos' _, hfr _⟩
  rw [if_neg h0]
  by_cases hneg : w < 0
  · rw [if_pos hneg]
    exact ⟨hi, hlen2 _, by rw [hpvi]; exact .inr hneg, hcell, hoff' _, hdiag' _, hpos' _, hfr _⟩
  rw [if_neg hneg]
  rw [(hsq w hneg h0).1, ok_bind, lwr_ok (by simpa using hii1), ok_bind, List.set_set]
  show RInv ix l0 (i + 1) _
  refine ⟨hlen2 _, fun r c hc hr => hoff' _ r c hc (by omega), ?_, ?_, ?_⟩
  · intro r hr
    by_cases hri : r = i
    · subst hri
      rw [hpvi, val0_set hii1, if_pos rfl]
    · exact hdiag' _ r (by omega)
  · intro r hr
    by_cases hri : r = i
    · subst hri
      rw [hpvi]
      exact ⟨hneg, h0⟩
    · exact hpos' _ r (by omega)
  · exact fun p hp => hfr _ p fun r c h1 h2 => hp r c h1 (by omega)

theorem decomp_raw [CSqrt T] (hsq : ∀ v : T, ¬ v < 0 → ¬ IsZ v → sqrtC v = .ok (Sqrt.sqrt v) ∧ DivAt (Sqrt.sqrt v)) (mt : MemType) (n : Nat) (l0 : List T)
    (hl : storeLen mt n ≤ l0.length) :
    ∃ r, decomp mt n l0 = .ok r ∧
      ((r.1 = 0 ∧ RInv (cIndex mt n) l0 n r.2) ∨ RStop (cIndex mt n) n l0 r.1 r.2) := by
  have hx := layout mt n l0.length hl
  have : Ok (Sum.elim (RInv (cIndex mt n) l0 n) (fun r => RStop (cIndex mt n) n l0 r.1 r.2))
      (forRet 0 n (row (cIndex mt n)) l0) := by
    refine forRet_sat (I := RInv (cIndex mt n) l0) (Nat.zero_le _) ?_ ?_
    · exact ⟨rfl, fun r c _ h => by omega, fun r h => by omega, fun r h => by omega, fun _ _ => rfl⟩
    · intro i l _ hi hI
      exact row_raw hsq hx hi hI
  obtain ⟨a, e, h⟩ := Ok.exists this
  unfold decomp
  rw [e, ok_bind]
  cases a with
  | inl l => exact ⟨_, rfl, .inl ⟨rfl, h⟩⟩
  | inr r => exact ⟨_, rfl, .inr h⟩

/-! ### The outcome is determined by the lower triangle -/

/-- Rows up to `i` of the factor, the diagonal of row `i` excluded. -/
structure Upto (A L : Nat → Nat → T) (i : Nat) : Prop where
  off : ∀ r c, c < r → r ≤ i → L r c = subUp (fun k => L r k * L c k) 0 c (A r c) / L c c
  diag : ∀ r, r < i → L r r = Sqrt.sqrt (subUp (fun k => L r k * L r k) 0 r (A r r))

omit [Zero T] [CDiv T] [CZero T] [LT T] [DecidableLT T] in
theorem Upto.unique {A L L' : Nat → Nat → T} {i : Nat} (h : Upto A L i) (h' : Upto A L' i) :
    ∀ r c, c ≤ r → r ≤ i → (r < i ∨ c < r) → L r c = L' r c := by
  intro r
  induction r using Nat.strong_induction_on with
  | _ r ihr =>
    intro c
    induction c using Nat.strong_induction_on with
    | _ c ihc =>
      intro hc hr hx
      have hrow : ∀ k, k < c → L r k = L' r k := fun k hk => ihc k hk (by omega) hr (.inr (by omega))
      rcases Nat.lt_or_ge c r with hcr | hrc
      · rw [h.off r c hcr hr, h'.off r c hcr hr, ihr c hcr c (Nat.le_refl _) (by omega) (.inl (by omega))]
        congr 1
        refine subUp_congr (fun k _ hk => ?_) _
        rw [hrow k hk, ihr c hcr k (by omega) (by omega) (.inl (by omega))]
      · obtain rfl : c = r := by omega
        rw [h.diag c (by omega), h'.diag c (by omega)]
        congr 1
        refine subUp_congr (fun k _ hk => ?_) _
        rw [hrow k hk]

omit [Zero T] [CDiv T] [CZero T] [LT T] [DecidableLT T] in
theorem Upto.pivot {A L L' : Nat → Nat → T} {i : Nat} (h : Upto A L i) (h' : Upto A L' i) :
    subUp (fun k => L i k * L i k) 0 i (A i i) = subUp (fun k => L' i k * L' i k) 0 i (A i i) := by
  refine subUp_congr (fun k _ hk => ?_) _
  rw [h.unique h' i k (by omega) (Nat.le_refl _) (.inr hk)]

omit [CDiv T] [DecidableLT T] in
theorem RInv.upto {l0 l : List T} {A : Nat → Nat → T} (hI : RInv ix l0 n l)
    (hA : ∀ i j, j ≤ i → i < n → val0 l0 (ix i j) = A i j) {i : Nat} (hi : i < n) :
    Upto A (fun i j => val0 l (ix i j)) i :=
  ⟨fun r c hc hr => by rw [hI.off r c hc (by omega), hA r c (by omega) (by omega)],
   fun r hr => by rw [hI.diag r (by omega), Chol.pivot, hA r r (by omega) (by omega)]⟩

omit [CDiv T] [DecidableLT T] in
theorem RInv.cholRec {l0 l : List T} {A : Nat → Nat → T} (hI : RInv ix l0 n l)
    (hA : ∀ i j, j ≤ i → i < n → val0 l0 (ix i j) = A i j) : CholRec n A (fun i j => val0 l (ix i j)) :=
  fun i hi => ⟨fun j hj => (hI.upto hA hi).off i j hj (Nat.le_refl _), by
    show val0 l (ix i i) = _
    rw [hI.diag i hi, Chol.pivot, hA i i (Nat.le_refl _) hi]⟩

omit [CDiv T] [DecidableLT T] in
theorem RStop.upto {l0 l : List T} {A : Nat → Nat → T} {i : Nat} (hI : RStop ix n l0 i l)
    (hA : ∀ i j, j ≤ i → i < n → val0 l0 (ix i j) = A i j) {i' : Nat} (hi : i' ≤ i) :
    Upto A (fun i j => val0 l (ix i j)) i' := by
  have hlt := hI.lt
  exact ⟨fun r c hc hr => by rw [hI.off r c hc (by omega), hA r c (by omega) (by omega)],
   fun r hr => by rw [hI.diag r (by omega), Chol.pivot, hA r r (by omega) (by omega)]⟩

/-- Same lower triangle, same return code and same contents of the lower triangle afterwards. -/
theorem decomp_same [CSqrt T] (hsq : ∀ v : T, ¬ v < 0 → ¬ IsZ v → sqrtC v = .ok (Sqrt.sqrt v) ∧ DivAt (Sqrt.sqrt v)) (mt mt' : MemType) (n : Nat)
    {l l' : List T} {A : Nat → Nat → T} (hl : storeLen mt n ≤ l.length) (hl' : storeLen mt' n ≤ l'.length)
    (hA : ∀ i j, j ≤ i → i < n → val0 l (cIndex mt n i j) = A i j)
    (hA' : ∀ i j, j ≤ i → i < n → val0 l' (cIndex mt' n i j) = A i j) :
    ∃ c L L', decomp mt n l = .ok (c, L) ∧ decomp mt' n l' = .ok (c, L') ∧
      ∀ i j, j ≤ i → i < n → val0 L (cIndex mt n i j) = val0 L' (cIndex mt' n i j) := by
  obtain ⟨⟨c, L⟩, e, h⟩ := decomp_raw hsq mt n l hl
  obtain ⟨⟨c', L'⟩, e', h'⟩ := decomp_raw hsq mt' n l' hl'
  have hx := layout mt n l.length hl
  have hx' := layout mt' n l'.length hl'
  have bad : ∀ {ix ix' : Nat → Nat → Nat} {l l' L L' : List T} {i : Nat},
      (∀ i j, j ≤ i → i < n → val0 l (ix i j) = A i j) → (∀ i j, j ≤ i → i < n → val0 l' (ix' i j) = A i j) →
      RStop ix n l i L → Upto A (fun i j => val0 L' (ix' i j)) i →
      ¬ (¬ Chol.pivot ix' l' L' i < 0 ∧ ¬ IsZ (Chol.pivot ix' l' L' i)) := by
    intro ix ix' l l' L L' i hA hA' hS hU hp
    have hlt := hS.lt
    have e := (hS.upto hA (Nat.le_refl i)).pivot hU
    have hpv := hS.piv
    unfold Chol.pivot at hpv hp
    rw [hA i i (Nat.le_refl _) hlt, e] at hpv
    rw [hA' i i (Nat.le_refl _) hlt] at hp
    rcases hpv with h | h
    · exact hp.2 h
    · exact hp.1 h
  rcases h with ⟨h0, hI⟩ | hS <;> rcases h' with ⟨h0', hI'⟩ | hS'
  · simp only at h0 hI h0' hI'
    subst h0 h0'
    refine ⟨0, L, L', e, e', fun i j hj hi => ?_⟩
    rcases Nat.lt_or_ge j i with hji | hij
    · exact (hI.upto hA hi).unique (hI'.upto hA' hi) i j hj (Nat.le_refl _) (.inr hji)
    · obtain rfl : j = i := by omega
      have := (hI.upto hA hi).pivot (hI'.upto hA' hi)
      rw [hI.diag j hi, hI'.diag j hi, Chol.pivot, Chol.pivot, hA j j hj hi, hA' j j hj hi, this]
  · exact absurd (hI.pos c' hS'.lt) (bad hA' hA hS' (hI.upto hA hS'.lt))
  · exact absurd (hI'.pos c hS.lt) (bad hA hA' hS (hI'.upto hA' hS.lt))
  · simp only at hS hS'
    rcases Nat.lt_trichotomy c c' with hlt | rfl | hlt
    · exact absurd (hS'.pos c hlt) (bad hA hA' hS (hS'.upto hA' (by omega)))
    · refine ⟨c, L, L', e, e', fun i j hj hi => ?_⟩
      have hU := hS.upto hA (Nat.le_refl c)
      have hU' := hS'.upto hA' (Nat.le_refl c)
      by_cases hic : i ≤ c
      · by_cases hd : i < c ∨ j < i
        · exact hU.unique hU' i j hj hic hd
        · obtain ⟨rfl, rfl⟩ : i = c ∧ j = i := by omega
          rw [hS.cell, hS'.cell]
          unfold Chol.pivot
          rw [hA j j hj hi, hA' j j hj hi]
          exact hU.pivot hU'
      · rw [hS.frame _ fun r k h1 h2 he => ?_, hS'.frame _ fun r k h1 h2 he => ?_, hA i j hj hi, hA' i j hj hi]
        · have := (hx'.inj i j r k hj hi h1 (by omega) he).1; omega
        · have := (hx.inj i j r k hj hi h1 (by omega) he).1; omega
    · exact absurd (hS.pos c' hlt) (bad hA' hA hS' (hS.upto hA (by omega)))

end ordered

section mod
variable [Zero T] [Sub T] [Mul T] [Div T] [CDiv T] {ix : Nat → Nat → Nat} {n : Nat}

theorem modSub_raw {l : List T} (hx : Layout ix n l.length) {i j : Nat} (hj : j ≤ i) (hi : i < n)
    (hd : ∀ k, k < j → DivAt (val0 l (ix k k))) :
    forRange 0 j (modSub ix i j) l = .ok (l.set (ix i j)
      (subUp (fun k => val0 l (ix i k) * val0 l (ix j k) / val0 l (ix k k)) 0 j (val0 l (ix i j)))) := by
  have ha := hx.lt i j hj hi
  refine subUp_cell (emb := fun l : List T => l) (f := modSub ix i j)
    (g := fun k => val0 l (ix i k) * val0 l (ix j k) / val0 l (ix k k)) (Nat.zero_le j) l ha ?_
  intro k v _ hk
  have h1 := hx.lt i k (by omega) hi
  have h2 := hx.lt j k (by omega) (by omega)
  have h3 := hx.lt k k (by omega) (by omega)
  have n1 : ix i k ≠ ix i j := fun he => by
    have := (hx.inj i k i j (by omega) hi hj hi he).2; omega
  have n2 : ix j k ≠ ix i j := fun he => by
    have := (hx.inj j k i j (by omega) (by omega) hj hi he).2; omega
  have n3 : ix k k ≠ ix i j := fun he => by
    have := (hx.inj k k i j (by omega) (by omega) hj hi he).2; omega
  unfold modSub
  rw [lrd_val (by simpa using ha), ok_bind, lrd_val (by simpa using h1), ok_bind,
    lrd_val (by simpa using h2), ok_bind, lrd_val (by simpa using h3), ok_bind,
    val0_set ha, if_neg n1, val0_set ha, if_neg n2, val0_set ha, if_neg n3, hd k hk, ok_bind,
    val0_set ha, if_pos rfl, lwr_ok (by simpa using ha), List.set_set]

variable [CZero T]

/-- Rows below `i` hold the modified factor. -/
structure RModInv (ix : Nat → Nat → Nat) (l0 : List T) (i : Nat) (l : List T) : Prop where
  len : l.length = l0.length
  piv : ∀ r, r < i → ¬ IsZ (val0 l (ix r r))
  fac : ∀ r c, c ≤ r → r < i → val0 l (ix r c) =
    subUp (fun k => val0 l (ix r k) * val0 l (ix c k) / val0 l (ix k k)) 0 c (val0 l0 (ix r c))
  frame : ∀ p, (∀ r c, c ≤ r → r < i → p ≠ ix r c) → val0 l p = val0 l0 p

/-- Where the modified factorisation stops. -/
structure RModStop (ix : Nat → Nat → Nat) (n : Nat) (l0 : List T) (i : Nat) (l : List T) : Prop where
  lt : i < n
  zero : IsZ (val0 l (ix i i))
  fac : ∀ r c, c ≤ r → r ≤ i → val0 l (ix r c) =
    subUp (fun k => val0 l (ix r k) * val0 l (ix c k) / val0 l (ix k k)) 0 c (val0 l0 (ix r c))

theorem modRow_raw (hdv : ∀ v : T, ¬ IsZ v → DivAt v) {l0 l : List T} (hx : Layout ix n l0.length) {i : Nat} (hi : i < n)
    (hI : RModInv ix l0 i l) :
    Sat (RModInv ix l0 (i + 1)) (fun e => e = .throw .runtimeError ∧ ∃ i l, RModStop ix n l0 i l)
      (modRow ix i l) := by
  obtain ⟨hlen, hpiv, hfac, hframe⟩ := hI
  have hxl : Layout ix n l.length := by rw [hlen]; exact hx
  obtain ⟨l1, e1, hl1, hv1, hf1⟩ := sweep_up (emb := fun l : List T => l)
    (f := fun j l => forRange 0 j (modSub ix i j) l) (pos := ix i) (n := i + 1)
    (G := fun c X => subUp (fun k => X k * (if c = i then X k else val0 l (ix c k)) / val0 l (ix k k)) 0 c
      (val0 l (ix i c)))
    l (fun t ht => hxl.lt i t (by omega) hi)
    (fun s t hs ht h => (hx.inj i s i t (by omega) hi (by omega) hi h).2)
    (fun t X Y ht h => by
      refine subUp_congr (fun k _ hk => ?_) _
      rw [h k hk])
    (fun t l' ht hl' hf => by
      have hrow : ∀ r k, k ≤ r → r < i → val0 l' (ix r k) = val0 l (ix r k) := by
        intro r k hk hr
        apply hf
        intro s hs he
        have := (hx.inj r k i s hk (by omega) (by omega) hi he).1
        omega
      have hcell : val0 l' (ix i t) = val0 l (ix i t) := by
        apply hf
        intro s hs he
        have := (hx.inj i t i s (by omega) hi (by omega) hi he).2
        omega
      rw [modSub_raw (by rw [hl']; exact hxl) (show t ≤ i by omega) hi
        (fun k hk => by rw [hrow k k (Nat.le_refl _) (by omega)]; exact hdv _ (hpiv k (by omega)))]
      rw [hcell, subUp_congr (g := fun k => val0 l' (ix i k) * val0 l' (ix t k) / val0 l' (ix k k))
        (g' := fun k => val0 l' (ix i k) *
            (if t = i then val0 l' (ix i k) else val0 l (ix t k)) / val0 l (ix k k))]
      intro k _ hk
      rw [hrow k k (Nat.le_refl _) (by omega)]
      by_cases hti : t = i
      · rw [if_pos hti, hti]
      · rw [if_neg hti, hrow t k (by omega) (by omega)])
  have hrow : ∀ r k, k ≤ r → r < i → val0 l1 (ix r k) = val0 l (ix r k) := by
    intro r k hk hr
    apply hf1
    intro s hs he
    have := (hx.inj r k i s hk (by omega) (by omega) hi he).1
    omega
  have hold : ∀ c, c ≤ i → val0 l (ix i c) = val0 l0 (ix i c) := by
    intro c hc
    apply hframe
    intro r c' h1 h2 he
    have := (hx.inj i c r c' hc hi h1 (by omega) he).1
    omega
  have hpiv1 : ∀ r, r < i → ¬ IsZ (val0 l1 (ix r r)) := fun r hr => by
    rw [hrow r r (Nat.le_refl _) hr]; exact hpiv r hr
  have hfac1 : ∀ r c, c ≤ r → r ≤ i → val0 l1 (ix r c) =
      subUp (fun k => val0 l1 (ix r k) * val0 l1 (ix c k) / val0 l1 (ix k k)) 0 c (val0 l0 (ix r c)) := by
    intro r c hcr hri
    by_cases hr : r = i
    · subst hr
      rw [hv1 c (by omega), hold c hcr]
      refine subUp_congr (fun k _ hk => ?_) _
      rw [hrow k k (Nat.le_refl _) (by omega)]
      by_cases hcr' : c = r
      · rw [if_pos hcr', hcr']
      · rw [if_neg hcr', hrow c k (by omega) (by omega)]
    · rw [hrow r c hcr (by omega), hfac r c hcr (by omega)]
      refine subUp_congr (fun k _ hk => ?_) _
      rw [hrow r k (by omega) (by omega), hrow c k (by omega) (by omega), hrow k k (Nat.le_refl _) (by omega)]
  unfold modRow
  rw [e1, ok_bind, lrd_val (by rw [hl1]; exact hxl.lt i i (Nat.le_refl _) hi), ok_bind]
  by_cases h0 : IsZ (val0 l1 (ix i i))
  · simp only [h0, decide_true, throwIf_true, error_bind]
    exact ⟨rfl, i, l1, hi, h0, hfac1⟩
  · simp only [h0, decide_false, throwIf_false, ok_bind]
    refine ⟨by rw [hl1, hlen], ?_, ?_, ?_⟩
    · intro r hr
      by_cases hri : r = i
      · subst hri; exact h0
      · exact hpiv1 r (by omega)
    · intro r c hcr hr
      exact hfac1 r c hcr (by omega)
    · intro p hp
      rw [hf1 p (fun s hs => hp i s (by omega) (by omega))]
      exact hframe p fun r c h1 h2 => hp r c h1 (by omega)

theorem modNew_raw (hdv : ∀ v : T, ¬ IsZ v → DivAt v) (mt : MemType) (n : Nat) (l0 : List T) (hl : storeLen mt n ≤ l0.length) :
    Sat (RModInv (cIndex mt n) l0 n)
      (fun e => e = .throw .runtimeError ∧ ∃ i l, RModStop (cIndex mt n) n l0 i l) (modNew mt n l0) := by
  have hx := layout mt n l0.length hl
  unfold modNew
  refine forRange_sat (I := RModInv (cIndex mt n) l0) (Nat.zero_le _) ?_ ?_
  · exact ⟨rfl, fun r h => by omega, fun r c _ h => by omega, fun _ _ => rfl⟩
  · intro i l _ hi hI
    exact modRow_raw hdv hx hi hI

end mod

/-! ## Solving -/

section solve
variable [Zero T] [Sub T] [Mul T] {ix : Nat → Nat → Nat} {n : Nat}

theorem subCell_raw {x at' lo hi : Nat} {p : Nat → Nat} {c : Nat → Res T} {C : Nat → T} {m : Mem T} {b : List T}
    (hle : lo ≤ hi) (ha : at' < b.length) (hp : ∀ j, lo ≤ j → j < hi → p j < b.length ∧ p j ≠ at')
    (hc : ∀ j, lo ≤ j → j < hi → c j = .ok (C j)) :
    forRange lo hi (fun j m => subCell x at' (p j) (c j) m) (m.setBuf x b) =
      .ok (m.setBuf x (b.set at' (subUp (fun j => C j * val0 b (p j)) lo hi (val0 b at')))) := by
  refine subUp_cell (emb := fun b : List T => m.setBuf x b) (f := fun j m => subCell x at' (p j) (c j) m)
    (g := fun j => C j * val0 b (p j)) hle b ha ?_
  intro k v h1 h2
  obtain ⟨h3, h4⟩ := hp k h1 h2
  unfold subCell
  rw [Mem.setBuf_rd_self, lrd_val (by simpa using ha), ok_bind, hc k h1 h2, ok_bind, Mem.setBuf_rd_self,
    lrd_val (by simpa using h3), ok_bind, Mem.setBuf_wr _ _ (by simpa using ha), val0_set ha, if_pos rfl,
    val0_set ha, if_neg h4, List.set_set]

variable [Div T] [CDiv T]

omit [Sub T] [Mul T] in
theorem divCell_raw {x at' q : Nat} {l b : List T} {m : Mem T} (ha : at' < b.length) (hq : q < l.length)
    (hd : DivAt (val0 l q)) :
    divCell x at' l q (m.setBuf x b) = .ok (m.setBuf x (b.set at' (val0 b at' / val0 l q))) := by
  unfold divCell
  rw [Mem.setBuf_rd_self, lrd_val ha, ok_bind, lrd_val hq, ok_bind, hd, ok_bind,
    Mem.setBuf_wr _ _ ha]

theorem fwd_raw {m : Mem T} {rhs x : Nat} {l b0 : List T} {nrow k : Nat} {B : Nat → T}
    (hx : Layout ix n l.length) (hd : ∀ i, i < n → DivAt (val0 l (ix i i)))
    (hr : Rhs m rhs x b0 n nrow k B) (hk : k < nrow) (hb0 : n * nrow ≤ b0.length) :
    ∃ b, forRange 0 n (fwdRow ix nrow l rhs x k) (m.setBuf x b0) = .ok (m.setBuf x b) ∧
      b.length = b0.length ∧
      FwdSubRec n (fun i j => val0 l (ix i j)) B (fun i => entry nrow b i k) ∧
      ∀ c, (∀ i, i < n → c ≠ i * nrow + k) → val0 b c = val0 b0 c := by
  exact sweep_up (emb := fun b : List T => m.setBuf x b)
    (f := fwdRow ix nrow l rhs x k) (pos := fun i => i * nrow + k) (n := n)
    (G := fun i X => subUp (fun j => val0 l (ix i j) * X j) 0 i (B i) / val0 l (ix i i))
    b0 (fun t ht => by have := cell_lt ht hk; omega) (fun s t _ _ h => ((cell_inj hk hk).mp h).1)
    (fun t X Y ht h => by
      rw [subUp_congr (g := fun j => val0 l (ix t j) * X j) (g' := fun j => val0 l (ix t j) * Y j)]
      intro j _ hj
      rw [h j hj])
    (fun t b ht hb hf => by
      have hlt := cell_lt ht hk
      have hc : val0 b (t * nrow + k) = val0 b0 (t * nrow + k) :=
        hf _ fun s hs => cell_ne hk (by omega)
      have hs : ∀ v, (b.set (t * nrow + k) v).length = b.length := by simp
      unfold fwdRow
      rw [rhs_rd hr hk hb0 hb ht hc, ok_bind, Mem.setBuf_wr _ _ (by omega), ok_bind,
        subCell_raw (C := fun j => val0 l (ix t j)) (Nat.zero_le _) (by rw [hs]; omega)
          (fun j _ hj => ⟨by rw [hs]; have := cell_lt (show j < n by omega) hk; omega, cell_ne hk (by omega)⟩)
          (fun j _ hj => lrd_val (hx.lt t j (by omega) ht)), ok_bind,
        divCell_raw (by rw [List.length_set, hs]; omega) (hx.lt t t (Nat.le_refl _) ht) (hd t ht),
        List.set_set, List.set_set, val0_set (by rw [hs]; omega), if_pos rfl, val0_set (by omega), if_pos rfl,
        subUp_congr (g := fun j => val0 l (ix t j) * val0 (b.set (t * nrow + k) (B t)) (j * nrow + k))
          (g' := fun j => val0 l (ix t j) * val0 b (j * nrow + k))]
      intro j _ hj
      rw [val0_set (by omega), if_neg (cell_ne hk (by omega))])

theorem modFwd_raw {m : Mem T} {rhs x : Nat} {l b0 : List T} {nrow k : Nat} {B : Nat → T}
    (hx : Layout ix n l.length) (hd : ∀ i, i < n → DivAt (val0 l (ix i i)))
    (hr : Rhs m rhs x b0 n nrow k B) (hk : k < nrow) (hb0 : n * nrow ≤ b0.length) :
    ∃ b, forRange 0 n (modFwdRow ix nrow l rhs x k) (m.setBuf x b0) = .ok (m.setBuf x b) ∧
      b.length = b0.length ∧
      FwdUnitRec n (fun i j => val0 l (ix i j) / val0 l (ix j j)) B (fun i => entry nrow b i k) ∧
      ∀ c, (∀ i, i < n → c ≠ i * nrow + k) → val0 b c = val0 b0 c := by
  exact sweep_up (emb := fun b : List T => m.setBuf x b)
    (f := modFwdRow ix nrow l rhs x k) (pos := fun i => i * nrow + k) (n := n)
    (G := fun i X => subUp (fun j => val0 l (ix i j) / val0 l (ix j j) * X j) 0 i (B i))
    b0 (fun t ht => by have := cell_lt ht hk; omega) (fun s t _ _ h => ((cell_inj hk hk).mp h).1)
    (fun t X Y ht h => by
      refine subUp_congr (fun j _ hj => ?_) _
      rw [h j hj])
    (fun t b ht hb hf => by
      have hlt := cell_lt ht hk
      have hc : val0 b (t * nrow + k) = val0 b0 (t * nrow + k) :=
        hf _ fun s hs => cell_ne hk (by omega)
      have hs : ∀ v, (b.set (t * nrow + k) v).length = b.length := by simp
      unfold modFwdRow
      rw [rhs_rd hr hk hb0 hb ht hc, ok_bind, Mem.setBuf_wr _ _ (by omega), ok_bind,
        subCell_raw (C := fun j => val0 l (ix t j) / val0 l (ix j j)) (Nat.zero_le _) (by rw [hs]; omega)
          (fun j _ hj => ⟨by rw [hs]; have := cell_lt (show j < n by omega) hk; omega, cell_ne hk (by omega)⟩)
          (fun j _ hj => by
            rw [lrd_val (hx.lt t j (by omega) ht), ok_bind, lrd_val (hx.lt j j (Nat.le_refl _) (by omega)),
              ok_bind, hd j (by omega)]),
        List.set_set, val0_set (by omega), if_pos rfl,
        subUp_congr (g := fun j => val0 l (ix t j) / val0 l (ix j j) * val0 (b.set (t * nrow + k) (B t)) (j * nrow + k))
          (g' := fun j => val0 l (ix t j) / val0 l (ix j j) * val0 b (j * nrow + k))]
      intro j _ hj
      rw [val0_set (by omega), if_neg (cell_ne hk (by omega))])

theorem bwd_raw {m : Mem T} {x : Nat} {l b0 : List T} {nrow k : Nat}
    (hx : Layout ix n l.length) (hd : ∀ i, i < n → DivAt (val0 l (ix i i)))
    (hk : k < nrow) (hb0 : n * nrow ≤ b0.length) :
    ∃ b, forDown (bwdRow ix n nrow l x k) n (m.setBuf x b0) = .ok (m.setBuf x b) ∧
      b.length = b0.length ∧
      BackSubRec n (fun i j => val0 l (ix j i)) (fun i => entry nrow b0 i k) (fun i => entry nrow b i k) ∧
      ∀ c, (∀ i, i < n → c ≠ i * nrow + k) → val0 b c = val0 b0 c := by
  exact sweep_down (emb := fun b : List T => m.setBuf x b)
    (f := bwdRow ix n nrow l x k) (pos := fun i => i * nrow + k) (n := n)
    (G := fun i X => subUp (fun j => val0 l (ix j i) * X j) (i + 1) n (entry nrow b0 i k) / val0 l (ix i i))
    b0 (fun t ht => by have := cell_lt ht hk; omega) (fun s t _ _ h => ((cell_inj hk hk).mp h).1)
    (fun t X Y ht h => by
      rw [subUp_congr (g := fun j => val0 l (ix j t) * X j) (g' := fun j => val0 l (ix j t) * Y j)]
      intro j h1 hj
      rw [h j (by omega) hj])
    (fun t b ht hb hf => by
      have hlt := cell_lt ht hk
      have hc : val0 b (t * nrow + k) = val0 b0 (t * nrow + k) :=
        hf _ fun s hs _ => cell_ne hk (by omega)
      unfold bwdRow
      rw [subCell_raw (C := fun j => val0 l (ix j t)) (by omega) (by omega)
          (fun j h1 hj => ⟨by have := cell_lt hj hk; omega, cell_ne hk (by omega)⟩)
          (fun j h1 hj => lrd_val (hx.lt j t (by omega) hj)), ok_bind,
        divCell_raw (by rw [List.length_set]; omega) (hx.lt t t (Nat.le_refl _) ht) (hd t ht),
        List.set_set, val0_set (by omega), if_pos rfl, hc]
      rfl)

/-- What the two kernels compute in one column. -/
theorem kernel_raw {md : Bool} {mt : MemType} {l : List T} {m : Mem T} {rhs x nrow : Nat}
    {b0 : List T} (hl : storeLen mt n ≤ l.length) (hd : ∀ i, i < n → DivAt (val0 l (cIndex mt n i i)))
    (hb0 : n * nrow ≤ b0.length) (hrl : rhs ≠ x → n * nrow ≤ m.len rhs) :
    ∃ b, kernel md mt n nrow l rhs x (m.setBuf x b0) = .ok (m.setBuf x b) ∧ b.length = b0.length ∧
      (∀ k, k < nrow → CholSolveRec md n (fun i j => val0 l (cIndex mt n i j))
        (fun i => entry nrow ((m.setBuf x b0) rhs) i k) (fun i => entry nrow b i k)) ∧
      ∀ c, n * nrow ≤ c → val0 b c = val0 b0 c := by
  have hx := layout mt n l.length hl
  have main : ∀ f : Nat → Nat → Mem T → Res (Mem T),
      (∀ k c0, k < nrow → n * nrow ≤ c0.length → ∀ B, Rhs m rhs x c0 n nrow k B →
        ∃ b, forRange 0 n (f k) (m.setBuf x c0) = .ok (m.setBuf x b) ∧ b.length = c0.length ∧
        CholFwdRec md n (fun i j => val0 l (cIndex mt n i j)) B (fun i => entry nrow b i k) ∧
        ∀ c, (∀ i, i < n → c ≠ i * nrow + k) → val0 b c = val0 c0 c) →
      ∃ b, forRange 0 nrow (fun k m => do
          let m ← forRange 0 n (f k) m
          forDown (bwdRow (cIndex mt n) n nrow l x k) n m) (m.setBuf x b0) = .ok (m.setBuf x b) ∧
        b.length = b0.length ∧
        (∀ k, k < nrow → CholSolveRec md n (fun i j => val0 l (cIndex mt n i j))
          (fun i => entry nrow ((m.setBuf x b0) rhs) i k) (fun i => entry nrow b i k)) ∧
        ∀ c, n * nrow ≤ c → val0 b c = val0 b0 c := by
    intro f hf
    refine columns_loop (emb := fun b : List T => m.setBuf x b) (n := n)
      (Good := fun k X => CholSolveRec md n (fun i j => val0 l (cIndex mt n i j))
        (fun i => entry nrow ((m.setBuf x b0) rhs) i k) X) b0 ?_ ?_
    · rintro k X Y h ⟨y, h1, h2⟩
      refine ⟨y, h1, fun i hi => ?_⟩
      rw [← h i hi, h2 i hi]
      congr 1
      refine subUp_congr (fun j _ hj => ?_) _
      rw [h j hj]
    · intro k c0 hk hc0 hcol
      have hR : Rhs m rhs x c0 n nrow k (fun i => entry nrow ((m.setBuf x b0) rhs) i k) := by
        constructor
        · intro hr
          exact ⟨hrl hr, fun i hi => by rw [Mem.setBuf_other _ hr]⟩
        · intro hr i hi
          subst hr
          rw [Mem.setBuf_self]
          exact hcol i hi
      obtain ⟨b1, e1, hl1, hv1, hf1⟩ := hf k c0 hk (by omega) _ hR
      obtain ⟨b2, e2, hl2, hv2, hf2⟩ := bwd_raw (m := m) (x := x) (b0 := b1) hx hd hk (by omega)
      refine ⟨b2, ?_, by omega, ⟨_, hv1, hv2⟩, ?_⟩
      · rw [e1, ok_bind, e2]
      · intro c hc
        rw [hf2 c hc, hf1 c hc]
  unfold kernel
  cases md with
  | false =>
    exact main (fwdRow (cIndex mt n) nrow l rhs x) fun k c0 hk hc0 B hR => by
      simpa [CholFwdRec] using fwd_raw hx hd hR hk hc0
  | true =>
    exact main (modFwdRow (cIndex mt n) nrow l rhs x) fun k c0 hk hc0 B hR => by
      simpa [CholFwdRec] using modFwd_raw hx hd hR hk hc0

end solve

end Chol

end Lalib
