import Verif.Core.Mem

/-! # Loops that fill a range of cells, in a local list or in one buffer of the memory -/

namespace Lalib

variable {T σ : Type}

theorem loop_through {S : Type} {h : S → σ} {f : Nat → σ → Res σ} {g : Nat → S → S} {lo n : Nat}
    (hf : ∀ k v, lo ≤ k → k < lo + n → f k (h v) = .ok (h (g k v))) :
    ∀ v0, forUp f lo n (h v0) = .ok (h ((List.range' lo n).foldl (fun v k => g k v) v0)) := by
  induction n generalizing lo with
  | zero => intro v0; rfl
  | succ n ih =>
    intro v0
    simp only [forUp, List.range'_succ, List.foldl_cons]
    rw [hf lo v0 (Nat.le_refl _) (by omega), ok_bind]
    exact ih (fun k v h1 h2 => hf k v (by omega) (by omega)) _

theorem acc_through [AddCommGroup T] {h : T → σ} {f : Nat → σ → Res σ} {g : Nat → T} {lo hi : Nat}
    (hle : lo ≤ hi) (v0 : T) (hf : ∀ k v, lo ≤ k → k < hi → f k (h v) = .ok (h (v + g k))) :
    forRange lo hi f (h v0) = .ok (h (v0 + ∑ k ∈ Finset.Ico lo hi, g k)) := by
  have := loop_through (h := h) (f := f) (g := fun k v => v + g k) (lo := lo) (n := hi - lo)
    (fun k v h1 h2 => hf k v h1 (by omega)) v0
  rwa [Mem.foldl_add_range', show lo + (hi - lo) = hi by omega] at this

section fill
variable [Zero T]

/-- `l0` with the cells of `[lo, hi)` replaced by `F`. -/
def fillR (F : Nat → T) (lo hi : Nat) (l0 : List T) : List T :=
  (List.range l0.length).map fun p => if lo ≤ p ∧ p < hi then F p else val0 l0 p

@[simp] theorem length_fillR (F : Nat → T) (lo hi : Nat) (l0 : List T) :
    (fillR F lo hi l0).length = l0.length := by simp [fillR]

theorem val0_fillR (F : Nat → T) (lo hi : Nat) (l0 : List T) {p : Nat} (hp : p < l0.length) :
    val0 (fillR F lo hi l0) p = if lo ≤ p ∧ p < hi then F p else val0 l0 p := by
  rw [fillR, val0_map_range, if_pos hp]

theorem fillR_empty (F : Nat → T) (lo : Nat) (l0 : List T) : fillR F lo lo l0 = l0 := by
  apply list_ext_val0 (by simp)
  intro p hp
  rw [val0_fillR _ _ _ _ (by simpa using hp), if_neg (by omega)]

theorem fillR_set (F : Nat → T) (lo hi : Nat) (hle : lo ≤ hi) (l0 : List T) (hl : hi < l0.length) :
    (fillR F lo hi l0).set hi (F hi) = fillR F lo (hi + 1) l0 := by
  apply list_ext_val0 (by simp)
  intro p hp
  simp only [List.length_set, length_fillR] at hp
  rw [val0_set (by simpa using hl), val0_fillR _ _ _ _ hp, val0_fillR _ _ _ _ hp]
  by_cases h : p = hi
  · subst h; rw [if_pos rfl, if_pos (by omega)]
  · rw [if_neg h]
    by_cases h2 : lo ≤ p ∧ p < hi
    · rw [if_pos h2, if_pos (by omega)]
    · rw [if_neg h2, if_neg (by omega)]

theorem fillR_append (F : Nat → T) {a b c : Nat} (hab : a ≤ b) (hbc : b ≤ c) (l0 : List T) :
    fillR F b c (fillR F a b l0) = fillR F a c l0 := by
  apply list_ext_val0 (by simp)
  intro p hp
  simp only [length_fillR] at hp
  rw [val0_fillR _ _ _ _ (by simpa using hp), val0_fillR _ _ _ _ hp, val0_fillR _ _ _ _ hp]
  split
  · rw [if_pos (by omega)]
  · split
    · rw [if_pos (by omega)]
    · rw [if_neg (by omega)]

theorem fillR_full (F : Nat → T) {n : Nat} {l0 : List T} (h : l0.length = n) :
    fillR F 0 n l0 = (List.range n).map F := by
  apply list_ext_val0 (by simp [h])
  intro p hp
  simp only [length_fillR] at hp
  rw [val0_fillR _ _ _ _ hp, val0_map_range, if_pos (by omega), if_pos (by omega)]

/-- A loop whose iteration `j` sets cell `off + j` to `F (off + j)`. -/
theorem fill_loop {emb : List T → σ} {f : Nat → σ → Res σ} {F : Nat → T} {off lo hi : Nat}
    (hle : lo ≤ hi) (l0 : List T) (hl : off + hi ≤ l0.length)
    (hf : ∀ j l, lo ≤ j → j < hi → l.length = l0.length →
      (∀ p, off + j ≤ p → val0 l p = val0 l0 p) →
      f j (emb l) = .ok (emb (l.set (off + j) (F (off + j))))) :
    forRange lo hi f (emb l0) = .ok (emb (fillR F (off + lo) (off + hi) l0)) := by
  have : Sat (fun s => s = emb (fillR F (off + lo) (off + hi) l0)) (fun _ => False)
      (forRange lo hi f (emb l0)) := by
    refine forRange_sat (I := fun j s => s = emb (fillR F (off + lo) (off + j) l0)) hle ?_ ?_
    · rw [fillR_empty]
    · intro j s h1 h2 hs
      subst hs
      rw [hf j _ h1 h2 (by simp)]
      · rw [fillR_set _ _ _ (by omega) _ (by omega)]; rfl
      · intro p hp
        by_cases hpl : p < l0.length
        · rw [val0_fillR _ _ _ _ hpl, if_neg (by omega)]
        · rw [val0_of_le (by simpa using hpl), val0_of_le (by omega)]
  cases h : forRange lo hi f (emb l0) with
  | ok v => rw [h] at this; exact congrArg _ this
  | error e => rw [h] at this; exact absurd this (by simp [Sat])

/-- Two nested loops over the cells `i*m + j` of an `n x m` matrix. -/
theorem fill_loop2 {emb : List T → σ} {f : Nat → Nat → σ → Res σ} {F : Nat → T} {n m : Nat}
    (l0 : List T) (hl : n * m ≤ l0.length)
    (hf : ∀ i j l, i < n → j < m → l.length = l0.length →
      (∀ p, i * m + j ≤ p → val0 l p = val0 l0 p) →
      f i j (emb l) = .ok (emb (l.set (i * m + j) (F (i * m + j))))) :
    forRange 0 n (fun i s => forRange 0 m (f i) s) (emb l0) = .ok (emb (fillR F 0 (n * m) l0)) := by
  have : Sat (fun s => s = emb (fillR F 0 (n * m) l0)) (fun _ => False)
      (forRange 0 n (fun i s => forRange 0 m (f i) s) (emb l0)) := by
    refine forRange_sat (I := fun i s => s = emb (fillR F 0 (i * m) l0)) (Nat.zero_le _) ?_ ?_
    · rw [Nat.zero_mul, fillR_empty]
    · intro i s h1 h2 hs
      subst hs
      have hm : (i + 1) * m ≤ n * m := Nat.mul_le_mul_right _ h2
      rw [Nat.succ_mul] at hm
      rw [fill_loop (F := F) (off := i * m) (Nat.zero_le _) _ (by simp; omega)]
      · show _ = _
        rw [Nat.add_zero, fillR_append _ (Nat.zero_le _) (by omega), Nat.succ_mul]
      · intro j l _ hj hlen hp
        refine hf i j l h2 hj (by simpa using hlen) (fun p hpp => ?_)
        rw [hp p hpp]
        by_cases hpl : p < l0.length
        · rw [val0_fillR _ _ _ _ hpl, if_neg (by omega)]
        · rw [val0_of_le (by simpa using hpl), val0_of_le (by omega)]
  cases h : forRange 0 n (fun i s => forRange 0 m (f i) s) (emb l0) with
  | ok v => rw [h] at this; exact congrArg _ this
  | error e => rw [h] at this; exact absurd this (by simp [Sat])

end fill

namespace Mem

theorem setBuf_rd_self (m : Mem T) (y : Nat) (l : List T) (i : Nat) :
    (m.setBuf y l).rd y i = lrd l i := by simp [rd]

theorem setBuf_rd_other (m : Mem T) {y q : Nat} (h : q ≠ y) (l : List T) (i : Nat) :
    (m.setBuf y l).rd q i = m.rd q i := by simp [rd, setBuf_other _ h]

theorem setBuf_wr (m : Mem T) (y : Nat) {l : List T} {i : Nat} (h : i < l.length) (v : T) :
    (m.setBuf y l).wr y i v = .ok (m.setBuf y (l.set i v)) := by
  rw [wr_ok (by simp [len, h]), upd_eq_setBuf, setBuf_self, setBuf_setBuf]

end Mem

end Lalib
