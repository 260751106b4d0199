import Verif.Spec.Mat
import Verif.Proofs.Fill

/-! # Loops that compute cells one after another from the cells computed before -/

namespace Lalib

variable {T σ : Type}

section
variable [Zero T]

theorem sweep_up {emb : List T → σ} {f : Nat → σ → Res σ} {pos : Nat → Nat} {G : Nat → (Nat → T) → T}
    {n : Nat} (l0 : List T) (hpos : ∀ t, t < n → pos t < l0.length)
    (hinj : ∀ s t, s < n → t < n → pos s = pos t → s = t)
    (hG : ∀ t X Y, t < n → (∀ s, s < t → X s = Y s) → G t X = G t Y)
    (hf : ∀ t l, t < n → l.length = l0.length →
      (∀ c, (∀ s, s < t → c ≠ pos s) → val0 l c = val0 l0 c) →
      f t (emb l) = .ok (emb (l.set (pos t) (G t (fun s => val0 l (pos s)))))) :
    ∃ l, forRange 0 n f (emb l0) = .ok (emb l) ∧ l.length = l0.length ∧
      (∀ t, t < n → val0 l (pos t) = G t (fun s => val0 l (pos s))) ∧
      ∀ c, (∀ s, s < n → c ≠ pos s) → val0 l c = val0 l0 c := by
  have : Ok (fun s => ∃ l, s = emb l ∧ l.length = l0.length ∧
      (∀ t, t < n → val0 l (pos t) = G t (fun s => val0 l (pos s))) ∧
      ∀ c, (∀ s, s < n → c ≠ pos s) → val0 l c = val0 l0 c) (forRange 0 n f (emb l0)) := by
    refine forRange_sat (I := fun i s => ∃ l, s = emb l ∧ l.length = l0.length ∧
      (∀ t, t < i → val0 l (pos t) = G t (fun s => val0 l (pos s))) ∧
      ∀ c, (∀ s, s < i → c ≠ pos s) → val0 l c = val0 l0 c) (Nat.zero_le _) ?_ ?_
    · exact ⟨l0, rfl, rfl, fun t h => by omega, fun _ _ => rfl⟩
    · rintro i s - hi ⟨l, rfl, hl, hv, hfr⟩
      rw [hf i l hi hl hfr]
      have hp : pos i < l.length := by rw [hl]; exact hpos i hi
      refine ⟨_, rfl, by simp [hl], ?_, ?_⟩
      · intro t ht
        rw [val0_set hp]
        by_cases hti : t = i
        · subst hti
          rw [if_pos rfl]
          apply hG t _ _ hi
          intro s hs
          rw [val0_set hp, if_neg]
          intro h
          have := hinj s t (by omega) hi h
          omega
        · rw [if_neg (fun h => hti (hinj t i (by omega) hi h)), hv t (by omega)]
          apply hG t _ _ (by omega)
          intro s hs
          rw [val0_set hp, if_neg]
          intro h
          have := hinj s i (by omega) hi h
          omega
      · intro c hc
        rw [val0_set hp, if_neg (hc i (by omega))]
        exact hfr c fun s hs => hc s (by omega)
  obtain ⟨a, e, l, rfl, h⟩ := this.exists
  exact ⟨l, e, h⟩

theorem sweep_down {emb : List T → σ} {f : Nat → σ → Res σ} {pos : Nat → Nat} {G : Nat → (Nat → T) → T}
    {n : Nat} (l0 : List T) (hpos : ∀ t, t < n → pos t < l0.length)
    (hinj : ∀ s t, s < n → t < n → pos s = pos t → s = t)
    (hG : ∀ t X Y, t < n → (∀ s, t < s → s < n → X s = Y s) → G t X = G t Y)
    (hf : ∀ t l, t < n → l.length = l0.length →
      (∀ c, (∀ s, t < s → s < n → c ≠ pos s) → val0 l c = val0 l0 c) →
      f t (emb l) = .ok (emb (l.set (pos t) (G t (fun s => val0 l (pos s)))))) :
    ∃ l, forDown f n (emb l0) = .ok (emb l) ∧ l.length = l0.length ∧
      (∀ t, t < n → val0 l (pos t) = G t (fun s => val0 l (pos s))) ∧
      ∀ c, (∀ s, s < n → c ≠ pos s) → val0 l c = val0 l0 c := by
  have : Ok (fun s => ∃ l, s = emb l ∧ l.length = l0.length ∧
      (∀ t, 0 ≤ t → t < n → val0 l (pos t) = G t (fun s => val0 l (pos s))) ∧
      ∀ c, (∀ s, 0 ≤ s → s < n → c ≠ pos s) → val0 l c = val0 l0 c) (forDown f n (emb l0)) := by
    refine forDown_sat (I := fun i s => ∃ l, s = emb l ∧ l.length = l0.length ∧
      (∀ t, i ≤ t → t < n → val0 l (pos t) = G t (fun s => val0 l (pos s))) ∧
      ∀ c, (∀ s, i ≤ s → s < n → c ≠ pos s) → val0 l c = val0 l0 c) n _ ?_ ?_
    · exact ⟨l0, rfl, rfl, fun t h h' => by omega, fun _ _ => rfl⟩
    · rintro i s hi ⟨l, rfl, hl, hv, hfr⟩
      rw [hf i l hi hl (fun c hc => hfr c fun s h1 h2 => hc s (by omega) h2)]
      have hp : pos i < l.length := by rw [hl]; exact hpos i hi
      refine ⟨_, rfl, by simp [hl], ?_, ?_⟩
      · intro t ht htn
        rw [val0_set hp]
        by_cases hti : t = i
        · subst hti
          rw [if_pos rfl]
          apply hG t _ _ hi
          intro s hs hsn
          rw [val0_set hp, if_neg]
          intro h
          have := hinj s t hsn hi h
          omega
        · rw [if_neg (fun h => hti (hinj t i htn hi h)), hv t (by omega) htn]
          apply hG t _ _ htn
          intro s hs hsn
          rw [val0_set hp, if_neg]
          intro h
          have := hinj s i hsn hi h
          omega
      · intro c hc
        rw [val0_set hp, if_neg (hc i (by omega) hi)]
        exact hfr c fun s hs => hc s (by omega)
  obtain ⟨a, e, l, rfl, h1, h2, h3⟩ := this.exists
  exact ⟨l, e, h1, fun t ht => h2 t (Nat.zero_le _) ht, fun c hc => h3 c fun s _ hs => hc s hs⟩

/-- A loop over the columns of an `n x nrow` matrix stored in one buffer. -/
theorem columns_loop {emb : List T → σ} {f : Nat → σ → Res σ} {n nrow : Nat} {Good : Nat → (Nat → T) → Prop}
    (l0 : List T)
    (hG : ∀ k X Y, (∀ i, i < n → X i = Y i) → Good k X → Good k Y)
    (hf : ∀ k l, k < nrow → l.length = l0.length → (∀ i, i < n → entry nrow l i k = entry nrow l0 i k) →
      ∃ l', f k (emb l) = .ok (emb l') ∧ l'.length = l0.length ∧ Good k (fun i => entry nrow l' i k) ∧
        ∀ c, (∀ i, i < n → c ≠ i * nrow + k) → val0 l' c = val0 l c) :
    ∃ l, forRange 0 nrow f (emb l0) = .ok (emb l) ∧ l.length = l0.length ∧
      (∀ k, k < nrow → Good k (fun i => entry nrow l i k)) ∧
      ∀ c, n * nrow ≤ c → val0 l c = val0 l0 c := by
  have : Ok (fun s => ∃ l, s = emb l ∧ l.length = l0.length ∧
      (∀ k, k < nrow → Good k (fun i => entry nrow l i k)) ∧
      (∀ k i, nrow ≤ k → k < nrow → i < n → entry nrow l i k = entry nrow l0 i k) ∧
      ∀ c, n * nrow ≤ c → val0 l c = val0 l0 c) (forRange 0 nrow f (emb l0)) := by
    refine forRange_sat (I := fun j s => ∃ l, s = emb l ∧ l.length = l0.length ∧
      (∀ k, k < j → Good k (fun i => entry nrow l i k)) ∧
      (∀ k i, j ≤ k → k < nrow → i < n → entry nrow l i k = entry nrow l0 i k) ∧
      ∀ c, n * nrow ≤ c → val0 l c = val0 l0 c) (Nat.zero_le _) ?_ ?_
    · exact ⟨l0, rfl, rfl, fun t h => by omega, fun _ _ _ _ _ => rfl, fun _ _ => rfl⟩
    · rintro k s - hk ⟨l, rfl, hl, hg, hr, ho⟩
      obtain ⟨l', e, hl', hgood, hfr⟩ := hf k l hk hl (fun i hi => hr k i (Nat.le_refl _) hk hi)
      rw [e]
      refine ⟨l', rfl, hl', ?_, ?_, ?_⟩
      · intro k' hk'
        by_cases h : k' = k
        · subst h; exact hgood
        · refine hG k' _ _ (fun i hi => ?_) (hg k' (by omega))
          exact (hfr _ fun t _ he => h ((cell_inj (by omega) hk).mp he).2).symm
      · intro k' i h1 h2 hi
        rw [← hr k' i (by omega) h2 hi]
        apply hfr
        intro t _ he
        have := ((cell_inj h2 hk).mp he).2
        omega
      · intro c hc
        rw [← ho c hc]
        apply hfr
        intro i hi he
        have := cell_lt hi hk
        omega
  obtain ⟨a, e, l, rfl, h1, h2, _, h3⟩ := this.exists
  exact ⟨l, e, h1, h2, h3⟩

theorem set_val0_self {l : List T} {i : Nat} (h : i < l.length) : l.set i (val0 l i) = l := by
  rw [val0_of_lt h]; simp

end

/-- A loop that subtracts a sum from one cell. -/
theorem sub_through [AddCommGroup T] {emb : List T → σ} {f : Nat → σ → Res σ} {g : Nat → T} {lo hi p : Nat}
    (hle : lo ≤ hi) (l : List T) (hp : p < l.length)
    (hf : ∀ k v, lo ≤ k → k < hi → f k (emb (l.set p v)) = .ok (emb (l.set p (v - g k)))) :
    forRange lo hi f (emb l) = .ok (emb (l.set p (val0 l p - ∑ k ∈ Finset.Ico lo hi, g k))) := by
  have := acc_through (h := fun v => emb (l.set p v)) (f := f) (g := fun k => - g k) hle (val0 l p)
    (fun k v h1 h2 => by rw [hf k v h1 h2, sub_eq_add_neg])
  rw [Finset.sum_neg_distrib, ← sub_eq_add_neg] at this
  rwa [set_val0_self hp] at this

end Lalib
