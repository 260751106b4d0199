import Verif.Model.Blas
import Verif.Proofs.Dense
import Mathlib.Tactic.Linarith

/-! # Proofs about the BLAS backend -/

namespace Lalib

variable {T : Type} [CommRing T]

theorem dotAcc_eq {m : Nat} {f g : Nat → T} {rf rg : Nat → Res T} (hf : ∀ k, k < m → rf k = .ok (f k))
    (hg : ∀ k, k < m → rg k = .ok (g k)) :
    forRange 0 m (fun k d => do
        let x ← rf k
        let y ← rg k
        .ok (d + x * y)) (0 : T) = .ok (∑ k ∈ Finset.range m, f k * g k) := by
  rw [scalar_acc_loop (g := fun k => f k * g k) (Nat.zero_le _), zero_add, Nat.Ico_zero_eq_range]
  intro k v _ hk
  rw [hf k hk, ok_bind, hg k hk, ok_bind]

theorem cblasGemv_eq {n m lda : Nat} {alpha beta : T} {a x y : List T} (hm : 0 < m) (hl : lda = m)
    (ha : n * m ≤ a.length) (hx : m ≤ x.length) (hy : y.length = n) :
    cblasGemv n m alpha a lda x beta y = .ok ((List.range n).map (gemvSpec m alpha a x beta y)) := by
  subst hl
  unfold cblasGemv
  rw [show decide (max 1 lda ≤ lda) = true by simp; omega, blasCheck_true, ok_bind]
  split
  · next h0 =>
    have hn : n = 0 := by omega
    subst hn
    rw [List.length_eq_zero_iff] at hy
    subst hy
    rfl
  · rw [fill_loop (emb := fun l => l) (F := gemvSpec lda alpha a x beta y) (off := 0) (Nat.zero_le _) y
      (by omega)]
    · rw [Nat.zero_add, Nat.zero_add, fillR_full _ hy]
    · intro i l _ hi hl hp
      rw [dotAcc_eq (f := fun k => entry lda a i k) (g := fun k => val0 x k), ok_bind,
        lrd_val (by omega), ok_bind, lwr_ok (by omega), hp i (by omega), Nat.zero_add]
      · rfl
      · intro k hk
        have := cell_lt hi hk
        exact lrd_val (by omega)
      · intro k hk
        exact lrd_val (by omega)

theorem cblasGemv_cols0 {n : Nat} {alpha beta : T} {a x y : List T} :
    cblasGemv n 0 alpha a 1 x beta y = .ok y := by
  simp [cblasGemv]

theorem cblasGemm_eq {n k ld : Nat} {alpha beta : T} {a b c : List T} (hn : 0 < n) (hk : 0 < k)
    (hld : ld = n) (ha : n * k ≤ a.length) (hb : k * n ≤ b.length) (hc : c.length = n * n) :
    cblasGemm n n k alpha a k b n beta c ld =
      .ok (matOf n n (gemmSpec k n alpha a b beta c)) := by
  subst hld
  unfold cblasGemm
  rw [show decide (max 1 k ≤ k) = true by simp; omega, blasCheck_true, ok_bind,
    show decide (max 1 ld ≤ ld) = true by simp; omega, blasCheck_true, ok_bind, ok_bind]
  rw [fill_loop2 (emb := fun l => l) (F := fun p => gemmSpec k ld alpha a b beta c (p / ld) (p % ld)) c
    (by omega)]
  · rw [fillR_full _ hc]; rfl
  · intro i j l hi hj hl hp
    have hij := cell_lt hi hj
    rw [dotAcc_eq (f := fun t => entry k a i t) (g := fun t => entry ld b t j), ok_bind,
      lrd_val (by omega), ok_bind, lwr_ok (by omega), hp _ (Nat.le_refl _), cell_div hj, cell_mod hj]
    · rfl
    · intro t ht
      have := cell_lt hi ht
      exact lrd_val (by omega)
    · intro t ht
      have := cell_lt ht hj
      exact lrd_val (by omega)

/-- A tall result: the rows are spaced by the number of rows and run out of the array. -/
theorem cblasGemm_tall {n m k : Nat} {alpha beta : T} {a b c : List T} (hm : 0 < m) (hnm : m < n)
    (hk : 0 < k) (ha : n * k ≤ a.length) (hb : k * m ≤ b.length) (hc : c.length = n * m) :
    cblasGemm n m k alpha a k b m beta c n = .error (.ub .oob) := by
  unfold cblasGemm
  rw [show decide (max 1 k ≤ k) = true by simp; omega, blasCheck_true, ok_bind,
    show decide (max 1 m ≤ m) = true by simp; omega, blasCheck_true, ok_bind,
    show decide (max 1 m ≤ n) = true by simp; omega, blasCheck_true, ok_bind]
  have : Sat (fun _ : List T => False) (fun e => e = .ub .oob) (forRange 0 n (fun i c =>
    forRange 0 m (fun j c => do
      let d ← forRange 0 k (fun t d => do
        let x ← lrd a (i * k + t)
        let y ← lrd b (t * m + j)
        .ok (d + x * y)) 0
      let cij ← lrd c (i * n + j)
      lwr c (i * n + j) (alpha * d + beta * cij)) c) c) := by
    refine (forRange_sat (I := fun i (l : List T) => l.length = n * m ∧
      ∀ i' j, i' < i → j < m → i' * n + j < n * m) (Nat.zero_le _) ?_ ?_).mono ?_ (fun _ h => h)
    · exact ⟨hc, fun _ _ h => absurd h (by omega)⟩
    · intro i l _ hi ⟨h1, h2⟩
      refine (forRange_sat (I := fun j (l : List T) => l.length = n * m ∧
        ∀ j', j' < j → i * n + j' < n * m) (Nat.zero_le _) ?_ ?_).mono ?_ (fun _ h => h)
      · exact ⟨h1, fun _ h => absurd h (by omega)⟩
      · intro j l _ hj ⟨h3, h4⟩
        rw [dotAcc_eq (f := fun t => entry k a i t) (g := fun t => entry m b t j), ok_bind]
        · by_cases hlt : i * n + j < n * m
          · rw [lrd_val (by omega), ok_bind, lwr_ok (by omega)]
            refine ⟨by simp [h3], ?_⟩
            intro j' hj'
            rcases Nat.lt_succ_iff_lt_or_eq.mp hj' with h | h
            · exact h4 j' h
            · subst h; exact hlt
          · rw [lrd_oob (by omega)]; rfl
        · intro t ht
          have := cell_lt hi ht
          exact lrd_val (by omega)
        · intro t ht
          have := cell_lt ht hj
          exact lrd_val (by omega)
      · intro l ⟨h3, h4⟩
        refine ⟨h3, ?_⟩
        intro i' j hi' hj
        rcases Nat.lt_succ_iff_lt_or_eq.mp hi' with h | h
        · exact h2 i' j h hj
        · subst h; exact h4 j hj
    · intro l ⟨_, h2⟩
      have := h2 (n - 1) (m - 1) (by omega) (by omega)
      obtain ⟨p, rfl⟩ : ∃ p, n = p + 1 := ⟨n - 1, by omega⟩
      obtain ⟨q, rfl⟩ : ∃ q, m = q + 1 := ⟨m - 1, by omega⟩
      simp only [Nat.add_sub_cancel] at this
      obtain ⟨e, rfl⟩ : ∃ e, p = q + 1 + e := ⟨p - q - 1, by omega⟩
      nlinarith
  cases h : (forRange 0 n (fun i c =>
    forRange 0 m (fun j c => do
      let d ← forRange 0 k (fun t d => do
        let x ← lrd a (i * k + t)
        let y ← lrd b (t * m + j)
        .ok (d + x * y)) 0
      let cij ← lrd c (i * n + j)
      lwr c (i * n + j) (alpha * d + beta * cij)) c) c) with
  | ok v => rw [h] at this; exact this.elim
  | error e => rw [h] at this; exact congrArg _ this

theorem copyFrom_eq {s : Mem T} {src n : Nat} (h : s.len src = n) :
    copyFrom s src n = .ok (s src) := by
  unfold copyFrom
  rw [fill_loop (emb := fun l => l) (F := fun p => val0 (s src) p) (off := 0) (Nat.zero_le _) _ (by simp)]
  · rw [Nat.zero_add, Nat.zero_add, fillR_full _ (by simp)]
    congr 1
    have h' : (s src).length = n := h
    apply list_ext_val0 (by simp [h'])
    intro i hi
    simp only [List.length_map, List.length_range] at hi
    simp [hi]
  · intro i l _ hi hl _
    simp only [List.length_replicate] at hl
    rw [Mem.rd_ok (by omega), ok_bind, lwr_ok (by omega), Nat.zero_add]; rfl

end Lalib
