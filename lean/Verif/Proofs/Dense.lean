import Verif.Model.Dense
import Verif.Proofs.Fill
import Verif.Proofs.VecOps
import Verif.Spec.Mat
import Mathlib.Algebra.BigOperators.Ring.Finset

/-! # Proofs about the dense matrix operations -/

namespace Lalib

variable {T : Type}

theorem copyTo_eq [Zero T] {src : List T} {n dst : Nat} {s : Mem T} (hs : src.length = n)
    (hd : s.len dst = n) : copyTo src n dst s = .ok (s.setBuf dst src) := by
  unfold copyTo
  conv_lhs => rw [← s.setBuf_same dst]
  rw [fill_loop (emb := fun l => s.setBuf dst l) (F := fun p => val0 src p) (off := 0)
    (Nat.zero_le _) (s dst) (by simpa using hd.ge)]
  · rw [Nat.zero_add, Nat.zero_add, fillR_full _ hd]
    congr 2
    apply list_ext_val0 (by simp [hs])
    intro i hi
    simp only [List.length_map, List.length_range] at hi
    simp [hi]
  · intro i l _ hi hl _
    have hd' : (s dst).length = n := hd
    simp only [lrd_val (show i < src.length by omega), ok_bind]
    rw [Mem.setBuf_wr _ _ (by omega), Nat.zero_add]

section ring
variable [CommRing T]

theorem gemv_row {m : Nat} (alpha beta yi : T) (g x : Nat → T) :
    beta * yi + ∑ k ∈ Finset.Ico 0 m, alpha * g k * x k =
      alpha * (∑ k ∈ Finset.range m, g k * x k) + beta * yi := by
  rw [Finset.mul_sum, add_comm, Nat.Ico_zero_eq_range]
  congr 1
  exact Finset.sum_congr rfl fun k _ => by ring

theorem gemvCore_eq {n m mat x y : Nat} {alpha beta : T} {s : Mem T} (ha : n * m ≤ s.len mat)
    (hx : m ≤ s.len x) (hy : s.len y = n) (hne : mat ≠ y) :
    gemvCore n m alpha mat x beta y s =
      .ok (s.setBuf y ((List.range n).map (gemvSpec m alpha (s mat) (s x) beta (s y)))) := by
  have hy' : (s y).length = n := hy
  unfold gemvCore
  split
  · next hxy =>
    rw [fill_loop (emb := fun l => l) (F := gemvSpec m alpha (s mat) (s x) beta (s y)) (off := 0)
      (Nat.zero_le _) (List.replicate n 0) (by simp)]
    · rw [ok_bind, Nat.zero_add, Nat.zero_add, fillR_full _ (by simp), copyTo_eq (by simp) hy]
    · intro i l _ hi hl _
      simp only [List.length_replicate] at hl
      simp only [Mem.rd_ok (show i < s.len y by omega), ok_bind,
        lwr_ok (show i < l.length by omega), Nat.zero_add]
      rw [acc_through (h := fun v => l.set i v)
        (g := fun k => alpha * entry m (s mat) i k * val0 (s x) k) (Nat.zero_le _)]
      · rw [gemv_row]; rfl
      · intro k v _ hk
        have := cell_lt hi hk
        simp only [lrd_val (show i < (l.set i v).length by simp; omega),
          Mem.rd_ok (show i * m + k < s.len mat by omega),
          Mem.rd_ok (show k < s.len x by omega), ok_bind,
          lwr_ok (show i < (l.set i v).length by simp; omega),
          val0_set (show i < l.length by omega), if_true, List.set_set]
        rfl
  · next hxy =>
    conv_lhs => rw [← s.setBuf_same y]
    rw [fill_loop (emb := fun l => s.setBuf y l) (F := gemvSpec m alpha (s mat) (s x) beta (s y))
      (off := 0) (Nat.zero_le _) (s y) (by simpa using hy.ge)]
    · rw [Nat.zero_add, Nat.zero_add, fillR_full _ hy']
    · intro i l _ hi hl hp
      rw [hy'] at hl
      rw [Mem.setBuf_rd_self, lrd_val (show i < l.length by omega), ok_bind,
        Mem.setBuf_wr _ _ (show i < l.length by omega), ok_bind]
      rw [acc_through (h := fun v => s.setBuf y (l.set i v))
        (g := fun k => alpha * entry m (s mat) i k * val0 (s x) k) (Nat.zero_le _)]
      · rw [gemv_row, hp i (by omega), Nat.zero_add]; rfl
      · intro k v _ hk
        have := cell_lt hi hk
        rw [Mem.setBuf_rd_self, lrd_val (show i < (l.set i v).length by simp; omega), ok_bind,
          Mem.setBuf_rd_other _ hne, Mem.rd_ok (show i * m + k < s.len mat by omega), ok_bind,
          Mem.setBuf_rd_other _ hxy, Mem.rd_ok (show k < s.len x by omega), ok_bind,
          Mem.setBuf_wr _ _ (show i < (l.set i v).length by simp; omega),
          val0_set (show i < l.length by omega), if_pos rfl, List.set_set]
        rfl

theorem gemmCore_eq {n m o a b c : Nat} {alpha beta : T} {s : Mem T} (ha : n * o ≤ s.len a)
    (hb : o * m ≤ s.len b) (hc : s.len c = n * m) :
    gemmCore n m o alpha a b beta c s =
      .ok (s.setBuf c (matOf n m (gemmSpec o m alpha (s a) (s b) beta (s c)))) := by
  have hc' : (s c).length = n * m := hc
  unfold gemmCore
  split
  · next hal =>
    rw [fill_loop2 (emb := fun l => l)
      (F := fun p => gemmSpec o m alpha (s a) (s b) beta (s c) (p / m) (p % m))
      (List.replicate (n * m) 0) (by simp)]
    · rw [ok_bind, fillR_full _ (by simp), copyTo_eq (by simp) hc]; rfl
    · intro i j l hi hj hl _
      simp only [List.length_replicate] at hl
      have hij := cell_lt hi hj
      simp only [Mem.rd_ok (show i * m + j < s.len c by omega), ok_bind,
        lwr_ok (show i * m + j < l.length by omega)]
      rw [acc_through (h := fun v => l.set (i * m + j) v)
        (g := fun k => alpha * entry o (s a) i k * entry m (s b) k j) (Nat.zero_le _)]
      · rw [gemv_row, cell_div hj, cell_mod hj]; rfl
      · intro k v _ hk
        have h1 := cell_lt hi hk
        have h2 := cell_lt hk hj
        simp only [lrd_val (show i * m + j < (l.set (i * m + j) v).length by simp; omega),
          Mem.rd_ok (show i * o + k < s.len a by omega),
          Mem.rd_ok (show k * m + j < s.len b by omega), ok_bind,
          lwr_ok (show i * m + j < (l.set (i * m + j) v).length by simp; omega),
          val0_set (show i * m + j < l.length by omega), if_true, List.set_set]
        rfl
  · next hal =>
    push Not at hal
    conv_lhs => rw [← s.setBuf_same c]
    rw [fill_loop2 (emb := fun l => s.setBuf c l)
      (F := fun p => gemmSpec o m alpha (s a) (s b) beta (s c) (p / m) (p % m)) (s c) hc'.ge]
    · rw [fillR_full _ hc']; rfl
    · intro i j l hi hj hl hp
      rw [hc'] at hl
      have hij := cell_lt hi hj
      rw [Mem.setBuf_rd_self, lrd_val (show i * m + j < l.length by omega), ok_bind,
        Mem.setBuf_wr _ _ (show i * m + j < l.length by omega), ok_bind]
      rw [acc_through (h := fun v => s.setBuf c (l.set (i * m + j) v))
        (g := fun k => alpha * entry o (s a) i k * entry m (s b) k j) (Nat.zero_le _)]
      · rw [mul_comm (val0 _ _) beta, gemv_row, hp _ (Nat.le_refl _), cell_div hj, cell_mod hj]; rfl
      · intro k v _ hk
        have h1 := cell_lt hi hk
        have h2 := cell_lt hk hj
        rw [Mem.setBuf_rd_self, lrd_val (show i * m + j < (l.set (i * m + j) v).length by simp; omega),
          ok_bind, Mem.setBuf_rd_other _ hal.1, Mem.rd_ok (show i * o + k < s.len a by omega), ok_bind,
          Mem.setBuf_rd_other _ hal.2, Mem.rd_ok (show k * m + j < s.len b by omega), ok_bind,
          Mem.setBuf_wr _ _ (show i * m + j < (l.set (i * m + j) v).length by simp; omega),
          val0_set (show i * m + j < l.length by omega), if_pos rfl, List.set_set]
        rfl

end ring

/-! ## Element access and factories -/

section access
variable [Zero T]

theorem DMat.get_ok {a : DMat T} (hw : a.elems.length = a.n * a.m) {i j : Nat} (hi : i < a.n)
    (hj : j < a.m) : a.get i j = .ok (entry a.m a.elems i j) := by
  unfold DMat.get entry
  exact lrd_val (by rw [hw]; exact cell_lt hi hj)

theorem DMat.get_mk {n m : Nat} {l : List T} (hw : l.length = n * m) {i j : Nat} (hi : i < n)
    (hj : j < m) : (⟨n, m, l⟩ : DMat T).get i j = .ok (entry m l i j) :=
  DMat.get_ok (a := ⟨n, m, l⟩) hw hi hj

omit [Zero T] in
theorem DMat.set_ok {a : DMat T} (hw : a.elems.length = a.n * a.m) {i j : Nat} (hi : i < a.n)
    (hj : j < a.m) (v : T) : a.set i j v = .ok ⟨a.n, a.m, a.elems.set (i * a.m + j) v⟩ := by
  unfold DMat.set
  rw [lwr_ok (by rw [hw]; exact cell_lt hi hj)]; rfl

theorem entry_set {n m : Nat} {l : List T} (hl : l.length = n * m) {i j : Nat} (hi : i < n)
    (hj : j < m) (v : T) {i' j' : Nat} (hj' : j' < m) :
    entry m (l.set (i * m + j) v) i' j' = if i' = i ∧ j' = j then v else entry m l i' j' := by
  unfold entry
  rw [val0_set (by rw [hl]; exact cell_lt hi hj)]
  simp only [cell_inj hj' hj]

theorem filled_eq (v : T) (n m : Nat) :
    DMat.filled v n m = .ok ⟨n, m, List.replicate (n * m) v⟩ := by
  unfold DMat.filled DMat.uninit
  rw [fill_loop2 (emb := fun l => (⟨n, m, l⟩ : DMat T)) (F := fun _ => v) (List.replicate (n * m) 0)
    (by simp)]
  · rw [fillR_full _ (by simp)]
    congr 2
    apply List.ext_getElem <;> simp
  · intro i j l hi hj hl _
    rw [DMat.set_ok (by simpa using hl) hi hj]

theorem diag_loop {n : Nat} {f : Nat → DMat T → Res (DMat T)} {d : Nat → T}
    (hf : ∀ i (a : DMat T), i < n → f i a = a.set i i (d i)) :
    forRange 0 n f (DMat.uninit n n) =
      .ok ⟨n, n, matOf n n fun i j => if i = j then d i else 0⟩ := by
  have : Ok (fun a => a = (⟨n, n, matOf n n fun i j => if i = j then d i else 0⟩ : DMat T))
      (forRange 0 n f (DMat.uninit n n)) := by
    refine (forRange_sat (I := fun k (a : DMat T) => a.n = n ∧ a.m = n ∧ a.elems.length = n * n ∧
      ∀ i j, i < n → j < n → entry n a.elems i j = if i = j ∧ i < k then d i else 0)
      (Nat.zero_le _) ?_ ?_).mono ?_ (fun _ h => h)
    · refine ⟨rfl, rfl, by simp [DMat.uninit], ?_⟩
      intro i j hi hj
      have := cell_lt hi hj
      simp [entry, DMat.uninit]
    · rintro i ⟨an, am, ae⟩ _ hi ⟨h1, h2, h3, h4⟩
      dsimp only at h1 h2 h3 h4
      subst h1 h2
      rw [hf i _ hi, DMat.set_ok (by exact h3) (by exact hi) (by exact hi)]
      refine ⟨rfl, rfl, by simp [h3], ?_⟩
      intro i' j' hi' hj'
      rw [entry_set h3 hi hi _ hj', h4 _ _ hi' hj']
      by_cases hc : i' = i ∧ j' = i
      · obtain ⟨rfl, rfl⟩ := hc
        simp
      · rw [if_neg hc]
        by_cases hd : i' = j' ∧ i' < i
        · rw [if_pos hd, if_pos (by omega)]
        · rw [if_neg hd, if_neg (by omega)]
    · rintro ⟨an, am, ae⟩ ⟨h1, h2, h3, h4⟩
      dsimp only at h1 h2 h3 h4
      subst h1 h2
      congr 1
      apply mat_ext h3 (by simp)
      intro i j hi hj
      rw [h4 i j hi hj, entry_matOf _ hi hj]
      by_cases hd : i = j
      · rw [if_pos ⟨hd, hi⟩, if_pos hd]
      · rw [if_neg (by omega), if_neg hd]
  obtain ⟨a, ha, rfl⟩ := this.exists
  exact ha

theorem diag_eq (v : List T) : DMat.diag v =
    .ok ⟨v.length, v.length, matOf v.length v.length fun i j => if i = j then val0 v i else 0⟩ := by
  unfold DMat.diag
  apply diag_loop
  intro i a hi
  rw [lrd_val hi, ok_bind]

theorem diagConst_eq (v : T) (n : Nat) : DMat.diagConst v n =
    .ok ⟨n, n, matOf n n fun i j => if i = j then v else 0⟩ := by
  unfold DMat.diagConst
  exact diag_loop fun i a _ => rfl

end access

/-! ## Value-returning products -/

section ring
variable [CommRing T]

theorem matVecAt_eq {nd : Bool} {s : Mem T} {a : MatRef} {v r : Nat} (ha : s.len a.buf = a.n * a.m)
    (hv : s.len v = a.m) (hra : a.buf ≠ r) (hrv : v ≠ r) :
    matVecAt nd s a v r = .ok (s.setBuf r ((List.range a.n).map fun i =>
      ∑ k ∈ Finset.range a.m, entry a.m (s a.buf) i k * val0 (s v) k)) := by
  have e1 : ∀ l, s.setBuf r l a.buf = s a.buf := fun l => Mem.setBuf_other _ hra _
  have e2 : ∀ l, s.setBuf r l v = s v := fun l => Mem.setBuf_other _ hrv _
  unfold matVecAt
  rw [hv]
  simp only [beq_self_eq_true, cassert_true, ok_bind]
  rw [gemvCore_eq (by simp only [Mem.len, e1]; exact ha.ge) (by simp only [Mem.len, e2]; exact hv.ge)
    (by simp [Mem.len]) hra, e1, e2, Mem.setBuf_setBuf, noexcept_ok]
  congr 2
  apply List.map_congr_left
  intro i _
  simp [gemvSpec]

theorem matMulAt_eq {nd : Bool} {s : Mem T} {a b : MatRef} {r : Nat} (ha : s.len a.buf = a.n * a.m)
    (hb : s.len b.buf = b.n * b.m) (hab : a.m = b.n) (hra : a.buf ≠ r) (hrb : b.buf ≠ r) :
    matMulAt nd s a b r = .ok (s.setBuf r (matOf a.n b.m fun i j =>
      ∑ k ∈ Finset.range a.m, entry a.m (s a.buf) i k * entry b.m (s b.buf) k j)) := by
  have e1 : ∀ l, s.setBuf r l a.buf = s a.buf := fun l => Mem.setBuf_other _ hra _
  have e2 : ∀ l, s.setBuf r l b.buf = s b.buf := fun l => Mem.setBuf_other _ hrb _
  unfold matMulAt gemmDDD
  rw [hab]
  simp only [beq_self_eq_true, cassert_true, ok_bind]
  rw [gemmCore_eq (by simp only [Mem.len, e1]; rw [← hab]; exact ha.ge)
    (by simp only [Mem.len, e2]; exact hb.ge)
    (by simp [Mem.len, DMat.uninit]), e1, e2, Mem.setBuf_setBuf, noexcept_ok, noexcept_ok]
  congr 2
  apply matOf_congr
  intro i j _ _
  simp [gemmSpec]

theorem matVec_eq {nd : Bool} {a : DMat T} {v : List T} (ha : a.elems.length = a.n * a.m)
    (hv : v.length = a.m) : matVec nd a v = .ok ((List.range a.n).map fun i =>
      ∑ k ∈ Finset.range a.m, entry a.m a.elems i k * val0 v k) := by
  unfold matVec
  rw [matVecAt_eq (by exact ha) (by exact hv) (by simp) (by simp)]
  simp [Mem.ofList]

theorem matMul_eq {nd : Bool} {a b : DMat T} (ha : a.elems.length = a.n * a.m)
    (hb : b.elems.length = b.n * b.m) (hab : a.m = b.n) :
    matMul nd a b = .ok ⟨a.n, b.m, matOf a.n b.m fun i j =>
      ∑ k ∈ Finset.range a.m, entry a.m a.elems i k * entry b.m b.elems k j⟩ := by
  unfold matMul
  rw [matMulAt_eq (by exact ha) (by exact hb) (by exact hab) (by simp) (by simp)]
  simp [Mem.ofList]

end ring

end Lalib
