import Verif.Spec.Eval
import Verif.Proofs.Sweep
import Verif.Proofs.Dense
import Verif.Proofs.Struct
import Verif.Proofs.Cholesky
import Verif.Proofs.Ilu
import Verif.Proofs.Tdma

/-! # The kernels as expressions: proofs for arbitrary arithmetic -/

namespace Lalib

variable {T σ M : Type}

theorem addUp_congr [Add T] {g g' : Nat → T} {lo hi : Nat} (h : ∀ k, lo ≤ k → k < hi → g k = g' k) (t : T) :
    addUp g lo hi t = addUp g' lo hi t := by
  unfold addUp
  have : ∀ l : List Nat, (∀ k ∈ l, g k = g' k) → ∀ t, l.foldl (fun v k => v + g k) t = l.foldl (fun v k => v + g' k) t := by
    intro l
    induction l with
    | nil => intro _ _; rfl
    | cons a l ih =>
      intro hl t
      rw [List.foldl_cons, List.foldl_cons, hl a (by simp), ih fun k hk => hl k (by simp [hk])]
  apply this
  intro k hk
  have := List.mem_range'_1.mp hk
  exact h k this.1 (by omega)

theorem subUp_congr [Sub T] {g g' : Nat → T} {lo hi : Nat} (h : ∀ k, lo ≤ k → k < hi → g k = g' k) (t : T) :
    subUp g lo hi t = subUp g' lo hi t :=
  @addUp_congr T ⟨fun a b => a - b⟩ g g' lo hi h t

/-- A loop that adds to something. -/
theorem addUp_through [Add T] {h : T → σ} {f : Nat → σ → Res σ} {g : Nat → T} {lo hi : Nat} (hle : lo ≤ hi) (v0 : T)
    (hf : ∀ k v, lo ≤ k → k < hi → f k (h v) = .ok (h (v + g k))) :
    forRange lo hi f (h v0) = .ok (h (addUp g lo hi v0)) :=
  loop_through (h := h) (f := f) (g := fun k v => v + g k) (lo := lo) (n := hi - lo)
    (fun k v h1 h2 => hf k v h1 (by omega)) v0

theorem subUp_through [Sub T] {h : T → σ} {f : Nat → σ → Res σ} {g : Nat → T} {lo hi : Nat} (hle : lo ≤ hi) (v0 : T)
    (hf : ∀ k v, lo ≤ k → k < hi → f k (h v) = .ok (h (v - g k))) :
    forRange lo hi f (h v0) = .ok (h (subUp g lo hi v0)) :=
  loop_through (h := h) (f := f) (g := fun k v => v - g k) (lo := lo) (n := hi - lo)
    (fun k v h1 h2 => hf k v h1 (by omega)) v0

theorem subUp_cell [Zero T] [Sub T] {emb : List T → σ} {f : Nat → σ → Res σ} {g : Nat → T} {lo hi p : Nat}
    (hle : lo ≤ hi) (l : List T) (hp : p < l.length)
    (hf : ∀ k v, lo ≤ k → k < hi → f k (emb (l.set p v)) = .ok (emb (l.set p (v - g k)))) :
    forRange lo hi f (emb l) = .ok (emb (l.set p (subUp g lo hi (val0 l p)))) := by
  have := subUp_through (h := fun v => emb (l.set p v)) (f := f) (g := g) hle (val0 l p) hf
  rwa [set_val0_self hp] at this

/-! ## Products -/

section prod
variable [Zero T] [Add T] [Mul T]

theorem dotCore_raw {m : Mem T} {x y n : Nat} (h0 : 0 < n) (hx : n ≤ m.len x) (hy : n ≤ m.len y) :
    dotCore m x y n = .ok (addUp (fun i => m.val x i * m.val y i) 1 n (m.val x 0 * m.val y 0)) := by
  unfold dotCore
  rw [Mem.rd_ok (by omega), ok_bind, Mem.rd_ok (by omega), ok_bind]
  refine addUp_through (h := fun v => v) (by omega) _ fun k v _ hk => ?_
  rw [Mem.rd_ok (by omega), ok_bind, Mem.rd_ok (by omega), ok_bind]

theorem gemvCore_raw {n m mat x y : Nat} {alpha beta : T} {s : Mem T} (ha : n * m ≤ s.len mat)
    (hx : m ≤ s.len x) (hy : s.len y = n) (hne : mat ≠ y) :
    gemvCore n m alpha mat x beta y s = .ok (s.setBuf y ((List.range n).map fun i =>
      addUp (fun k => alpha * entry m (s mat) i k * val0 (s x) k) 0 m (beta * val0 (s y) i))) := by
  have hy' : (s y).length = n := hy
  unfold gemvCore
  split
  · next hxy =>
    rw [fill_loop (emb := fun l => l) (F := fun i =>
      addUp (fun k => alpha * entry m (s mat) i k * val0 (s x) k) 0 m (beta * val0 (s y) i)) (off := 0)
      (Nat.zero_le _) (List.replicate n 0) (by simp)]
    · rw [ok_bind, Nat.zero_add, Nat.zero_add, fillR_full _ (by simp), copyTo_eq (by simp) hy]
    · intro i l _ hi hl _
      simp only [List.length_replicate] at hl
      simp only [Mem.rd_ok (show i < s.len y by omega), ok_bind,
        lwr_ok (show i < l.length by omega), Nat.zero_add]
      refine addUp_through (h := fun v => l.set i v) (Nat.zero_le _) _ ?_
      intro k v _ hk
      have := cell_lt hi hk
      simp only [lrd_val (show i < (l.set i v).length by simp; omega),
        Mem.rd_ok (show i * m + k < s.len mat by omega),
        Mem.rd_ok (show k < s.len x by omega), ok_bind,
        lwr_ok (show i < (l.set i v).length by simp; omega),
        val0_set (show i < l.length by omega), if_true, List.set_set]
      rfl
  · next hxy =>
    conv_lhs => rw [← s.setBuf_same y]
    rw [fill_loop (emb := fun l => s.setBuf y l) (F := fun i =>
      addUp (fun k => alpha * entry m (s mat) i k * val0 (s x) k) 0 m (beta * val0 (s y) i))
      (off := 0) (Nat.zero_le _) (s y) (by simpa using hy.ge)]
    · rw [Nat.zero_add, Nat.zero_add, fillR_full _ hy']
    · intro i l _ hi hl hp
      rw [hy'] at hl
      rw [Mem.setBuf_rd_self, lrd_val (show i < l.length by omega), ok_bind,
        Mem.setBuf_wr _ _ (show i < l.length by omega), ok_bind, hp i (by omega), Nat.zero_add]
      refine addUp_through (h := fun v => s.setBuf y (l.set i v)) (Nat.zero_le _) _ ?_
      intro k v _ hk
      have := cell_lt hi hk
      rw [Mem.setBuf_rd_self, lrd_val (show i < (l.set i v).length by simp; omega), ok_bind,
        Mem.setBuf_rd_other _ hne, Mem.rd_ok (show i * m + k < s.len mat by omega), ok_bind,
        Mem.setBuf_rd_other _ hxy, Mem.rd_ok (show k < s.len x by omega), ok_bind,
        Mem.setBuf_wr _ _ (show i < (l.set i v).length by simp; omega),
        val0_set (show i < l.length by omega), if_pos rfl, List.set_set]
      rfl

theorem gemmCore_raw {n m o a b c : Nat} {alpha beta : T} {s : Mem T} (ha : n * o ≤ s.len a)
    (hb : o * m ≤ s.len b) (hc : s.len c = n * m) :
    gemmCore n m o alpha a b beta c s = .ok (s.setBuf c (matOf n m fun i j =>
      addUp (fun k => alpha * entry o (s a) i k * entry m (s b) k j) 0 o
        (gemmStart (a = c ∨ b = c) beta (entry m (s c) i j)))) := by
  have hc' : (s c).length = n * m := hc
  unfold gemmCore
  split
  · next hal =>
    rw [fill_loop2 (emb := fun l => l) (F := fun p =>
      addUp (fun k => alpha * entry o (s a) (p / m) k * entry m (s b) k (p % m)) 0 o
        (gemmStart (a = c ∨ b = c) beta (entry m (s c) (p / m) (p % m))))
      (List.replicate (n * m) 0) (by simp)]
    · rw [ok_bind, fillR_full _ (by simp), copyTo_eq (by simp) hc]; rfl
    · intro i j l hi hj hl _
      simp only [List.length_replicate] at hl
      have hij := cell_lt hi hj
      simp only [Mem.rd_ok (show i * m + j < s.len c by omega), ok_bind,
        lwr_ok (show i * m + j < l.length by omega)]
      rw [cell_div hj, cell_mod hj]
      simp only [hal, decide_true, gemmStart, if_true]
      refine addUp_through (h := fun v => l.set (i * m + j) v) (Nat.zero_le _) _ ?_
      intro k v _ hk
      have h1 := cell_lt hi hk
      have h2 := cell_lt hk hj
      simp only [lrd_val (show i * m + j < (l.set (i * m + j) v).length by simp; omega),
        Mem.rd_ok (show i * o + k < s.len a by omega),
        Mem.rd_ok (show k * m + j < s.len b by omega), ok_bind,
        lwr_ok (show i * m + j < (l.set (i * m + j) v).length by simp; omega),
        val0_set (show i * m + j < l.length by omega), if_true, List.set_set]
      rfl
  · next hal =>
    conv_lhs => rw [← s.setBuf_same c]
    rw [fill_loop2 (emb := fun l => s.setBuf c l) (F := fun p =>
      addUp (fun k => alpha * entry o (s a) (p / m) k * entry m (s b) k (p % m)) 0 o
        (gemmStart (a = c ∨ b = c) beta (entry m (s c) (p / m) (p % m)))) (s c) hc'.ge]
    · rw [fillR_full _ hc']; rfl
    · intro i j l hi hj hl hp
      rw [hc'] at hl
      have hij := cell_lt hi hj
      rw [Mem.setBuf_rd_self, lrd_val (show i * m + j < l.length by omega), ok_bind,
        Mem.setBuf_wr _ _ (show i * m + j < l.length by omega), ok_bind, hp _ (Nat.le_refl _),
        cell_div hj, cell_mod hj]
      simp only [hal, decide_false, gemmStart, Bool.false_eq_true, if_false]
      push Not at hal
      refine addUp_through (h := fun v => s.setBuf c (l.set (i * m + j) v)) (Nat.zero_le _) _ ?_
      intro k v _ hk
      have h1 := cell_lt hi hk
      have h2 := cell_lt hk hj
      rw [Mem.setBuf_rd_self, lrd_val (show i * m + j < (l.set (i * m + j) v).length by simp; omega),
        ok_bind, Mem.setBuf_rd_other _ hal.1, Mem.rd_ok (show i * o + k < s.len a by omega), ok_bind,
        Mem.setBuf_rd_other _ hal.2, Mem.rd_ok (show k * m + j < s.len b by omega), ok_bind,
        Mem.setBuf_wr _ _ (show i * m + j < (l.set (i * m + j) v).length by simp; omega),
        val0_set (show i * m + j < l.length by omega), if_pos rfl, List.set_set]
      rfl

theorem norm2Core_raw [CSqrt T] {m : Mem T} {x n : Nat} (hx : n ≤ m.len x) :
    norm2Core m x n = sqrtC (addUp (fun i => m.val x i * m.val x i) 0 n 0) := by
  unfold norm2Core
  rw [addUp_through (h := fun v => v) (g := fun i => m.val x i * m.val x i) (Nat.zero_le n)]
  · rfl
  · intro k v _ hk
    rw [Mem.rd_ok (by omega), ok_bind, ok_bind]

end prod

/-! ## Back substitution -/

section sub
variable [Zero T] [Sub T] [Mul T] [Div T] [CDiv T]

theorem backSub_raw (a : UTri T) {R : Nat → Nat → T} {y : List T} (hy : y.length = a.n)
    (hR : ∀ i j, i < a.n → j < a.n → a.get i j = .ok (R i j)) (hd : ∀ i, i < a.n → DivAt (R i i)) :
    ∃ x, a.backSub y = .ok x ∧ x.length = a.n ∧ BackSubRec a.n R (val0 y) (val0 x) := by
  obtain ⟨x, e, hx, hv, _⟩ := sweep_down (emb := fun l : List T => l) (f := fun i y => do
      let y ← forRange (i + 1) a.n (fun j y => do
        let yi ← lrd y i
        let rij ← a.get i j
        let yj ← lrd y j
        lwr y i (yi - rij * yj)) y
      let yi ← lrd y i
      let rii ← a.get i i
      let q ← divC yi rii
      lwr y i q)
    (pos := fun i => i) (n := a.n)
    (G := fun i X => subUp (fun j => R i j * X j) (i + 1) a.n (val0 y i) / R i i) y
    (fun t ht => by omega) (fun _ _ _ _ h => h)
    (fun t X Y ht h => by
      rw [subUp_congr (g := fun j => R t j * X j) (g' := fun j => R t j * Y j)]
      intro k h1 h2
      rw [h k (by omega) h2])
    (fun t l ht hlen hf => by
      have hlen : l.length = a.n := by omega
      rw [subUp_cell (emb := fun l : List T => l) (g := fun j => R t j * val0 l j) (p := t) (by omega) l (by omega),
        ok_bind, lrd_val (by simp; omega), ok_bind, hR t t ht ht, ok_bind, hd t ht, ok_bind,
        lwr_ok (by simp; omega), List.set_set, val0_set (by omega), if_pos rfl]
      · rw [show val0 l t = val0 y t from hf t fun s h1 _ => by omega]
      · intro k v h1 h2
        rw [lrd_val (by simp; omega), ok_bind, hR t k ht h2, ok_bind, lrd_val (by simp; omega), ok_bind,
          lwr_ok (by simp; omega), List.set_set, val0_set (by omega), if_pos rfl, val0_set (by omega),
          if_neg (by omega)])
  refine ⟨x, ?_, by omega, hv⟩
  unfold UTri.backSub
  simp only [hy, bne_self_eq_false, throwIf_false, ok_bind]
  exact e

end sub

end Lalib
