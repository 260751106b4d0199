import Verif.Proofs.Eval
import Verif.Proofs.EvalSolve
import Verif.Proofs.Shapes
import Verif.Proofs.GmresShapes

/-! # Lemmas about products and element-wise operations whose arguments do not fit together -/

namespace Lalib

variable {T : Type}

section
variable [Zero T]

theorem copyTo_pre {src : List T} {n dst : Nat} {s : Mem T} (hs : n ≤ src.length) (hd : n ≤ s.len dst) :
    copyTo src n dst s = .ok (s.setBuf dst (fillR (val0 src) 0 n (s dst))) := by
  unfold copyTo
  conv_lhs => rw [← s.setBuf_same dst]
  rw [fill_loop (emb := fun l => s.setBuf dst l) (F := fun p => val0 src p) (off := 0)
    (Nat.zero_le _) (s dst) (by simpa using hd)]
  · rw [Nat.zero_add, Nat.zero_add]
  · intro i l _ hi hl _
    have hd' : n ≤ (s dst).length := hd
    simp only [lrd_val (show i < src.length by omega), ok_bind]
    rw [Mem.setBuf_wr _ _ (by omega), Nat.zero_add]

theorem fillR_congr {F G : Nat → T} {lo hi : Nat} (h : ∀ p, lo ≤ p → p < hi → F p = G p) (l : List T) :
    fillR F lo hi l = fillR G lo hi l := by
  unfold fillR
  refine List.map_congr_left fun p _ => ?_
  split_ifs with hp
  · exact h p hp.1 hp.2
  · rfl

variable [Add T] [Mul T]

theorem gemvCore_pre {n m mat x y : Nat} {alpha beta : T} {s : Mem T} (ha : n * m ≤ s.len mat)
    (hx : m ≤ s.len x) (hy : n ≤ s.len y) (hne : mat ≠ y) :
    gemvCore n m alpha mat x beta y s = .ok (s.setBuf y (fillR (fun i =>
      addUp (fun k => alpha * entry m (s mat) i k * val0 (s x) k) 0 m (beta * val0 (s y) i)) 0 n (s y))) := by
  have hy' : n ≤ (s y).length := hy
  unfold gemvCore
  split
  · next hxy =>
    rw [fill_loop (emb := fun l => l) (F := fun i =>
      addUp (fun k => alpha * entry m (s mat) i k * val0 (s x) k) 0 m (beta * val0 (s y) i)) (off := 0)
      (Nat.zero_le _) (List.replicate n 0) (by simp)]
    · rw [ok_bind, Nat.zero_add, Nat.zero_add, fillR_full _ (by simp), copyTo_pre (by simp) hy]
      congr 2
      exact fillR_congr (fun p _ hp => by rw [val0_map_range, if_pos hp]) _
    · intro i l _ hi hl _
      simp only [List.length_replicate] at hl
      simp only [Mem.rd_ok (show i < s.len y by omega), ok_bind,
        lwr_ok (show i < l.length by omega), Nat.zero_add]
      refine addUp_through (h := fun v => l.set i v) (Nat.zero_le _) _ ?_
      intro k v _ hk
      have := cell_lt hi hk
      simp only [lrd_val (show i < (l.set i v).length by simp; omega),
        Mem.rd_ok (show i * m + k < s.len mat by omega),
        Mem.rd_ok (show k < s.len x by omega), ok_bind,
        lwr_ok (show i < (l.set i v).length by simp; omega),
        val0_set (show i < l.length by omega), if_true, List.set_set]
      rfl
  · next hxy =>
    conv_lhs => rw [← s.setBuf_same y]
    rw [fill_loop (emb := fun l => s.setBuf y l) (F := fun i =>
      addUp (fun k => alpha * entry m (s mat) i k * val0 (s x) k) 0 m (beta * val0 (s y) i))
      (off := 0) (Nat.zero_le _) (s y) (by simpa using hy)]
    · rw [Nat.zero_add, Nat.zero_add]
    · intro i l _ hi hl hp
      rw [Mem.setBuf_rd_self, lrd_val (show i < l.length by omega), ok_bind,
        Mem.setBuf_wr _ _ (show i < l.length by omega), ok_bind, hp i (by omega), Nat.zero_add]
      refine addUp_through (h := fun v => s.setBuf y (l.set i v)) (Nat.zero_le _) _ ?_
      intro k v _ hk
      have := cell_lt hi hk
      rw [Mem.setBuf_rd_self, lrd_val (show i < (l.set i v).length by simp; omega), ok_bind,
        Mem.setBuf_rd_other _ hne, Mem.rd_ok (show i * m + k < s.len mat by omega), ok_bind,
        Mem.setBuf_rd_other _ hxy, Mem.rd_ok (show k < s.len x by omega), ok_bind,
        Mem.setBuf_wr _ _ (show i < (l.set i v).length by simp; omega),
        val0_set (show i < l.length by omega), if_pos rfl, List.set_set]
      rfl

theorem gemmCore_pre {n m o a b c : Nat} {alpha beta : T} {s : Mem T} (ha : n * o ≤ s.len a)
    (hb : o * m ≤ s.len b) (hc : n * m ≤ s.len c) :
    gemmCore n m o alpha a b beta c s = .ok (s.setBuf c (fillR (fun p =>
      addUp (fun k => alpha * entry o (s a) (p / m) k * entry m (s b) k (p % m)) 0 o
        (gemmStart (a = c ∨ b = c) beta (entry m (s c) (p / m) (p % m)))) 0 (n * m) (s c))) := by
  have hc' : n * m ≤ (s c).length := hc
  unfold gemmCore
  split
  · next hal =>
    rw [fill_loop2 (emb := fun l => l) (F := fun p =>
      addUp (fun k => alpha * entry o (s a) (p / m) k * entry m (s b) k (p % m)) 0 o
        (gemmStart (a = c ∨ b = c) beta (entry m (s c) (p / m) (p % m))))
      (List.replicate (n * m) 0) (by simp)]
    · rw [ok_bind, fillR_full _ (by simp), copyTo_pre (by simp) hc]
      congr 2
      exact fillR_congr (fun p _ hp => by rw [val0_map_range, if_pos hp]) _
    · intro i j l hi hj hl _
      simp only [List.length_replicate] at hl
      have hij := cell_lt hi hj
      simp only [Mem.rd_ok (show i * m + j < s.len c by omega), ok_bind,
        lwr_ok (show i * m + j < l.length by omega)]
      rw [cell_div hj, cell_mod hj]
      simp only [hal, decide_true, gemmStart, if_true]
      refine addUp_through (h := fun v => l.set (i * m + j) v) (Nat.zero_le _) _ ?_
      intro k v _ hk
      have h1 := cell_lt hi hk
      have h2 := cell_lt hk hj
      simp only [lrd_val (show i * m + j < (l.set (i * m + j) v).length by simp; omega),
        Mem.rd_ok (show i * o + k < s.len a by omega),
        Mem.rd_ok (show k * m + j < s.len b by omega), ok_bind,
        lwr_ok (show i * m + j < (l.set (i * m + j) v).length by simp; omega),
        val0_set (show i * m + j < l.length by omega), if_true, List.set_set]
      rfl
  · next hal =>
    conv_lhs => rw [← s.setBuf_same c]
    rw [fill_loop2 (emb := fun l => s.setBuf c l) (F := fun p =>
      addUp (fun k => alpha * entry o (s a) (p / m) k * entry m (s b) k (p % m)) 0 o
        (gemmStart (a = c ∨ b = c) beta (entry m (s c) (p / m) (p % m)))) (s c) hc']
    · intro i j l hi hj hl hp
      have hij := cell_lt hi hj
      rw [Mem.setBuf_rd_self, lrd_val (show i * m + j < l.length by omega), ok_bind,
        Mem.setBuf_wr _ _ (show i * m + j < l.length by omega), ok_bind, hp _ (Nat.le_refl _),
        cell_div hj, cell_mod hj]
      simp only [hal, decide_false, gemmStart, Bool.false_eq_true, if_false]
      push Not at hal
      refine addUp_through (h := fun v => s.setBuf c (l.set (i * m + j) v)) (Nat.zero_le _) _ ?_
      intro k v _ hk
      have h1 := cell_lt hi hk
      have h2 := cell_lt hk hj
      rw [Mem.setBuf_rd_self, lrd_val (show i * m + j < (l.set (i * m + j) v).length by simp; omega),
        ok_bind, Mem.setBuf_rd_other _ hal.1, Mem.rd_ok (show i * o + k < s.len a by omega), ok_bind,
        Mem.setBuf_rd_other _ hal.2, Mem.rd_ok (show k * m + j < s.len b by omega), ok_bind,
        Mem.setBuf_wr _ _ (show i * m + j < (l.set (i * m + j) v).length by simp; omega),
        val0_set (show i * m + j < l.length by omega), if_pos rfl, List.set_set]
      rfl

/-! ## One access that fails -/

/-- `Q` is the out-of-bounds access only. -/
abbrev Oob : Fault → Prop := fun e => e = .ub .oob

theorem oob_of_never {α : Type} {r : Res α} (h : Never Oob r) : r = .error (.ub .oob) := by
  obtain ⟨e, he, hq⟩ := h.exists
  rw [he, hq]

theorem gemvCore_oob {n m mat x y : Nat} {alpha beta : T} {s : Mem T} (hn : 0 < n)
    (h : s.len y < n ∨ s.len x < m ∨ s.len mat < n * m) :
    gemvCore n m alpha mat x beta y s = .error (.ub .oob) := by
  apply oob_of_never
  have hQ : Oob (.ub .oob) := rfl
  -- the failing iteration
  obtain ⟨i, hi, hf⟩ : ∃ i, i < n ∧ (s.len y ≤ i ∨ ∃ k, k < m ∧ (s.len mat ≤ i * m + k ∨ s.len x ≤ k)) := by
    rcases h with h | h | h
    · exact ⟨_, h, .inl (Nat.le_refl _)⟩
    · exact ⟨0, hn, .inr ⟨_, h, .inr (Nat.le_refl _)⟩⟩
    · have hm : 0 < m := by
        rcases Nat.eq_zero_or_pos m with rfl | h'
        · omega
        · exact h'
      refine ⟨s.len mat / m, Nat.div_lt_of_lt_mul (by rw [Nat.mul_comm]; exact h), .inr ⟨s.len mat % m, Nat.mod_lt _ hm, .inl ?_⟩⟩
      rw [Nat.mul_comm, Nat.div_add_mod]
  unfold gemvCore
  split
  · next hxy =>
    refine Never.bind ?_
    have hk : ∀ (i k : Nat) (l : List T), Sat (fun _ => True) Oob (do
        let t ← lrd l i
        let a ← s.rd mat (i * m + k)
        let xk ← s.rd x k
        lwr l i (t + alpha * a * xk)) := fun i k l =>
      Sat.bind (lrd_sat hQ l i) fun _ _ => Sat.bind (rd_sat hQ s mat _) fun _ _ => Sat.bind (rd_sat hQ s x k) fun _ _ =>
        Sat.mono (lwr_sat hQ l i _) (fun _ _ => trivial) fun _ h => h
    refine forRange_never (I := fun _ => True) (j := i) (fun i l _ _ _ => ?_) (Nat.zero_le _) hi (fun l _ => ?_) trivial
    · exact Sat.bind (rd_sat hQ s y i) fun _ _ => Sat.bind (lwr_sat hQ l i _) fun _ _ =>
        forRange_sat (I := fun _ _ => True) (Nat.zero_le _) trivial fun k l _ _ _ => hk i k l
    · rcases hf with hf | ⟨k, hkm, hf⟩
      · rw [Mem.rd_oob hf]; exact rfl
      · refine Sat.bind (rd_sat hQ s y i) fun _ _ => Sat.bind (lwr_sat hQ l i _) fun l' _ => ?_
        refine forRange_never (I := fun _ => True) (j := k) (fun k l _ _ _ => hk i k l) (Nat.zero_le _) hkm (fun l _ => ?_) trivial
        refine Sat.bind (lrd_sat hQ l i) fun _ _ => ?_
        rcases hf with hf | hf
        · rw [Mem.rd_oob hf]; exact rfl
        · refine Sat.bind (rd_sat hQ s mat _) fun _ _ => ?_
          rw [Mem.rd_oob hf]; exact rfl
  · next hxy =>
    refine forRange_never (I := SameLen s) (j := i) (fun i s1 _ _ h1 => gemvRow_sat hQ h1 m i mat x y alpha beta)
      (Nat.zero_le _) hi (fun s1 h1 => ?_) (fun _ => rfl)
    rcases hf with hf | ⟨k, hkm, hf⟩
    · rw [Mem.rd_oob (by rw [h1 y]; exact hf)]; exact rfl
    · refine Sat.bind (rd_sat hQ s1 y i) fun yi _ => Sat.bind (wr_sat hQ h1 y i _) fun s2 h2 => ?_
      refine forRange_never (I := SameLen s) (j := k) (fun k s2 _ _ h2 => ?_) (Nat.zero_le _) hkm (fun s3 h3 => ?_) h2.1
      · exact Sat.bind (rd_sat hQ s2 y i) fun _ _ => Sat.bind (rd_sat hQ s2 mat _) fun _ _ =>
          Sat.bind (rd_sat hQ s2 x k) fun _ _ => Sat.mono (wr_sat hQ h2 y i _) (fun _ h => h.1) (fun _ h => h)
      · refine Sat.bind (rd_sat hQ s3 y i) fun _ _ => ?_
        rcases hf with hf | hf
        · rw [Mem.rd_oob (by rw [h3 mat]; exact hf)]; exact rfl
        · refine Sat.bind (rd_sat hQ s3 mat _) fun _ _ => ?_
          rw [Mem.rd_oob (by rw [h3 x]; exact hf)]; exact rfl

theorem div_mod_cell {p n m : Nat} (h : p < n * m) : p / m < n ∧ p % m < m ∧ p / m * m + p % m = p := by
  have hm : 0 < m := by
    rcases Nat.eq_zero_or_pos m with rfl | h'
    · omega
    · exact h'
  exact ⟨Nat.div_lt_of_lt_mul (by rw [Nat.mul_comm]; exact h), Nat.mod_lt _ hm, by rw [Nat.mul_comm, Nat.div_add_mod]⟩

theorem gemmCore_oob {n m o a b c : Nat} {alpha beta : T} {s : Mem T} (hn : 0 < n) (hm : 0 < m)
    (h : s.len c < n * m ∨ s.len a < n * o ∨ s.len b < o * m) :
    gemmCore n m o alpha a b beta c s = .error (.ub .oob) := by
  apply oob_of_never
  have hQ : Oob (.ub .oob) := rfl
  obtain ⟨i, j, hi, hj, hf⟩ : ∃ i j, i < n ∧ j < m ∧ (s.len c ≤ i * m + j ∨
      ∃ k, k < o ∧ (s.len a ≤ i * o + k ∨ s.len b ≤ k * m + j)) := by
    rcases h with h | h | h
    · obtain ⟨h1, h2, h3⟩ := div_mod_cell h
      exact ⟨_, _, h1, h2, .inl h3.ge⟩
    · obtain ⟨h1, h2, h3⟩ := div_mod_cell h
      exact ⟨_, 0, h1, hm, .inr ⟨_, h2, .inl h3.ge⟩⟩
    · obtain ⟨h1, h2, h3⟩ := div_mod_cell h
      exact ⟨0, _, hn, h2, .inr ⟨_, h1, .inr h3.ge⟩⟩
  unfold gemmCore
  split
  · next hal =>
    refine Never.bind ?_
    have hk : ∀ (i j k : Nat) (l : List T), Sat (fun _ => True) Oob (do
        let t ← lrd l (i * m + j)
        let aik ← s.rd a (i * o + k)
        let bkj ← s.rd b (k * m + j)
        lwr l (i * m + j) (t + alpha * aik * bkj)) := fun i j k l =>
      Sat.bind (lrd_sat hQ l _) fun _ _ => Sat.bind (rd_sat hQ s a _) fun _ _ => Sat.bind (rd_sat hQ s b _) fun _ _ =>
        Sat.mono (lwr_sat hQ l _ _) (fun _ _ => trivial) fun _ h => h
    have hcell : ∀ (i j : Nat) (l : List T), Sat (fun _ => True) Oob (do
        let cij ← s.rd c (i * m + j)
        let tmp ← lwr l (i * m + j) (beta * cij)
        forRange 0 o (fun k tmp => do
          let t ← lrd tmp (i * m + j)
          let aik ← s.rd a (i * o + k)
          let bkj ← s.rd b (k * m + j)
          lwr tmp (i * m + j) (t + alpha * aik * bkj)) tmp) := fun i j l =>
      Sat.bind (rd_sat hQ s c _) fun _ _ => Sat.bind (lwr_sat hQ l _ _) fun _ _ =>
        forRange_sat (I := fun _ _ => True) (Nat.zero_le _) trivial fun k l _ _ _ => hk i j k l
    refine forRange_never (I := fun _ => True) (j := i) (fun i l _ _ _ =>
      forRange_sat (I := fun _ _ => True) (Nat.zero_le _) trivial fun j l _ _ _ => hcell i j l) (Nat.zero_le _) hi
      (fun l _ => ?_) trivial
    refine forRange_never (I := fun _ => True) (j := j) (fun j l _ _ _ => hcell i j l) (Nat.zero_le _) hj
      (fun l _ => ?_) trivial
    rcases hf with hf | ⟨k, hko, hf⟩
    · rw [Mem.rd_oob hf]; exact rfl
    · refine Sat.bind (rd_sat hQ s c _) fun _ _ => Sat.bind (lwr_sat hQ l _ _) fun l' _ => ?_
      refine forRange_never (I := fun _ => True) (j := k) (fun k l _ _ _ => hk i j k l) (Nat.zero_le _) hko (fun l _ => ?_) trivial
      refine Sat.bind (lrd_sat hQ l _) fun _ _ => ?_
      rcases hf with hf | hf
      · rw [Mem.rd_oob hf]; exact rfl
      · refine Sat.bind (rd_sat hQ s a _) fun _ _ => ?_
        rw [Mem.rd_oob hf]; exact rfl
  · next hal =>
    have hk : ∀ (i j k : Nat) (s1 : Mem T), SameLen s s1 → Sat (SameLen s) Oob (do
        let t ← s1.rd c (i * m + j)
        let aik ← s1.rd a (i * o + k)
        let bkj ← s1.rd b (k * m + j)
        s1.wr c (i * m + j) (t + alpha * aik * bkj)) := fun i j k s1 h1 =>
      Sat.bind (rd_sat hQ s1 c _) fun _ _ => Sat.bind (rd_sat hQ s1 a _) fun _ _ => Sat.bind (rd_sat hQ s1 b _) fun _ _ =>
        Sat.mono (wr_sat hQ h1 c _ _) (fun _ h => h.1) fun _ h => h
    have hcell : ∀ (i j : Nat) (s1 : Mem T), SameLen s s1 → Sat (SameLen s) Oob (do
        let cij ← s1.rd c (i * m + j)
        let s ← s1.wr c (i * m + j) (cij * beta)
        forRange 0 o (fun k s => do
          let t ← s.rd c (i * m + j)
          let aik ← s.rd a (i * o + k)
          let bkj ← s.rd b (k * m + j)
          s.wr c (i * m + j) (t + alpha * aik * bkj)) s) := fun i j s1 h1 =>
      Sat.bind (rd_sat hQ s1 c _) fun _ _ => Sat.bind (wr_sat hQ h1 c _ _) fun s2 h2 =>
        forRange_sat (I := fun _ => SameLen s) (Nat.zero_le _) h2.1 fun k s3 _ _ h3 => hk i j k s3 h3
    refine forRange_never (I := SameLen s) (j := i) (fun i s1 _ _ h1 =>
      forRange_sat (I := fun _ => SameLen s) (Nat.zero_le _) h1 fun j s2 _ _ h2 => hcell i j s2 h2) (Nat.zero_le _) hi
      (fun s1 h1 => ?_) fun _ => rfl
    refine forRange_never (I := SameLen s) (j := j) (fun j s1 _ _ h1 => hcell i j s1 h1) (Nat.zero_le _) hj
      (fun s1 h1 => ?_) h1
    rcases hf with hf | ⟨k, hko, hf⟩
    · rw [Mem.rd_oob (by rw [h1 c]; exact hf)]; exact rfl
    · refine Sat.bind (rd_sat hQ s1 c _) fun _ _ => Sat.bind (wr_sat hQ h1 c _ _) fun s2 h2 => ?_
      refine forRange_never (I := SameLen s) (j := k) (fun k s3 _ _ h3 => hk i j k s3 h3) (Nat.zero_le _) hko
        (fun s3 h3 => ?_) h2.1
      refine Sat.bind (rd_sat hQ s3 c _) fun _ _ => ?_
      rcases hf with hf | hf
      · rw [Mem.rd_oob (by rw [h3 a]; exact hf)]; exact rfl
      · refine Sat.bind (rd_sat hQ s3 a _) fun _ _ => ?_
        rw [Mem.rd_oob (by rw [h3 b]; exact hf)]; exact rfl

end

section
variable [Zero T] [Add T] [Mul T]

/-- Either the arguments are long enough, or the first access beyond one of them fails, or there is nothing to do. -/
theorem gemvCore_cases {n m mat x y : Nat} {alpha beta : T} {s : Mem T} (hne : mat ≠ y) :
    gemvCore n m alpha mat x beta y s =
      if n = 0 ∨ (n * m ≤ s.len mat ∧ m ≤ s.len x ∧ n ≤ s.len y) then .ok (s.setBuf y (fillR (fun i =>
        addUp (fun k => alpha * entry m (s mat) i k * val0 (s x) k) 0 m (beta * val0 (s y) i)) 0 n (s y)))
      else .error (.ub .oob) := by
  split_ifs with h
  · rcases h with rfl | ⟨h1, h2, h3⟩
    · rw [fillR_empty, s.setBuf_same]
      unfold gemvCore
      split
      · simp [copyTo, forRange_of_le]
      · rw [forRange_of_le (Nat.le_refl _)]
    · exact gemvCore_pre h1 h2 h3 hne
  · exact gemvCore_oob (by omega) (by omega)

theorem gemmCore_cases {n m o a b c : Nat} {alpha beta : T} {s : Mem T} :
    gemmCore n m o alpha a b beta c s =
      if n = 0 ∨ m = 0 ∨ (n * o ≤ s.len a ∧ o * m ≤ s.len b ∧ n * m ≤ s.len c) then .ok (s.setBuf c (fillR (fun p =>
        addUp (fun k => alpha * entry o (s a) (p / m) k * entry m (s b) k (p % m)) 0 o
          (gemmStart (a = c ∨ b = c) beta (entry m (s c) (p / m) (p % m)))) 0 (n * m) (s c)))
      else .error (.ub .oob) := by
  split_ifs with h
  · by_cases h0 : n = 0 ∨ m = 0
    · have hz : n * m = 0 := by rcases h0 with rfl | rfl <;> simp
      rw [hz, fillR_empty, s.setBuf_same]
      unfold gemmCore
      rcases h0 with rfl | rfl
      · split
        · simp [copyTo, forRange_of_le]
        · rw [forRange_of_le (Nat.le_refl _)]
      · have hnop : ∀ {σ : Type} (n : Nat) (s : σ) (f : Nat → Nat → σ → Res σ),
            forRange 0 n (fun i s => forRange 0 0 (f i) s) s = .ok s := by
          intro σ n s f
          have := forRange_sat (Q := fun _ => False) (f := fun i s => forRange 0 0 (f i) s)
            (I := fun _ t => t = s) (Nat.zero_le n) rfl fun i t _ _ ht => by
              rw [forRange_of_le (Nat.le_refl _)]; exact ht
          cases h : forRange 0 n (fun i s => forRange 0 0 (f i) s) s with
          | ok v => rw [h] at this; exact congrArg _ this
          | error e => rw [h] at this; exact absurd this (by simp [Sat])
        split
        · rw [hnop, ok_bind]
          simp [copyTo, forRange_of_le]
        · rw [hnop]
    · obtain ⟨h1, h2, h3⟩ := (h.resolve_left fun h => h0 (.inl h)).resolve_left fun h => h0 (.inr h)
      exact gemmCore_pre h1 h2 h3
  · push Not at h
    exact gemmCore_oob (by omega) (by omega) (by have := h.2.2; omega)

end


/-! ## Compressed rows -/

namespace Csr
variable [Zero T] [Add T] [Mul T]

theorem mulCore_pre {a : Csr T} (hw : a.Wf) {alpha beta : T} {x y : Nat} {s : Mem T}
    (hx : ∀ c ∈ a.col, c < s.len x) (hy : a.nrows ≤ s.len y) (hxy : x ≠ y) :
    mulCore a.nrows a alpha x beta y s =
      .ok (s.setBuf y (fillR (fun i =>
        addUp (fun k => alpha * val0 a.val k * val0 (s x) (a.col.getD k 0))
          (a.rowPtr.getD i 0) (a.rowPtr.getD (i + 1) 0) (beta * val0 (s y) i)) 0 a.nrows (s y))) := by
  have hy' : a.nrows ≤ (s y).length := hy
  unfold mulCore
  conv_lhs => rw [← s.setBuf_same y]
  rw [fill_loop (emb := fun l => s.setBuf y l) (F := fun i =>
        addUp (fun k => alpha * val0 a.val k * val0 (s x) (a.col.getD k 0))
          (a.rowPtr.getD i 0) (a.rowPtr.getD (i + 1) 0) (beta * val0 (s y) i)) (off := 0) (Nat.zero_le _) (s y)
        (by simpa using hy)]
  · rw [Nat.zero_add, Nat.zero_add]
  · intro i l _ hi hl hp
    obtain ⟨h1, h2, h3⟩ := hw.ptr_le hi
    rw [Mem.setBuf_rd_self, lrd_val (show i < l.length by omega), ok_bind,
      Mem.setBuf_wr _ _ (show i < l.length by omega), ok_bind, lrd_ptr (show i < a.rowPtr.length by omega),
      ok_bind, lrd_ptr h1, ok_bind, hp i (by omega), Nat.zero_add]
    refine addUp_through (h := fun v => s.setBuf y (l.set i v)) h2 _ ?_
    intro k v _ hk
    have hc : k < a.col.length := by rw [hw.len]; omega
    have hcx : a.col.getD k 0 < s.len x := by
      apply hx
      have : a.col.getD k 0 = a.col[k] := by simp [List.getD_eq_getElem?_getD, hc]
      rw [this]; exact List.getElem_mem _
    rw [Mem.setBuf_rd_self, lrd_val (show i < (l.set i v).length by simp; omega), ok_bind,
      lrd_val (show k < a.val.length by omega), ok_bind, lrd_ptr hc, ok_bind,
      Mem.setBuf_rd_other _ hxy, Mem.rd_ok hcx, ok_bind,
      Mem.setBuf_wr _ _ (show i < (l.set i v).length by simp; omega),
      val0_set (show i < l.length by omega), if_pos rfl, List.set_set]
    rfl

theorem mulCore_oob {a : Csr T} (hw : a.Wf) {n m : Nat} (hs : a.shape = .ok (n, m)) {alpha beta : T} {x y : Nat}
    {s : Mem T} (h : s.len y < n ∨ s.len x < m) : mulCore n a alpha x beta y s = .error (.ub .oob) := by
  apply oob_of_never
  have hQ : Oob (.ub .oob) := rfl
  obtain ⟨hr, i0, k, hi0, hm, h1, h2, h3⟩ := Csr.stored_last hw hs
  obtain ⟨i, hi, hf⟩ : ∃ i, i < n ∧ (s.len y ≤ i ∨ s.len x < m ∧ i = i0) := by
    rcases h with h | h
    · exact ⟨_, h, .inl (Nat.le_refl _)⟩
    · exact ⟨i0, hi0, .inr ⟨h, rfl⟩⟩
  unfold mulCore
  refine forRange_never (I := SameLen s) (j := i)
    (fun i s1 _ hi h1 => Csr.mulRow_sat hQ h1 a i _ _ (hw.ptr_le (by rw [hr]; exact hi)).2.1 _ _)
    (Nat.zero_le _) hi (fun s1 hs1 => ?_) (fun _ => rfl)
  rcases hf with hf | ⟨hf, rfl⟩
  · rw [Mem.rd_oob (by rw [hs1 y]; exact hf)]; exact rfl
  refine Sat.bind (rd_sat hQ s1 y i) fun yi _ => Sat.bind (wr_sat hQ hs1 y i _) fun s2 hs2 =>
    Sat.bind (lrd_sat hQ a.rowPtr i) fun b hb => Sat.bind (lrd_sat hQ a.rowPtr (i + 1)) fun e he => ?_
  rw [hb.2, he.2]
  refine forRange_never (I := SameLen s) (j := k)
    (fun k s3 _ _ h3 => Csr.entry_sat hQ h3 a i k _ _ _) h1 h2 (fun s3 hs3 => ?_) hs2.1
  refine Sat.bind (rd_sat hQ s3 y i) fun _ _ => Sat.bind (lrd_sat hQ a.val k) fun _ _ => ?_
  rw [lrd_some h3, ok_bind]
  refine Never.bind ?_
  rw [Mem.rd_oob]
  · exact hQ
  · rw [hs3 x]; omega

end Csr

end Lalib
