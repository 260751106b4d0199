import Verif.Model.Gmres
import Verif.Proofs.Shapes
import Verif.Proofs.SparseCsr

/-! # Lemmas about the incomplete factorisation and GMRES with sizes that do not fit together

The lemmas are about any arithmetic: exact numbers, where a quotient by zero is a fault, and IEEE numbers, where
every quotient is a number. -/

namespace Lalib

variable {T M : Type}

/-- The faults of the arithmetic are in `Q`. -/
structure Arith (T : Type) [One T] [CDiv T] [CSqrt T] (Q : Fault → Prop) : Prop where
  div : ∀ a b : T, Sat (fun _ => True) Q (divC a b)
  sqrt : ∀ a : T, Sat (fun _ => True) Q (sqrtC a)
  inv : Q .nonFinite ∨ ∀ b : T, ∃ c, divC 1 b = .ok c

section products
variable [Zero T] [One T] [Add T] [Mul T] {Q : Fault → Prop}

theorem noexcept_sat {α : Type} {P : α → Prop} {r : Res α} (hn : ∀ e, ¬ Q (.throw e)) (h : Sat P Q r) :
    Sat P Q (noexcept r) := by
  cases r with
  | ok a => exact h
  | error e =>
    cases e with
    | throw x => exact absurd h (hn x)
    | _ => exact h

omit [One T] in
/-- One row of the dense product. -/
theorem gemvRow_sat (hQ : Q (.ub .oob)) {s0 s : Mem T} (hs : SameLen s0 s) (m i mat x y : Nat) (alpha beta : T) :
    Sat (SameLen s0) Q (do
      let yi ← s.rd y i
      let s ← s.wr y i (beta * yi)
      forRange 0 m (fun k s => do
        let t ← s.rd y i
        let a ← s.rd mat (i * m + k)
        let xk ← s.rd x k
        s.wr y i (t + alpha * a * xk)) s) := by
  refine Sat.bind (rd_sat hQ s y i) fun yi _ => Sat.bind (wr_sat hQ hs y i _) fun s1 h1 =>
    forRange_sat (I := fun _ => SameLen s0) (Nat.zero_le _) h1.1 fun k s2 _ _ h2 => ?_
  exact Sat.bind (rd_sat hQ s2 y i) fun _ _ => Sat.bind (rd_sat hQ s2 mat _) fun _ _ =>
    Sat.bind (rd_sat hQ s2 x k) fun _ _ => Sat.mono (wr_sat hQ h2 y i _) (fun _ h => h.1) (fun _ h => h)

omit [One T] in
/-- A vector with fewer elements than the matrix has columns. -/
theorem gemvCore_never (hQ : Q (.ub .oob)) {n m : Nat} (hn : 0 < n) {alpha beta : T} {mat x y : Nat} (hxy : x ≠ y)
    {s : Mem T} (hx : s.len x < m) : Never Q (gemvCore n m alpha mat x beta y s) := by
  unfold gemvCore
  rw [if_neg hxy]
  refine forRange_never (I := SameLen s) (j := 0) (fun i s1 _ _ h1 => gemvRow_sat hQ h1 m i mat x y alpha beta)
    (Nat.le_refl _) hn (fun s1 h1 => ?_) (fun _ => rfl)
  refine Sat.bind (rd_sat hQ s1 y 0) fun yi _ => Sat.bind (wr_sat hQ h1 y 0 _) fun s2 h2 => ?_
  refine forRange_never (I := SameLen s) (j := s.len x) (fun k s2 _ _ h2 => ?_) (Nat.zero_le _) hx (fun s3 h3 => ?_) h2.1
  · exact Sat.bind (rd_sat hQ s2 y 0) fun _ _ => Sat.bind (rd_sat hQ s2 mat _) fun _ _ =>
      Sat.bind (rd_sat hQ s2 x k) fun _ _ => Sat.mono (wr_sat hQ h2 y 0 _) (fun _ h => h.1) (fun _ h => h)
  · refine Sat.bind (rd_sat hQ s3 y 0) fun _ _ => Sat.bind (rd_sat hQ s3 mat _) fun _ _ => Never.bind ?_
    rw [Mem.rd_oob (by rw [h3 x])]
    exact hQ

omit [One T] in
theorem gemvCore_sat (hQ : Q (.ub .oob)) (n m : Nat) (alpha beta : T) (mat x y : Nat) (hxy : x ≠ y) (s : Mem T) :
    Sat (SameLen s) Q (gemvCore n m alpha mat x beta y s) := by
  unfold gemvCore
  rw [if_neg hxy]
  exact forRange_sat (I := fun _ => SameLen s) (Nat.zero_le _) (fun _ => rfl) fun i s1 _ _ h1 =>
    gemvRow_sat hQ h1 m i mat x y alpha beta

/-- The dense product: a value has as many elements as the matrix has rows. -/
theorem matVec_sat (hQ : Q (.ub .oob)) (hn : ∀ e, ¬ Q (.throw e)) (nd : Bool) (ha : nd = false → Q .assertFail)
    (a : DMat T) (x : List T) : Sat (fun y => y.length = a.n) Q (matVec nd a x) := by
  unfold matVec matVecAt
  refine Sat.bind (P := fun s : Mem T => s.len 2 = a.n) (noexcept_sat hn ?_) fun s hs => hs
  refine Sat.bind (P := fun _ => True) ?_ fun _ _ => ?_
  · cases nd with
    | true => exact trivial
    | false => unfold cassert; split_ifs <;> first | exact trivial | exact ha rfl
  · refine Sat.mono (gemvCore_sat hQ _ _ _ _ _ _ _ (by decide) _) (fun s h => ?_) (fun _ h => h)
    rw [h 2]
    simp [Mem.len]

theorem matVec_never (hQ : Q (.ub .oob)) (hn : ∀ e, ¬ Q (.throw e)) (nd : Bool) (ha : nd = false → Q .assertFail)
    (a : DMat T) (h0 : 0 < a.n) (x : List T) (hx : x.length ≠ a.m) (hs : nd = true → x.length < a.m) :
    Never Q (matVec nd a x) := by
  unfold matVec matVecAt
  refine Never.bind (noexcept_sat hn ?_)
  cases nd with
  | false =>
    refine Never.bind ?_
    rw [cassert_ne (by simpa [Mem.ofList, Mem.len] using Ne.symm hx)]
    exact ha rfl
  | true =>
    refine Sat.bind (P := fun _ => True) trivial fun _ _ => gemvCore_never hQ h0 (by decide) (hs rfl)

/-! ## Compressed rows -/

omit [Zero T] [One T] [Add T] [Mul T] in
/-- The largest column is stored. -/
theorem Csr.stored_last {a : Csr T} (hw : a.Wf) {n m : Nat} (hs : a.shape = .ok (n, m)) :
    a.nrows = n ∧ ∃ i k, i < n ∧ 0 < m ∧ a.StoredAt i (m - 1) k := by
  unfold Csr.shape at hs
  have hne : a.rowPtr.length ≠ 0 := by have := hw.length_pos; omega
  cases hm : maxElem a.col with
  | error e => rw [hm] at hs; cases hs
  | ok c =>
    rw [hm, ok_bind, if_neg hne] at hs
    injection hs with hs
    injection hs with h1 h2
    have hcol : a.col ≠ [] := by
      intro h
      rw [h] at hm
      cases hm
    obtain ⟨c', h3, h4, _⟩ := maxElem_spec hcol
    rw [hm] at h3
    injection h3 with h3
    subst h3
    obtain ⟨k, hk, e⟩ := List.getElem_of_mem h4
    obtain ⟨i, hi, h5, h6⟩ := hw.row_of (k := k) (by rw [← hw.len]; exact hk)
    refine ⟨h1, i, k, by rw [← h1]; exact hi, by omega, h5, h6, ?_⟩
    rw [List.getElem?_eq_getElem hk, e]
    simp; omega

omit [One T] in
theorem Csr.entry_sat (hQ : Q (.ub .oob)) {s0 s : Mem T} (hs : SameLen s0 s) (a : Csr T) (i k x y : Nat) (alpha : T) :
    Sat (SameLen s0) Q (do
      let t ← s.rd y i
      let v ← lrd a.val k
      let c ← lrd a.col k
      let xc ← s.rd x c
      s.wr y i (t + alpha * v * xc)) :=
  Sat.bind (rd_sat hQ s y i) fun _ _ => Sat.bind (lrd_sat hQ a.val k) fun _ _ =>
    Sat.bind (lrd_sat hQ a.col k) fun c _ => Sat.bind (rd_sat hQ s x c) fun _ _ =>
      Sat.mono (wr_sat hQ hs y i _) (fun _ h => h.1) (fun _ h => h)

omit [One T] in
theorem Csr.mulRow_sat (hQ : Q (.ub .oob)) {s0 s : Mem T} (hs : SameLen s0 s) (a : Csr T) (i x y : Nat)
    (hi : a.rowPtr.getD i 0 ≤ a.rowPtr.getD (i + 1) 0) (alpha beta : T) :
    Sat (SameLen s0) Q (do
      let yi ← s.rd y i
      let s ← s.wr y i (beta * yi)
      let b ← lrd a.rowPtr i
      let e ← lrd a.rowPtr (i + 1)
      forRange b e (fun k s => do
        let t ← s.rd y i
        let v ← lrd a.val k
        let c ← lrd a.col k
        let xc ← s.rd x c
        s.wr y i (t + alpha * v * xc)) s) := by
  refine Sat.bind (rd_sat hQ s y i) fun yi _ => Sat.bind (wr_sat hQ hs y i _) fun s1 h1 =>
    Sat.bind (lrd_sat hQ a.rowPtr i) fun b hb => Sat.bind (lrd_sat hQ a.rowPtr (i + 1)) fun e he => ?_
  rw [hb.2, he.2]
  exact forRange_sat (I := fun _ => SameLen s0) hi h1.1 fun k s2 _ _ h2 => Csr.entry_sat hQ h2 a i k x y alpha

theorem Csr.mulVec_sat (hQ : Q (.ub .oob)) (hn : ∀ e, ¬ Q (.throw e)) (nd : Bool) (ha : nd = false → Q .assertFail)
    {a : Csr T} (hw : a.Wf) {n m : Nat} (hs : a.shape = .ok (n, m)) (x : List T) :
    Sat (fun y => y.length = n) Q (Csr.mulVec nd a x) := by
  obtain ⟨hr, -⟩ := Csr.stored_last hw hs
  unfold Csr.mulVec Csr.mulVecAt
  refine Sat.bind (P := fun s : Mem T => s.len 1 = n) (noexcept_sat hn ?_) fun s hs => hs
  rw [hs, ok_bind]
  refine Sat.bind (P := fun _ => True) ?_ fun _ _ => ?_
  · cases nd with
    | true => exact trivial
    | false => unfold cassert; split_ifs <;> first | exact trivial | exact ha rfl
  · unfold Csr.mulCore
    refine Sat.mono (forRange_sat (I := fun _ => SameLen ((Mem.ofList [x]).setBuf 1 (List.replicate n 0)))
      (Nat.zero_le _) (fun _ => rfl) fun i s1 _ hi h1 => Csr.mulRow_sat hQ h1 a i _ _
      (hw.ptr_le (by rw [hr]; exact hi)).2.1 _ _) (fun s h => ?_) (fun _ h => h)
    rw [h 1]
    simp [Mem.len]

theorem Csr.mulVec_never (hQ : Q (.ub .oob)) (hn : ∀ e, ¬ Q (.throw e)) (nd : Bool) (ha : nd = false → Q .assertFail)
    {a : Csr T} (hw : a.Wf) {n m : Nat} (hs : a.shape = .ok (n, m)) (x : List T) (hx : x.length ≠ m)
    (hlt : nd = true → x.length < m) : Never Q (Csr.mulVec nd a x) := by
  obtain ⟨hr, i, k, hi, hm, h1, h2, h3⟩ := Csr.stored_last hw hs
  unfold Csr.mulVec Csr.mulVecAt
  refine Never.bind (noexcept_sat hn ?_)
  rw [hs, ok_bind]
  cases nd with
  | false =>
    refine Never.bind ?_
    rw [cassert_ne (by simpa [Mem.ofList, Mem.len] using Ne.symm hx)]
    exact ha rfl
  | true =>
    refine Sat.bind (P := fun _ => True) trivial fun _ _ => ?_
    unfold Csr.mulCore
    refine forRange_never (I := SameLen ((Mem.ofList [x]).setBuf 1 (List.replicate n 0))) (j := i)
      (fun i s1 _ hi h1 => Csr.mulRow_sat hQ h1 a i _ _ (hw.ptr_le (by rw [hr]; exact hi)).2.1 _ _)
      (Nat.zero_le _) hi (fun s1 hs1 => ?_) (fun _ => rfl)
    refine Sat.bind (rd_sat hQ s1 1 i) fun yi _ => Sat.bind (wr_sat hQ hs1 1 i _) fun s2 hs2 =>
      Sat.bind (lrd_sat hQ a.rowPtr i) fun b hb => Sat.bind (lrd_sat hQ a.rowPtr (i + 1)) fun e he => ?_
    rw [hb.2, he.2]
    refine forRange_never (I := SameLen ((Mem.ofList [x]).setBuf 1 (List.replicate n 0))) (j := k)
      (fun k s3 _ _ h3 => Csr.entry_sat hQ h3 a i k _ _ _) h1 h2 (fun s3 hs3 => ?_) hs2.1
    refine Sat.bind (rd_sat hQ s3 1 i) fun _ _ => Sat.bind (lrd_sat hQ a.val k) fun _ _ => ?_
    rw [lrd_some h3, ok_bind]
    refine Never.bind ?_
    rw [Mem.rd_oob]
    · exact hQ
    · rw [hs3 0]
      show x.length ≤ m - 1
      have := hlt rfl
      omega

end products

/-! ## The incomplete factorisation -/

namespace Ilu

section
variable [Zero T] [One T] [Add T] [Sub T] [Mul T] [CDiv T] [CSqrt T] {ops : MatOps M T} {a : M} {Q : Fault → Prop}

omit [One T] [Add T] [CDiv T] [CSqrt T] in
theorem fwd_sat' (hQ : Q (.ub .oob)) (hg : ∀ i j, Sat (fun _ => True) Q (ops.get a i j)) (rhs : List T) (k : Nat)
    (y : List T) : Sat (fun y' => y'.length = y.length) Q (forRange 0 k (fwdRow ops a rhs) y) := by
  refine forRange_sat (I := fun _ (y' : List T) => y'.length = y.length) (Nat.zero_le _) rfl ?_
  intro i s _ _ hs
  unfold fwdRow
  refine Sat.bind (lrd_sat hQ rhs i) fun b _ => Sat.bind (P := fun _ => True) (forRange_sat (I := fun _ _ => True)
    (Nat.zero_le _) trivial fun j v _ _ _ => ?_) fun v _ => ?_
  · exact Sat.bind (hg i j) fun l _ => Sat.bind (lrd_sat hQ s j) fun _ _ => trivial
  · exact Sat.mono (lwr_sat hQ s i v) (fun _ h => h.trans hs) (fun _ h => h)

omit [Add T] in
theorem bwdRow_sat (hQ : Q (.ub .oob)) (hA : Arith T Q) (hg : ∀ i j, Sat (fun _ => True) Q (ops.get a i j)) (n : Nat)
    (y x : List T) (i : Nat) (hi : i < n) : Sat (fun x' => x'.length = x.length) Q (bwdRow ops a n y i x) := by
  unfold bwdRow
  refine Sat.bind (lrd_sat hQ y i) fun b _ => Sat.bind (P := fun _ => True) (forRange_sat (I := fun _ _ => True)
    (by omega) trivial fun j v _ _ _ => ?_) fun v _ => ?_
  · exact Sat.bind (hg i j) fun l _ => Sat.bind (lrd_sat hQ x j) fun _ _ => trivial
  · exact Sat.bind (hg i i) fun d _ => Sat.bind (hA.div v d) fun q _ => lwr_sat hQ x i q

omit [Add T] in
/-- The result is as long as the right-hand side. -/
theorem solve_sat (hQ : Q (.ub .oob)) (hn : ∀ e, ¬ Q (.throw e)) (hA : Arith T Q)
    (hg : ∀ i j, Sat (fun _ => True) Q (ops.get a i j)) (b : List T) :
    Sat (fun x => x.length = b.length) Q (solve ops a b) := by
  unfold solve
  refine noexcept_sat hn (Sat.bind (fwd_sat' hQ hg b _ _) fun y _ => ?_)
  have := forDown_sat (I := fun _ (x : List T) => x.length = b.length) (Q := Q)
    (f := bwdRow ops a b.length y) (n := b.length) (s := List.replicate b.length 0) (by simp)
    fun i x hi hx => Sat.mono (bwdRow_sat hQ hA hg b.length y x i hi) (fun _ h => h.trans hx) (fun _ h => h)
  exact this

omit [One T] [Add T] [CSqrt T] in
/-- A right-hand side for which the last diagonal entry does not exist. -/
theorem solve_never' (hQ : Q (.ub .oob)) (hn : ∀ e, ¬ Q (.throw e))
    (hg : ∀ i j, Sat (fun _ => True) Q (ops.get a i j)) (b : List T) (k : Nat) (hb : b.length = k + 1)
    (hlast : Never Q (ops.get a k k)) : Never Q (solve ops a b) := by
  unfold solve
  refine noexcept_sat hn (Sat.bind (fwd_sat' hQ hg b _ _) fun y _ => ?_)
  rw [hb]
  unfold forDown
  refine Never.bind ?_
  unfold bwdRow
  refine Sat.bind (lrd_sat hQ y k) fun v _ => ?_
  rw [forRange_of_le (Nat.le_refl _), ok_bind]
  exact Never.bind hlast

end

end Ilu

/-! ## What the constructor keeps -/

namespace Ilu

section
variable [Zero T] [Sub T] [Mul T] [CDiv T] [CZero T] {ops : MatOps M T} {P : M → Prop}

/-- Assignments to elements keep `P`. -/
def Keeps (ops : MatOps M T) (P : M → Prop) : Prop := ∀ a i j v a', P a → ops.set a i j v = .ok a' → P a'

omit [Zero T] [Sub T] [Mul T] [CDiv T] [CZero T] in
theorem Keeps.sat (h : Keeps ops P) {a : M} (ha : P a) (i j : Nat) (v : T) :
    Sat P (fun _ => True) (ops.set a i j v) := by
  cases e : ops.set a i j v with
  | ok a' => exact h a i j v a' ha e
  | error e => trivial

theorem sat_true {α : Type} (r : Res α) : Sat (fun _ => True) (fun _ => True) r := by
  cases r <;> trivial

omit [Zero T] in
theorem lowCell_keeps (h : Keeps ops P) {a : M} (ha : P a) (i j : Nat) :
    Sat (Sum.elim P P) (fun _ => True) (lowCell ops i j a) := by
  unfold lowCell
  refine Sat.bind (sat_true _) fun v _ => ?_
  split_ifs
  · exact ha
  · refine Sat.bind (sat_true _) fun d _ => ?_
    split_ifs
    · exact ha
    · exact Sat.bind (sat_true _) fun _ _ => Sat.bind (sat_true _) fun _ _ => Sat.bind (h.sat ha i j _) fun _ h => h

omit [Zero T] [CDiv T] in
theorem upCell_keeps (h : Keeps ops P) {a : M} (ha : P a) (i j : Nat) :
    Sat P (fun _ => True) (upCell ops i j a) := by
  unfold upCell
  refine Sat.bind (sat_true _) fun v _ => ?_
  split_ifs
  · exact ha
  · exact Sat.bind (sat_true _) fun _ _ => h.sat ha i j _

omit [Zero T] in
theorem row_keeps (h : Keeps ops P) {a : M} (ha : P a) (m i : Nat) :
    Sat (Sum.elim P P) (fun _ => True) (row ops m i a) := by
  unfold row
  refine Sat.bind (forRet_sat (I := fun _ => P) (Nat.zero_le _) ha fun j a' _ _ h' => lowCell_keeps h h' i j) ?_
  rintro (a' | a') h'
  · by_cases him : i ≤ m
    · exact Sat.bind (forRange_sat (I := fun _ => P) him h' fun j a' _ _ h' => upCell_keeps h h' i j) fun _ h => h
    · simp only []
      rw [forRange_of_le (by omega)]
      exact h'
  · exact h'

omit [Zero T] in
/-- The object holds what the matrix held. -/
theorem new_keeps (h : Keeps ops P) {a a' : M} (ha : P a) (hn : new ops a = .ok a') : P a' := by
  have : Sat P (fun _ => True) (new ops a) := by
    unfold new decomp
    refine Sat.bind (P := fun r => P r.2) (Sat.bind (sat_true _) fun sh _ => Sat.bind (forRet_sat (I := fun _ => P)
      (Nat.zero_le _) ha fun i a' _ _ h' => row_keeps h h' _ i) ?_) fun r hr => Sat.bind (sat_true _) fun _ _ => (show P r.2 from hr)
    rintro (a' | a') h'
    · exact h'
    · exact h'
  rw [hn] at this
  exact this

omit [Zero T] [Sub T] [Mul T] [CDiv T] [CZero T] in
theorem keeps_dense (n m : Nat) :
    Keeps (dOps : MatOps (DMat T) T) fun a => a.n = n ∧ a.m = m ∧ a.elems.length = n * m := by
  rintro a i j v a' ⟨h1, h2, h3⟩ e
  have e : DMat.set a i j v = .ok a' := e
  unfold DMat.set at e
  by_cases hl : i * a.m + j < a.elems.length
  · rw [lwr_ok hl] at e
    injection e with e
    subst e
    exact ⟨h1, h2, by simpa using h3⟩
  · rw [lwr_oob (by omega)] at e
    cases e

omit [Sub T] [Mul T] [CDiv T] [CZero T] in
theorem keeps_csr (n m : Nat) :
    Keeps (csrOps : MatOps (Csr T) T) fun a => (a.Wf ∧ a.Distinct) ∧ a.shape = .ok (n, m) := by
  rintro a i j v a' ⟨⟨hw, hd⟩, hs⟩ e
  have e : Csr.set a i j v = .ok a' := e
  have hin : i < a.nrows := by
    by_contra hc
    unfold Csr.set Csr.search at e
    have h2 : a.rowPtr.length ≤ i + 1 := by unfold Csr.nrows at hc; omega
    by_cases h1 : i < a.rowPtr.length
    · rw [lrd_ok h1, ok_bind, lrd_oob h2] at e; cases e
    · rw [lrd_oob (by omega)] at e; cases e
  by_cases hst : ∃ k, a.StoredAt i j k
  · obtain ⟨a'', e', w, d, hp, hcl, -⟩ := (Props.C29_update a hw hd i j hin v).1 hst
    rw [e] at e'
    injection e' with e'
    subst e'
    exact ⟨⟨w, d⟩, by rw [← hs]; unfold Csr.shape; rw [hp, hcl]⟩
  · have := (Props.C29_update a hw hd i j hin v).2 (not_exists.mp hst)
    rw [e] at this
    cases this

/-! ## More rows than columns, dense -/

variable [CSqrt T] [One T] {Q : Fault → Prop}

omit [Sub T] [Mul T] [CDiv T] [CZero T] [CSqrt T] [One T] in
theorem get_sat (hQ : Q (.ub .oob)) (a : DMat T) (i j : Nat) : Sat (fun _ => True) Q (dOps.get a i j) :=
  Sat.mono (lrd_sat hQ a.elems _) (fun _ _ => trivial) (fun _ h => h)

omit [CDiv T] [CZero T] [CSqrt T] [One T] in
theorem reduce_sat (hQ : Q (.ub .oob)) (a : DMat T) (i j c : Nat) (v : T) :
    Sat (fun _ => True) Q (reduce dOps a i j c v) := by
  unfold reduce
  exact forRange_sat (I := fun _ _ => True) (Nat.zero_le _) trivial fun k s _ _ _ =>
    Sat.bind (get_sat hQ a i k) fun _ _ => Sat.bind (get_sat hQ a k j) fun _ _ => trivial

omit [Zero T] [Sub T] [Mul T] [CDiv T] [CZero T] [CSqrt T] [One T] in
theorem set_sat (hQ : Q (.ub .oob)) {n m : Nat} (a : DMat T) (h : a.n = n ∧ a.m = m ∧ a.elems.length = n * m)
    (i j : Nat) (v : T) :
    Sat (fun a => a.n = n ∧ a.m = m ∧ a.elems.length = n * m) Q (dOps.set a i j v) := by
  show Sat _ _ (DMat.set a i j v)
  unfold DMat.set
  exact Sat.bind (lwr_sat hQ a.elems _ v) fun l hl => ⟨h.1, h.2.1, hl.trans h.2.2⟩

theorem lowCell_sat (hQ : Q (.ub .oob)) (hA : Arith T Q) {n m : Nat} (a : DMat T)
    (h : a.n = n ∧ a.m = m ∧ a.elems.length = n * m) (i j : Nat) :
    Sat (Sum.elim (fun a => a.n = n ∧ a.m = m ∧ a.elems.length = n * m) fun _ => True) Q (lowCell dOps i j a) := by
  unfold lowCell
  refine Sat.bind (get_sat hQ a i j) fun v _ => ?_
  split_ifs
  · exact h
  · refine Sat.bind (get_sat hQ a j j) fun d _ => ?_
    split_ifs
    · trivial
    · exact Sat.bind (reduce_sat hQ a i j j v) fun s _ => Sat.bind (hA.div s d) fun q _ =>
        Sat.bind (set_sat hQ a h i j q) fun _ h => h

theorem row_sat (hQ : Q (.ub .oob)) (hA : Arith T Q) {n m : Nat} (a : DMat T)
    (h : a.n = n ∧ a.m = m ∧ a.elems.length = n * m) (c i : Nat) :
    Sat (Sum.elim (fun a => a.n = n ∧ a.m = m ∧ a.elems.length = n * m) fun _ => True) Q (row dOps c i a) := by
  unfold row
  refine Sat.bind (forRet_sat (I := fun _ (a : DMat T) => a.n = n ∧ a.m = m ∧ a.elems.length = n * m) (R := fun _ => True)
    (Nat.zero_le _) h fun j a' _ _ h' => lowCell_sat hQ hA a' h' i j) ?_
  rintro (a' | a') h'
  · by_cases him : i ≤ c
    · refine Sat.bind (forRange_sat (I := fun _ (a : DMat T) => a.n = n ∧ a.m = m ∧ a.elems.length = n * m) him h'
        fun j a' _ _ h' => ?_) fun _ h => h
      unfold upCell
      refine Sat.bind (get_sat hQ a' i j) fun v _ => ?_
      split_ifs
      · exact h'
      · exact Sat.bind (reduce_sat hQ a' i j i v) fun s _ => set_sat hQ a' h' i j s
    · simp only []
      rw [forRange_of_le (by omega)]
      exact h'
  · trivial

/-- At least two rows more than columns: the last row of the elimination leaves the storage. -/
theorem new_narrow (hQ : Q (.ub .oob)) (hA : Arith T Q) (hr : Q (.throw .runtimeError)) {n m : Nat} (hnm : m + 1 < n)
    (a : DMat T) (h : a.n = n ∧ a.m = m ∧ a.elems.length = n * m) : Never Q (new dOps a) := by
  have hlow : ∀ a : DMat T, a.n = n ∧ a.m = m ∧ a.elems.length = n * m → Never Q (lowCell dOps (n - 1) m a) := by
    intro a h
    unfold lowCell
    refine Never.bind ?_
    show Never Q (lrd a.elems ((n - 1) * a.m + m))
    rw [lrd_oob]
    · exact hQ
    · rw [h.2.2, h.2.1]
      obtain ⟨n, rfl⟩ : ∃ t, n = t + 1 := ⟨n - 1, by omega⟩
      rw [Nat.add_sub_cancel, Nat.add_mul, Nat.one_mul]
  have hrow : ∀ a : DMat T, a.n = n ∧ a.m = m ∧ a.elems.length = n * m →
      Sat (Sum.elim (fun _ => False) fun _ => True) Q (row dOps m (n - 1) a) := by
    intro a h
    unfold row
    refine Sat.bind (forRet_sat (I := fun j (a : DMat T) => j ≤ m ∧ a.n = n ∧ a.m = m ∧ a.elems.length = n * m)
      (R := fun _ => True) (Nat.zero_le _) ⟨Nat.zero_le _, h⟩ ?_) ?_
    · intro j a' _ _ h'
      by_cases hj : j = m
      · subst hj
        exact Sat.mono (hlow a' h'.2) (fun _ h => h.elim) (fun _ h => h)
      · refine Sat.mono (lowCell_sat hQ hA a' h'.2 (n - 1) j) ?_ (fun _ h => h)
        rintro (b | b) hb
        · exact ⟨by have := h'.1; omega, hb⟩
        · trivial
    · rintro (b | b) hb
      · exact absurd hb.1 (by omega)
      · trivial
  have hd : Sat (fun r : Bool × DMat T => r.1 = false) Q (decomp dOps a) := by
    unfold decomp
    rw [show (dOps : MatOps (DMat T) T).shape a = .ok (n, m) by
      show Except.ok (a.n, a.m) = _; rw [h.1, h.2.1], ok_bind]
    refine Sat.bind (forRet_sat (I := fun i (a : DMat T) => i ≤ n - 1 ∧ a.n = n ∧ a.m = m ∧ a.elems.length = n * m)
      (R := fun _ => True) (Nat.zero_le _) ⟨Nat.zero_le _, h⟩ ?_) ?_
    · intro i a' _ hi h'
      by_cases he : i = n - 1
      · subst he
        refine Sat.mono (hrow a' h'.2) ?_ (fun _ h => h)
        rintro (b | b) hb
        · exact hb.elim
        · trivial
      · refine Sat.mono (row_sat hQ hA a' h'.2 m i) ?_ (fun _ h => h)
        rintro (b | b) hb
        · exact ⟨by have := h'.1; omega, hb⟩
        · trivial
    · rintro (b | b) hb
      · exact absurd hb.1 (by omega)
      · rfl
  unfold new
  refine Sat.bind hd fun r hr' => ?_
  rw [hr']
  exact hr

end

end Ilu

/-! ## Sparse matrices read beyond their last column -/

section
variable [Zero T]

def CsrAll (n m : Nat) (a : Csr T) (V : Nat → Nat → T) : Prop :=
  (a.Wf ∧ a.Distinct) ∧ a.shape = .ok (n, m) ∧ ∀ i j, i < n → a.get i j = .ok (V i j)

theorem csrAcc (n m N : Nat) : Acc (csrOps : MatOps (Csr T) T) n N (CsrAll n m) := by
  refine ⟨fun a V i j h hi _ => h.2.2 i j hi, ?_⟩
  rintro a V i j v ⟨⟨hw, hd⟩, hs, hg⟩ hi _ hne
  obtain ⟨hn, -⟩ := Csr.stored_last hw hs
  have hst : ∃ k, a.StoredAt i j k := by
    by_contra hc
    have := Csr.get_unstored hw (by omega) (not_exists.mp hc)
    rw [hg i j hi] at this
    injection this with this
    exact hne this
  obtain ⟨a', e, w, d, hp, hcl, h1, h2⟩ := (Props.C29_update a hw hd i j (by omega) v).1 hst
  refine ⟨a', e, ⟨w, d⟩, by rw [← hs]; unfold Csr.shape; rw [hp, hcl], ?_⟩
  intro r c hr
  unfold updAt
  by_cases he : r = i ∧ c = j
  · rw [if_pos he, he.1, he.2, h1]
  · rw [if_neg he, h2 r c (by omega) (by simpa using he), hg r c hr]

def CooAll (n m : Nat) (a : Coo T) (V : Nat → Nat → T) : Prop :=
  a.Wf ∧ a.shape = .ok (n, m) ∧ ∀ i j, a.elem i j = V i j

theorem cooAcc (n m N : Nat) : Acc (cooOps : MatOps (Coo T) T) n N (CooAll n m) := by
  refine ⟨fun a V i j h _ _ => ?_, ?_⟩
  · show a.get i j = _
    rw [Coo.get_eq h.1, h.2.2 i j]
  · intro a V i j v h hi hj hne
    rcases Coo.set_spec h.1 i j v with ⟨_, a', e, w, hp, h1, h2⟩ | ⟨hc, _⟩
    · refine ⟨a', e, w, ?_, ?_⟩
      · rw [← h.2.1]
        have hr := congrArg (List.map Prod.fst) hp
        have hcl := congrArg (List.map Prod.snd) hp
        unfold Coo.pos at hr hcl
        rw [List.map_fst_zip (by rw [w.1, w.2]), List.map_fst_zip (by rw [h.1.1, h.1.2])] at hr
        rw [List.map_snd_zip (by rw [w.1, w.2]), List.map_snd_zip (by rw [h.1.1, h.1.2])] at hcl
        unfold Coo.shape
        rw [hr, hcl]
      · intro r c
        unfold updAt
        by_cases he : r = i ∧ c = j
        · rw [if_pos he, he.1, he.2, h1]
        · rw [if_neg he, h2 r c (by simpa using he), h.2.2 r c]
    · exact absurd (Coo.mem_of_elem h.1 (by rw [h.2.2 i j]; exact hne)) hc

/-- Nothing is stored behind the last column. -/
theorem Csr.get_beyond {a : Csr T} (hw : a.Wf) {n m : Nat} (hs : a.shape = .ok (n, m)) {i j : Nat} (hi : i < n)
    (hj : m ≤ j) : a.get i j = .ok 0 := by
  obtain ⟨hn, -⟩ := Csr.stored_last hw hs
  refine Csr.get_unstored hw (by omega) fun k hk => ?_
  unfold Csr.shape at hs
  have hmem : j ∈ a.col := List.mem_of_getElem? hk.2.2
  obtain ⟨c, h1, _, h2⟩ := maxElem_spec (List.ne_nil_of_mem hmem)
  have hne : a.rowPtr.length ≠ 0 := by have := hw.length_pos; omega
  rw [h1, ok_bind, if_neg hne] at hs
  injection hs with hs
  injection hs with _ hs
  have := h2 j hmem
  omega

theorem Coo.elem_beyond {a : Coo T} (hw : a.Wf) {n m : Nat} (hs : a.shape = .ok (n, m)) (i : Nat) {j : Nat}
    (hj : m ≤ j) : a.elem i j = 0 := by
  by_contra hc
  have hmem : j ∈ a.col := (List.of_mem_zip (Coo.mem_of_elem hw hc)).2
  obtain ⟨c, h1, _, h2⟩ := maxElem_spec (List.ne_nil_of_mem hmem)
  have hrow : a.row ≠ [] := List.ne_nil_of_mem (List.of_mem_zip (Coo.mem_of_elem hw hc)).1
  obtain ⟨r, h3, _, _⟩ := maxElem_spec hrow
  unfold Coo.shape at hs
  rw [h3, ok_bind, h1, ok_bind] at hs
  injection hs with hs
  injection hs with _ hs
  have := h2 j hmem
  omega

end

/-! ## GMRES -/

namespace Gmres

section
variable [Zero T] [One T] [Add T] [Sub T] [Mul T] [Neg T] [CDiv T] [CZero T] [CSqrt T] [LT T] [DecidableLT T]
variable {ops : GOps M T} {g : Gmres M T} {Q : Fault → Prop}

omit [Sub T] [Neg T] [CZero T] [LT T] [DecidableLT T] in
theorem norm2_sat (hQ : Q (.ub .oob)) (hn : ∀ e, ¬ Q (.throw e)) (hA : Arith T Q) (x : List T) :
    Sat (fun _ => True) Q (norm2 x) := by
  unfold norm2 vecNorm2 norm2Core
  refine noexcept_sat hn (Sat.bind (P := fun _ => True) (forRange_sat (I := fun _ _ => True) (Nat.zero_le _) trivial
    fun i v _ _ _ => ?_) fun r _ => hA.sqrt r)
  exact Sat.bind (rd_sat hQ _ _ _) fun _ _ => Sat.bind (rd_sat hQ _ _ _) fun _ _ => trivial

omit [Zero T] [Add T] [Sub T] [Neg T] [CZero T] [LT T] [DecidableLT T] in
theorem normalised_sat (hA : Arith T Q) (h : T) (v : List T) :
    Sat (fun o => (∃ w : List T, o = some w ∧ w.length = v.length) ∨ (o = none ∧ Q .nonFinite)) Q (normalised h v) := by
  unfold normalised
  cases e : divC 1 h with
  | ok f =>
    simp only [smulOp_eq, ok_bind]
    exact .inl ⟨_, rfl, by simp⟩
  | error e' =>
    refine .inr ⟨rfl, ?_⟩
    rcases hA.inv with h1 | h1
    · exact h1
    · obtain ⟨c, hc⟩ := h1 h
      rw [e] at hc
      cases hc

omit [CZero T] in
/-- If the matrix times a vector of the length of the right-hand side, then the preconditioner, never gives a vector,
then neither does the solver. -/
theorem solve_never (hQ : Q (.ub .oob)) (hn : ∀ e, ¬ Q (.throw e)) (hA : Arith T Q) (rt : Nat → Nat)
    (hrt : SqrtExact rt) (nd : Bool) (n m : Nat) (hsh : ops.shape g.mat = .ok (n, m)) (h0 : 0 < n)
    (hg : ∀ i j, Sat (fun _ => True) Q (ops.get g.lu i j)) (rhs : List T)
    (hstep : Never Q (Ilu.solve ops.toMatOps g.lu rhs) ∨
      ∀ x : List T, x.length = rhs.length → Never Q (ops.mul g.mat x >>= Ilu.solve ops.toMatOps g.lu)) :
    Never Q (solve rt nd ops g rhs) := by
  unfold solve
  rw [hsh, ok_bind]
  unfold start
  rcases hstep with hs | hs
  · exact Never.bind (Never.bind hs)
  have eu : (UTri.withCapacity rt n : Res (UTri T)) = .ok ⟨0, []⟩ := by
    have h1 : rt 1 = 1 := hrt 1 (by norm_num)
    simp [UTri.withCapacity, UTri.new, UTri.calcSize, h1, noexcept]
  have eh : (Hess.withCapacity rt n : Res (Hess T)) = .ok ⟨0, []⟩ := by
    simp [Hess.withCapacity, Hess.new, Hess.calcSize, noexcept]
  refine Sat.bind (P := fun st : St T => ∃ q nb, st = ⟨[q], ⟨0, []⟩, 0, [], [], ⟨0, []⟩, [nb]⟩ ∧
    ((∃ w : List T, q = some w ∧ w.length = rhs.length) ∨ (q = none ∧ Q .nonFinite))) ?_ ?_
  · refine Sat.bind (Ilu.solve_sat hQ hn hA hg rhs) fun b' hb' => Sat.bind (norm2_sat hQ hn hA b') fun nb _ =>
      Sat.bind (normalised_sat hA nb b') fun o ho => ?_
    rw [eu, ok_bind, eh, ok_bind]
    exact ⟨o, nb, rfl, by rwa [hb'] at ho⟩
  · rintro st ⟨q, nb, rfl, hq⟩
    refine Never.bind ?_
    obtain ⟨n, rfl⟩ : ∃ t, n = t + 1 := ⟨n - 1, by omega⟩
    have key : Never Q (arnoldi nd ops g (⟨[q], ⟨0, []⟩, 0, [], [], ⟨0, []⟩, [nb]⟩ : St T)) := by
      unfold arnoldi
      simp only [List.length_singleton, Nat.sub_self, Hess.extendWithZero, ok_bind, setSub, Nat.lt_irrefl, if_false]
      rw [show ((Hess.mk (0 + 1) ([] ++ if True then List.replicate 1 (0 : T) else List.replicate (0 + 2) 0)).shape.1
        == 0 + 1) = true from rfl, cassert_true, ok_bind]
      rcases hq with ⟨w, rfl, hw⟩ | ⟨rfl, hq⟩
      · rw [show qAt [some w] 0 = .ok w from rfl, ok_bind]
        have := hs w hw
        rw [← bind_assoc]
        exact Never.bind this
      · exact Never.bind hq
    have : Never Q (iterate nd ops g 0 (⟨[q], ⟨0, []⟩, 0, [], [], ⟨0, []⟩, [nb]⟩ : St T)) := Never.bind key
    exact Never.bind this

end

end Gmres

end Lalib
