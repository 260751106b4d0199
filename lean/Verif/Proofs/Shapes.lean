import Verif.Props.Cholesky
import Verif.Props.Ilu
import Verif.Proofs.Tdma

/-! # Lemmas about solver calls whose arguments do not fit together -/

namespace Lalib

variable {T σ : Type}

/-- The outcome is never a value. -/
abbrev Never {α : Type} (Q : Fault → Prop) (r : Res α) : Prop := Sat (fun _ => False) Q r

theorem Never.exists {α : Type} {Q : Fault → Prop} {r : Res α} (h : Never Q r) : ∃ e, r = .error e ∧ Q e := by
  cases r with
  | ok a => exact h.elim
  | error e => exact ⟨e, rfl, h⟩

theorem Never.bind {α β : Type} {Q : Fault → Prop} {r : Res α} {f : α → Res β} (h : Never Q r) :
    Never Q (r >>= f) := by
  cases r with
  | ok a => exact h.elim
  | error e => exact h

/-- A loop of which one iteration never ends well. -/
theorem forRange_never {I : σ → Prop} {Q : Fault → Prop} {f : Nat → σ → Res σ} {lo hi j : Nat} {s : σ}
    (hf : ∀ i s, lo ≤ i → i < hi → I s → Sat I Q (f i s)) (h1 : lo ≤ j) (h2 : j < hi)
    (hj : ∀ s, I s → Never Q (f j s)) (hs : I s) : Never Q (forRange lo hi f s) := by
  refine Sat.mono (forRange_sat (I := fun i s => I s ∧ i ≤ j) (by omega) ⟨hs, h1⟩ ?_)
    (fun s h => by omega) (fun _ h => h)
  rintro i s h3 h4 ⟨h5, h6⟩
  by_cases h : i = j
  · subst h
    exact Sat.mono (hj s h5) (fun _ h => h.elim) (fun _ h => h)
  · exact Sat.mono (hf i s h3 h4 h5) (fun _ h7 => ⟨h7, by omega⟩) (fun _ h => h)

theorem lrd_sat [Zero T] {Q : Fault → Prop} (hQ : Q (.ub .oob)) (l : List T) (i : Nat) :
    Sat (fun v => i < l.length ∧ v = val0 l i) Q (lrd l i) := by
  by_cases h : i < l.length
  · rw [lrd_val h]; exact ⟨h, rfl⟩
  · rw [lrd_oob (by omega)]; exact hQ

theorem lwr_sat {Q : Fault → Prop} (hQ : Q (.ub .oob)) (l : List T) (i : Nat) (v : T) :
    Sat (fun l' => l'.length = l.length) Q (lwr l i v) := by
  by_cases h : i < l.length
  · rw [lwr_ok h]; exact List.length_set
  · rw [lwr_oob (by omega)]; exact hQ

/-- Every buffer has the length it had in `m0`. -/
def SameLen (m0 m : Mem T) : Prop := ∀ p, m.len p = m0.len p

theorem rd_sat [Zero T] {Q : Fault → Prop} (hQ : Q (.ub .oob)) (m : Mem T) (p i : Nat) :
    Sat (fun _ => i < m.len p) Q (m.rd p i) := by
  by_cases h : i < m.len p
  · rw [Mem.rd_ok h]; exact h
  · rw [Mem.rd_oob (by omega)]; exact hQ

theorem wr_sat {Q : Fault → Prop} (hQ : Q (.ub .oob)) {m0 m : Mem T} (hm : SameLen m0 m) (p i : Nat) (v : T) :
    Sat (fun m' => SameLen m0 m' ∧ i < m.len p) Q (m.wr p i v) := by
  by_cases h : i < m.len p
  · rw [Mem.wr_ok h]
    exact ⟨fun q => by rw [Mem.len_upd, hm q], h⟩
  · rw [Mem.wr_oob (by omega)]; exact hQ

namespace Chol

section
variable [Field T] [DecidableEq T] {ix : Nat → Nat → Nat} {n : Nat}

/-- The ways in which the kernels can fail: outside a buffer, or dividing by a zero of the diagonal. -/
def Bad (ix : Nat → Nat → Nat) (n : Nat) (l : List T) (e : Fault) : Prop :=
  e = .ub .oob ∨ e = .nonFinite ∧ ∃ i, i < n ∧ ix i i < l.length ∧ val0 l (ix i i) = 0

theorem div_sat {l : List T} {i : Nat} (hi : i < n) (h : ix i i < l.length) (a : T) :
    Sat (fun _ => True) (Bad ix n l) (divC a (val0 l (ix i i))) := by
  by_cases h0 : val0 l (ix i i) = 0
  · rw [h0, divC_zero]
    exact .inr ⟨rfl, i, hi, h, h0⟩
  · rw [divC_ok h0]; trivial

omit [DecidableEq T] in
theorem subCell_sat {m0 m : Mem T} (hm : SameLen m0 m) {Q : Fault → Prop} (hQ : Q (.ub .oob)) (x at' p : Nat)
    {c : Res T} (hc : Sat (fun _ => True) Q c) : Sat (SameLen m0) Q (subCell x at' p c m) := by
  unfold subCell
  refine Sat.bind (rd_sat hQ m x at') fun v _ => Sat.bind hc fun c _ => Sat.bind (rd_sat hQ m x p) fun y _ => ?_
  exact Sat.mono (wr_sat hQ hm x at' _) (fun _ h => h.1) (fun _ h => h)

theorem divCell_sat {m0 m : Mem T} (hm : SameLen m0 m) (x at' : Nat) {l : List T} {i : Nat} (hi : i < n) :
    Sat (fun m' => SameLen m0 m' ∧ ix i i < l.length) (Bad ix n l) (divCell x at' l (ix i i) m) := by
  have hQ : Bad ix n l (.ub .oob) := .inl rfl
  unfold divCell
  refine Sat.bind (rd_sat hQ m x at') fun v _ => Sat.bind (lrd_sat hQ l _) fun d hd => ?_
  obtain ⟨h1, rfl⟩ := hd
  exact Sat.bind (div_sat hi h1 v) fun w _ => Sat.mono (wr_sat hQ hm x at' w) (fun _ h => ⟨h.1, h1⟩) (fun _ h => h)

theorem fwdRow_sat {m0 m : Mem T} (hm : SameLen m0 m) (nrow : Nat) (l : List T) (rhs x k : Nat) {i : Nat}
    (hi : i < n) :
    Sat (fun m' => SameLen m0 m' ∧ ix i i < l.length ∧ i * nrow + k < m0.len rhs) (Bad ix n l)
      (fwdRow ix nrow l rhs x k i m) := by
  have hQ : Bad ix n l (.ub .oob) := .inl rfl
  unfold fwdRow
  refine Sat.bind (rd_sat hQ m rhs _) fun b hb => Sat.bind (wr_sat hQ hm x _ b) fun m1 h1 => ?_
  refine Sat.bind (P := SameLen m0) (forRange_sat (I := fun _ => SameLen m0) (Nat.zero_le _) h1.1
    fun j s _ hj hs => subCell_sat hs hQ _ _ _ (Sat.mono (lrd_sat hQ l _) (fun _ _ => trivial) (fun _ h => h)))
    fun m2 h2 => ?_
  exact Sat.mono (divCell_sat h2 x _ hi) (fun _ h => ⟨h.1, h.2, by rw [← hm]; exact hb⟩) (fun _ h => h)

theorem modFwdRow_sat {m0 m : Mem T} (hm : SameLen m0 m) (nrow : Nat) (l : List T) (rhs x k : Nat) {i : Nat}
    (hi : i < n) :
    Sat (fun m' => SameLen m0 m' ∧ i * nrow + k < m0.len rhs) (Bad ix n l)
      (modFwdRow ix nrow l rhs x k i m) := by
  have hQ : Bad ix n l (.ub .oob) := .inl rfl
  unfold modFwdRow
  refine Sat.bind (rd_sat hQ m rhs _) fun b hb => Sat.bind (wr_sat hQ hm x _ b) fun m1 h1 => ?_
  refine Sat.mono (P := SameLen m0) (forRange_sat (I := fun _ => SameLen m0) (Nat.zero_le _) h1.1
    fun j s _ hj hs => subCell_sat hs hQ _ _ _ ?_) (fun _ h => ⟨h, by rw [← hm]; exact hb⟩) (fun _ h => h)
  refine Sat.bind (lrd_sat hQ l _) fun a _ => Sat.bind (lrd_sat hQ l _) fun d hd => ?_
  obtain ⟨h2, rfl⟩ := hd
  exact div_sat (by omega) h2 a

/-- Row `j` of the right-hand side, or (plain kernel) diagonal entry `j` of the factor, does not exist. -/
theorem kernel_never {md : Bool} {mt : MemType} {l : List T} {m : Mem T} {rhs x nrow : Nat} (hr : 0 < nrow) {j : Nat}
    (hj : j < n)
    (hbad : (md = false ∧ l.length ≤ cIndex mt n j j) ∨ m.len rhs ≤ j * nrow) :
    Never (Bad (cIndex mt n) n l) (kernel md mt n nrow l rhs x m) := by
  have main : ∀ f g : Nat → Nat → Mem T → Res (Mem T), (∀ k i s, i < n → SameLen m s →
        Sat (fun m' => SameLen m m' ∧ (md = false → cIndex mt n i i < l.length) ∧ i * nrow + k < m.len rhs)
        (Bad (cIndex mt n) n l) (f k i s)) →
      Never (Bad (cIndex mt n) n l) (forRange 0 nrow (fun k m => do
          let m ← forRange 0 n (f k) m
          forDown (g k) n m) m) := by
    intro f g hf
    rw [forRange_head hr]
    refine Never.bind (Never.bind ?_)
    refine forRange_never (I := SameLen m) (fun i s _ hi hs => Sat.mono (hf 0 i s hi hs) (fun _ h => h.1)
      (fun _ h => h)) (Nat.zero_le j) hj (fun s hs => ?_) (fun _ => rfl)
    refine Sat.mono (hf 0 j s hj hs) (fun _ h => ?_) (fun _ h => h)
    rcases hbad with ⟨h1, h2⟩ | h2
    · have := h.2.1 h1; omega
    · have := h.2.2; omega
  unfold kernel
  cases md with
  | false =>
    exact main (fwdRow (cIndex mt n) nrow l rhs x) (bwdRow (cIndex mt n) n nrow l x) fun k i s hi hs =>
      Sat.mono (fwdRow_sat hs nrow l rhs x k hi) (fun _ h => ⟨h.1, fun _ => h.2.1, h.2.2⟩) (fun _ h => h)
  | true =>
    exact main (modFwdRow (cIndex mt n) nrow l rhs x) (bwdRow (cIndex mt n) n nrow l x) fun k i s hi hs =>
      Sat.mono (modFwdRow_sat hs nrow l rhs x k hi) (fun _ h => ⟨h.1, (fun h' => by cases h'), h.2⟩) (fun _ h => h)

omit [DecidableEq T] in
theorem factor_minor {md : Bool} {L : List T} {A : Nat → Nat → T} (hd : ∀ i, i < n → val0 L (ix i i) ≠ 0)
    (hA : ∀ i j, i < n → j < n → A i j = ∑ k ∈ Finset.range n, low (fwdCoef md ix L) i k *
      low (fun i j => val0 L (ix i j)) j k) : minor A n ≠ 0 := by
  rw [minor_LU (L := low (fwdCoef md ix L)) (U := fun t j => low (fun i j => val0 L (ix i j)) j t)
    (fun i t _ _ h => by rw [low, if_neg (by omega)]) (fun t j _ _ h => by rw [low, if_neg (by omega)])
    (fun i j hi hj => hA i j hi hj)]
  refine mul_ne_zero (Finset.prod_ne_zero_iff.mpr fun i hi => ?_) (Finset.prod_ne_zero_iff.mpr fun i hi => ?_)
  · have := hd i (Finset.mem_range.mp hi)
    rw [low, if_pos (Nat.le_refl _), fwdCoef]
    split_ifs
    · rw [div_self this]; exact one_ne_zero
    · exact this
  · rw [low, if_pos (Nat.le_refl _)]
    exact hd i (Finset.mem_range.mp hi)

/-- A factor and a right-hand side with at least the needed elements: the leading system is solved and what is
behind it keeps its value. -/
theorem kernel_both (md : Bool) (mt : MemType) (n : Nat) (L : List T) (A : Nat → Nat → T)
    (hL : storeLen mt n ≤ L.length) (hd : ∀ i, i < n → val0 L (cIndex mt n i i) ≠ 0)
    (hA : ∀ i j, i < n → j < n → A i j = ∑ k ∈ Finset.range n, low (fwdCoef md (cIndex mt n) L) i k *
      low (fun i j => val0 L (cIndex mt n i j)) j k) (m : Mem T) (b r nrow : Nat)
    (hb : n * nrow ≤ m.len b) (hr : r ≠ b) :
    ∃ x, x.length = m.len b ∧
      (∀ k, k < nrow → Solves n A (fun i => entry nrow x i k) (fun i => entry nrow (m b) i k)) ∧
      (∀ c, n * nrow ≤ c → val0 x c = val0 (m b) c) ∧
      kernel md mt n nrow L b b m = .ok (m.setBuf b x) ∧
      kernel md mt n nrow L b r (m.setBuf r (m b)) = .ok (m.setBuf r x) := by
  have hm := factor_minor hd hA
  have hb' : n * nrow ≤ (m b).length := hb
  obtain ⟨x, e, hx, hsol, hk⟩ := kernel_spec (md := md) (m := m) (rhs := b) (x := b) (nrow := nrow)
    (b0 := m b) hL hd hA hb' (fun h => absurd rfl h)
  obtain ⟨y, e', hy, hsol', hk'⟩ := kernel_spec (md := md) (m := m) (rhs := b) (x := r) (nrow := nrow)
    (b0 := m b) hL hd hA hb' (fun _ => hb)
  rw [Mem.setBuf_same] at e hsol
  rw [Mem.setBuf_other _ hr.symm] at hsol'
  have hxy : y = x := by
    refine list_ext_val0 (by omega) fun c hc => ?_
    by_cases h : n * nrow ≤ c
    · rw [hk' c h, hk c h]
    · have hpos : 0 < nrow := by
        rcases Nat.eq_zero_or_pos nrow with h0 | h0
        · subst h0; simp at h
        · exact h0
      have h1 : c / nrow < n := (Nat.div_lt_iff_lt_mul hpos).mpr (by omega)
      have h2 : c % nrow < nrow := Nat.mod_lt _ hpos
      have := solves_unique hm (hsol' (c % nrow) h2) (hsol (c % nrow) h2) (c / nrow) h1
      simp only [entry] at this
      rwa [Nat.div_add_mod'] at this
  subst hxy
  exact ⟨y, hx, hsol, hk, e, e'⟩

/-! ### Constructors on a matrix with too few columns -/

/-- The ways in which a constructor can fail. -/
def Refused (e : Fault) : Prop := e = .ub .oob ∨ e = .nonFinite ∨ e = .throw .runtimeError

theorem divC_refused (a b : T) : Sat (fun _ => True) Refused (divC a b) := by
  rw [divC_eq]
  split_ifs
  · exact .inr (.inl rfl)
  · trivial

omit [DecidableEq T] in
theorem subMul_sat {N : Nat} {l : List T} (hl : l.length = N) (a p q : Nat) :
    Sat (fun l' => l'.length = N) Refused (subMul a p q l) := by
  have hQ : Refused (.ub .oob) := .inl rfl
  unfold subMul
  refine Sat.bind (lrd_sat hQ l a) fun _ _ => Sat.bind (lrd_sat hQ l p) fun _ _ =>
    Sat.bind (lrd_sat hQ l q) fun _ _ => ?_
  exact Sat.mono (lwr_sat hQ l _ _) (fun _ h => h.trans hl) (fun _ h => h)

theorem offDiag_sat {N : Nat} {l : List T} (hl : l.length = N) (i j : Nat) :
    Sat (fun l' => l'.length = N) Refused (offDiag ix i j l) := by
  have hQ : Refused (.ub .oob) := .inl rfl
  unfold offDiag
  refine Sat.bind (P := fun l' : List T => l'.length = N) (forRange_sat (I := fun _ (l' : List T) => l'.length = N)
    (Nat.zero_le _) hl fun k s _ _ hs => subMul_sat hs _ _ _) fun l1 h1 => ?_
  refine Sat.bind (lrd_sat hQ l1 _) fun v _ => Sat.bind (lrd_sat hQ l1 _) fun d _ =>
    Sat.bind (divC_refused v d) fun q _ => ?_
  exact Sat.mono (lwr_sat hQ l1 _ _) (fun _ h => h.trans h1) (fun _ h => h)

theorem modRow_sat {N : Nat} {l : List T} (hl : l.length = N) (i : Nat) :
    Sat (fun l' => l'.length = N ∧ ix i i < N) Refused (modRow ix i l) := by
  have hQ : Refused (.ub .oob) := .inl rfl
  unfold modRow
  refine Sat.bind (P := fun l' : List T => l'.length = N) (forRange_sat (I := fun _ (l' : List T) => l'.length = N)
    (Nat.zero_le _) hl fun j s _ _ hs => forRange_sat (I := fun _ (l' : List T) => l'.length = N)
      (Nat.zero_le _) hs fun k s _ _ hs => ?_) fun l1 h1 => ?_
  · unfold modSub
    refine Sat.bind (lrd_sat hQ s _) fun _ _ => Sat.bind (lrd_sat hQ s _) fun _ _ =>
      Sat.bind (lrd_sat hQ s _) fun _ _ => Sat.bind (lrd_sat hQ s _) fun _ _ =>
      Sat.bind (divC_refused _ _) fun _ _ => ?_
    exact Sat.mono (lwr_sat hQ s _ _) (fun _ h => h.trans hs) (fun _ h => h)
  · refine Sat.bind (lrd_sat hQ l1 _) fun v hv => ?_
    unfold throwIf
    split_ifs
    · exact .inr (.inr rfl)
    · exact ⟨h1, h1 ▸ hv.1⟩

theorem modNew_never {mt : MemType} {l : List T} (hn : 0 < n) (hl : l.length ≤ cIndex mt n (n - 1) (n - 1)) :
    Never Refused (modNew mt n l) := by
  unfold modNew
  refine forRange_never (I := fun l' => l'.length = l.length) (fun i s _ _ hs => Sat.mono (modRow_sat hs i)
    (fun _ h => h.1) (fun _ h => h)) (Nat.zero_le (n - 1)) (by omega) (fun s hs => ?_) rfl
  exact Sat.mono (modRow_sat hs (n - 1)) (fun _ h => by have := h.2; omega) (fun _ h => h)

end

section ordered
variable [Field T] [LinearOrder T] [Sqrt T] {ix : Nat → Nat → Nat} {n : Nat}

theorem row_sat {N : Nat} {l : List T} (hl : l.length = N) (i : Nat) :
    Sat (Sum.elim (fun l' : List T => l'.length = N ∧ ix i i < N) (fun r => r.1 = i ∧ ix i i < N)) Refused
      (row ix i l) := by
  have hQ : Refused (.ub .oob) := .inl rfl
  unfold row
  refine Sat.bind (P := fun l' : List T => l'.length = N) (forRange_sat (I := fun _ (l' : List T) => l'.length = N)
    (Nat.zero_le _) hl fun k s _ _ hs => offDiag_sat hs _ _) fun l1 h1 => ?_
  refine Sat.bind (P := fun l' : List T => l'.length = N) (forRange_sat (I := fun _ (l' : List T) => l'.length = N)
    (Nat.zero_le _) h1 fun k s _ _ hs => subMul_sat hs _ _ _) fun l2 h2 => ?_
  refine Sat.bind (lrd_sat hQ l2 _) fun v hv => ?_
  have h3 : ix i i < N := h2 ▸ hv.1
  by_cases h0 : v = 0
  · rw [if_isZ h0]; exact ⟨rfl, h3⟩
  · rw [if_not_isZ h0]
    by_cases h4 : v < 0
    · rw [if_pos h4]; exact ⟨rfl, h3⟩
    · rw [if_neg h4, sqrtC_eq, if_neg h4, ok_bind]
      refine Sat.bind (lwr_sat hQ l2 _ _) fun l3 h5 => ?_
      exact ⟨h5.trans h2, h3⟩

/-- The first row, with a positive first element. -/
theorem row_zero {l : List T} (h0 : ix 0 0 < l.length) (hp : 0 < val0 l (ix 0 0)) :
    ∃ l', row ix 0 l = .ok (Sum.inl l') ∧ l'.length = l.length := by
  refine ⟨l.set (ix 0 0) (Sqrt.sqrt (val0 l (ix 0 0))), ?_, by simp⟩
  unfold row
  rw [forRange_of_le (Nat.le_refl _), ok_bind, forRange_of_le (Nat.le_refl _), ok_bind, lrd_val h0, ok_bind,
    if_not_isZ hp.ne', if_neg (not_lt.mpr hp.le), sqrtC_eq, if_neg (not_lt.mpr hp.le), ok_bind, lwr_ok h0]
  rfl

theorem new_never {mt : MemType} {l : List T} (hn : 2 ≤ n) (h0 : 0 < l.length) (hp : 0 < val0 l 0)
    (hl : l.length ≤ cIndex mt n (n - 1) (n - 1)) : Never Refused (new mt n l) := by
  have hz : cIndex mt n 0 0 = 0 := by cases mt <;> simp [cIndex]
  have : Sat (Sum.elim (fun _ : List T => False) (fun r : Nat × List T => r.1 ≠ 0)) Refused
      (forRet 0 n (row (cIndex mt n)) l) := by
    refine Sat.mono (forRet_sat (I := fun i (s : List T) => s.length = l.length ∧ i ≤ n - 1 ∧ (i = 0 → s = l))
      (R := fun r : Nat × List T => r.1 ≠ 0) (Nat.zero_le _) ⟨rfl, Nat.zero_le _, fun _ => rfl⟩ ?_) ?_ (fun _ h => h)
    · rintro i s _ hi ⟨h1, h2, h3⟩
      by_cases hi0 : i = 0
      · subst hi0
        obtain rfl := h3 rfl
        obtain ⟨l', e, hl'⟩ := row_zero (ix := cIndex mt n) (l := s) (by rw [hz]; exact h0) (by rw [hz]; exact hp)
        rw [e]
        exact ⟨hl', by omega, fun h => by omega⟩
      · refine Sat.mono (row_sat h1 i) ?_ (fun _ h => h)
        rintro (s' | r)
        · rintro ⟨h4, h5⟩
          refine ⟨h4, ?_, fun h => by omega⟩
          by_contra hc
          obtain rfl : i = n - 1 := by omega
          omega
        · rintro ⟨h4, _⟩
          show r.1 ≠ 0
          omega
    · rintro (s | r) h
      · have := h.2.1; omega
      · exact h
  unfold new decomp
  cases e : forRet 0 n (row (cIndex mt n)) l with
  | error f => rw [e] at this; exact this
  | ok v =>
    rw [e] at this
    rcases v with s | r
    · exact this.elim
    · have hr : r.1 ≠ 0 := this
      rw [ok_bind]
      show Never _ (throwIf (r.1 != 0) .runtimeError >>= fun _ => Except.ok r.2)
      rw [throwIf_ne hr]
      exact .inr (.inr rfl)

end ordered

end Chol

/-! ## Tri-diagonal solver -/

namespace Tdma

section
variable [Field T] [DecidableEq T]

/-- What the kernel can fail with when `b` or `x` are too short. -/
def Bad (a : TriDiag T) (n : Nat) (e : Fault) : Prop := e = .ub .oob ∨ e = .nonFinite ∧ ∃ i, i < n ∧ D a i = 0

theorem divD_sat {a : TriDiag T} {n i : Nat} (hi : i < n) (c : T) :
    Sat (fun _ => True) (Bad a n) (divC c (D a i)) := by
  by_cases h : D a i = 0
  · rw [h, divC_zero]; exact .inr ⟨rfl, i, hi, h⟩
  · rw [divC_ok h]; trivial

theorem fwd_sat {a : TriDiag T} {n nrow b k : Nat} {m : Mem T} (n2 : 2 ≤ n) (hd : a.d.length = n)
    (hdl : a.dl.length + 1 = n) (hdu : a.du.length + 1 = n) :
    Sat (fun pq => pq.1 = (List.range (n - 1)).map (P a) ∧ pq.2.length = n - 1) (Bad a n) (fwd a m n nrow b k) := by
  have hQ : Bad a n (.ub .oob) := .inl rfl
  unfold fwd
  rw [lrd_val (by omega), ok_bind, lrd_val (by omega), ok_bind]
  have hD0 : val0 a.d 0 = D a 0 := rfl
  rw [hD0]
  by_cases h0 : D a 0 = 0
  · rw [h0, divC_zero]; exact .inr ⟨rfl, 0, by omega, h0⟩
  rw [divC_ok h0, ok_bind]
  refine Sat.bind (rd_sat hQ m b k) fun b0 _ => ?_
  rw [divC_ok h0, ok_bind]
  refine Sat.mono (forRange_sat (I := fun i pq => pq.1 = (List.range i).map (P a) ∧ pq.2.length = i)
    (by omega) ⟨rfl, rfl⟩ ?_) (fun _ h => h) (fun _ h => h)
  rintro i ⟨p, q⟩ h1 h2 ⟨hp, hq⟩
  obtain ⟨i, rfl⟩ : ∃ j, i = j + 1 := ⟨i - 1, by omega⟩
  simp only at hp hq
  subst hp
  unfold fwdStep
  simp only [Nat.add_sub_cancel]
  rw [lrd_val (by omega), ok_bind, lrd_val (by omega), ok_bind, lrd_val (by simp), ok_bind,
    lrd_val (by omega), ok_bind, val0_map_range, if_pos (by omega)]
  have hD : val0 a.d (i + 1) + val0 a.dl i * P a i = D a (i + 1) := rfl
  rw [hD]
  by_cases h0 : D a (i + 1) = 0
  · rw [h0, divC_zero]; exact .inr ⟨rfl, i + 1, by omega, h0⟩
  rw [divC_ok h0, ok_bind]
  refine Sat.bind (rd_sat hQ m b _) fun bi _ => ?_
  rw [lrd_val (by omega), ok_bind, divC_ok h0, ok_bind]
  refine ⟨?_, by simp [hq]⟩
  rw [List.range_succ (n := i + 1)]
  simp only [List.map_append, List.map_cons, List.map_nil]
  congr 2

theorem tdma_never {a : TriDiag T} {n nrow b x : Nat} {m : Mem T} (n2 : 2 ≤ n) (hd : a.d.length = n)
    (hdl : a.dl.length + 1 = n) (hdu : a.du.length + 1 = n) (hr : 0 < nrow)
    (hbad : m.len b ≤ (n - 1) * nrow ∨ m.len x ≤ (n - 1) * nrow) : Never (Bad a n) (tdma a n nrow b x m) := by
  have hQ : Bad a n (.ub .oob) := .inl rfl
  unfold tdma
  rw [forRange_head hr]
  refine Never.bind ?_
  unfold column
  refine Sat.bind (fwd_sat n2 hd hdl hdu) ?_
  rintro ⟨p, q⟩ ⟨hp, hq⟩
  simp only at hp hq
  subst hp
  refine Never.bind ?_
  obtain ⟨n, rfl⟩ : ∃ j, n = j + 2 := ⟨n - 2, by omega⟩
  have hsub : subSize (n + 1) 1 = n := by simp [subSize]
  unfold tailStep
  simp only [show n + 2 - 1 = n + 1 by omega, hsub] at hbad hq ⊢
  refine Sat.bind (rd_sat hQ m b _) fun bt hb => ?_
  rw [lrd_val (by omega), ok_bind, lrd_val (by omega), ok_bind, lrd_val (by omega),
    ok_bind, lrd_val (by simp), ok_bind, val0_map_range, if_pos (by omega)]
  have hD : val0 a.d (n + 1) + val0 a.dl n * P a n = D a (n + 1) := rfl
  rw [hD]
  refine Sat.bind (divD_sat (by omega) _) fun v _ => ?_
  refine Sat.mono (wr_sat hQ (m0 := m) (fun _ => rfl) x _ v) (fun _ h => ?_) (fun _ h => h)
  have := h.2
  omega

end

end Tdma

/-! ## Incomplete LU -/

namespace Ilu

section
variable [Field T] [DecidableEq T] {M : Type}

omit [DecidableEq T] in
theorem fwd_sat {ops : MatOps M T} {a : M} {Q : Fault → Prop} (hQ : Q (.ub .oob))
    (hg : ∀ i j, Sat (fun _ => True) Q (ops.get a i j)) (rhs : List T) (k : Nat) (y : List T) :
    Sat (fun y' => y'.length = y.length) Q (forRange 0 k (fwdRow ops a rhs) y) := by
  refine forRange_sat (I := fun _ (y' : List T) => y'.length = y.length) (Nat.zero_le _) rfl ?_
  intro i s _ _ hs
  unfold fwdRow
  refine Sat.bind (lrd_sat hQ rhs i) fun b _ => Sat.bind (P := fun _ => True) (forRange_sat (I := fun _ _ => True)
    (Nat.zero_le _) trivial fun j v _ _ _ => ?_) fun v _ => ?_
  · exact Sat.bind (hg i j) fun l _ => Sat.bind (lrd_sat hQ s j) fun _ _ => trivial
  · exact Sat.mono (lwr_sat hQ s i v) (fun _ h => h.trans hs) (fun _ h => h)

/-- A right-hand side for which the last diagonal entry does not exist (or reads as zero). -/
theorem solve_never {ops : MatOps M T} {a : M} {Q : Fault → Prop} (hQ : Q (.ub .oob)) (hn : ∀ e, ¬ Q (.throw e))
    (hg : ∀ i j, Sat (fun _ => True) Q (ops.get a i j)) (b : List T) (k : Nat) (hb : b.length = k + 1)
    (hlast : Never Q (ops.get a k k) ∨ ops.get a k k = .ok 0 ∧ Q .nonFinite) : Never Q (solve ops a b) := by
  have : Never Q (forRange 0 b.length (fwdRow ops a b) (List.replicate b.length 0) >>= fun y =>
      forDown (bwdRow ops a b.length y) b.length (List.replicate b.length 0)) := by
    refine Sat.bind (fwd_sat hQ hg b _ _) fun y hy => ?_
    rw [hb]
    unfold forDown
    refine Never.bind ?_
    unfold bwdRow
    refine Sat.bind (lrd_sat hQ y k) fun v _ => ?_
    rw [forRange_of_le (Nat.le_refl _), ok_bind]
    rcases hlast with h | ⟨h, h'⟩
    · exact Never.bind h
    · rw [h, ok_bind, divC_zero]; exact h'
  unfold solve
  obtain ⟨e, he, hq⟩ := this.exists
  rw [he]
  cases e with
  | throw x => exact absurd hq (hn x)
  | _ => exact hq

end

end Ilu

end Lalib
