import Verif.Model.IluStruct
import Verif.Proofs.Ilu
import Verif.Proofs.Struct

/-! # Lemmas about the incomplete LU factorisation over the packed matrix classes -/

namespace Lalib

variable {T M : Type}

theorem forRet_head {σ ρ : Type} {lo hi : Nat} (h : lo < hi) (f : Nat → σ → Res (σ ⊕ ρ)) (s : σ) :
    forRet lo hi f s = f lo s >>= fun r => match r with
      | .inl s' => forRet (lo + 1) hi f s'
      | .inr r => .ok (.inr r) := by
  unfold forRet
  obtain ⟨k, hk⟩ : ∃ k, hi - lo = k + 1 := ⟨hi - lo - 1, by omega⟩
  rw [hk, show hi - (lo + 1) = k by omega]
  rfl

namespace Ilu

section any
variable [Zero T] [Sub T] [Mul T] [CDiv T] [CZero T] {ops : MatOps M T}

omit [Zero T] [CDiv T] in
/-- In the first row an element that can be read is written back. -/
theorem upCell_first {P : M → Prop} {a : M} {j : Nat} {v : T} (ha : P a) (hg : ops.get a 0 j = .ok v)
    (hs : ∃ a', ops.set a 0 j v = .ok a' ∧ P a') : Ok P (upCell ops 0 j a) := by
  obtain ⟨a', e, h⟩ := hs
  unfold upCell
  rw [hg, ok_bind]
  split_ifs
  · exact ha
  · show Ok P (forRange 0 0 _ v >>= _)
    rw [forRange_of_le (Nat.le_refl 0), ok_bind, e]
    exact h

omit [Zero T] [CDiv T] in
theorem upCell_err {a : M} {i j : Nat} {e : Fault} (hg : ops.get a i j = .error e) :
    upCell ops i j a = .error e := by
  unfold upCell; rw [hg]; rfl

omit [Zero T] in
theorem lowCell_err {a : M} {i j : Nat} {e : Fault} (hg : ops.get a i j = .error e) :
    lowCell ops i j a = .error e := by
  unfold lowCell; rw [hg]; rfl

omit [Zero T] in
/-- The constructor when the loop over the rows ends or fails with what `Q` allows. -/
theorem new_sat {P : M → Prop} {Q : Fault → Prop} {a : M} {n m : Nat} (hsh : ops.shape a = .ok (n, m))
    (h : Sat (Sum.elim P fun _ => Q (.throw .runtimeError)) Q (forRet 0 n (row ops m) a)) : Sat P Q (new ops a) := by
  unfold new decomp
  rw [hsh, ok_bind]
  simp only []
  cases e : forRet 0 n (row ops m) a with
  | error e' => rw [e] at h; exact h
  | ok b =>
    rw [e] at h
    rcases b with b | b
    · exact h
    · exact h

omit [Zero T] in
theorem row_err_up {a a' : M} {m i : Nat} {e : Fault} (h1 : forRet 0 i (lowCell ops i) a = .ok (.inl a'))
    (h2 : forRange i m (upCell ops i) a' = .error e) : row ops m i a = .error e := by
  unfold row; rw [h1, ok_bind]; simp only []; rw [h2]; rfl

end any

theorem Sat.eq_error {α : Type} {e : Fault} {r : Res α} (h : Sat (fun _ => False) (fun e' => e' = e) r) :
    r = .error e := by
  cases r with
  | ok _ => exact h.elim
  | error e' => rw [show e' = e from h]

end Ilu

/-! ## Small matrices -/

section small
variable [Field T] [DecidableEq T] {opsM ops : MatOps M T} {n : Nat} {R : M → (Nat → Nat → T) → Prop}

/-- What C40, C41 and C43 say, for a constructor and a `solve` that use different accessors. -/
theorem Ilu.pair_spec (hR : Rep opsM n n R) (hS : ∀ a V, R a V → Shows ops n a V) {a : M} {A : Nat → Nat → T}
    (ha : R a A) :
    ((∃ a' F, Ilu.new opsM a = .ok a' ∧ R a' F ∧ IsIlu n A F) ∨
      (Ilu.new opsM a = .error (.throw .runtimeError) ∧ ¬ ∃ F, IsIlu n A F)) ∧
    (NoFill n A → Regular A n → ∃ a', Ilu.new opsM a = .ok a' ∧ ∀ b : List T, b.length = n →
      ∃ x, Ilu.solve ops a' b = .ok x ∧ x.length = n ∧ Solves n A (val0 x) (val0 b)) := by
  rcases Ilu.new_spec hR le_rfl ha with ⟨F, a', e, ha', hF⟩ | ⟨e, _, hStuck⟩
  · refine ⟨.inl ⟨a', F, e, ha', hF⟩, fun hf hr => ⟨a', e, fun b hb => ?_⟩⟩
    have hd : ∀ i, i < n → F i i ≠ 0 := by
      have := hr.det
      rw [minor_lu (hF.exact hf)] at this
      exact fun i hi => Finset.prod_ne_zero_iff.mp this i (Finset.mem_range.mpr hi)
    obtain ⟨x, ex, hx, hsol⟩ := Ilu.solve_ok (hS a' F ha').2 hd hb
    refine ⟨x, ex, hx, fun i hi => ?_⟩
    rw [← hsol i hi]
    unfold mulVec
    exact Finset.sum_congr rfl fun j hj => by rw [hF.exact hf i j hi (Finset.mem_range.mp hj)]
  · refine ⟨.inr ⟨e, hStuck.no_ilu le_rfl⟩, fun hf hr => ?_⟩
    obtain ⟨j, hj, h0⟩ := hStuck.minor le_rfl hf
    exact absurd h0 (hr j (by omega))

end small

end Lalib
