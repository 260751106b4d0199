import Verif.Spec.Lapack
import Verif.Proofs.Cholesky

/-! # The contracts of `potrf` and `potrs` can be met -/

namespace Lalib.Lapack

variable {T : Type} [Field T] [LinearOrder T] [IsStrictOrderedRing T]

/-- The in-house elimination with return codes counted from one. -/
def potrfRef [Sqrt T] : Potrf T := fun n l => do
  match ← forRet 0 n (Chol.row (cIndex .square n)) l with
  | .inl l => .ok (0, l)
  | .inr r => .ok (r.1 + 1, r.2)

theorem potrfRef_lawful [Sqrt T] [LawfulSqrt T] : LawfulPotrf (potrfRef : Potrf T) := by
  have key : ∀ n (l : List T), l.length = n * n → Ok (Sum.elim (Chol.Inv (cIndex .square n) l n)
      (fun r => Chol.Stop (cIndex .square n) n l r.1 r.2)) (forRet 0 n (Chol.row (cIndex .square n)) l) := by
    intro n l hl
    have hx := layout .square n l.length (show n * n ≤ _ from hl.ge)
    refine forRet_sat (I := Chol.Inv (cIndex .square n) l) (Nat.zero_le _) ?_ ?_
    · exact ⟨rfl, fun r h => by omega, fun r c _ h => by omega, fun _ _ => rfl⟩
    · intro i l _ hi hI
      exact Chol.row_spec hx hi hI
  constructor
  · intro n l A h hp
    obtain ⟨r, e, hr⟩ := Ok.exists (key n l h.len)
    unfold potrfRef
    rw [e, ok_bind]
    cases r with
    | inl L =>
      refine ⟨L, rfl, hr.len, Chol.Inv.isChol hr h.symm h.val, fun i j hij hj => hr.frame _ fun r c h1 h2 he => ?_⟩
      have := (cell_inj (show j < n from hj) (show c < n by omega)).mp he
      omega
    | inr r => exact absurd hp (Chol.Stop.not_posDef hr h.symm h.val)
  · intro n l A h hp
    obtain ⟨r, e, hr⟩ := Ok.exists (key n l h.len)
    unfold potrfRef
    rw [e, ok_bind]
    cases r with
    | inl L => exact absurd (Chol.Inv.isChol hr h.symm h.val).posDef hp
    | inr r => exact ⟨_, _, rfl, Nat.succ_ne_zero _⟩

/-- The in-house substitution as `potrs`. -/
def potrsRef : Potrs T := fun n nrhs L b => do
  let m ← Chol.solveMutMat true false .square n L ⟨0, n, nrhs⟩ (Mem.ofList [b])
  .ok (m 0)

theorem potrsRef_lawful : LawfulPotrs (potrsRef : Potrs T) := by
  constructor
  intro n nrhs L A b hL hc hb
  have hs := Chol.solve_spec true false .square n L A hL (fun i hi => ne_of_gt (hc.1 i hi))
    (fun i j hi hj => (hc.2 i j hi hj).symm) hc.posDef.regular.det (Mem.ofList [b])
  obtain ⟨x, hx, hsol, e, _⟩ := hs.2 ⟨0, n, nrhs⟩ 1 hb rfl Nat.one_ne_zero
  refine ⟨x, ?_, hx, hsol⟩
  unfold potrsRef
  rw [e, ok_bind, Mem.setBuf_self]

end Lalib.Lapack
