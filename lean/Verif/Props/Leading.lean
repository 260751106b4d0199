import Verif.Proofs.Leading
import Verif.Props.Eval
import Verif.Props.IeeeSolve
import Verif.Props.FloatCgs

/-! # Property C108: leading blocks

The factor of a leading block is the leading block of the factor, bit for bit, and a matrix whose leading block is refused
is refused.  No law of arithmetic is assumed. -/

namespace Lalib.Props

open Lalib

variable {T : Type}

/-- What is said of a constructor applied to a matrix of order `n` (`whole`) and to its leading block of order `k` (`part`):
they return the same numbers in the cells of the block, or the whole matrix is refused. -/
def LeadingOk {W P : Type} (whole : Res W) (part : Res P) (w : W → Nat → Nat → T) (p : P → Nat → Nat → T)
    (cells : Nat → Nat → Prop) : Prop :=
  whole = .error (.throw .runtimeError) ∨
    ∃ f g, whole = .ok f ∧ part = .ok g ∧ ∀ i j, cells i j → p g i j = w f i j

/-- In particular, a refused block means a refused matrix. -/
theorem LeadingOk.refused {W P : Type} {whole : Res W} {part : Res P} {w : W → Nat → Nat → T} {p : P → Nat → Nat → T}
    {cells : Nat → Nat → Prop} (h : LeadingOk whole part w p cells) {e : Fault} (hp : part = .error e) :
    whole = .error (.throw .runtimeError) := by
  rcases h with h | ⟨_, _, _, h, _⟩
  · exact h
  · rw [hp] at h; cases h

private theorem chol_new [Zero T] [Sub T] [Mul T] [Div T] [CDiv T] [CZero T] [LT T] [DecidableLT T] [Sqrt T] [CSqrt T]
    (hsq : ∀ v : T, ¬ v < 0 → ¬ IsZ v → sqrtC v = .ok (Sqrt.sqrt v) ∧ DivAt (Sqrt.sqrt v))
    (mt mt' : MemType) (n k : Nat) (hk : k ≤ n) (l l' : List T) (A : Nat → Nat → T) (hl : Lower mt n l A)
    (hl' : Lower mt' k l' A) :
    LeadingOk (Chol.new mt n l) (Chol.new mt' k l') (held mt n) (held mt' k) (fun i j => j ≤ i ∧ i < k) := by
  obtain ⟨c, c', L, L', e, e', hc, h⟩ := Chol.decomp_leading hsq mt mt' hk hl.len.ge hl'.len.ge hl.val hl'.val
  by_cases h0 : c = 0
  · have h0' : c' = 0 := by omega
    subst h0 h0'
    refine .inr ⟨L, L', by simp [Chol.new, e], by simp [Chol.new, e'], fun i j hij => ?_⟩
    rw [held_eq, held_eq]
    exact (h i j hij.1 hij.2).symm
  · exact .inl (by simp [Chol.new, e, throwIf_ne h0])

/-- Cholesky factorisation; the block may be stored in the other way.  Nothing is assumed of the matrix. -/
theorem C108_cholesky [Zero T] [Sub T] [Mul T] [Div T] [DecidableEq T] [LT T] [DecidableLT T] [Sqrt T]
    (hsq : ∀ v : T, ¬ v < 0 → v ≠ 0 → Sqrt.sqrt v ≠ 0) (mt mt' : MemType) (n k : Nat) (hk : k ≤ n) (l l' : List T)
    (A : Nat → Nat → T) (hl : Lower mt n l A) (hl' : Lower mt' k l' A) :
    LeadingOk (Chol.new mt n l) (Chol.new mt' k l') (held mt n) (held mt' k) (fun i j => j ≤ i ∧ i < k) :=
  chol_new (sq_ok hsq) mt mt' n k hk l l' A hl hl'

/-- The modified factorisation. -/
theorem C108_mod_cholesky [Zero T] [Sub T] [Mul T] [Div T] [DecidableEq T] (mt mt' : MemType) (n k : Nat) (hk : k ≤ n)
    (l l' : List T) (A : Nat → Nat → T) (hl : Lower mt n l A) (hl' : Lower mt' k l' A) :
    LeadingOk (Chol.modNew mt n l) (Chol.modNew mt' k l') (held mt n) (held mt' k) (fun i j => j ≤ i ∧ i < k) := by
  rcases Chol.modNew_leading (fun _ h => divAt_of h) mt mt' hk hl.len.ge hl'.len.ge hl.val hl'.val with h | ⟨L, L', e, e', h⟩
  · exact .inl h
  · exact .inr ⟨L, L', e, e', fun i j hij => by rw [held_eq, held_eq]; exact (h i j hij.1 hij.2).symm⟩

/-- The same over IEEE 754 numbers, infinities and NaN included. -/
theorem C108_cholesky_ieee {F : Fmt} (mt mt' : MemType) (n k : Nat) (hk : k ≤ n) (l l' : List (Fp F))
    (A : Nat → Nat → Fp F) (hl : Lower mt n l A) (hl' : Lower mt' k l' A) :
    LeadingOk (Chol.new mt n l) (Chol.new mt' k l') (held mt n) (held mt' k) (fun i j => j ≤ i ∧ i < k) ∧
      LeadingOk (Chol.modNew mt n l) (Chol.modNew mt' k l') (held mt n) (held mt' k) (fun i j => j ≤ i ∧ i < k) := by
  refine ⟨chol_new Fp.sq_ok mt mt' n k hk l l' A hl hl', ?_⟩
  rcases Chol.modNew_leading (fun v _ => Fp.divAt v) mt mt' hk hl.len.ge hl'.len.ge hl.val hl'.val with
    h | ⟨L, L', e, e', h⟩
  · exact .inl h
  · exact .inr ⟨L, L', e, e', fun i j hij => by rw [held_eq, held_eq]; exact (h i j hij.1 hij.2).symm⟩

section ilu
variable {M M' : Type} {ops : MatOps M T} {ok : M → Prop} {ops' : MatOps M' T} {ok' : M' → Prop}

/-- Incomplete LU factorisation.  The matrix and its block may be of different storage classes. -/
theorem C108_ilu [Zero T] [Sub T] [Mul T] [Div T] [DecidableEq T] (hst : Storage ops ok) (hst' : Storage ops' ok') (n k : Nat)
    (hk : k ≤ n) (a : M) (a' : M') (A : Nat → Nat → T) (hok : ok a) (hok' : ok' a') (hA : Shows ops n a A)
    (hA' : Shows ops' k a' A) :
    Ilu.new ops a = .error (.throw .runtimeError) ∨
    ∃ f f' F, Ilu.new ops a = .ok f ∧ Ilu.new ops' a' = .ok f' ∧ Shows ops n f F ∧ Shows ops' k f' F := by
  obtain ⟨R, hR, h1, h2⟩ := storage_rep hst n
  obtain ⟨R', hR', h1', h2'⟩ := storage_rep hst' k
  rcases Ilu.new_leading rfl (fun _ h => divAt_of h) hk hR hR' (h1 a A hok hA) (h1' a' A hok' hA') with
    h | ⟨f, f', F, F', e, e', hf, hf', -, hFF⟩
  · exact .inl h
  · have hS := (h2' f' F' hf').2
    exact .inr ⟨f, f', F, e, e', (h2 f F hf).2, hS.1, fun i j hi hj => by rw [hS.2 i j hi hj, hFF i j hi hj]⟩

end ilu

theorem C108_ilu_ieee {F : Fmt} {M M' : Type} {ops : MatOps M (Fp F)} {ok : M → Prop} {ops' : MatOps M' (Fp F)}
    {ok' : M' → Prop} (hst : Storage ops ok) (hst' : Storage ops' ok') (n k : Nat)
    (hk : k ≤ n) (a : M) (a' : M') (A : Nat → Nat → Fp F) (hok : ok a) (hok' : ok' a') (hA : Shows ops n a A)
    (hA' : Shows ops' k a' A) :
    Ilu.new ops a = .error (.throw .runtimeError) ∨
    ∃ f f' G, Ilu.new ops a = .ok f ∧ Ilu.new ops' a' = .ok f' ∧ Shows ops n f G ∧ Shows ops' k f' G := by
  obtain ⟨R, hR, h1, h2⟩ := storage_rep hst n
  obtain ⟨R', hR', h1', h2'⟩ := storage_rep hst' k
  rcases Ilu.new_leading Fp.isZ_zero (fun v _ => Fp.divAt v) hk hR hR' (h1 a A hok hA) (h1' a' A hok' hA') with
    h | ⟨f, f', G, G', e, e', hf, hf', -, hGG⟩
  · exact .inl h
  · have hS := (h2' f' G' hf').2
    exact .inr ⟨f, f', G, e, e', (h2 f G hf).2, hS.1, fun i j hi hj => by rw [hS.2 i j hi hj, hGG i j hi hj]⟩

/-- Back substitution goes upwards: its last components are those for the trailing block. -/
theorem C108_back_sub [Zero T] [Sub T] [Mul T] [Div T] [DecidableEq T] (n k : Nat) (a a' : UTri T) (ha : a.n = n) (ha' : a'.n = n - k)
    (R : Nat → Nat → T) (y y' : List T) (hy : y.length = n) (hy' : y'.length = n - k)
    (hR : ∀ i j, i < n → j < n → a.get i j = .ok (R i j))
    (hR' : ∀ i j, i < n - k → j < n - k → a'.get i j = .ok (R (k + i) (k + j))) (hd : ∀ i, i < n → R i i ≠ 0)
    (hyy : ∀ i, i < n - k → val0 y' i = val0 y (k + i)) :
    ∃ x x', a.backSub y = .ok x ∧ a'.backSub y' = .ok x' ∧ ∀ i, i < n - k → val0 x' i = val0 x (k + i) := by
  subst ha
  obtain ⟨x, e, -, h⟩ := C55_back_sub a R y hy hR hd
  obtain ⟨x', e', -, h'⟩ := C55_back_sub a' (fun i j => R (k + i) (k + j)) y' (by omega) (by rw [ha']; exact hR')
    (fun i hi => hd _ (by omega))
  rw [ha'] at h'
  exact ⟨x, x', e, e', h.tail h' (fun _ _ _ _ => rfl) hyy⟩

/-- Gram-Schmidt: leaving out the last vectors of the range does not change what becomes of the others; if the shorter range
fails, so does the longer one. -/
theorem C108_cgs [Zero T] [Add T] [Mul T] [Neg T] [CDiv T] (nd : Bool) (sz : Option Nat) (n M J : Nat) (m : Mem T)
    (hs : sz = none ∨ sz = some n) (hn : 0 < n) (hJ : 0 < J) (hM : J ≤ M) (hm : ∀ k, k < M → m.len k = n) :
    (∀ m', Cgs.cgs nd sz M m = .ok m' → ∃ m'', Cgs.cgs nd sz J m = .ok m'' ∧ ∀ k, k < J → m'' k = m' k) ∧
      ∀ e, Cgs.cgs nd sz J m = .error e → ∃ e', Cgs.cgs nd sz M m = .error e' := by
  obtain ⟨h1, -⟩ := C81_cgs nd sz n M m hs hn (by omega) hm
  obtain ⟨g1, g2⟩ := C81_cgs nd sz n J m hs hn hJ fun k hk => hm k (by omega)
  have key : ∀ m', Cgs.cgs nd sz M m = .ok m' → ∃ m'', Cgs.cgs nd sz J m = .ok m'' ∧ ∀ k, k < J → m'' k = m' k := by
    intro m' e
    obtain ⟨hlen, -, -, c, hr⟩ := h1 m' e
    cases e' : Cgs.cgs nd sz J m with
    | ok m'' =>
      obtain ⟨hlen', -, -, c', hr'⟩ := g1 m'' e'
      refine ⟨m'', rfl, fun k hk => list_ext_val0 ?_ fun i hi => ?_⟩
      · exact (hlen' k hk).trans (hlen k (by omega)).symm
      · have hi' : i < n := by rw [← hlen' k hk]; exact hi
        exact ((hr'.unique hn (hr.mono hM)) k hk).1 i hi'
    | error f =>
      obtain ⟨w, c', j, k, hk, hj, hr', hd⟩ := g2 f e'
      have hu := hr'.unique hn (hr.mono (show j ≤ M by omega))
      have := hr.coef j (by omega) k hk
      rw [← CgsRec.dot_congr hn (hu k hk).1 (fun _ _ => rfl), ← CgsRec.dot_congr hn (hu k hk).1 (hu k hk).1, hd] at this
      cases this
  refine ⟨key, fun e he => ?_⟩
  cases e' : Cgs.cgs nd sz M m with
  | error f => exact ⟨f, rfl⟩
  | ok m' =>
    obtain ⟨m'', h, -⟩ := key m' e'
    rw [he] at h
    cases h

/-! ## Examples -/

/-- `4 2 1; 2 5 3; 1 3 6` and its leading block of order 2, in the two storages. -/
example : (Chol.modNew .square 3 [4, 0, 0, 2, 5, 0, 1, 3, (6 : ℚ)]) = .ok [4, 0, 0, 2, 4, 0, 1, 5 / 2, 67 / 16] ∧
    (Chol.modNew .triangle 2 [4, 2, (5 : ℚ)]) = .ok [4, 2, 4] := by decide +kernel

/-- A block is accepted, the whole matrix is not; a block is refused, and so is the whole matrix. -/
example : (Chol.modNew .triangle 2 [1, 1, (1 : ℚ)]) = .error (.throw .runtimeError) ∧
    (Chol.modNew .triangle 1 [(1 : ℚ)]) = .ok [1] ∧
    (Chol.modNew .triangle 3 [1, 1, 1, 5, 6, (7 : ℚ)]) = .error (.throw .runtimeError) := by decide +kernel

example : Ilu.new dOps (⟨3, 3, [2, 1, 0, 4, 5, 6, 0, 3, 8]⟩ : DMat ℚ) = .ok ⟨3, 3, [2, 1, 0, 2, 3, 6, 0, 1, 2]⟩ ∧
    Ilu.new csrOps (⟨[2, 1, 4, 5], [0, 2, 4], [0, 1, 0, 1]⟩ : Csr ℚ) = .ok ⟨[2, 1, 2, 3], [0, 2, 4], [0, 1, 0, 1]⟩ := by
  decide +kernel

/-- The first pivot is not positive (see `C36_false`): the constructor returns with the matrix as it was given, and so it
does for the block. -/
example : Chol.new .triangle 2 [(-1 : ℝ), 2, 3] = .ok [-1, 2, 3] ∧ Chol.new .triangle 1 [(-1 : ℝ)] = .ok [-1] :=
  ⟨(C36_false .triangle 2 (by omega) _ (packed [-1, 2, 3]) ⟨rfl, fun _ _ _ _ => rfl⟩ (by norm_num [packed, val0])).1,
    (C36_false .triangle 1 (by omega) _ (packed [-1]) ⟨rfl, fun _ _ _ _ => rfl⟩ (by norm_num [packed, val0])).1⟩

/-- The hypotheses of `C108_cholesky`, with a positive definite matrix. -/
example : LeadingOk (Chol.new .square 2 [(4 : ℝ), 0, 2, 5]) (Chol.new .triangle 1 [(4 : ℝ)]) (held .square 2) (held .triangle 1)
    (fun i j => j ≤ i ∧ i < 1) :=
  C108_cholesky (fun v h1 h2 => (Real.sqrt_pos.mpr (lt_of_le_of_ne (not_lt.mp h1) h2.symm)).ne') .square .triangle 2 1
    (by omega) _ _ (entry 2 [4, 0, 2, 5]) ⟨rfl, fun _ _ _ _ => rfl⟩ ⟨rfl, fun i j hj hi => by
      obtain rfl : i = 0 := by omega
      obtain rfl : j = 0 := by omega
      rfl⟩

/-- Back substitution with `1 5 7; 2 3; 4`, and with its trailing block `2 3; 4`. -/
example : UTri.backSub (⟨3, [1, 5, 2, 7, 3, 4]⟩ : UTri ℚ) [1, 11, 12] = .ok [-25, 1, 3] ∧
    UTri.backSub (⟨2, [2, 3, 4]⟩ : UTri ℚ) [11, 12] = .ok [1, 3] := by decide +kernel

example : (Cgs.cgs true none 3 (Mem.ofList [[1, 0, 0], [1, 2, 0], [1, 1, (1 : ℚ)]])).map (fun m => [m 0, m 1, m 2]) =
      .ok [[1, 0, 0], [0, 2, 0], [0, 0, 1]] ∧
    (Cgs.cgs true none 2 (Mem.ofList [[1, 0, 0], [1, 2, 0], [1, 1, (1 : ℚ)]])).map (fun m => [m 0, m 1]) =
      .ok [[1, 0, 0], [0, 2, 0]] := by decide +kernel

end Lalib.Props
