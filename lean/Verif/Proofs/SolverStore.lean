import Verif.Spec.SolverStore
import Verif.Proofs.DenseStore
import Verif.Proofs.GmresRun
import Verif.Props.Cholesky
import Verif.Proofs.Keeps

/-! # Matrices of Mathlib and the matrices of the solver specifications -/

namespace Lalib

open Matrix Gmres

variable {T : Type} {n : Nat}

/-- The matrix as a function of two numbers. -/
def ext [Zero T] (A : Matrix (Fin n) (Fin n) T) (i j : Nat) : T := if h : i < n ∧ j < n then A ⟨i, h.1⟩ ⟨j, h.2⟩ else 0

/-- The vector as a function of a number. -/
def extV [Zero T] (x : Fin n → T) (i : Nat) : T := if h : i < n then x ⟨i, h⟩ else 0

theorem ext_fin [Zero T] (A : Matrix (Fin n) (Fin n) T) (i j : Fin n) : ext A i j = A i j := by
  unfold ext; rw [dif_pos ⟨i.isLt, j.isLt⟩]

theorem ext_lt [Zero T] (A : Matrix (Fin n) (Fin n) T) {i j : Nat} (hi : i < n) (hj : j < n) :
    ext A i j = A ⟨i, hi⟩ ⟨j, hj⟩ := ext_fin A ⟨i, hi⟩ ⟨j, hj⟩

theorem extV_fin [Zero T] (x : Fin n → T) (i : Fin n) : extV x i = x i := by unfold extV; rw [dif_pos i.isLt]

section
variable [Field T]

theorem sqM_ext (A : Matrix (Fin n) (Fin n) T) : sqM n (ext A) = A := by
  funext i j; exact ext_fin A i j

theorem vec_extV (x : Fin n → T) : vec n (extV x) = x := by
  funext i; exact extV_fin x i

theorem symm_ext {A : Matrix (Fin n) (Fin n) T} : Symm n (ext A) ↔ A.IsSymm := by
  constructor
  · intro h
    refine Matrix.IsSymm.ext fun i j => ?_
    have := h j i j.isLt i.isLt
    rwa [ext_fin, ext_fin] at this
  · intro h i j hi hj
    rw [ext_lt A hi hj, ext_lt A hj hi]
    exact (h.apply _ _).symm

theorem form_eq (A : Matrix (Fin n) (Fin n) T) (x : Nat → T) :
    ∑ i ∈ Finset.range n, ∑ j ∈ Finset.range n, x i * ext A i j * x j = vec n x ⬝ᵥ A *ᵥ vec n x := by
  rw [Finset.sum_range]
  refine Finset.sum_congr rfl fun i _ => ?_
  rw [Finset.sum_range]
  show _ = vec n x i * ∑ j, A i j * vec n x j
  rw [Finset.mul_sum]
  refine Finset.sum_congr rfl fun j _ => ?_
  rw [ext_fin, mul_assoc]
  rfl

theorem vec_ne {x : Nat → T} : vec n x ≠ 0 ↔ ∃ i, i < n ∧ x i ≠ 0 := by
  rw [Function.ne_iff]
  exact ⟨fun ⟨i, h⟩ => ⟨i, i.isLt, h⟩, fun ⟨i, hi, h⟩ => ⟨⟨i, hi⟩, h⟩⟩

theorem posDef_ext [LT T] {A : Matrix (Fin n) (Fin n) T} : PosDef n (ext A) ↔ PosForm A := by
  constructor
  · intro h x hx
    have := h (extV x) (vec_ne.mp (by rwa [vec_extV]))
    rwa [form_eq, vec_extV] at this
  · intro h x hx
    rw [form_eq]
    exact h _ (vec_ne.mpr hx)

theorem minor_ext (A : Matrix (Fin n) (Fin n) T) (k : Nat) (h : k ≤ n) : minor (ext A) k = (lead A k h).det := by
  unfold minor lead
  congr 1
  funext i j
  show ext A i j = A (Fin.castLE h i) (Fin.castLE h j)
  exact ext_fin A (Fin.castLE h i) (Fin.castLE h j)

theorem minor_ext_self (A : Matrix (Fin n) (Fin n) T) : minor (ext A) n = A.det := by
  rw [minor_ext A n le_rfl]; rfl

theorem regular_ext {A : Matrix (Fin n) (Fin n) T} : Regular (ext A) n ↔ LeadRegular A := by
  constructor
  · intro h k hk
    cases k with
    | zero => rw [Matrix.det_isEmpty]; exact one_ne_zero
    | succ k => rw [← minor_ext]; exact h k (by omega)
  · intro h k hk
    rw [minor_ext A (k + 1) (by omega)]
    exact h _ _

theorem LeadRegular.det {A : Matrix (Fin n) (Fin n) T} (h : LeadRegular A) : A.det ≠ 0 := h n le_rfl

/-! ### Incomplete factors -/

theorem luProd_mul (F : Nat → Nat → T) : sqM n (luProd n F) = sqM n (unitLow F) * sqM n (upper F) := by
  funext i j
  show luProd n F i j = ∑ k : Fin n, unitLow F i k * upper F k j
  unfold luProd
  rw [Finset.sum_range]

theorem ilu_of {A : Matrix (Fin n) (Fin n) T} {F : Nat → Nat → T} (h : IsIlu n (ext A) F) :
    IluOf A (sqM n (unitLow F)) (sqM n (upper F)) where
  low i j hij := by
    show unitLow F i j = 0
    have : i.val < j.val := hij
    rw [unitLow, if_neg (by omega), if_neg (by omega)]
  one i := by
    show unitLow F i i = 1
    rw [unitLow, if_neg (by omega), if_pos rfl]
  up i j hij := by
    show upper F i j = 0
    have : j.val < i.val := hij
    rw [upper, if_neg (by omega)]
  lpat i j hij h0 := by
    show unitLow F i j = 0
    have : j.val < i.val := hij
    rw [unitLow, if_pos this]
    exact h.zero i j i.isLt j.isLt (by rw [ext_fin, h0])
  upat i j hij h0 := by
    show upper F i j = 0
    have : i.val ≤ j.val := hij
    rw [upper, if_pos this]
    exact h.zero i j i.isLt j.isLt (by rw [ext_fin, h0])
  prod i j h0 := by
    rw [← luProd_mul]
    have := h.prod i j i.isLt j.isLt (by rwa [ext_fin])
    rwa [ext_fin] at this
  piv i j hij h0 := by
    show upper F j j ≠ 0
    rw [upper, if_pos le_rfl]
    exact h.piv i j hij i.isLt (by rwa [ext_fin])

/-- Both factors in one array. -/
def joined (L U : Matrix (Fin n) (Fin n) T) (i j : Nat) : T := if j < i then ext L i j else ext U i j

theorem sqM_joined {A L U : Matrix (Fin n) (Fin n) T} (h : IluOf A L U) :
    sqM n (unitLow (joined L U)) = L ∧ sqM n (upper (joined L U)) = U := by
  constructor
  · funext i j
    show unitLow (joined L U) i j = L i j
    unfold unitLow joined
    by_cases h1 : j.val < i.val
    · rw [if_pos h1, if_pos h1, ext_fin]
    · rw [if_neg h1]
      by_cases h2 : j.val = i.val
      · rw [if_pos h2, Fin.ext h2, h.one]
      · rw [if_neg h2, h.low i j (show i.val < j.val by omega)]
  · funext i j
    show upper (joined L U) i j = U i j
    unfold upper joined
    by_cases h1 : i.val ≤ j.val
    · rw [if_pos h1, if_neg (by omega), ext_fin]
    · rw [if_neg h1, h.up i j (show j.val < i.val by omega)]

theorem isIlu_joined {A L U : Matrix (Fin n) (Fin n) T} (h : IluOf A L U) : IsIlu n (ext A) (joined L U) where
  zero i j hi hj h0 := by
    rw [ext_lt A hi hj] at h0
    unfold joined
    split
    · next hl => rw [ext_lt L hi hj]; exact h.lpat _ _ hl h0
    · next hl => rw [ext_lt U hi hj]; exact h.upat _ _ (show i ≤ j by omega) h0
  prod i j hi hj h0 := by
    rw [ext_lt A hi hj] at h0 ⊢
    have e := luProd_mul (n := n) (joined L U)
    rw [(sqM_joined h).1, (sqM_joined h).2] at e
    rw [← h.prod _ _ h0, ← e]
    rfl
  piv i j hij hi h0 := by
    have hj : j < n := by omega
    rw [ext_lt A hi hj] at h0
    unfold joined
    rw [if_neg (by omega), ext_lt U hj hj]
    exact h.piv _ _ hij h0

theorem exists_ilu {A : Matrix (Fin n) (Fin n) T} : (∃ F, IsIlu n (ext A) F) ↔ ∃ L U, IluOf A L U :=
  ⟨fun ⟨_, h⟩ => ⟨_, _, ilu_of h⟩, fun ⟨_, _, h⟩ => ⟨_, isIlu_joined h⟩⟩

theorem det_luProd {F : Nat → Nat → T} : (sqM n (luProd n F)).det ≠ 0 ↔ ∀ i, i < n → F i i ≠ 0 := by
  show minor (luProd n F) n ≠ 0 ↔ _
  rw [minor_lu (F := F) fun _ _ _ _ => rfl, Finset.prod_ne_zero_iff]
  simp only [Finset.mem_range]

/-! ### Solutions -/

theorem VVal.Shown.vec {b : Fin n → T} {l : List T} (h : (⟨n, b⟩ : VVal T).Shown l) : Gmres.vec n (Lalib.val0 l) = b := by
  funext i; exact h.val0 i

theorem VVal.shown_vec {l : List T} (h : l.length = n) : (⟨n, Gmres.vec n (Lalib.val0 l)⟩ : VVal T).Shown l := by
  refine VVal.shown_of h fun i hi => ?_
  show l[i] = Lalib.val0 l i
  rw [val0_of_lt hi]

theorem mulVec_inv {A : Matrix (Fin n) (Fin n) T} (hA : A.det ≠ 0) {x b : Fin n → T} (h : A *ᵥ x = b) : x = A⁻¹ *ᵥ b := by
  rw [← h, mulVec_mulVec, nonsing_inv_mul _ (isUnit_iff_ne_zero.mpr hA), one_mulVec]

theorem shown_solve {A : Matrix (Fin n) (Fin n) T} {A' : Nat → Nat → T} (hA' : sqM n A' = A) (hA : A.det ≠ 0) {b : Fin n → T} {l x : List T}
    (hb : (⟨n, b⟩ : VVal T).Shown l) (hx : x.length = n) (h : Solves n A' (Lalib.val0 x) (Lalib.val0 l)) :
    (⟨n, A⁻¹ *ᵥ b⟩ : VVal T).Shown x := by
  rw [solves_iff, hA', hb.vec] at h
  rw [← mulVec_inv hA h]
  exact VVal.shown_vec hx

theorem shown_solveMat {k : Nat} {A : Matrix (Fin n) (Fin n) T} {A' : Nat → Nat → T} (hA' : sqM n A' = A) (hA : A.det ≠ 0)
    {B : Matrix (Fin n) (Fin k) T} {d : Nat × Nat} {l x : List T} (hb : (⟨n, k, B⟩ : MVal T).Shown d l) (hx : x.length = n * k)
    (h : ∀ c, c < k → Solves n A' (fun i => Lalib.entry k x i c) (fun i => Lalib.entry k l i c)) :
    (⟨n, k, A⁻¹ * B⟩ : MVal T).Shown (n, k) x := by
  rw [MVal.shown_iff]
  refine ⟨rfl, hx, fun i j => ?_⟩
  have h1 := h j j.isLt
  rw [solves_iff, hA'] at h1
  have h2 : Gmres.vec n (fun i => Lalib.entry k l i j) = fun i => B i j := by
    funext i; exact hb.entry i j
  rw [h2] at h1
  have h3 := congrFun (mulVec_inv hA h1) i
  exact h3

theorem lower_ext {A : Matrix (Fin n) (Fin n) T} {d : Nat × Nat} {l : List T} (h : (⟨n, n, A⟩ : MVal T).Shown d l) :
    Props.Lower .square n l (ext A) := by
  refine ⟨h.len, fun i j hj hi => ?_⟩
  have hj' : j < n := by omega
  rw [ext_lt A hi hj']
  exact h.entry ⟨i, hi⟩ ⟨j, hj'⟩

theorem shows_ext {A : Matrix (Fin n) (Fin n) T} {l : List T} (h : (⟨n, n, A⟩ : MVal T).Shown (n, n) l) :
    Shows dOps n (⟨n, n, l⟩ : DMat T) (ext A) := by
  refine ⟨rfl, fun i j hi hj => ?_⟩
  show lrd l (i * n + j) = .ok (ext A i j)
  rw [ext_lt A hi hj]
  exact lrd_some (h.2.2 ⟨i, hi⟩ ⟨j, hj⟩)

theorem isIlu_congr {A B F : Nat → Nat → T} (h : ∀ i j, i < n → j < n → A i j = B i j) (hA : IsIlu n A F) : IsIlu n B F where
  zero i j hi hj h0 := hA.zero i j hi hj (by rw [h i j hi hj]; exact h0)
  prod i j hi hj h0 := by rw [hA.prod i j hi hj (by rw [h i j hi hj]; exact h0), h i j hi hj]
  piv i j hj hi h0 := hA.piv i j hj hi (by rw [h i j hi (by omega)]; exact h0)

/-! ### Tri-diagonal matrices -/

theorem triFull_mat (dl d du : List T) : sqM d.length (triFull ⟨dl, d, du⟩) = triMat dl d du := by
  funext i j
  show triFull ⟨dl, d, du⟩ i j = triMat dl d du i j
  unfold triFull triMat
  have h : ∀ (l : List T) (k : Nat), l.getD k 0 = val0 l k := fun l k => by unfold val0; simp
  rw [h, h]
  by_cases h1 : i.val = j.val
  · rw [if_pos h1, if_pos h1, val0_of_lt i.isLt]; rfl
  · rw [if_neg h1, if_neg h1]

theorem triFull_regular (dl d du : List T) : Regular (triFull ⟨dl, d, du⟩) d.length ↔ LeadRegular (triMat dl d du) := by
  rw [← regular_ext]
  have h : ∀ k, k ≤ d.length → minor (triFull ⟨dl, d, du⟩) k = minor (ext (triMat dl d du)) k := by
    intro k hk
    unfold minor
    congr 1
    funext i j
    show triFull ⟨dl, d, du⟩ i j = ext (triMat dl d du) i j
    rw [ext_lt _ (by omega) (by omega), ← triFull_mat]
    rfl
  constructor
  · intro hr k hk
    rw [← h _ (by omega)]; exact hr k hk
  · intro hr k hk
    rw [h _ (by omega)]; exact hr k hk

end

/-! ### What the solving functions leave alone -/

namespace Keeps

theorem down {r : Nat} {f : Nat → Mem T → Res (Mem T)} (h : ∀ i m, Keeps r m (f i m)) (n : Nat) (m : Mem T) :
    Keeps r m (forDown f n m) := by
  induction n generalizing m with
  | zero => intro m' e q _; cases e; rfl
  | succ n ih => exact bind (h n m) fun m' => ih m'

section
variable [Zero T] [Sub T] [Mul T] [CDiv T]

omit [Zero T] [CDiv T] in
theorem subCell (x at' p : Nat) (c : Res T) (m : Mem T) : Keeps x m (Chol.subCell x at' p c m) :=
  val fun _ => val fun _ => val fun _ => wr _ _ _ _

omit [Zero T] [Sub T] [Mul T] in
theorem divCell (x at' : Nat) (l : List T) (q : Nat) (m : Mem T) : Keeps x m (Chol.divCell x at' l q m) :=
  val fun _ => val fun _ => val fun _ => wr _ _ _ _

omit [Zero T] in
theorem cholKernel (md : Bool) (mt : MemType) (n nrow : Nat) (l : List T) (rhs x : Nat) (m : Mem T) :
    Keeps x m (Chol.kernel md mt n nrow l rhs x m) := by
  cases md with
  | false =>
    exact range (fun k m => bind (range (fun i m => val fun _ => bind (wr _ _ _ _) fun m =>
      bind (range (fun _ m => subCell _ _ _ _ m) _ _ m) fun m => divCell _ _ _ _ m) _ _ m) fun m =>
      down (fun i m => bind (range (fun _ m => subCell _ _ _ _ m) _ _ m) fun m => divCell _ _ _ _ m) _ m) _ _ m
  | true =>
    exact range (fun k m => bind (range (fun i m => val fun _ => bind (wr _ _ _ _) fun m =>
      range (fun _ m => subCell _ _ _ _ m) _ _ m) _ _ m) fun m =>
      down (fun i m => bind (range (fun _ m => subCell _ _ _ _ m) _ _ m) fun m => divCell _ _ _ _ m) _ m) _ _ m

end

theorem tdma [Add T] [Sub T] [Mul T] [Neg T] [CDiv T] (a : TriDiag T) (n nrow b x : Nat) (m : Mem T) :
    Keeps x m (Tdma.tdma a n nrow b x m) :=
  range (fun _ _ => val fun _ => bind (val fun _ => val fun _ => val fun _ => val fun _ => val fun _ => val fun _ => wr _ _ _ _)
    fun m => down (fun _ _ => val fun _ => val fun _ => val fun _ => wr _ _ _ _) _ m) _ _ m

end Keeps

end Lalib
