import Verif.Proofs.EvalChol

/-! # ILU, TDMA, the sparse product: proofs for arbitrary arithmetic; the recurrences have one solution -/

namespace Lalib

variable {T M : Type}

/-! ## The recurrences determine the result -/

section unique
variable [Sub T] [Mul T] [Div T]

theorem BackSubRec.unique {n : Nat} {R : Nat → Nat → T} {y x x' : Nat → T} (h : BackSubRec n R y x)
    (h' : BackSubRec n R y x') : ∀ i, i < n → x i = x' i := by
  have : ∀ d i, i < n → n - i ≤ d → x i = x' i := by
    intro d
    induction d with
    | zero => intro i hi hd; omega
    | succ d ih =>
      intro i hi hd
      rw [h i hi, h' i hi]
      congr 1
      refine subUp_congr (fun j h1 h2 => ?_) _
      rw [ih j h2 (by omega)]
  exact fun i hi => this (n - i) i hi (Nat.le_refl _)

theorem BackSubRec.congr {n : Nat} {R R' : Nat → Nat → T} {y y' x : Nat → T} (h : BackSubRec n R y x)
    (hR : ∀ i j, i ≤ j → j < n → R i j = R' i j) (hy : ∀ i, i < n → y i = y' i) : BackSubRec n R' y' x := by
  intro i hi
  rw [h i hi, hR i i (Nat.le_refl _) hi, hy i hi]
  congr 1
  refine subUp_congr (fun j h1 h2 => ?_) _
  rw [hR i j (by omega) h2]

theorem FwdSubRec.unique {n : Nat} {L : Nat → Nat → T} {b y y' : Nat → T} (h : FwdSubRec n L b y)
    (h' : FwdSubRec n L b y') : ∀ i, i < n → y i = y' i := by
  intro i
  induction i using Nat.strong_induction_on with
  | _ i ih =>
    intro hi
    rw [h i hi, h' i hi]
    congr 1
    refine subUp_congr (fun j h1 h2 => ?_) _
    rw [ih j h2 (by omega)]

omit [Div T] in
theorem FwdUnitRec.unique {n : Nat} {L : Nat → Nat → T} {b y y' : Nat → T} (h : FwdUnitRec n L b y)
    (h' : FwdUnitRec n L b y') : ∀ i, i < n → y i = y' i := by
  intro i
  induction i using Nat.strong_induction_on with
  | _ i ih =>
    intro hi
    rw [h i hi, h' i hi]
    refine subUp_congr (fun j h1 h2 => ?_) _
    rw [ih j h2 (by omega)]

theorem CholSolveRec.unique {md : Bool} {n : Nat} {L : Nat → Nat → T} {b x x' : Nat → T}
    (h : CholSolveRec md n L b x) (h' : CholSolveRec md n L b x') : ∀ i, i < n → x i = x' i := by
  obtain ⟨y, h1, h2⟩ := h
  obtain ⟨y', h1', h2'⟩ := h'
  have hy : ∀ i, i < n → y i = y' i := by
    cases md with
    | false => exact FwdSubRec.unique (by simpa [CholFwdRec] using h1) (by simpa [CholFwdRec] using h1')
    | true => exact FwdUnitRec.unique (by simpa [CholFwdRec] using h1) (by simpa [CholFwdRec] using h1')
  exact BackSubRec.unique (h2.congr (fun _ _ _ _ => rfl) hy) h2'

theorem IluSolveRec.unique {n : Nat} {F : Nat → Nat → T} {b x x' : Nat → T}
    (h : IluSolveRec n F b x) (h' : IluSolveRec n F b x') : ∀ i, i < n → x i = x' i := by
  obtain ⟨y, h1, h2⟩ := h
  obtain ⟨y', h1', h2'⟩ := h'
  exact BackSubRec.unique (h2.congr (fun _ _ _ _ => rfl) (h1.unique h1')) h2'

theorem CholRec.unique [Sqrt T] {n : Nat} {A L L' : Nat → Nat → T} (h : CholRec n A L) (h' : CholRec n A L') :
    ∀ i j, j ≤ i → i < n → L i j = L' i j := by
  intro i
  induction i using Nat.strong_induction_on with
  | _ i ihi =>
    intro j
    induction j using Nat.strong_induction_on with
    | _ j ihj =>
      intro hj hi
      have hrow : ∀ k, k < j → L i k = L' i k := fun k hk => ihj k hk (by omega) hi
      rcases Nat.lt_or_ge j i with hji | hij
      · rw [(h i hi).1 j hji, (h' i hi).1 j hji, ihi j hji j (Nat.le_refl _) (by omega)]
        congr 1
        refine subUp_congr (fun k _ hk => ?_) _
        rw [hrow k hk, ihi j hji k (by omega) (by omega)]
      · obtain rfl : j = i := by omega
        rw [(h j hi).2, (h' j hi).2]
        congr 1
        refine subUp_congr (fun k _ hk => ?_) _
        rw [hrow k hk]

theorem ModRec.unique {n : Nat} {A L L' : Nat → Nat → T} (h : ModRec n A L) (h' : ModRec n A L') :
    ∀ i j, j ≤ i → i < n → L i j = L' i j := by
  intro i
  induction i using Nat.strong_induction_on with
  | _ i ihi =>
    intro j
    induction j using Nat.strong_induction_on with
    | _ j ihj =>
      intro hj hi
      have hrow : ∀ k, k < j → L i k = L' i k := fun k hk => ihj k hk (by omega) hi
      rw [h i j hj hi, h' i j hj hi]
      refine subUp_congr (fun k _ hk => ?_) _
      rw [hrow k hk, ihi k (by omega) k (Nat.le_refl _) (by omega)]
      rcases Nat.lt_or_ge j i with hji | hij
      · rw [ihi j hji k (by omega) (by omega)]
      · obtain rfl : j = i := by omega
        rw [hrow k hk]

theorem IluRec.unique [CZero T] {n : Nat} {A F F' : Nat → Nat → T} (h : IluRec n A F) (h' : IluRec n A F') :
    ∀ i j, i < n → j < n → F i j = F' i j := by
  intro i
  induction i using Nat.strong_induction_on with
  | _ i ihi =>
    intro j
    induction j using Nat.strong_induction_on with
    | _ j ihj =>
      intro hi hj
      have hrow : ∀ k, k < j → F i k = F' i k := fun k hk => ihj k hk hi (by omega)
      obtain ⟨h1, h2, h3⟩ := h i j hi hj
      obtain ⟨g1, g2, g3⟩ := h' i j hi hj
      by_cases h0 : IsZ (A i j)
      · rw [h1 h0, g1 h0]
      rcases Nat.lt_or_ge j i with hji | hij
      · rw [(h2 hji h0).2, (g2 hji h0).2, ihi j hji j (by omega) (by omega)]
        congr 1
        refine subUp_congr (fun k _ hk => ?_) _
        rw [hrow k hk, ihi k (by omega) j (by omega) hj]
      · rw [h3 hij h0, g3 hij h0]
        refine subUp_congr (fun k _ hk => ?_) _
        rw [hrow k (by omega), ihi k (by omega) j (by omega) hj]

theorem IluCell.unique_before [CZero T] {n : Nat} {A F F' : Nat → Nat → T} {i j : Nat}
    (h : ∀ r c, r < n → c < n → (r < i ∨ r = i ∧ c < j) → IluCell A F r c)
    (h' : ∀ r c, r < n → c < n → (r < i ∨ r = i ∧ c < j) → IluCell A F' r c) :
    ∀ r c, r < n → c < n → (r < i ∨ r = i ∧ c < j) → F r c = F' r c := by
  intro r
  induction r using Nat.strong_induction_on with
  | _ r ihr =>
    intro c
    induction c using Nat.strong_induction_on with
    | _ c ihc =>
      intro hr hc hb
      have hrow : ∀ k, k < c → F r k = F' r k := fun k hk => ihc k hk hr (by omega) (by omega)
      obtain ⟨h1, h2, h3⟩ := h r c hr hc hb
      obtain ⟨g1, g2, g3⟩ := h' r c hr hc hb
      by_cases h0 : IsZ (A r c)
      · rw [h1 h0, g1 h0]
      rcases Nat.lt_or_ge c r with hcr | hrc
      · rw [(h2 hcr h0).2, (g2 hcr h0).2, ihr c hcr c (by omega) (by omega) (by omega)]
        congr 1
        refine subUp_congr (fun k _ hk => ?_) _
        rw [hrow k hk, ihr k (by omega) c (by omega) hc (by omega)]
      · rw [h3 hrc h0, g3 hrc h0]
        refine subUp_congr (fun k _ hk => ?_) _
        rw [hrow k (by omega), ihr k (by omega) c (by omega) hc (by omega)]

theorem TdmaRec.unique [Zero T] [Add T] [Neg T] {n : Nat} (hn : 0 < n) {a : TriDiag T} {b x x' : Nat → T}
    {D P Q D' P' Q' : Nat → T} (h : TdmaRec n a b x D P Q) (h' : TdmaRec n a b x' D' P' Q') :
    ∀ i, i < n → x i = x' i := by
  have hDP : ∀ i, i < n → D i = D' i ∧ (i + 1 < n → P i = P' i) := by
    intro i
    induction i with
    | zero =>
      intro _
      have : D 0 = D' 0 := by rw [h.d0, h'.d0]
      exact ⟨this, fun hi => by rw [h.p 0 hi, h'.p 0 hi, this]⟩
    | succ i ih =>
      intro hi
      have : D (i + 1) = D' (i + 1) := by rw [h.d i hi, h'.d i hi, (ih (by omega)).2 hi]
      exact ⟨this, fun hi' => by rw [h.p _ hi', h'.p _ hi', this]⟩
  have hQ : ∀ i, i < n → Q i = Q' i := by
    intro i
    induction i with
    | zero => intro _; rw [h.q0, h'.q0, (hDP 0 hn).1]
    | succ i ih => intro hi; rw [h.q i hi, h'.q i hi, ih (by omega), (hDP _ hi).1]
  have : ∀ d i, i < n → n - i ≤ d → x i = x' i := by
    intro d
    induction d with
    | zero => intro i hi hd; omega
    | succ d ih =>
      intro i hi hd
      by_cases hl : i + 1 < n
      · rw [h.back i hl, h'.back i hl, ih (i + 1) hl (by omega), (hDP i hi).2 hl, hQ i hi]
      · obtain rfl : i = n - 1 := by omega
        rw [h.last, h'.last, hQ _ hi]
  exact fun i hi => this n i hi (by omega)

theorem CholSolveRec.congr {md : Bool} {n : Nat} {L L' : Nat → Nat → T} {b b' x : Nat → T}
    (h : CholSolveRec md n L b x) (hL : ∀ i j, j ≤ i → i < n → L i j = L' i j) (hb : ∀ i, i < n → b i = b' i) :
    CholSolveRec md n L' b' x := by
  obtain ⟨y, h1, h2⟩ := h
  refine ⟨y, ?_, h2.congr (fun i j h1 h2 => hL j i h1 h2) fun _ _ => rfl⟩
  unfold CholFwdRec at h1 ⊢
  split_ifs at h1 ⊢ with hmd
  · intro i hi
    rw [h1 i hi, hb i hi]
    refine subUp_congr (fun j _ hj => ?_) _
    show L i j / L j j * y j = _
    rw [hL i j (by omega) hi, hL j j (by omega) (by omega)]
  · intro i hi
    rw [h1 i hi, hb i hi, hL i i (by omega) hi]
    congr 1
    refine subUp_congr (fun j _ hj => ?_) _
    rw [hL i j (by omega) hi]

end unique

/-! ## The solvers of the Cholesky classes -/

namespace Chol
variable [Zero T] [Sub T] [Mul T] [Div T] [CDiv T]

theorem solve_raw (md : Bool) (mt : MemType) (n : Nat) (L : List T)
    (hL : L.length = storeLen mt n) (hd : ∀ i, i < n → DivAt (val0 L (cIndex mt n i i))) (m : Mem T) (b r nrow : Nat)
    (hb : m.len b = n * nrow) (hr : r ≠ b) :
    ∃ x, x.length = n * nrow ∧
      (∀ k, k < nrow → CholSolveRec md n (fun i j => val0 L (cIndex mt n i j)) (fun i => entry nrow (m b) i k)
        (fun i => entry nrow x i k)) ∧
      kernel md mt n nrow L b b m = .ok (m.setBuf b x) ∧
      kernel md mt n nrow L b r (m.setBuf r (m b)) = .ok (m.setBuf r x) := by
  have hb' : (m b).length = n * nrow := hb
  obtain ⟨x, e, hx, hsol, _⟩ := kernel_raw (md := md) (m := m) (rhs := b) (x := b) (nrow := nrow)
    (b0 := m b) hL.ge hd (by omega) (fun h => absurd rfl h)
  obtain ⟨y, e', hy, hsol', _⟩ := kernel_raw (md := md) (m := m) (rhs := b) (x := r) (nrow := nrow)
    (b0 := m b) hL.ge hd (by omega) (fun _ => by omega)
  rw [Mem.setBuf_same] at e hsol
  rw [Mem.setBuf_other _ hr.symm] at hsol'
  have hxy : y = x := by
    refine mat_ext (n := n) (m := nrow) (by omega) (by omega) fun i k hi hk => ?_
    exact (hsol' k hk).unique (hsol k hk) i hi
  subst hxy
  exact ⟨y, by omega, hsol, e, e'⟩

/-- Same lower triangle, same outcome of the modified factorisation. -/
theorem modNew_same [CZero T] (hdv : ∀ v : T, ¬ IsZ v → DivAt v) (mt mt' : MemType) (n : Nat) {l l' : List T} {A : Nat → Nat → T}
    (hl : storeLen mt n ≤ l.length) (hl' : storeLen mt' n ≤ l'.length)
    (hA : ∀ i j, j ≤ i → i < n → val0 l (cIndex mt n i j) = A i j)
    (hA' : ∀ i j, j ≤ i → i < n → val0 l' (cIndex mt' n i j) = A i j) :
    (modNew mt n l = .error (.throw .runtimeError) ∧ modNew mt' n l' = .error (.throw .runtimeError)) ∨
    ∃ L L', modNew mt n l = .ok L ∧ modNew mt' n l' = .ok L' ∧ L.length = l.length ∧ L'.length = l'.length ∧
      (∀ i, i < n → ¬ IsZ (val0 L (cIndex mt n i i))) ∧ ModRec n A (fun i j => val0 L (cIndex mt n i j)) ∧
      ∀ i j, j ≤ i → i < n → val0 L (cIndex mt n i j) = val0 L' (cIndex mt' n i j) := by
  have toRec : ∀ {ix : Nat → Nat → Nat} {l L : List T} {k : Nat}, k ≤ n →
      (∀ i j, j ≤ i → i < n → val0 l (ix i j) = A i j) →
      (∀ r c, c ≤ r → r < k → val0 L (ix r c) =
        subUp (fun k => val0 L (ix r k) * val0 L (ix c k) / val0 L (ix k k)) 0 c (val0 l (ix r c))) →
      ModRec k A (fun i j => val0 L (ix i j)) := by
    intro ix l L k hk hA h i j hj hi
    show val0 L (ix i j) = _
    rw [h i j hj hi, hA i j hj (by omega)]
  have bad : ∀ {ix ix' : Nat → Nat → Nat} {l L l' L' : List T} {i : Nat},
      (∀ i j, j ≤ i → i < n → val0 l (ix i j) = A i j) → (∀ i j, j ≤ i → i < n → val0 l' (ix' i j) = A i j) →
      RModInv ix l n L → RModStop ix' n l' i L' → False := by
    intro ix ix' l L l' L' i hA hA' hI hS
    have hlt := hS.lt
    have e := (toRec (k := i + 1) (by omega) hA (fun r c h1 h2 => hI.fac r c h1 (by omega))).unique
      (toRec (k := i + 1) (by omega) hA' (fun r c h1 h2 => hS.fac r c h1 (by omega))) i i (Nat.le_refl _) (by omega)
    exact hI.piv i hlt (by rw [e]; exact hS.zero)
  have h := modNew_raw hdv mt n l hl
  have h' := modNew_raw hdv mt' n l' hl'
  cases e : modNew mt n l with
  | error f =>
    rw [e] at h
    obtain ⟨rfl, i, L, hS⟩ := h
    cases e' : modNew mt' n l' with
    | error f' => rw [e'] at h'; obtain ⟨rfl, _⟩ := h'; exact .inl ⟨rfl, rfl⟩
    | ok L' => rw [e'] at h'; exact (bad hA' hA h' hS).elim
  | ok L =>
    rw [e] at h
    cases e' : modNew mt' n l' with
    | error f' => rw [e'] at h'; obtain ⟨_, i, L', hS⟩ := h'; exact (bad hA hA' h hS).elim
    | ok L' =>
      rw [e'] at h'
      have hr := toRec (Nat.le_refl n) hA h.fac
      exact .inr ⟨L, L', rfl, rfl, h.len, h'.len, h.piv, hr, hr.unique (toRec (Nat.le_refl n) hA' h'.fac)⟩

end Chol

/-! ## Incomplete LU -/

namespace Ilu

variable [Zero T] [Sub T] [Mul T]

theorem reduce_raw {ops : MatOps M T} {n m : Nat} {R : M → (Nat → Nat → T) → Prop} (hR : Rep ops n m R) {a : M}
    {V : Nat → Nat → T} (ha : R a V) {i j c : Nat} (hi : i < n) (hj : j < m) (hc : c ≤ n) (hcm : c ≤ m) (v : T) :
    reduce ops a i j c v = .ok (subUp (fun k => V i k * V k j) 0 c v) := by
  unfold reduce
  refine subUp_through (h := fun v => v) (Nat.zero_le _) v fun k s _ hk => ?_
  rw [hR.get a V i k ha hi (by omega), ok_bind, hR.get a V k j ha (by omega) hj, ok_bind]

variable [Div T] [CZero T]

omit [Zero T] in
theorem cell_congr {A F G : Nat → Nat → T} {r c : Nat} (h : ∀ r' c', before r' c' r (c + 1) → F r' c' = G r' c')
    (hF : IluCell A F r c) : IluCell A G r c := by
  obtain ⟨h1, h2, h3⟩ := hF
  have e0 : F r c = G r c := h r c (.inr ⟨rfl, by omega⟩)
  refine ⟨fun h0 => by rw [← e0]; exact h1 h0, ?_, ?_⟩
  · intro hc h0
    obtain ⟨p, q⟩ := h2 hc h0
    have e1 : F c c = G c c := h c c (.inl hc)
    rw [← e1]
    refine ⟨p, ?_⟩
    rw [← e0, q]
    congr 1
    refine subUp_congr (fun k _ hk => ?_) _
    rw [h r k (.inr ⟨rfl, by omega⟩), h k c (.inl (by omega))]
  · intro hc h0
    rw [← e0, h3 hc h0]
    refine subUp_congr (fun k _ hk => ?_) _
    rw [h r k (.inr ⟨rfl, by omega⟩), h k c (.inl (by omega))]

/-- What holds while the factorisation is at `(i, j)`. -/
structure RInv (R : M → (Nat → Nat → T) → Prop) (n : Nat) (A : Nat → Nat → T) (i j : Nat) (a : M)
    (V : Nat → Nat → T) : Prop where
  rep : R a V
  done : ∀ r c, r < n → c < n → before r c i j → IluCell A V r c
  todo : ∀ r c, r < n → c < n → ¬ before r c i j → V r c = A r c

omit [Zero T] in
theorem RInv.step {R : M → (Nat → Nat → T) → Prop} {n : Nat} {A : Nat → Nat → T} {i j : Nat} {a a' : M}
    {V : Nat → Nat → T} (h : RInv R n A i j a V) {v : T} (ha : R a' (updAt V i j v))
    (hg : IluCell A (updAt V i j v) i j) : RInv R n A i (j + 1) a' (updAt V i j v) := by
  refine ⟨ha, ?_, ?_⟩
  · intro r c hr hc hb
    by_cases he : r = i ∧ c = j
    · obtain ⟨rfl, rfl⟩ := he; exact hg
    · have hb' : before r c i j := by unfold before at hb ⊢; omega
      refine cell_congr (fun r' c' h' => ?_) (h.done r c hr hc hb')
      rw [updAt, if_neg]
      unfold before at h' hb'
      omega
  · intro r c hr hc hb
    rw [updAt, if_neg (by unfold before at hb; omega)]
    exact h.todo r c hr hc fun h' => hb (by unfold before at h' ⊢; omega)

omit [Zero T] in
theorem RInv.skip {R : M → (Nat → Nat → T) → Prop} {n : Nat} {A : Nat → Nat → T} {i j : Nat} {a : M}
    {V : Nat → Nat → T} (h : RInv R n A i j a V) (hi : i < n) (hj : j < n) (h0 : IsZ (V i j)) :
    RInv R n A i (j + 1) a V := by
  have hAV : V i j = A i j := h.todo i j hi hj (by unfold before; omega)
  have hA : IsZ (A i j) := by rw [← hAV]; exact h0
  have hV : updAt V i j (V i j) = V := by
    funext r c
    unfold updAt
    split_ifs with he
    · rw [he.1, he.2]
    · rfl
  have := h.step (a' := a) (v := V i j) (by rw [hV]; exact h.rep) ⟨fun _ => by rw [hV]; exact hAV,
    fun _ hc => absurd hA hc, fun _ hc => absurd hA hc⟩
  rwa [hV] at this

omit [Zero T] in
theorem RInv.next_row {R : M → (Nat → Nat → T) → Prop} {n : Nat} {A : Nat → Nat → T} {i : Nat} {a : M}
    {V : Nat → Nat → T} (h : RInv R n A i n a V) : RInv R n A (i + 1) 0 a V := by
  refine ⟨h.rep, fun r c hr hc hb => h.done r c hr hc ?_, fun r c hr hc hb => h.todo r c hr hc fun h' => hb ?_⟩
  · unfold before at hb ⊢; omega
  · unfold before at h' ⊢; omega

/-- Where the construction stops: a pivot that is needed is zero. -/
def RStuck (R : M → (Nat → Nat → T) → Prop) (n : Nat) (A : Nat → Nat → T) (a : M) : Prop :=
  ∃ i j V, j < i ∧ i < n ∧ RInv R n A i j a V ∧ ¬ IsZ (A i j) ∧ IsZ (V j j)

variable [CDiv T] {ops : MatOps M T} {n : Nat} {R : M → (Nat → Nat → T) → Prop} {A : Nat → Nat → T}

theorem lowCell_raw (hz : IsZ (0 : T)) (hdv : ∀ v : T, ¬ IsZ v → DivAt v) (hR : Rep ops n n R) {i j : Nat} (hj : j < i) (hi : i < n) {a : M}
    {V : Nat → Nat → T} (h : RInv R n A i j a V) :
    Ok (Sum.elim (fun a' => ∃ V', RInv R n A i (j + 1) a' V') (RStuck R n A)) (lowCell ops i j a) := by
  have hAV : V i j = A i j := h.todo i j hi (by omega) (by unfold before; omega)
  unfold lowCell
  rw [hR.get a V i j h.rep hi (by omega), ok_bind]
  by_cases h0 : IsZ (V i j)
  · rw [if_neg (not_not.mpr h0)]
    exact ⟨V, h.skip (by omega) (by omega) h0⟩
  · rw [if_pos h0, hR.get a V j j h.rep (by omega) (by omega), ok_bind]
    by_cases hd : IsZ (V j j)
    · rw [if_pos hd]
      exact ⟨i, j, V, hj, hi, h, by rw [← hAV]; exact h0, hd⟩
    · rw [if_neg hd, reduce_raw hR h.rep hi (by omega) (by omega) (by omega), ok_bind, hdv _ hd, ok_bind]
      obtain ⟨a', e, ha'⟩ := hR.set a V i j (subUp (fun k => V i k * V k j) 0 j (V i j) / V j j) h.rep hi
        (by omega) (fun h => h0 (by rw [h]; exact hz))
      rw [e, ok_bind]
      refine ⟨_, h.step ha' ⟨fun hc => absurd (by rw [hAV]; exact hc) h0, fun _ _ => ?_, fun hc => by omega⟩⟩
      rw [updAt_before (r := j) (.inl hj)]
      refine ⟨hd, ?_⟩
      rw [updAt, if_pos ⟨rfl, rfl⟩, ← hAV]
      congr 1
      refine subUp_congr (fun k _ hk => ?_) _
      rw [updAt_before (.inr ⟨rfl, hk⟩), updAt_before (.inl (by omega))]

omit [CDiv T] in
theorem upCell_raw (hz : IsZ (0 : T)) (hR : Rep ops n n R) {i j : Nat} (hij : i ≤ j) (hj : j < n) {a : M}
    {V : Nat → Nat → T} (h : RInv R n A i j a V) :
    Ok (fun a' => ∃ V', RInv R n A i (j + 1) a' V') (upCell ops i j a) := by
  have hAV : V i j = A i j := h.todo i j (by omega) hj (by unfold before; omega)
  unfold upCell
  rw [hR.get a V i j h.rep (by omega) hj, ok_bind]
  by_cases h0 : IsZ (V i j)
  · rw [if_neg (not_not.mpr h0)]
    exact ⟨V, h.skip (by omega) (by omega) h0⟩
  · rw [if_pos h0, reduce_raw hR h.rep (by omega) hj (by omega) (by omega), ok_bind]
    obtain ⟨a', e, ha'⟩ := hR.set a V i j (subUp (fun k => V i k * V k j) 0 i (V i j)) h.rep (by omega) hj
      (fun h => h0 (by rw [h]; exact hz))
    rw [e]
    refine ⟨_, h.step ha' ⟨fun hc => absurd (by rw [hAV]; exact hc) h0, fun hc => by omega, fun _ _ => ?_⟩⟩
    rw [updAt, if_pos ⟨rfl, rfl⟩, ← hAV]
    refine subUp_congr (fun k _ hk => ?_) _
    rw [updAt_before (.inr ⟨rfl, by omega⟩), updAt_before (.inl hk)]

theorem row_raw (hz : IsZ (0 : T)) (hdv : ∀ v : T, ¬ IsZ v → DivAt v) (hR : Rep ops n n R) {i : Nat} (hi : i < n) {a : M} {V : Nat → Nat → T}
    (h : RInv R n A i 0 a V) :
    Ok (Sum.elim (fun a' => ∃ V', RInv R n A i n a' V') (RStuck R n A)) (row ops n i a) := by
  unfold row
  have h1 : Ok (Sum.elim (fun a' => ∃ V', RInv R n A i i a' V') (RStuck R n A))
      (forRet 0 i (lowCell ops i) a) :=
    forRet_sat (I := fun j a' => ∃ V', RInv R n A i j a' V') (Nat.zero_le _) ⟨V, h⟩
      fun j a' _ hj ⟨V', h'⟩ => lowCell_raw hz hdv hR hj hi h'
  refine Sat.bind h1 ?_
  rintro (a' | a') h'
  · refine Sat.bind (forRange_sat (I := fun j a' => ∃ V', RInv R n A i j a' V') (Nat.le_of_lt hi) h'
      fun j a' hij hj ⟨V', h'⟩ => upCell_raw hz hR hij hj h') fun a'' h'' => h''
  · exact h'

theorem decomp_raw (hz : IsZ (0 : T)) (hdv : ∀ v : T, ¬ IsZ v → DivAt v) (hR : Rep ops n n R) {a : M} (ha : R a A) :
    ∃ r, decomp ops a = .ok r ∧
      ((r.1 = true ∧ ∃ F, R r.2 F ∧ IluRec n A F) ∨ (r.1 = false ∧ RStuck R n A r.2)) := by
  have h : Ok (Sum.elim (fun a' => ∃ V', RInv R n A n 0 a' V') (RStuck R n A)) (forRet 0 n (row ops n) a) :=
    forRet_sat (I := fun i a' => ∃ V', RInv R n A i 0 a' V') (Nat.zero_le _)
      ⟨A, ha, fun r c _ _ hb => by unfold before at hb; omega, fun _ _ _ _ _ => rfl⟩
      fun i a' _ hi ⟨V', h'⟩ => Sat.mono (row_raw hz hdv hR hi h') (fun b hb => by
        rcases b with b | b
        · obtain ⟨V'', h''⟩ := hb
          exact ⟨V'', h''.next_row⟩
        · exact hb) (fun _ h => h)
  obtain ⟨b, e, hb⟩ := Ok.exists h
  unfold decomp
  rw [hR.shape a A ha, ok_bind]
  simp only [e, ok_bind]
  rcases b with b | b
  · obtain ⟨V, hV⟩ := hb
    exact ⟨_, rfl, .inl ⟨rfl, V, hV.rep, fun r c hr hc => hV.done r c hr hc (.inl hr)⟩⟩
  · exact ⟨_, rfl, .inr ⟨rfl, hb⟩⟩

theorem new_raw (hz : IsZ (0 : T)) (hdv : ∀ v : T, ¬ IsZ v → DivAt v) (hR : Rep ops n n R) {a : M} (ha : R a A) :
    (∃ F a', new ops a = .ok a' ∧ R a' F ∧ IluRec n A F) ∨
    (new ops a = .error (.throw .runtimeError) ∧ ∃ a', RStuck R n A a') := by
  obtain ⟨⟨b, a'⟩, e, ⟨h, F, hF, hI⟩ | ⟨h, hS⟩⟩ := decomp_raw hz hdv hR ha
  · left
    simp only at h hF
    subst h
    exact ⟨F, a', by simp [new, e], hF, hI⟩
  · right
    simp only at h
    subst h
    exact ⟨by simp [new, e], a', hS⟩

/-- Two representations of one matrix: same outcome. -/
theorem new_same (hz : IsZ (0 : T)) (hdv : ∀ v : T, ¬ IsZ v → DivAt v) {M' : Type} {ops' : MatOps M' T} {R' : M' → (Nat → Nat → T) → Prop} (hR : Rep ops n n R)
    (hR' : Rep ops' n n R') {a : M} {a' : M'} (ha : R a A) (ha' : R' a' A) :
    (new ops a = .error (.throw .runtimeError) ∧ new ops' a' = .error (.throw .runtimeError)) ∨
    ∃ f f' F F', new ops a = .ok f ∧ new ops' a' = .ok f' ∧ R f F ∧ R' f' F' ∧ IluRec n A F ∧
      ∀ i j, i < n → j < n → F i j = F' i j := by
  have bad : ∀ {M : Type} {R : M → (Nat → Nat → T) → Prop} {F : Nat → Nat → T} {a : M}, IluRec n A F →
      RStuck R n A a → False := by
    rintro M R F a hF ⟨i, j, V, hj, hi, hI, h0, hV⟩
    have e := IluCell.unique_before (n := n) (i := i) (j := j) (fun r c hr hc _ => hF r c hr hc)
      (fun r c hr hc hb => hI.done r c hr hc hb) j j (by omega) (by omega) (by omega)
    exact ((hF i j hi (by omega)).2.1 hj h0).1 (by rw [e]; exact hV)
  rcases new_raw hz hdv hR ha with ⟨F, f, e, hf, hF⟩ | ⟨e, _, hS⟩ <;>
    rcases new_raw hz hdv hR' ha' with ⟨F', f', e', hf', hF'⟩ | ⟨e', _, hS'⟩
  · exact .inr ⟨f, f', F, F', e, e', hf, hf', hF, hF.unique hF'⟩
  · exact (bad hF hS').elim
  · exact (bad hF' hS).elim
  · exact .inl ⟨e, e'⟩

omit [CZero T] in
theorem solve_raw (hR : Rep ops n n R) {a : M} {F : Nat → Nat → T} (ha : R a F) (hd : ∀ i, i < n → DivAt (F i i))
    {b : List T} (hb : b.length = n) :
    ∃ x, solve ops a b = .ok x ∧ x.length = n ∧ IluSolveRec n F (val0 b) (val0 x) := by
  obtain ⟨y, ey, hy, hfy, _⟩ := sweep_up (emb := fun l : List T => l) (f := fwdRow ops a b) (pos := fun i => i)
    (n := n) (G := fun i X => subUp (fun k => F i k * X k) 0 i (val0 b i)) (List.replicate n 0)
    (fun t ht => by simpa using ht) (fun _ _ _ _ h => h)
    (fun t X Y ht h => by
      refine subUp_congr (fun k _ hk => ?_) _
      rw [h k hk])
    (fun t l ht hlen _ => by
      have hlen : l.length = n := by simpa using hlen
      unfold fwdRow
      rw [lrd_val (by omega), ok_bind, subUp_through (h := fun v => v) (g := fun k => F t k * val0 l k)
        (Nat.zero_le _), ok_bind, lwr_ok (by omega)]
      intro k v _ hk
      rw [hR.get a F t k ha ht (by omega), ok_bind, lrd_val (by omega), ok_bind])
  have hy : y.length = n := by simpa using hy
  obtain ⟨x, ex, hx, hfx, _⟩ := sweep_down (emb := fun l : List T => l) (f := bwdRow ops a n y)
    (pos := fun i => i) (n := n)
    (G := fun i X => subUp (fun k => F i k * X k) (i + 1) n (val0 y i) / F i i) (List.replicate n 0)
    (fun t ht => by simpa using ht) (fun _ _ _ _ h => h)
    (fun t X Y ht h => by
      rw [subUp_congr (g := fun k => F t k * X k) (g' := fun k => F t k * Y k)]
      intro k h1 hk
      rw [h k (by omega) hk])
    (fun t l ht hlen _ => by
      have hlen : l.length = n := by simpa using hlen
      unfold bwdRow
      rw [lrd_val (by omega), ok_bind, subUp_through (h := fun v => v) (g := fun k => F t k * val0 l k)
        (by omega), ok_bind, hR.get a F t t ha ht ht, ok_bind, hd t ht, ok_bind, lwr_ok (by omega)]
      intro k v h1 hk
      rw [hR.get a F t k ha ht (by omega), ok_bind, lrd_val (by omega), ok_bind])
  refine ⟨x, ?_, by simpa using hx, val0 y, hfy, hfx⟩
  unfold solve
  rw [hb, ey, ok_bind, ex]; rfl

end Ilu

/-! ## Tri-diagonal systems -/

namespace Tdma

variable [Zero T] [Add T] [Sub T] [Mul T] [Neg T] [Div T]

theorem eq_of {a : TriDiag T} {B X : Nat → T} {n : Nat} (h : BackEq a B n X) : TdmaEq n a B X (D a) (P a) (Q a B) :=
  ⟨rfl, fun _ _ => rfl, fun i _ => P_eq a i, rfl, fun _ _ => rfl, h.1, fun i hi => h.2 i (by omega)⟩

theorem rec_of {a : TriDiag T} {B X : Nat → T} {n : Nat} (h : BackEq a B n X) (hD : ∀ i, i < n → D a i ≠ 0) :
    TdmaRec n a B X (D a) (P a) (Q a B) :=
  ⟨eq_of h, hD⟩

variable [CDiv T] [DivCases T]

/-- All columns; `b` and `x` may be the same buffer. -/
theorem tdma_raw {a : TriDiag T} {n nrow b x : Nat} {m : Mem T} (hs : Sizes a n nrow m b x) :
    Sat (fun m' => ∃ l, m' = m.setBuf x l ∧ l.length = m.len x ∧
        (∀ k, k < nrow → BackEq a (fun i => entry nrow (m b) i k) n (fun i => entry nrow l i k)) ∧
        (∀ c, n * nrow ≤ c → val0 l c = val0 (m x) c) ∧ (0 < nrow → ∀ i, i < n → DivAt (D a i)))
      (Fail a n) (tdma a n nrow b x m) := by
  have hQ : ∀ B B' : Nat → T, (∀ i, i < n → B i = B' i) → ∀ i, i < n → Q a B i = Q a B' i := by
    intro B B' h i
    induction i with
    | zero => intro hi; show B 0 / _ = B' 0 / _; rw [h 0 hi]
    | succ i ih =>
      intro hi
      show (B (i + 1) - val0 a.dl i * Q a B i) / _ = (B' (i + 1) - val0 a.dl i * Q a B' i) / _
      rw [h _ hi, ih (by omega)]
  have hn2 := hs.n2
  have hBE : ∀ B B' X X' : Nat → T, (∀ i, i < n → B i = B' i) → (∀ i, i < n → X i = X' i) →
      BackEq a B n X → BackEq a B' n X' := by
    rintro B B' X X' h h' ⟨h1, h2⟩
    refine ⟨?_, fun i hi => ?_⟩
    · rw [← h' _ (by omega), ← hQ B B' h _ (by omega)]; exact h1
    · rw [← h' i (by omega), ← h' (i + 1) (by omega), ← hQ B B' h _ (by omega)]; exact h2 i hi
  unfold tdma
  refine Sat.mono (forRange_sat (I := fun k m' => ∃ l, m' = m.setBuf x l ∧ l.length = m.len x ∧
      (∀ k', k' < k → BackEq a (fun i => entry nrow (m b) i k') n (fun i => entry nrow l i k')) ∧
      (∀ k' i, k ≤ k' → k' < nrow → i < n → entry nrow l i k' = entry nrow (m x) i k') ∧
      (∀ c, n * nrow ≤ c → val0 l c = val0 (m x) c) ∧ (0 < k → ∀ i, i < n → DivAt (D a i))) (Nat.zero_le _) ?_ ?_)
    ?_ (fun _ h => h)
  · exact ⟨m x, (Mem.setBuf_same _ _).symm, rfl, fun k h => by omega, fun _ _ _ _ _ => rfl, fun _ _ => rfl,
      fun h => by omega⟩
  · rintro k m' - hk ⟨l, rfl, hl, hsol, hrest, hout, hDD⟩
    have hlx : (m.setBuf x l).len x = m.len x := by
      show (m.setBuf x l x).length = _
      rw [Mem.setBuf_self, hl]
    have hlb : (m.setBuf x l).len b = m.len b := by
      by_cases hbx : b = x
      · subst hbx; exact hlx
      · show (m.setBuf x l b).length = _
        rw [Mem.setBuf_other _ hbx]
    have hs' : Sizes a n nrow (m.setBuf x l) b x :=
      ⟨hs.n2, hs.d, hs.dl, hs.du, by rw [hlb]; exact hs.b, by rw [hlx]; exact hs.x⟩
    have hB : ∀ i, i < n → entry nrow ((m.setBuf x l) b) i k = entry nrow (m b) i k := by
      intro i hi
      by_cases hbx : b = x
      · subst hbx; rw [Mem.setBuf_self]; exact hrest k i (Nat.le_refl _) hk hi
      · rw [Mem.setBuf_other _ hbx]
    refine Sat.mono (column_spec hs' hk) ?_ (fun _ h => h)
    rintro m'' ⟨l', rfl, hl', hback, hframe, hD⟩
    rw [Mem.setBuf_self] at hframe
    refine ⟨l', Mem.setBuf_setBuf _ _ _ _, by rw [hl', hlx], ?_, ?_, ?_, fun _ => hD⟩
    · intro k' hk'
      by_cases hkk : k' = k
      · subst hkk
        exact hBE _ _ _ _ hB (fun _ _ => rfl) hback
      · refine hBE _ _ _ _ (fun _ _ => rfl) (fun i hi => ?_) (hsol k' (by omega))
        refine (hframe _ ?_).symm
        intro t _ he
        exact hkk ((cell_inj (by omega) hk).mp he).2
    · intro k' i h1 h2 hi
      rw [← hrest k' i (by omega) h2 hi]
      apply hframe
      intro t _ he
      have := ((cell_inj h2 hk).mp he).2
      omega
    · intro c hc
      rw [← hout c hc]
      apply hframe
      intro i hi he
      have := cell_lt hi hk
      omega
  · rintro m' ⟨l, rfl, hl, hsol, -, hout, hD⟩
    exact ⟨l, rfl, hl, hsol, hout, hD⟩

end Tdma

/-! ## Sparse product -/

namespace Csr

theorem mulCore_raw [Zero T] [Add T] [Mul T] {a : Csr T} (hw : a.Wf) {alpha beta : T} {x y : Nat} {s : Mem T}
    (hx : ∀ c ∈ a.col, c < s.len x) (hy : s.len y = a.nrows) (hxy : x ≠ y) :
    mulCore a.nrows a alpha x beta y s =
      .ok (s.setBuf y ((List.range a.nrows).map fun i =>
        addUp (fun k => alpha * val0 a.val k * val0 (s x) (a.col.getD k 0))
          (a.rowPtr.getD i 0) (a.rowPtr.getD (i + 1) 0) (beta * val0 (s y) i))) := by
  have hy' : (s y).length = a.nrows := hy
  unfold mulCore
  conv_lhs => rw [← s.setBuf_same y]
  rw [fill_loop (emb := fun l => s.setBuf y l) (F := fun i =>
        addUp (fun k => alpha * val0 a.val k * val0 (s x) (a.col.getD k 0))
          (a.rowPtr.getD i 0) (a.rowPtr.getD (i + 1) 0) (beta * val0 (s y) i)) (off := 0) (Nat.zero_le _) (s y)
        (by simpa using hy.ge)]
  · rw [Nat.zero_add, Nat.zero_add, fillR_full _ hy']
  · intro i l _ hi hl hp
    rw [hy'] at hl
    obtain ⟨h1, h2, h3⟩ := hw.ptr_le hi
    rw [Mem.setBuf_rd_self, lrd_val (show i < l.length by omega), ok_bind,
      Mem.setBuf_wr _ _ (show i < l.length by omega), ok_bind, lrd_ptr (show i < a.rowPtr.length by omega),
      ok_bind, lrd_ptr h1, ok_bind, hp i (by omega), Nat.zero_add]
    refine addUp_through (h := fun v => s.setBuf y (l.set i v)) h2 _ ?_
    intro k v _ hk
    have hc : k < a.col.length := by rw [hw.len]; omega
    have hcx : a.col.getD k 0 < s.len x := by
      apply hx
      have : a.col.getD k 0 = a.col[k] := by simp [List.getD_eq_getElem?_getD, hc]
      rw [this]; exact List.getElem_mem _
    rw [Mem.setBuf_rd_self, lrd_val (show i < (l.set i v).length by simp; omega), ok_bind,
      lrd_val (show k < a.val.length by omega), ok_bind, lrd_ptr hc, ok_bind,
      Mem.setBuf_rd_other _ hxy, Mem.rd_ok hcx, ok_bind,
      Mem.setBuf_wr _ _ (show i < (l.set i v).length by simp; omega),
      val0_set (show i < l.length by omega), if_pos rfl, List.set_set]
    rfl

end Csr

end Lalib
