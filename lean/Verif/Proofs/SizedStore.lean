import Verif.Spec.SizedStore
import Verif.Proofs.DenseStore
import Verif.Proofs.Views

/-! # Objects of fixed size and the vectors and matrices they represent -/

namespace Lalib

open Matrix Function

variable {T : Type}

theorem svBuf_ne (N x : Nat) : svBuf N x ≠ 0 := by unfold svBuf; omega

theorem smBuf_ne (N M x : Nat) : smBuf N M x ≠ 0 := by unfold smBuf; omega

theorem dvBuf_ne (d : Nat) : dvBuf d ≠ 0 := by unfold dvBuf; omega

theorem svBuf_inj {N x N' x' : Nat} : svBuf N x = svBuf N' x' ↔ N = N' ∧ x = x' := by
  unfold svBuf
  rw [← Nat.pair_eq_pair]; omega

theorem smBuf_inj {N M x N' M' x' : Nat} : smBuf N M x = smBuf N' M' x' ↔ N = N' ∧ M = M' ∧ x = x' := by
  unfold smBuf
  rw [← and_assoc, ← Nat.pair_eq_pair, ← Nat.pair_eq_pair]; omega

theorem dvBuf_inj {d d' : Nat} : dvBuf d = dvBuf d' ↔ d = d' := by unfold dvBuf; omega

theorem svBuf_smBuf (N x N' M' x' : Nat) : svBuf N x ≠ smBuf N' M' x' := by unfold svBuf smBuf; omega

theorem svBuf_dvBuf (N x d : Nat) : svBuf N x ≠ dvBuf d := by unfold svBuf dvBuf; omega

theorem smBuf_dvBuf (N M x d : Nat) : smBuf N M x ≠ dvBuf d := by unfold smBuf dvBuf; omega

namespace SzVars.ShownBy

variable {a : SzVars T} {s : Mem T}

theorem vval (h : a.ShownBy s) (N x : Nat) : (⟨N, a.vec (N, x)⟩ : VVal T).Shown (s (svBuf N x)) := h.vec N x

theorem dval (h : a.ShownBy s) (d : Nat) :
    (⟨(a.dyn d).length, fun i => (a.dyn d)[i]⟩ : VVal T).Shown (s (dvBuf d)) := by
  rw [h.dyn]
  exact VVal.shown_of rfl fun _ _ => rfl

theorem mval (h : a.ShownBy s) (N M x : Nat) : (⟨N, M, a.mat (N, M, x)⟩ : MVal T).Shown (N, M) (s (smBuf N M x)) :=
  ⟨rfl, (h.mat N M x).1, (h.mat N M x).2⟩

theorem vlen (h : a.ShownBy s) (N x : Nat) : s.len (svBuf N x) = N := (h.vval N x).len

theorem dlen (h : a.ShownBy s) (d : Nat) : s.len (dvBuf d) = (a.dyn d).length := by rw [Mem.len, h.dyn]

theorem wf (h : a.ShownBy s) (N M x : Nat) : (smRef N M x).Wf s := (h.mat N M x).1

/-- Assigning a vector. -/
theorem setVec (h : a.ShownBy s) {N x : Nat} {v : Fin N → T} {l : List T} (hv : (⟨N, v⟩ : VVal T).Shown l) :
    (a.setVec N x v).ShownBy (s.setBuf (svBuf N x) l) where
  vec := by
    intro K y
    show _ = List.ofFn (update a.vec (N, x) v (K, y))
    by_cases hk : (K, y) = (N, x)
    · injection hk with h1 h2
      subst h1 h2
      rw [Mem.setBuf_self, update_self]
      exact hv
    · rw [Mem.setBuf_other _ (fun e => hk (by rw [(svBuf_inj.mp e).1, (svBuf_inj.mp e).2])), update_of_ne hk]
      exact h.vec K y
  mat := by
    intro K M y
    rw [Mem.setBuf_other _ (svBuf_smBuf N x K M y).symm]
    exact h.mat K M y
  dyn := by
    intro d
    rw [Mem.setBuf_other _ (svBuf_dvBuf N x d).symm]
    exact h.dyn d

/-- Assigning a matrix. -/
theorem setMat (h : a.ShownBy s) {N M x : Nat} {v : Matrix (Fin N) (Fin M) T} {l : List T}
    (hv : (⟨N, M, v⟩ : MVal T).Shown (N, M) l) : (a.setMat N M x v).ShownBy (s.setBuf (smBuf N M x) l) where
  vec := by
    intro K y
    rw [Mem.setBuf_other _ (svBuf_smBuf K y N M x)]
    exact h.vec K y
  mat := by
    intro K L y
    show (s.setBuf (smBuf N M x) l (smBuf K L y)).length = _ ∧ ∀ (i : Fin K) (j : Fin L), _ =
      some (update a.mat (N, M, x) v (K, L, y) i j)
    by_cases hk : (K, L, y) = (N, M, x)
    · injection hk with h1 h2
      injection h2 with h2 h3
      subst h1 h2 h3
      rw [Mem.setBuf_self, update_self]
      exact hv.2
    · rw [Mem.setBuf_other _ (fun e => hk (by rw [(smBuf_inj.mp e).1, (smBuf_inj.mp e).2.1, (smBuf_inj.mp e).2.2])),
        update_of_ne hk]
      exact h.mat K L y
  dyn := by
    intro d
    rw [Mem.setBuf_other _ (smBuf_dvBuf N M x d).symm]
    exact h.dyn d

/-- Assigning a dynamic vector. -/
theorem setDyn (h : a.ShownBy s) {d : Nat} {l : List T} :
    ShownBy { a with dyn := update a.dyn d l } (s.setBuf (dvBuf d) l) where
  vec := by
    intro K y
    rw [Mem.setBuf_other _ (svBuf_dvBuf K y d)]
    exact h.vec K y
  mat := by
    intro K L y
    rw [Mem.setBuf_other _ (smBuf_dvBuf K L y d)]
    exact h.mat K L y
  dyn := by
    intro e
    show _ = update a.dyn d l e
    by_cases hk : e = d
    · subst hk; rw [Mem.setBuf_self, update_self]
    · rw [Mem.setBuf_other _ (fun c => hk (dvBuf_inj.mp c)), update_of_ne hk]
      exact h.dyn e

/-- The buffer of the temporaries shows nothing. -/
theorem tmp (h : a.ShownBy s) (l : List T) : a.ShownBy (s.setBuf 0 l) where
  vec := fun N x => by rw [Mem.setBuf_other _ (svBuf_ne N x)]; exact h.vec N x
  mat := fun N M x => by rw [Mem.setBuf_other _ (smBuf_ne N M x)]; exact h.mat N M x
  dyn := fun d => by rw [Mem.setBuf_other _ (dvBuf_ne d)]; exact h.dyn d

/-- Assigning one element. -/
theorem setElem (h : a.ShownBy s) {N x i : Nat} (hi : i < N) (v : T) :
    ∃ s', s.wr (svBuf N x) i v = .ok s' ∧ (a.setElem N x i v).ShownBy s' := by
  rw [Mem.wr_ok (by rw [h.vlen]; exact hi), Mem.upd_eq_setBuf]
  exact ⟨_, rfl, h.setVec ((h.vval N x).set i v)⟩

section
variable [Zero T]

/-- `x = l` for a vector. -/
theorem copyVec (h : a.ShownBy s) {N x : Nat} {v : Fin N → T} {l : List T} (hv : (⟨N, v⟩ : VVal T).Shown l) :
    ∃ s', copyTo l N (svBuf N x) s = .ok s' ∧ (a.setVec N x v).ShownBy s' :=
  ⟨_, copyTo_eq hv.len (h.vlen N x), h.setVec hv⟩

/-- `x = l` for a matrix. -/
theorem copyMat (h : a.ShownBy s) {N M x : Nat} {v : Matrix (Fin N) (Fin M) T} {l : List T}
    (hv : (⟨N, M, v⟩ : MVal T).Shown (N, M) l) :
    ∃ s', copyTo l (N * M) (smBuf N M x) s = .ok s' ∧ (a.setMat N M x v).ShownBy s' :=
  ⟨_, copyTo_eq hv.len (h.mat N M x).1, h.setMat hv⟩

/-- `x = t` for a temporary vector. -/
theorem tmpVec (h : a.ShownBy s) {N x : Nat} {v : Fin N → T} {l : List T} (hv : (⟨N, v⟩ : VVal T).Shown l) :
    ∃ s', fromTmp N (svBuf N x) (s.setBuf 0 l) = .ok s' ∧ (a.setVec N x v).ShownBy s' := by
  unfold fromTmp
  obtain ⟨s', e, h'⟩ := (h.tmp l).copyVec (x := x) hv
  rw [Mem.setBuf_self, e]
  exact ⟨_, rfl, h'.tmp []⟩

/-- `x = t` for a temporary matrix. -/
theorem tmpMat (h : a.ShownBy s) {N M x : Nat} {v : Matrix (Fin N) (Fin M) T} {l : List T}
    (hv : (⟨N, M, v⟩ : MVal T).Shown (N, M) l) :
    ∃ s', fromTmp (N * M) (smBuf N M x) (s.setBuf 0 l) = .ok s' ∧ (a.setMat N M x v).ShownBy s' := by
  unfold fromTmp
  obtain ⟨s', e, h'⟩ := (h.tmp l).copyMat (x := x) hv
  rw [Mem.setBuf_self, e]
  exact ⟨_, rfl, h'.tmp []⟩

end

end SzVars.ShownBy

/-- Objects that are all zero, and empty dynamic vectors. -/
def szZero (T : Type) [Zero T] : Mem T := fun p =>
  if p = 0 then [] else
  if p % 3 = 1 then List.replicate (Nat.unpair ((p - 1) / 3)).1 0 else
  if p % 3 = 2 then
    List.replicate ((Nat.unpair (Nat.unpair ((p - 2) / 3)).1).1 * (Nat.unpair (Nat.unpair ((p - 2) / 3)).1).2) 0
  else []

theorem szZero_shown [Zero T] : (⟨fun _ _ => 0, fun _ _ _ => 0, fun _ => []⟩ : SzVars T).ShownBy (szZero T) where
  vec := by
    intro N x
    have h1 : (3 * Nat.pair N x + 1) % 3 = 1 := by omega
    have h2 : (3 * Nat.pair N x + 1 - 1) / 3 = Nat.pair N x := by omega
    simp [szZero, svBuf, h1]
  mat := by
    intro N M x
    have h1 : (3 * Nat.pair (Nat.pair N M) x + 2) % 3 = 2 := by omega
    have h2 : (3 * Nat.pair (Nat.pair N M) x + 2 - 2) / 3 = Nat.pair (Nat.pair N M) x := by omega
    have e : szZero T (smBuf N M x) = List.replicate (N * M) 0 := by
      simp [szZero, smBuf, h1]
    rw [e]
    refine ⟨by simp, fun i j => ?_⟩
    rw [List.getElem?_replicate, if_pos (cell_lt i.isLt j.isLt)]
  dyn := by
    intro d
    have h1 : (3 * d + 3) % 3 = 0 := by omega
    simp [szZero, dvBuf]

/-! ## Sizes -/

/-- The call leaves the lengths of all buffers but that of the temporaries alone. -/
def LensOff (m : Mem T) (x : Res (Mem T)) : Prop := ∀ m', x = .ok m' → ∀ p, p ≠ 0 → m'.len p = m.len p

theorem Lens.off {m : Mem T} {x : Res (Mem T)} (h : Lens m x) : LensOff m x := fun m' e p _ => h m' e p

theorem LensOff.tmp {m : Mem T} {l : List T} {x : Res (Mem T)} (h : LensOff (m.setBuf 0 l) x) : LensOff m x := by
  intro m' e p hp
  rw [h m' e p hp, Mem.len, Mem.setBuf_other _ hp]

theorem LensOff.bind {m : Mem T} {x : Res (Mem T)} {f : Mem T → Res (Mem T)} (hx : LensOff m x)
    (h : ∀ m', LensOff m' (f m')) : LensOff m (x >>= f) := by
  intro m' e p hp
  cases x with
  | error _ => cases e
  | ok m1 => rw [h m1 m' e p hp, hx m1 rfl p hp]

theorem lensOff_fromTmp (n p : Nat) (s : Mem T) : LensOff s (fromTmp n p s) := by
  unfold fromTmp
  refine (Lens.copyTo _ _ _ _).off.bind fun m' m'' e q hq => ?_
  injection e with e
  rw [← e, Mem.len, Mem.setBuf_other _ hq]

/-- Every object but a dynamic vector that is replaced keeps its number of elements. -/
theorem SzStmt.act_len [CommRing T] (nd : Bool) (ord : Nat → List Nat) (st : SzStmt T) {s s' : Mem T}
    (e : st.act nd ord s = .ok s') {p : Nat} (hp : p ≠ 0) (hd : ∀ d l, st = .dynNew d l → p ≠ dvBuf d) :
    s'.len p = s.len p := by
  have core : ∀ x : Res (Mem T), Lens s x → x = .ok s' → s'.len p = s.len p := fun x h e => h s' e p
  have off : ∀ x : Res (Mem T), LensOff s x → x = .ok s' → s'.len p = s.len p := fun x h e => h s' e p hp
  have dd : ∀ {u : Bool} {o : List Nat} {a b c : MatRef} {m : Mem T}, Lens m (matAddDD u o a b c m) ∧
      Lens m (matSubDD u o a b c m) := fun {u o a b c m} =>
    ⟨.noexcept (.val fun _ => .val fun _ => .addCore _ _ _ _ _ _), .noexcept (.val fun _ => .val fun _ => .subCore _ _ _ _ _ _)⟩
  cases st with
  | dynNew d l =>
    injection e with e
    rw [← e, Mem.len, Mem.setBuf_other _ (hd d l rfl)]
  | vecNew N x l => exact core _ (.val fun _ => .copyTo _ _ _ _) e
  | vecUninit N x => exact core _ (.copyTo _ _ _ _) e
  | vecFilled N x v => exact core _ (.copyTo _ _ _ _) e
  | vecCopy N x y => exact core _ (.copyTo _ _ _ _) e
  | vecSet N x i v => exact core _ (.wr _ _ _ _) e
  | vecAddTo N y z x => exact core _ (.noexcept (.addCore _ _ _ _ _ _)) e
  | vecSubTo N y z x => exact core _ (.noexcept (.subCore _ _ _ _ _ _)) e
  | vecNegTo N y x => exact core _ (.noexcept (.range (fun _ _ => .elem1 _ _ _ _ _) _ _ _)) e
  | axpy N alpha y x => exact core _ (.noexcept (.range (fun _ _ => .elem2 _ _ _ _ _ _) _ _ _)) e
  | vecScale N alpha x => exact core _ (.noexcept (.range (fun _ _ => .elem1 _ _ _ _ _) _ _ _)) e
  | vecAdd N x y z =>
    exact off _ (.bind (.tmp (Lens.off (.val fun _ => .addCore _ _ _ _ _ _))) fun _ => lensOff_fromTmp _ _ _) e
  | vecSub N x y z =>
    exact off _ (.bind (.tmp (Lens.off (.val fun _ => .subCore _ _ _ _ _ _))) fun _ => lensOff_fromTmp _ _ _) e
  | vecNeg N x y =>
    exact off _ (.bind (.tmp (Lens.off (.noexcept (.val fun _ => .range (fun _ _ => .elem1 _ _ _ _ _) _ _ _))))
      fun _ => lensOff_fromTmp _ _ _) e
  | vecSmul N x alpha y =>
    exact off _ (.bind (.tmp (Lens.off (.noexcept (.range (fun _ _ => .elem1 _ _ _ _ _) _ _ _))))
      fun _ => lensOff_fromTmp _ _ _) e
  | dotTo K x i N y z => exact core _ (.val fun _ => .wr _ _ _ _) e
  | dynSet d i v => exact core _ (.wr _ _ _ _) e
  | addSizedDyn N y d x => exact core _ (.val fun _ => .addCore _ _ _ _ _ _) e
  | addDynSized N d y x => exact core _ (.val fun _ => .addCore _ _ _ _ _ _) e
  | subDynSized N d y x => exact core _ (.val fun _ => .subCore _ _ _ _ _ _) e
  | dotSizedDyn K x i N y d => exact core _ (.val fun _ => .wr _ _ _ _) e
  | dotDynSized K x i d N y => exact core _ (.val fun _ => .wr _ _ _ _) e
  | matNew N M x l => exact core _ (.val fun _ => .copyTo _ _ _ _) e
  | matUninit N M x => exact core _ (.copyTo _ _ _ _) e
  | matFilled N M x v => exact core _ (.val fun _ => .copyTo _ _ _ _) e
  | matDiagOf x l => exact core _ (.val fun _ => .copyTo _ _ _ _) e
  | matDiag N x v => exact core _ (.val fun _ => .copyTo _ _ _ _) e
  | matIdentity N x => exact core _ (.val fun _ => .copyTo _ _ _ _) e
  | matCopy N M x y => exact core _ (.copyTo _ _ _ _) e
  | matSet N M x i j v => exact core _ (.wr _ _ _ _) e
  | matAddTo N M a b x => exact core _ (.noexcept (.addCore _ _ _ _ _ _)) e
  | matSubTo N M a b x => exact core _ (.noexcept (.subCore _ _ _ _ _ _)) e
  | matScale N M alpha x => exact core _ (.noexcept (.range (fun _ _ => .elem1 _ _ _ _ _) _ _ _)) e
  | matAdd N M x a b => exact off _ (.bind (.tmp (Lens.off (.noexcept dd.1))) fun _ => lensOff_fromTmp _ _ _) e
  | matSub N M x a b => exact off _ (.bind (.tmp (Lens.off (.noexcept dd.2))) fun _ => lensOff_fromTmp _ _ _) e
  | matSmul N M x alpha a =>
    exact off _ (.bind (.tmp (Lens.off (.noexcept (.noexcept (.range (fun _ _ => .elem1 _ _ _ _ _) _ _ _)))))
      fun _ => lensOff_fromTmp _ _ _) e
  | matNeg N M x a =>
    exact off _ (.bind (.tmp (Lens.off (.noexcept (.noexcept (.range (fun _ _ => .elem1 _ _ _ _ _) _ _ _)))))
      fun _ => lensOff_fromTmp _ _ _) e
  | gemv N M alpha a v beta w => exact core _ (.noexcept (.gemvCore _ _ _ _ _ _ _ _)) e
  | gemvDyn N M alpha a d beta w => exact core _ (.noexcept (.val fun _ => .gemvCore _ _ _ _ _ _ _ _)) e
  | matVec N M w a v =>
    have hl : LensOff s (matVecAt nd s (smRef N M a) (svBuf M v) 0) := by
      unfold matVecAt
      exact .tmp (Lens.off (.noexcept (.val fun _ => .gemvCore _ _ _ _ _ _ _ _)))
    exact off _ (.bind hl fun _ => lensOff_fromTmp _ _ _) e
  | gemm N L M alpha a b beta c => exact core _ (.noexcept (.gemmCore _ _ _ _ _ _ _ _ _)) e
  | matMul N L M x a b =>
    exact off _ (.bind (.tmp (Lens.off (.noexcept (.noexcept (.val fun _ => .val fun _ => .val fun _ =>
      .gemmCore _ _ _ _ _ _ _ _ _))))) fun _ => lensOff_fromTmp _ _ _) e

end Lalib
