import Verif.Proofs.Views
import Verif.Props.DenseStore
import Verif.Props.StoreCsr

/-! # Property C78: references, pointers and iterators into vectors and matrices -/

namespace Lalib.Props

open Lalib

variable {T : Type} {St S : Type}

/-! ## Specification -/

/-- The objects a statement assigns to as a whole: those to the left of `=`, and the source of `std::move` of a
vector. -/
def dnAssigned : DnStmt T → List Nat
  | .vecNew x _ | .vecFilled x _ _ | .vecCopy x _ | .vecAdd x _ _ | .vecSub x _ _ | .vecNeg x _ | .vecSmul x _ _
  | .matVec x _ _ => [vbuf x]
  | .vecMove x y _ => [vbuf x, vbuf y]
  | .matNew x _ _ _ | .matFilled x _ _ _ | .matDiag x _ _ | .matIdentity x _ | .matCopy x _ | .matMove x _
  | .matAdd x _ _ | .matSub x _ _ | .matSmul x _ _ | .matNeg x _ | .matMul x _ _ => [mbuf x]
  | _ => []

/-- The same for sparse matrices; `x += y` counts as an assignment. -/
def spAssigned : SpStmt T → List Nat
  | .coo (.construct x _ _ _) | .coo (.unit x _) | .coo (.copy x _) | .coo (.addAssign x _) | .coo (.add x _ _)
  | .coo (.sub x _ _) | .coo (.smul x _ _) | .coo (.neg x _) => [cooObj x]
  | .coo (.move x y _) => [cooObj x, cooObj y]
  | .ofCoo x _ | .construct x _ _ _ | .unit x _ | .copy x _ | .smul x _ _ | .neg x _ => [csrObj x]
  | .move x y _ => [csrObj x, csrObj y]
  | _ => []

/-- A program in which no statement assigns to object `p`, and none gives variable `r` a new value. -/
def Quiet (assigned : St → List Nat) (r p : Nat) (is : List (VStmt St T)) : Prop :=
  ∀ i ∈ is, match i with
    | .plain st _ => p ∉ assigned st
    | .given _ f _ => ∀ v, p ∉ assigned (f v)
    | .elem q _ _ | .iter q _ _ | .incr q => q ≠ r
    | .store _ _ => True

/-- A program in which no statement gives variable `r` a new value. -/
def NotRebound (r : Nat) (is : List (VStmt St T)) : Prop :=
  ∀ i ∈ is, match i with
    | .elem q _ _ | .iter q _ _ | .incr q => q ≠ r
    | _ => True

/-- Variable `r` is a reference to element `k` of object `p`: it reads and writes that element, and no other. -/
def RefersTo (L : Lang St S T) (s : VState S) (r p k : Nat) : Prop :=
  ∃ h : k < (L.val s.st p).length, s.load L r = .ok (L.val s.st p)[k] ∧
    ∀ v, ∃ s', (VStmt.store r v).exec L s = .ok s' ∧ L.val s'.st p = (L.val s.st p).set k v ∧
      (∀ q, q ≠ p → L.val s'.st q = L.val s.st q) ∧ s'.sto = s.sto ∧ s'.ref = s.ref

/-- Any use of variable `r` is undefined: reading, writing, incrementing, passing on. -/
def Unusable (L : Lang St S T) (s : VState S) (r : Nat) : Prop :=
  s.load L r = .error (.ub .dangling) ∧ (∀ v, (VStmt.store r v).exec L s = .error (.ub .dangling)) ∧
    (VStmt.incr r).exec L s = .error (.ub .dangling) ∧
    ∀ f c, (VStmt.given r f c).exec L s = .error (.ub .dangling)

/-- The objects at the start of a program, no variable set. -/
def VState.start (s : S) : VState S := ⟨s, Sto.init, fun _ => none⟩

/-- The states a program can get into. -/
def Reachable (L : Lang St S T) (s : VState S) : Prop := ∃ t is, VStmt.run L is (VState.start t) = .ok s

/-- Variable `r` is made a reference to element `k` of object `p`. -/
def Binds (L : Lang St S T) (s : VState S) (r p k : Nat) (i : VStmt St T) : Prop :=
  i = .elem r p k ∨ (i = .iter r p k ∧ k < (L.val s.st p).length)

/-- The objects whose elements are in another array after the statement: a new vector is assigned by a move, a new
matrix by a copy, for which `std::vector` may or may not (`c`) allocate. -/
def dnRenews : DnStmt T → Bool → List Nat
  | .vecMove x _ _, _ => [vbuf x]
  | .vecNew x _, _ | .vecFilled x _ _, _ | .vecAdd x _ _, _ | .vecSub x _ _, _ | .vecNeg x _, _ | .vecSmul x _ _, _
  | .matVec x _ _, _ => [vbuf x]
  | st, c => if c then dnAssigned st else []

/-- The same for sparse matrices. -/
def spRenews : SpStmt T → Bool → List Nat
  | .coo (.move x _ _), _ => [cooObj x]
  | .move x _ _, _ => [csrObj x]
  | .coo (.copy x _), c => if c then [cooObj x] else []
  | .copy x _, c => if c then [csrObj x] else []
  | st, _ => spAssigned st

/-! ## Helpers -/

theorem dn_lawful [CommRing T] (nd : Bool) (ord : Nat → List Nat) : (dnLang (T := T) nd ord).Lawful where
  self := fun _ _ _ => Mem.setBuf_self _ _ _
  other := fun _ _ _ _ h => Mem.setBuf_other _ h _

theorem sp_lawful [Zero T] [One T] [Neg T] [Add T] [Mul T] (srt : SortFn) : (spLang (T := T) srt).Lawful where
  self := by
    intro s p l
    show (if p % 2 = 0 then _ else _) = l
    by_cases h : p % 2 = 0
    · simp [spLang, h, CooStore.setVal, CooStore.put]
    · simp [spLang, h, CsrStore.setVal, CsrStore.put]
  other := by
    intro s p q l hq
    show (if q % 2 = 0 then _ else _) = (if q % 2 = 0 then _ else _)
    by_cases hp : p % 2 = 0
    · by_cases h : q % 2 = 0
      · have : q / 2 ≠ p / 2 := by omega
        simp [spLang, h, hp, CooStore.setVal, CooStore.put, this]
      · simp [spLang, h, hp]
    · by_cases h : q % 2 = 0
      · simp [spLang, h, hp]
      · have : q / 2 ≠ p / 2 := by omega
        simp [spLang, h, hp, CsrStore.setVal, CsrStore.put, this]

theorem ext_lawful [Zero T] : (extLang (T := T)).Lawful where
  self := by
    intro s p l
    show (if p % 2 = 0 then _ else _) = l
    by_cases h : p % 2 = 0
    · simp [extLang, h, ExtStore.putHess]
    · simp [extLang, h, ExtStore.putUp]
  other := by
    intro s p q l hq
    show (if q % 2 = 0 then _ else _) = (if q % 2 = 0 then _ else _)
    by_cases hp : p % 2 = 0
    · by_cases h : q % 2 = 0
      · have : q / 2 ≠ p / 2 := by omega
        simp [extLang, h, hp, ExtStore.putHess, this]
      · simp [extLang, h, hp, ExtStore.putHess]
    · by_cases h : q % 2 = 0
      · simp [extLang, h, hp, ExtStore.putUp]
      · have : q / 2 ≠ p / 2 := by omega
        simp [extLang, h, hp, ExtStore.putUp, this]

theorem dn_split {p : Nat} (hp : p ≠ 0) : (∃ q, p = vbuf q) ∨ ∃ q, p = mbuf q := by
  unfold vbuf mbuf
  rcases Nat.even_or_odd' p with ⟨c, h | h⟩
  · exact .inr ⟨c - 1, by omega⟩
  · exact .inl ⟨c, by omega⟩

/-- Objects that are not assigned to keep their size. -/
theorem dn_len [CommRing T] (nd : Bool) (ord : Nat → List Nat) (st : DnStmt T) {s s' : DnStore T} {p : Nat} (hp : p ≠ 0)
    (h : p ∉ dnAssigned st) (e : st.act nd ord s = .ok s') : (s'.mem p).length = (s.mem p).length := by
  have lens : ∀ (r : Res (Mem T)), Lens s.mem r → (r >>= fun m => .ok { s with mem := m }) = .ok s' →
      (s'.mem p).length = (s.mem p).length := by
    intro r hk hr
    cases r with
    | error f => cases hr
    | ok m => injection hr with hr; rw [← hr]; exact hk m rfl p
  have frame : (∀ q, p = vbuf q → q ∉ st.vecTargets) → (∀ q, p = mbuf q → q ∉ st.matTargets) →
      (s'.mem p).length = (s.mem p).length := by
    intro h1 h2
    rcases dn_split hp with ⟨q, rfl⟩ | ⟨q, rfl⟩
    · have := (C72_frame nd ord st s q).1 (h1 q rfl)
      rw [kept_ok e] at this
      rw [show s'.mem (vbuf q) = s.mem (vbuf q) from this]
    · have := ((C72_frame nd ord st s q).2 (h2 q rfl)).1
      rw [kept_ok e] at this
      rw [show s'.mem (mbuf q) = s.mem (mbuf q) from this]
  cases st with
  | vecSet x i v => exact lens _ (Lens.wr _ _ _ _) e
  | vecAddTo y z x => exact lens _ (Lens.val fun _ => Lens.addCore _ _ _ _ _ _) e
  | vecSubTo y z x => exact lens _ (Lens.val fun _ => Lens.subCore _ _ _ _ _ _) e
  | vecNegTo y x => exact lens _ (Lens.noexcept (Lens.val fun _ => Lens.range (fun _ _ => Lens.elem1 _ _ _ _ _) _ _ _)) e
  | axpy alpha y x =>
    exact lens _ (Lens.noexcept (Lens.val fun _ => Lens.range (fun _ _ => Lens.elem2 _ _ _ _ _ _) _ _ _)) e
  | vecScale alpha x => exact lens _ (Lens.noexcept (Lens.range (fun _ _ => Lens.elem1 _ _ _ _ _) _ _ _)) e
  | dotMember x i y z =>
    refine lens (dynDot s.mem (vbuf y) (vbuf z) >>= fun v => s.mem.wr (vbuf x) i v) (Lens.val fun _ => Lens.wr _ _ _ _) ?_
    rw [← e]; simp only [DnStmt.act, bind_assoc]
  | dotFree x i y z =>
    refine lens (dotDD s.mem (vbuf y) (vbuf z) >>= fun v => s.mem.wr (vbuf x) i v) (Lens.val fun _ => Lens.wr _ _ _ _) ?_
    rw [← e]; simp only [DnStmt.act, bind_assoc]
  | matSet x i j v => exact lens _ (Lens.wr _ _ _ _) e
  | matAddTo a b x => exact lens _ (Lens.noexcept (Lens.val fun _ => Lens.val fun _ => Lens.addCore _ _ _ _ _ _)) e
  | matSubTo a b x => exact lens _ (Lens.noexcept (Lens.val fun _ => Lens.val fun _ => Lens.subCore _ _ _ _ _ _)) e
  | matScale alpha x => exact lens _ (Lens.noexcept (Lens.range (fun _ _ => Lens.elem1 _ _ _ _ _) _ _ _)) e
  | gemv alpha a v beta w =>
    exact lens _ (Lens.noexcept (Lens.val fun _ => Lens.val fun _ => Lens.gemvCore _ _ _ _ _ _ _ _)) e
  | gemm alpha a b beta c =>
    exact lens _ (Lens.noexcept (Lens.val fun _ => Lens.val fun _ => Lens.val fun _ => Lens.gemmCore _ _ _ _ _ _ _ _ _)) e
  | _ =>
    refine frame ?_ ?_ <;> rintro q rfl hq <;>
      simp only [DnStmt.vecTargets, DnStmt.matTargets, List.mem_cons, List.not_mem_nil, or_false] at hq <;>
      first | (simp [dnAssigned, hq] at h; done) | (simp only [dnAssigned, List.mem_cons, List.not_mem_nil, or_false] at h; exact h (hq.imp (congrArg _) (congrArg _)))

theorem dn_hits {st : DnStmt T} {p : Nat} (h : p ∉ dnAssigned st) (c : Bool) : ∀ u ∈ st.upd c, p ∉ u.hits := by
  cases st <;> cases c <;> simp_all [dnAssigned, DnStmt.upd, Upd.hits]

theorem coo_set_len [Zero T] {a b : Coo T} {i j : Nat} {v : T} (h : a.set i j v = .ok b) : b.val.length = a.val.length := by
  unfold Coo.set at h
  cases e : a.search i j with
  | error f => rw [e] at h; cases h
  | ok r =>
    rw [e, ok_bind] at h
    cases r with
    | inl _ => cases h
    | inr cnt =>
      simp only at h
      by_cases hc : cnt < a.val.length
      · rw [lwr_ok hc, ok_bind] at h; injection h with h; rw [← h]; simp
      · rw [lwr_oob (by omega)] at h; cases h

theorem csr_set_len [Zero T] {a b : Csr T} {i j : Nat} {v : T} (h : a.set i j v = .ok b) : b.val.length = a.val.length := by
  unfold Csr.set at h
  cases e : a.search i j with
  | error f => rw [e] at h; cases h
  | ok r =>
    rw [e, ok_bind] at h
    cases r with
    | inl _ => cases h
    | inr cnt =>
      simp only at h
      by_cases hc : cnt < a.val.length
      · rw [lwr_ok hc, ok_bind] at h; injection h with h; rw [← h]; simp
      · rw [lwr_oob (by omega)] at h; cases h

theorem coo_scale_len [Mul T] {a b : Coo T} {alpha : T} (h : a.scale alpha = .ok b) : b.val.length = a.val.length := by
  unfold Coo.scale at h
  rw [scalCore_eq (show (Mem.ofList [a.val]).len 0 = a.nnz from rfl), ok_bind, Lalib.noexcept_ok] at h
  injection h with h
  rw [← h]
  simp [Mem.setBuf, Mem.ofList]

theorem csr_scale_len [Mul T] {a b : Csr T} {alpha : T} (h : a.scale alpha = .ok b) : b.val.length = a.val.length := by
  unfold Csr.scale at h
  rw [scalCore_eq (show (Mem.ofList [a.val]).len 0 = a.nnz from rfl), ok_bind, Lalib.noexcept_ok] at h
  injection h with h
  rw [← h]
  simp [Mem.setBuf, Mem.ofList]

theorem sp_len [Zero T] [One T] [Neg T] [Add T] [Mul T] (srt : SortFn) (st : SpStmt T) {s s' : SpStore T} {p : Nat}
    (h : p ∉ spAssigned st) (e : st.act srt s = .ok s') :
    ((spLang srt).val s' p).length = ((spLang srt).val s p).length := by
  have frame : (∀ q, p = cooObj q → q ∉ st.cooTargets) → (∀ q, p = csrObj q → q ∉ st.csrTargets) →
      ((spLang srt).val s' p).length = ((spLang srt).val s p).length := by
    intro h1 h2
    have hf := C64_frame srt st s
    unfold SpStmt.exec at hf
    rw [kept_ok e] at hf
    show List.length (if p % 2 = 0 then (s'.coo (p / 2)).val else (s'.csr (p / 2)).val) =
      List.length (if p % 2 = 0 then (s.coo (p / 2)).val else (s.csr (p / 2)).val)
    split
    · next hp => rw [hf.1 (p / 2) (h1 _ (by unfold cooObj; omega))]
    · next hp => rw [hf.2.1 (p / 2) (h2 _ (by unfold csrObj; omega))]
  have coo : ∀ x (a : Coo T), a.val.length = (s.coo x).val.length → s' = { s with coo := s.coo.put x a } →
      ((spLang srt).val s' p).length = ((spLang srt).val s p).length := by
    rintro x a ha rfl
    show List.length (if p % 2 = 0 then ((s.coo.put x a) (p / 2)).val else (s.csr (p / 2)).val) =
      List.length (if p % 2 = 0 then (s.coo (p / 2)).val else (s.csr (p / 2)).val)
    split
    · unfold CooStore.put
      split
      · next h => rw [h]; exact ha
      · rfl
    · rfl
  have csr : ∀ x (a : Csr T), a.val.length = (s.csr x).val.length → s' = { s with csr := s.csr.put x a } →
      ((spLang srt).val s' p).length = ((spLang srt).val s p).length := by
    rintro x a ha rfl
    show List.length (if p % 2 = 0 then (s.coo (p / 2)).val else ((s.csr.put x a) (p / 2)).val) =
      List.length (if p % 2 = 0 then (s.coo (p / 2)).val else (s.csr (p / 2)).val)
    split
    · rfl
    · unfold CsrStore.put
      split
      · next h => rw [h]; exact ha
      · rfl
  cases st with
  | coo st =>
    cases st with
    | write x i j v =>
      simp only [SpStmt.act, CooStmt.act] at e
      cases e1 : (s.coo x).set i j v with
      | error f => rw [e1] at e; cases e
      | ok a => rw [e1] at e; injection e with e; exact coo x a (coo_set_len e1) e.symm
    | scale x alpha =>
      simp only [SpStmt.act, CooStmt.act] at e
      cases e1 : (s.coo x).scale alpha with
      | error f => rw [e1] at e; cases e
      | ok a => rw [e1] at e; injection e with e; exact coo x a (coo_scale_len e1) e.symm
    | _ =>
      refine frame ?_ ?_ <;> rintro q rfl hq <;>
        simp only [SpStmt.cooTargets, CooStmt.targets, SpStmt.csrTargets, List.mem_cons, List.not_mem_nil, or_false] at hq <;>
        first | (simp [spAssigned, hq] at h; done) | (simp only [spAssigned, List.mem_cons, List.not_mem_nil, or_false] at h; exact h (hq.imp (congrArg _) (congrArg _)))
  | write x i j v =>
    simp only [SpStmt.act] at e
    cases e1 : (s.csr x).set i j v with
    | error f => rw [e1] at e; cases e
    | ok a => rw [e1] at e; injection e with e; exact csr x a (csr_set_len e1) e.symm
  | scale x alpha =>
    simp only [SpStmt.act] at e
    cases e1 : (s.csr x).scale alpha with
    | error f => rw [e1] at e; cases e
    | ok a => rw [e1] at e; injection e with e; exact csr x a (csr_scale_len e1) e.symm
  | _ =>
    refine frame ?_ ?_ <;> rintro q rfl hq <;>
      simp only [SpStmt.cooTargets, SpStmt.csrTargets, List.mem_cons, List.not_mem_nil, or_false] at hq <;>
      first | (simp [spAssigned, hq] at h; done) | (simp only [spAssigned, List.mem_cons, List.not_mem_nil, or_false] at h; exact h (hq.imp (congrArg _) (congrArg _)))

theorem sp_hits {st : SpStmt T} {p : Nat} (h : p ∉ spAssigned st) (c : Bool) : ∀ u ∈ st.upd c, p ∉ u.hits := by
  cases st with
  | coo st => cases st <;> cases c <;> simp_all [spAssigned, SpStmt.upd, CooStmt.upd, Upd.hits]
  | _ => cases c <;> simp_all [spAssigned, SpStmt.upd, Upd.hits]

theorem refersTo (L : Lang St S T) (hL : L.Lawful) {s : VState S} (hw : s.Wf) {r p k : Nat} (h : s.Denotes L r p k) :
    RefersTo L s r p k := by
  refine ⟨h.2, h.load hw, fun v => ⟨_, h.store hw v, hL.self _ _ _, fun q hq => hL.other _ _ _ _ hq, rfl, rfl⟩⟩

theorem unusable (L : Lang St S T) {s : VState S} {r : Nat} (h : s.Dangling r) : Unusable L s r := by
  have := h.find
  refine ⟨?_, fun v => ?_, ?_, fun f c => ?_⟩
  · unfold VState.load; rw [this]; rfl
  · simp only [VStmt.exec]; rw [this]; rfl
  · simp only [VStmt.exec]; rw [this]; rfl
  · simp only [VStmt.exec, VState.load]; rw [this]; rfl

/-- A reference survives a program which leaves its object in place. -/
theorem denotes_run (L : Lang St S T) (hL : L.Lawful) {r p k : Nat} {is : List (VStmt St T)}
    (hi : ∀ i ∈ is, i.Leaves L r p) {s s' : VState S} (hw : s.Wf) (hd : s.Denotes L r p k)
    (hr : VStmt.run L is s = .ok s') : s'.Wf ∧ s'.Denotes L r p k := by
  refine VStmt.run_ind L (I := fun s => s.Wf ∧ s.Denotes L r p k) (fun i h s s' hs e => ?_) ⟨hw, hd⟩ hr
  exact ⟨VStmt.exec_wf L e hs.1, (VStmt.exec_denotes L hL e (hi i h) hs.2).1⟩

theorem dangling_run (L : Lang St S T) {r : Nat} {is : List (VStmt St T)} (hi : NotRebound r is)
    {s s' : VState S} (hw : s.Wf) (hd : s.Dangling r) (hr : VStmt.run L is s = .ok s') : s'.Dangling r := by
  refine (VStmt.run_ind L (I := fun s => s.Wf ∧ s.Dangling r) (fun i h s s' hs e => ?_) ⟨hw, hd⟩ hr).2
  refine ⟨VStmt.exec_wf L e hs.1, VStmt.exec_dangling L e ?_ hs.1 hs.2⟩
  have := hi i h
  cases i <;> exact this

theorem Reachable.wf {L : Lang St S T} {s : VState S} (h : Reachable L s) : s.Wf := by
  obtain ⟨t, is, h⟩ := h
  refine VStmt.run_ind L (I := fun s => s.Wf) (fun i _ s s' hs e => VStmt.exec_wf L e hs) ?_ h
  exact ⟨Sto.wf_init, fun r b k e => nomatch e⟩

theorem binds_denotes {L : Lang St S T} {s s1 : VState S} {r p k : Nat} {i : VStmt St T} (hi : Binds L s r p k i)
    (e : i.exec L s = .ok s1) : s1.Denotes L r p k := by
  rcases hi with rfl | ⟨rfl, hk⟩
  · simp only [VStmt.exec] at e
    split at e
    · next hk => injection e with e; rw [← e]; exact ⟨by simp [VState.bind], hk⟩
    · cases e
  · simp only [VStmt.exec] at e
    rw [if_pos (Nat.le_of_lt hk)] at e
    injection e with e
    rw [← e]
    exact ⟨by simp [VState.bind], hk⟩

theorem binds_not_throw {L : Lang St S T} {s : VState S} {r p k : Nat} {i : VStmt St T} (hi : Binds L s r p k i)
    (x : Exn) : i.exec L s ≠ .error (.throw x) := by
  rcases hi with rfl | ⟨rfl, hk⟩ <;> simp only [VStmt.exec] <;> split <;> simp

/-- A reference taken before a program which leaves the object in place. -/
theorem bound_run (L : Lang St S T) (hL : L.Lawful) {s s' : VState S} (hs : s.Wf) {r p k : Nat} {i : VStmt St T}
    (hi : Binds L s r p k i) {is : List (VStmt St T)} (hq : ∀ i ∈ is, i.Leaves L r p)
    (hr : VStmt.run L (i :: is) s = .ok s') : s'.Wf ∧ s'.Denotes L r p k := by
  simp only [VStmt.run] at hr
  cases e : i.exec L s with
  | ok s1 =>
    rw [e] at hr
    exact denotes_run L hL hq (VStmt.exec_wf L e hs) (binds_denotes hi e) hr
  | error f =>
    rw [e] at hr
    cases f with
    | throw x => exact absurd e (binds_not_throw hi x)
    | _ => cases hr

theorem dn_quiet [CommRing T] {nd : Bool} {ord : Nat → List Nat} {r p : Nat} (hp : p ≠ 0) {is : List (VStmt (DnStmt T) T)}
    (h : Quiet dnAssigned r p is) : ∀ i ∈ is, i.Leaves (dnLang nd ord) r p := by
  intro i hi
  have := h i hi
  cases i with
  | plain st c => exact ⟨dn_hits this c, fun s s' e => Nat.le_of_eq (dn_len nd ord st hp this e).symm⟩
  | given q f c => exact fun v => ⟨dn_hits (this v) c, fun s s' e => Nat.le_of_eq (dn_len nd ord (f v) hp (this v) e).symm⟩
  | store => trivial
  | _ => exact this

theorem sp_quiet [Zero T] [One T] [Neg T] [Add T] [Mul T] {srt : SortFn} {r p : Nat} {is : List (VStmt (SpStmt T) T)}
    (h : Quiet spAssigned r p is) : ∀ i ∈ is, i.Leaves (spLang srt) r p := by
  intro i hi
  have := h i hi
  cases i with
  | plain st c => exact ⟨sp_hits this c, fun s s' e => Nat.le_of_eq (sp_len srt st this e).symm⟩
  | given q f c => exact fun v => ⟨sp_hits (this v) c, fun s s' e => Nat.le_of_eq (sp_len srt (f v) (this v) e).symm⟩
  | store => trivial
  | _ => exact this

/-- After a statement which gives the object a new array. -/
theorem renewed (L : Lang St S T) {s1 s2 : VState S} {r p k : Nat} (hw : s1.Wf) (hd : s1.Denotes L r p k)
    {st : St} {c : Bool} (hu : L.upd st c = [.fresh p] ∨ ∃ q, L.upd st c = [.take p q])
    (he : (VStmt.plain st c).exec L s1 = .ok s2) : s2.Wf ∧ s2.Dangling r := by
  refine ⟨VStmt.exec_wf L he hw, ?_⟩
  obtain ⟨t, ht, rfl⟩ := VStmt.obj_ok L he
  refine ⟨_, k, hd.1, ?_⟩
  rcases hu with hu | ⟨q, hu⟩
  · simp only [hu, List.foldl]
    exact hw.sto.dead_fresh p
  · simp only [hu, List.foldl, Sto.step]
    split
    · exact hw.sto.dead_fresh p
    · next hpq => exact hw.sto.dead_take hpq

/-- After a move. -/
theorem moved (L : Lang St S T) {s1 s2 : VState S} {r p q k : Nat} (hd : s1.Denotes L r q k)
    (hpq : p ≠ q) {st : St} {c : Bool} (hu : L.upd st c = [.take p q])
    (he : (VStmt.plain st c).exec L s1 = .ok s2) (hv : L.val s2.st p = L.val s1.st q) : s2.Denotes L r p k := by
  obtain ⟨t, ht, rfl⟩ := VStmt.obj_ok L he
  refine ⟨?_, by rw [hv]; exact hd.2⟩
  simp only [hu, List.foldl, Sto.step, if_neg hpq, Sto.take, if_true]
  exact hd.1

/-- After an assignment which uses the array there is. -/
theorem reused (L : Lang St S T) (hL : L.Lawful) {s1 s2 : VState S} {r p k : Nat} (hw : s1.Wf) (hd : s1.Denotes L r p k)
    {st : St} {c : Bool} (hu : L.upd st c = []) (he : (VStmt.plain st c).exec L s1 = .ok s2) :
    (k < (L.val s2.st p).length → RefersTo L s2 r p k) ∧
      ((L.val s2.st p).length ≤ k → s2.load L r = .error (.ub .oob)) := by
  have hw2 := VStmt.exec_wf L he hw
  obtain ⟨t, ht, rfl⟩ := VStmt.obj_ok L he
  simp only [hu, List.foldl] at hw2 ⊢
  refine ⟨fun hk => refersTo L hL hw2 ⟨hd.1, hk⟩, fun hk => ?_⟩
  unfold VState.load VState.find
  simp only [hd.1, hw.sto.has p, ok_bind]
  exact lrd_oob hk

/-! ## C78 -/

/-- Whatever a program does, every object has an array of its own, and every array which is allocated belongs to an
object: nothing is freed twice, nothing is lost. -/
theorem C78_arrays (L : Lang St S T) (s : VState S) (h : Reachable L s) :
    (∀ p q, s.sto.own p = s.sto.own q → p = q) ∧ (∀ b p, s.sto.owner b = some p ↔ s.sto.own p = b) ∧
    ∀ r b k, s.ref r = some (b, k) → s.sto.owner b ≠ none → ∃ p, s.sto.own p = b := by
  have hw := h.wf
  refine ⟨fun p q e => hw.sto.own_inj e, fun b p => ⟨hw.sto.uniq b p, ?_⟩, ?_⟩
  · rintro rfl; exact hw.sto.has p
  · intro r b k _ hb
    cases e : s.sto.owner b with
    | none => exact absurd e hb
    | some p => exact ⟨p, hw.sto.uniq b p e⟩

/-- A variable is unset, or its array has been freed, or it is at or past the end of the array of an object, or it is a
reference to one element of one object.  Only in the last case it can be read. -/
theorem C78_use (L : Lang St S T) (hL : L.Lawful) (s : VState S) (h : Reachable L s) (r : Nat) :
    s.load L r = .error (.ub .uninit) ∨ Unusable L s r ∨ s.load L r = .error (.ub .oob) ∨ ∃ p k, RefersTo L s r p k := by
  have hw := h.wf
  cases e : s.ref r with
  | none =>
    refine .inl ?_
    unfold VState.load VState.find
    rw [e]; rfl
  | some bk =>
    obtain ⟨b, k⟩ := bk
    cases eo : s.sto.owner b with
    | none => exact .inr (.inl (unusable L ⟨b, k, e, eo, hw.ref r b k e⟩))
    | some p =>
      by_cases hk : k < (L.val s.st p).length
      · refine .inr (.inr (.inr ⟨p, k, refersTo L hL hw ⟨?_, hk⟩⟩))
        rw [e, hw.sto.uniq b p eo]
      · refine .inr (.inr (.inl ?_))
        unfold VState.load VState.find
        simp only [e, eo, ok_bind]
        exact lrd_oob (by omega)

/-- Vectors and dense matrices: a reference to an element stays a reference to that element for as long as nothing is
assigned to the object as a whole, whatever else the program does. -/
theorem C78_dense_stable [CommRing T] (nd : Bool) (ord : Nat → List Nat) (s s' : VState (DnStore T))
    (hs : Reachable (dnLang nd ord) s) (r p k : Nat) (hp : ∃ x, p = vbuf x ∨ p = mbuf x) (i : VStmt (DnStmt T) T)
    (hi : Binds (dnLang nd ord) s r p k i) (is : List (VStmt (DnStmt T) T)) (hq : Quiet dnAssigned r p is)
    (hr : VStmt.run (dnLang nd ord) (i :: is) s = .ok s') : RefersTo (dnLang nd ord) s' r p k := by
  have h0 : p ≠ 0 := by
    obtain ⟨x, rfl | rfl⟩ := hp
    · exact vbuf_ne x
    · exact mbuf_ne x
  obtain ⟨h1, h2⟩ := bound_run _ (dn_lawful nd ord) hs.wf hi (dn_quiet h0 hq) hr
  exact refersTo _ (dn_lawful nd ord) h1 h2

/-- Sparse matrices: the same for references to stored values; `+=` counts as an assignment. -/
theorem C78_sparse_stable [Zero T] [One T] [Neg T] [Add T] [Mul T] (srt : SortFn) (s s' : VState (SpStore T))
    (hs : Reachable (spLang srt) s) (r p k : Nat) (i : VStmt (SpStmt T) T)
    (hi : Binds (spLang srt) s r p k i) (is : List (VStmt (SpStmt T) T)) (hq : Quiet spAssigned r p is)
    (hr : VStmt.run (spLang srt) (i :: is) s = .ok s') : RefersTo (spLang srt) s' r p k := by
  obtain ⟨h1, h2⟩ := bound_run _ (sp_lawful srt) hs.wf hi (sp_quiet hq) hr
  exact refersTo _ (sp_lawful srt) h1 h2

/-- Writing through a reference to a vector element is `x[k] = v`, through one to a matrix entry `x(i, j) = v`. -/
theorem C78_write [CommRing T] (nd : Bool) (ord : Nat → List Nat) (s : VState (DnStore T))
    (hs : Reachable (dnLang nd ord) s) (r x k i j : Nat) (v : T) :
    (VStmt.run (dnLang nd ord) [.elem r (vbuf x) k, .store r v] s).map (fun t => t.st) =
      ((DnStmt.vecSet x k v).act nd ord s.st) ∧
    (VStmt.run (dnLang nd ord) [.elem r (mbuf x) (i * (s.st.dim x).2 + j), .store r v] s).map (fun t => t.st) =
      ((DnStmt.matSet x i j v).act nd ord s.st) := by
  have key : ∀ p k, (VStmt.run (dnLang nd ord) [.elem r p k, .store r v] s).map (fun t => t.st) =
      s.st.mem.wr p k v >>= fun m => .ok { s.st with mem := m } := by
    intro p k
    by_cases hk : k < s.st.mem.len p
    · have e : (VStmt.elem r p k).exec (dnLang nd ord) s = .ok (s.bind r (s.sto.own p) k) := by
        simp only [VStmt.exec]; exact if_pos hk
      have hd : (s.bind r (s.sto.own p) k).Denotes (dnLang nd ord) r p k := binds_denotes (.inl rfl) e
      simp only [VStmt.run, e]
      rw [hd.store (VStmt.exec_wf _ e hs.wf) v, Mem.wr_ok hk]
      simp only [ok_bind]
      rw [Mem.upd_eq_setBuf]
      rfl
    · have e : (VStmt.elem r p k).exec (dnLang nd ord) s = .error (.ub .oob) := by
        simp only [VStmt.exec]; exact if_neg hk
      simp only [VStmt.run, e]
      rw [Mem.wr_oob (by omega)]
      rfl
  exact ⟨key _ _, key _ _⟩

/-- Two references are to the same memory exactly if they are to the same element of the same object. -/
theorem C78_alias (L : Lang St S T) (hL : L.Lawful) (s s' : VState S) (hs : Reachable L s) (r r' p p' k k' : Nat)
    (hr : r ≠ r') (v : T) (h : VStmt.run L [.elem r p k, .elem r' p' k', .store r v] s = .ok s') :
    ∃ h' : k' < (L.val s.st p').length,
      s'.load L r' = .ok (if p = p' ∧ k = k' then v else (L.val s.st p')[k']) := by
  by_cases hk : k < (L.val s.st p).length
  swap
  · simp only [VStmt.run, VStmt.exec] at h; rw [if_neg hk] at h; cases h
  by_cases hk' : k' < (L.val s.st p').length
  swap
  · simp only [VStmt.run, VStmt.exec] at h; rw [if_pos hk] at h
    simp only at h
    rw [if_neg (by exact hk')] at h; cases h
  refine ⟨hk', ?_⟩
  have e1 : (VStmt.elem r p k).exec L s = .ok (s.bind r (s.sto.own p) k) := by
    simp only [VStmt.exec]; rw [if_pos hk]
  have e2 : (VStmt.elem r' p' k').exec L (s.bind r (s.sto.own p) k) =
      .ok ((s.bind r (s.sto.own p) k).bind r' (s.sto.own p') k') := by
    simp only [VStmt.exec]
    exact if_pos hk'
  have w1 := VStmt.exec_wf L e1 hs.wf
  have w2 := VStmt.exec_wf L e2 w1
  have d1 : ((s.bind r (s.sto.own p) k).bind r' (s.sto.own p') k').Denotes L r p k := by
    refine ⟨?_, hk⟩
    simp [VState.bind, hr]
  have d2 : ((s.bind r (s.sto.own p) k).bind r' (s.sto.own p') k').Denotes L r' p' k' := by
    refine ⟨?_, hk'⟩
    simp [VState.bind]
  have e3 := d1.store w2 v
  simp only [VStmt.run, e1, e2, e3] at h
  injection h with h
  have w3 := VStmt.exec_wf L e3 w2
  have d3 := (VStmt.exec_denotes L hL e3 trivial d2).1
  rw [← h, d3.load w3]
  congr 1
  by_cases hp : p = p'
  · subst hp
    have : L.val (L.put s.st p ((L.val s.st p).set k v)) p = (L.val s.st p).set k v := hL.self _ _ _
    simp only [true_and]
    calc _ = ((L.val s.st p).set k v)[k']'(by simpa using hk') := by
            congr 1
      _ = _ := by rw [List.getElem_set]
  · rw [if_neg fun h => hp h.1]
    have : L.val (L.put s.st p ((L.val s.st p).set k v)) p' = L.val s.st p' := hL.other _ _ _ _ (Ne.symm hp)
    congr 1

/-- When a vector or matrix gets another array, every reference to its old elements becomes unusable, and remains so
until it is given a new value. -/
theorem C78_dense_dangling [CommRing T] (nd : Bool) (ord : Nat → List Nat) (s s1 s2 s3 : VState (DnStore T))
    (hs : Reachable (dnLang nd ord) s) (r p k : Nat) (hp : ∃ x, p = vbuf x ∨ p = mbuf x) (i : VStmt (DnStmt T) T)
    (hi : Binds (dnLang nd ord) s r p k i) (is : List (VStmt (DnStmt T) T)) (hq : Quiet dnAssigned r p is)
    (hr : VStmt.run (dnLang nd ord) (i :: is) s = .ok s1) (st : DnStmt T) (c : Bool) (hc : p ∈ dnRenews st c)
    (he : (VStmt.plain st c).exec (dnLang nd ord) s1 = .ok s2) (is' : List (VStmt (DnStmt T) T)) (hn : NotRebound r is')
    (hr' : VStmt.run (dnLang nd ord) is' s2 = .ok s3) : Unusable (dnLang nd ord) s3 r := by
  have h0 : p ≠ 0 := by
    obtain ⟨x, rfl | rfl⟩ := hp
    · exact vbuf_ne x
    · exact mbuf_ne x
  obtain ⟨h1, h2⟩ := bound_run _ (dn_lawful nd ord) hs.wf hi (dn_quiet h0 hq) hr
  have hu : (dnLang nd ord).upd st c = [.fresh p] ∨ ∃ q, (dnLang nd ord).upd st c = [.take p q] := by
    show st.upd c = _ ∨ ∃ q, st.upd c = _
    cases st <;> cases c <;> simp_all [dnRenews, dnAssigned, DnStmt.upd]
  obtain ⟨h3, h4⟩ := renewed _ h1 h2 hu he
  exact unusable _ (dangling_run _ hn h3 h4 hr')

/-- The same for sparse matrices; in particular `x += y` makes every reference to a stored value of `x` unusable. -/
theorem C78_sparse_dangling [Zero T] [One T] [Neg T] [Add T] [Mul T] (srt : SortFn) (s s1 s2 s3 : VState (SpStore T))
    (hs : Reachable (spLang srt) s) (r p k : Nat) (i : VStmt (SpStmt T) T)
    (hi : Binds (spLang srt) s r p k i) (is : List (VStmt (SpStmt T) T)) (hq : Quiet spAssigned r p is)
    (hr : VStmt.run (spLang srt) (i :: is) s = .ok s1) (st : SpStmt T) (c : Bool) (hc : p ∈ spRenews st c)
    (he : (VStmt.plain st c).exec (spLang srt) s1 = .ok s2) (is' : List (VStmt (SpStmt T) T)) (hn : NotRebound r is')
    (hr' : VStmt.run (spLang srt) is' s2 = .ok s3) : Unusable (spLang srt) s3 r := by
  obtain ⟨h1, h2⟩ := bound_run _ (sp_lawful srt) hs.wf hi (sp_quiet hq) hr
  have hu : (spLang srt).upd st c = [.fresh p] ∨ ∃ q, (spLang srt).upd st c = [.take p q] := by
    show st.upd c = _ ∨ ∃ q, st.upd c = _
    cases st with
    | coo st => cases st <;> cases c <;> simp_all [spRenews, spAssigned, SpStmt.upd, CooStmt.upd]
    | _ => cases c <;> simp_all [spRenews, spAssigned, SpStmt.upd]
  obtain ⟨h3, h4⟩ := renewed _ h1 h2 hu he
  exact unusable _ (dangling_run _ hn h3 h4 hr')

/-- After `x = std::move(y)` a reference to an element of the vector or sparse matrix `y` is a reference to the same
element of `x`. -/
theorem C78_dense_move [CommRing T] (nd : Bool) (ord : Nat → List Nat) (s s1 s2 : VState (DnStore T))
    (hs : Reachable (dnLang nd ord) s) (r x y k : Nat) (hxy : x ≠ y) (left : List T) (i : VStmt (DnStmt T) T)
    (hi : Binds (dnLang nd ord) s r (vbuf y) k i) (is : List (VStmt (DnStmt T) T))
    (hq : Quiet dnAssigned r (vbuf y) is) (hr : VStmt.run (dnLang nd ord) (i :: is) s = .ok s1) (c : Bool)
    (he : (VStmt.plain (.vecMove x y left) c).exec (dnLang nd ord) s1 = .ok s2) :
    RefersTo (dnLang nd ord) s2 r (vbuf x) k ∧ s2.load (dnLang nd ord) r = s1.load (dnLang nd ord) r := by
  obtain ⟨h1, h2⟩ := bound_run _ (dn_lawful nd ord) hs.wf hi (dn_quiet (vbuf_ne y) hq) hr
  have hne : vbuf x ≠ vbuf y := fun h => hxy (vbuf_inj.mp h)
  have hv : (dnLang nd ord).val s2.st (vbuf x) = (dnLang nd ord).val s1.st (vbuf y) := by
    obtain ⟨t, ht, rfl⟩ := VStmt.obj_ok _ he
    injection ht with ht
    rw [← ht]
    show ((s1.st.mem.setBuf (vbuf x) (s1.st.mem (vbuf y))).setBuf (vbuf y) left) (vbuf x) = _
    rw [Mem.setBuf_other _ hne, Mem.setBuf_self]
    rfl
  have h3 := moved _ h2 hne rfl he hv
  have h4 := VStmt.exec_wf _ he h1
  refine ⟨refersTo _ (dn_lawful nd ord) h4 h3, ?_⟩
  rw [h3.load h4, h2.load h1]
  congr 1
  congr 1

/-- The same for COO and CSR matrices and references to their stored values. -/
theorem C78_sparse_move [Zero T] [One T] [Neg T] [Add T] [Mul T] (srt : SortFn) (s s1 s2 : VState (SpStore T))
    (hs : Reachable (spLang srt) s) (r x y k : Nat) (hxy : x ≠ y) (c : Bool) :
    (∀ (left : Coo T) (i : VStmt (SpStmt T) T) (_ : Binds (spLang srt) s r (cooObj y) k i) (is : List (VStmt (SpStmt T) T))
      (_ : Quiet spAssigned r (cooObj y) is) (_ : VStmt.run (spLang srt) (i :: is) s = .ok s1)
      (_ : (VStmt.plain (.coo (.move x y left)) c).exec (spLang srt) s1 = .ok s2),
      RefersTo (spLang srt) s2 r (cooObj x) k ∧ s2.load (spLang srt) r = s1.load (spLang srt) r) ∧
    (∀ (left : Csr T) (i : VStmt (SpStmt T) T) (_ : Binds (spLang srt) s r (csrObj y) k i) (is : List (VStmt (SpStmt T) T))
      (_ : Quiet spAssigned r (csrObj y) is) (_ : VStmt.run (spLang srt) (i :: is) s = .ok s1)
      (_ : (VStmt.plain (.move x y left) c).exec (spLang srt) s1 = .ok s2),
      RefersTo (spLang srt) s2 r (csrObj x) k ∧ s2.load (spLang srt) r = s1.load (spLang srt) r) := by
  have e1 : ∀ x, cooObj x % 2 = 0 := by intro x; unfold cooObj; omega
  have e2 : ∀ x, ¬ csrObj x % 2 = 0 := by intro x; unfold csrObj; omega
  have e3 : ∀ x, cooObj x / 2 = x := by intro x; unfold cooObj; omega
  have e4 : ∀ x, csrObj x / 2 = x := by intro x; unfold csrObj; omega
  constructor
  · intro left i hi is hq hr he
    obtain ⟨h1, h2⟩ := bound_run _ (sp_lawful srt) hs.wf hi (sp_quiet hq) hr
    have hne : cooObj x ≠ cooObj y := by unfold cooObj; omega
    have hv : (spLang srt).val s2.st (cooObj x) = (spLang srt).val s1.st (cooObj y) := by
      obtain ⟨t, ht, rfl⟩ := VStmt.obj_ok _ he
      injection ht with ht
      rw [← ht]
      simp only [spLang, e1, e3, if_true, moveAssign_eq]
      simp [CooStore.put, hxy]
    have h3 := moved _ h2 hne rfl he hv
    have h4 := VStmt.exec_wf _ he h1
    refine ⟨refersTo _ (sp_lawful srt) h4 h3, ?_⟩
    rw [h3.load h4, h2.load h1]
    congr 1
    congr 1
  · intro left i hi is hq hr he
    obtain ⟨h1, h2⟩ := bound_run _ (sp_lawful srt) hs.wf hi (sp_quiet hq) hr
    have hne : csrObj x ≠ csrObj y := by unfold csrObj; omega
    have hv : (spLang srt).val s2.st (csrObj x) = (spLang srt).val s1.st (csrObj y) := by
      obtain ⟨t, ht, rfl⟩ := VStmt.obj_ok _ he
      injection ht with ht
      rw [← ht]
      simp only [spLang, e2, e4, if_false, csr_moveAssign_eq]
      simp [CsrStore.put, hxy]
    have h3 := moved _ h2 hne rfl he hv
    have h4 := VStmt.exec_wf _ he h1
    refine ⟨refersTo _ (sp_lawful srt) h4 h3, ?_⟩
    rw [h3.load h4, h2.load h1]
    congr 1
    congr 1

/-- Assignments by a copy for which `std::vector` uses the array there is: a reference to position `k` is one to
position `k` of the new contents, if there is such a position. -/
theorem C78_reuse [CommRing T] (nd : Bool) (ord : Nat → List Nat) (s s1 s2 : VState (DnStore T))
    (hs : Reachable (dnLang nd ord) s) (r p k : Nat) (hp : ∃ x, p = vbuf x ∨ p = mbuf x) (i : VStmt (DnStmt T) T)
    (hi : Binds (dnLang nd ord) s r p k i) (is : List (VStmt (DnStmt T) T)) (hq : Quiet dnAssigned r p is)
    (hr : VStmt.run (dnLang nd ord) (i :: is) s = .ok s1) (st : DnStmt T) (hc : p ∈ dnAssigned st)
    (hc' : dnRenews st false = []) (he : (VStmt.plain st false).exec (dnLang nd ord) s1 = .ok s2) :
    (k < (s2.st.mem p).length → RefersTo (dnLang nd ord) s2 r p k) ∧
      ((s2.st.mem p).length ≤ k → s2.load (dnLang nd ord) r = .error (.ub .oob)) := by
  have h0 : p ≠ 0 := by
    obtain ⟨x, rfl | rfl⟩ := hp
    · exact vbuf_ne x
    · exact mbuf_ne x
  obtain ⟨h1, h2⟩ := bound_run _ (dn_lawful nd ord) hs.wf hi (dn_quiet h0 hq) hr
  have hu : (dnLang nd ord).upd st false = [] := by
    show st.upd false = _
    cases st <;> simp_all [dnRenews, dnAssigned, DnStmt.upd]
  exact reused _ (dn_lawful nd ord) h1 h2 hu he

/-- `extend_with` and `extend_with_zero` of Hessenberg and upper triangular matrices: if the insertion at the end does
not allocate, a reference to an element remains one, with the same value; if it does, the reference is unusable. -/
theorem C78_extend [Zero T] (s s1 s2 : VState (ExtStore T)) (hs : Reachable extLang s) (r x k : Nat)
    (l : List T) (up : Bool) (st : ExtStmt T)
    (hst : if up then st = .upZero x ∨ st = .upWith x l else st = .hessZero x ∨ st = .hessWith x l)
    (hr : (VStmt.elem r (if up then 2 * x + 1 else 2 * x) k).exec extLang s = .ok s1) (c : Bool)
    (he : (VStmt.plain st c).exec extLang s1 = .ok s2) :
    (c = false → RefersTo extLang s2 r (if up then 2 * x + 1 else 2 * x) k ∧ s2.load extLang r = s1.load extLang r) ∧
    (c = true → Unusable extLang s2 r) := by
  set p := if up then 2 * x + 1 else 2 * x with hp
  have h1 := VStmt.exec_wf _ hr hs.wf
  have h2 : s1.Denotes extLang r p k := binds_denotes (.inl rfl) hr
  have happ : ∃ l', extLang.val s2.st p = extLang.val s1.st p ++ l' := by
    obtain ⟨t, ht, rfl⟩ := VStmt.obj_ok _ he
    change st.act s1.st = .ok t at ht
    have e1 : ¬ (2 * x + 1) % 2 = 0 := by omega
    have e2 : (2 * x + 1) / 2 = x := by omega
    cases up
    · simp only [Bool.false_eq_true, if_false] at hst hp
      rw [hp]
      rcases hst with rfl | rfl
      · simp only [ExtStmt.act, Hess.extendWithZero, ok_bind] at ht
        injection ht with ht
        rw [← ht]
        simp only [extLang, ExtStore.putHess]
        exact ⟨_, by simp; rfl⟩
      · simp only [ExtStmt.act, Hess.extendWith] at ht
        by_cases hl : l.length = (s1.st.hess x).n + 2
        · simp only [hl, bne_self_eq_false, throwIf_false, ok_bind] at ht
          injection ht with ht
          rw [← ht]
          simp only [extLang, ExtStore.putHess]
          exact ⟨l, by simp⟩
        · rw [throwIf_ne hl] at ht; cases ht
    · simp only [if_true] at hst hp
      rw [hp]
      rcases hst with rfl | rfl
      · simp only [ExtStmt.act, UTri.extendWithZero, ok_bind] at ht
        injection ht with ht
        rw [← ht]
        simp only [extLang, ExtStore.putUp]
        exact ⟨List.replicate ((s1.st.up x).n + 1) 0, by simp [e2]⟩
      · simp only [ExtStmt.act, UTri.extendWith] at ht
        by_cases hl : l.length = (s1.st.up x).n + 1
        · simp only [hl, bne_self_eq_false, throwIf_false, ok_bind] at ht
          injection ht with ht
          rw [← ht]
          simp only [extLang, ExtStore.putUp]
          exact ⟨l, by simp [e2]⟩
        · rw [throwIf_ne hl] at ht; cases ht
  obtain ⟨l', hl'⟩ := happ
  constructor
  · rintro rfl
    have hu : extLang.upd st false = [] := by
      show st.upd false = []
      cases up <;> simp only [Bool.false_eq_true, if_false, if_true] at hst <;> rcases hst with rfl | rfl <;> rfl
    have hk : k < (extLang.val s2.st p).length := by
      rw [hl', List.length_append]; exact Nat.lt_of_lt_of_le h2.2 (Nat.le_add_right _ _)
    have hrf := (reused _ ext_lawful h1 h2 hu he).1 hk
    refine ⟨hrf, ?_⟩
    obtain ⟨_, hload, _⟩ := hrf
    rw [hload, h2.load h1]
    congr 1
    simp only [hl']
    exact List.getElem_append_left h2.2
  · rintro rfl
    have hu : extLang.upd st true = [.fresh p] := by
      show st.upd true = _
      cases up <;> simp only [Bool.false_eq_true, if_false, if_true] at hst hp <;> rcases hst with rfl | rfl <;> rw [hp] <;> rfl
    exact unusable _ (renewed _ h1 h2 (.inl hu) he).2

theorem walk_set (f : T → T) (l : List T) (k : Nat) (hk : k < l.length) :
    ((l.take k).map f ++ l.drop k).set k (f l[k]) = (l.take (k + 1)).map f ++ l.drop (k + 1) := by
  induction l generalizing k with
  | nil => simp at hk
  | cons a l ih =>
    cases k with
    | zero => simp
    | succ k => simpa using ih k (by simpa using hk)

theorem walk_get (f : T → T) (l : List T) (k : Nat) (hk : k < l.length) :
    ((l.take k).map f ++ l.drop k)[k]'(by simp; omega) = l[k] := by
  induction l generalizing k with
  | nil => simp at hk
  | cons a l ih =>
    cases k with
    | zero => simp
    | succ k => simpa using ih k (by simpa using hk)

/-- `for (auto& e : x) e = f(e);` visits every element of `x` once, in storage order (row by row for a matrix), and
nothing else. -/
theorem C78_range_for (L : Lang St S T) (hL : L.Lawful) (f : T → T) (s s1 : VState S) (hs : Reachable L s) (r p : Nat)
    (hb : (VStmt.iter r p 0).exec L s = .ok s1) (fuel : Nat) (hf : (L.val s.st p).length < fuel) :
    ∃ s2, VStmt.rangeFor L f r fuel (s.sto.own p, (L.val s.st p).length) s1 = .ok s2 ∧
      L.val s2.st p = (L.val s.st p).map f ∧ (∀ q, q ≠ p → L.val s2.st q = L.val s.st q) ∧ s2.sto = s.sto ∧
      s2.ref r = some (s.sto.own p, (L.val s.st p).length) ∧ ∀ q, q ≠ r → s2.ref q = s.ref q := by
  have key : ∀ (n k : Nat) (t : VState S), t.Wf → t.sto = s.sto → t.ref r = some (s.sto.own p, k) →
      k + n = (L.val s.st p).length → (∀ q, q ≠ r → t.ref q = s.ref q) → (∀ q, q ≠ p → L.val t.st q = L.val s.st q) →
      L.val t.st p = ((L.val s.st p).take k).map f ++ (L.val s.st p).drop k → ∀ fuel, n < fuel →
      ∃ s2, VStmt.rangeFor L f r fuel (s.sto.own p, (L.val s.st p).length) t = .ok s2 ∧
        L.val s2.st p = (L.val s.st p).map f ∧ (∀ q, q ≠ p → L.val s2.st q = L.val s.st q) ∧ s2.sto = s.sto ∧
        s2.ref r = some (s.sto.own p, (L.val s.st p).length) ∧ ∀ q, q ≠ r → s2.ref q = s.ref q := by
    intro n
    induction n with
    | zero =>
      intro k t hw h1 h2 h3 h4 h5 h6 fuel hf
      obtain ⟨fuel, rfl⟩ : ∃ m, fuel = m + 1 := ⟨fuel - 1, by omega⟩
      have hk : k = (L.val s.st p).length := by omega
      refine ⟨t, ?_, ?_, h5, h1, by rw [h2, hk], h4⟩
      · simp only [VStmt.rangeFor, h2, hk, if_true]
      · rw [h6, hk]; simp
    | succ n ih =>
      intro k t hw h1 h2 h3 h4 h5 h6 fuel hf
      obtain ⟨fuel, rfl⟩ : ∃ m, fuel = m + 1 := ⟨fuel - 1, by omega⟩
      have hlen : (L.val t.st p).length = (L.val s.st p).length := by
        rw [h6]; simp; omega
      have hd : t.Denotes L r p k := ⟨by rw [h2, h1], by omega⟩
      have hne : t.ref r ≠ some (s.sto.own p, (L.val s.st p).length) := by
        rw [h2]; intro e; injection e with e; injection e with _ e; omega
      have hst := hd.store hw (f ((L.val t.st p)[k]'hd.2))
      have hw1 := VStmt.exec_wf L hst hw
      have hd1 := (VStmt.exec_denotes L hL hst trivial hd).1
      have hin : ∀ u : VState S, u.Wf → u.Denotes L r p k →
          (VStmt.incr r).exec L u = .ok (u.bind r (u.sto.own p) (k + 1)) := by
        intro u hu hdu
        simp only [VStmt.exec]
        rw [hdu.find hu, ok_bind]
        simp only
        rw [if_pos hdu.2]
      have hi := hin _ hw1 hd1
      have hrun : VStmt.rangeFor L f r (fuel + 1) (s.sto.own p, (L.val s.st p).length) t =
          VStmt.rangeFor L f r fuel (s.sto.own p, (L.val s.st p).length)
            (VState.bind { t with st := L.put t.st p ((L.val t.st p).set k (f ((L.val t.st p)[k]'hd.2))) } r (t.sto.own p) (k + 1)) := by
        rw [VStmt.rangeFor, if_neg hne, hd.load hw, ok_bind, hst, ok_bind, hi, ok_bind]
      rw [hrun]
      refine ih (k + 1) _ (VStmt.exec_wf L hi hw1) h1 ?_ (by omega) ?_ ?_ ?_ fuel (by omega)
      · simp only [VState.bind, if_true]; rw [h1]
      · intro q hq
        simp only [VState.bind, if_neg hq]
        exact h4 q hq
      · intro q hq
        show L.val (L.put t.st p _) q = _
        rw [hL.other _ _ _ _ hq, h5 q hq]
      · show L.val (L.put t.st p _) p = _
        rw [hL.self]
        have hks : k < (L.val s.st p).length := by omega
        have hget : (L.val t.st p)[k]'hd.2 = (L.val s.st p)[k] := by
          have : (L.val t.st p)[k]'hd.2 =
              (((L.val s.st p).take k).map f ++ (L.val s.st p).drop k)[k]'(by rw [← h6]; exact hd.2) := by congr 1
          rw [this, walk_get f _ k hks]
        rw [hget, h6]
        exact walk_set f _ k hks
  have e : s1 = s.bind r (s.sto.own p) 0 := by
    simp only [VStmt.exec, Nat.zero_le, if_true] at hb
    injection hb with hb
    exact hb.symm
  have hw1 := VStmt.exec_wf L hb hs.wf
  subst e
  refine key (L.val s.st p).length 0 _ hw1 rfl (by simp [VState.bind]) (by omega)
    (fun q hq => by simp [VState.bind, hq]) (fun q _ => rfl) (by simp [VState.bind]) fuel hf

/-- A scalar argument may be an element of the object which is modified: `scale(x[k], x)` and `scale(x(i, j), x)`
multiply every element by the value `x[k]` or `x(i, j)` had before the call. -/
theorem C78_own_scalar [CommRing T] (nd : Bool) (ord : Nat → List Nat) (s s1 : VState (DnStore T))
    (hs : Reachable (dnLang nd ord) s) (r x k : Nat) (c : Bool) :
    ((VStmt.elem r (vbuf x) k).exec (dnLang nd ord) s = .ok s1 →
      ∃ (h : k < (s.st.mem (vbuf x)).length) (s2 : _),
        (VStmt.given r (fun v => .vecScale v x) c).exec (dnLang nd ord) s1 = .ok s2 ∧
        s2.st = { s.st with mem := s.st.mem.setBuf (vbuf x) ((s.st.mem (vbuf x)).map fun a => (s.st.mem (vbuf x))[k] * a) }) ∧
    ((s.st.mref x).Wf s.st.mem → (VStmt.elem r (mbuf x) k).exec (dnLang nd ord) s = .ok s1 →
      ∃ (h : k < (s.st.mem (mbuf x)).length) (s2 : _),
        (VStmt.given r (fun v => .matScale v x) c).exec (dnLang nd ord) s1 = .ok s2 ∧
        s2.st = { s.st with mem := s.st.mem.setBuf (mbuf x) ((s.st.mem (mbuf x)).map fun a => (s.st.mem (mbuf x))[k] * a) }) := by
  constructor
  · intro e
    have hd := binds_denotes (.inl rfl) e
    have hw := VStmt.exec_wf _ e hs.wf
    have hst : s1.st = s.st := by
      simp only [VStmt.exec] at e
      split at e
      · injection e with e; rw [← e]; rfl
      · cases e
    have hk : k < (s.st.mem (vbuf x)).length := by have := hd.2; rw [hst] at this; exact this
    have hl : s1.load (dnLang nd ord) r = .ok (s.st.mem (vbuf x))[k] := by
      rw [hd.load hw]; congr 1; simp only [hst]; rfl
    have he : (VStmt.given r (fun v => .vecScale v x) c).exec (dnLang nd ord) s1 = .ok { s1 with
        st := { s.st with mem := s.st.mem.setBuf (vbuf x) ((s.st.mem (vbuf x)).map fun a => (s.st.mem (vbuf x))[k] * a) } } := by
      simp only [VStmt.exec, hl, ok_bind, VStmt.obj]
      show (noexcept (scalCore _ s1.st.mem (vbuf x) _) >>= _) >>= _ = _
      rw [hst, scalCore_eq rfl, Lalib.noexcept_ok]
      rfl
    exact ⟨hk, _, he, rfl⟩
  · intro hwf e
    have hd := binds_denotes (.inl rfl) e
    have hw := VStmt.exec_wf _ e hs.wf
    have hst : s1.st = s.st := by
      simp only [VStmt.exec] at e
      split at e
      · injection e with e; rw [← e]; rfl
      · cases e
    have hk : k < (s.st.mem (mbuf x)).length := by have := hd.2; rw [hst] at this; exact this
    have hl : s1.load (dnLang nd ord) r = .ok (s.st.mem (mbuf x))[k] := by
      rw [hd.load hw]; congr 1; simp only [hst]; rfl
    have he : (VStmt.given r (fun v => .matScale v x) c).exec (dnLang nd ord) s1 = .ok { s1 with
        st := { s.st with mem := s.st.mem.setBuf (mbuf x) ((s.st.mem (mbuf x)).map fun a => (s.st.mem (mbuf x))[k] * a) } } := by
      simp only [VStmt.exec, hl, ok_bind, VStmt.obj]
      show (noexcept (scalCore _ s1.st.mem (mbuf x) _) >>= _) >>= _ = _
      rw [hst, scalCore_eq (x := mbuf x) hwf, Lalib.noexcept_ok]
      rfl
    exact ⟨hk, _, he, rfl⟩

/-! ### Examples -/

section examples

/-- Vectors and matrices of integers. -/
private abbrev LZ : Lang (DnStmt Int) (DnStore Int) Int := dnLang true List.range

private abbrev z0 : VState (DnStore Int) := VState.start ⟨fun _ => [], fun _ => (0, 0)⟩

private def obs (r : Nat) (x : Res (VState (DnStore Int))) : Res Int := x >>= fun s => s.load LZ r

-- a reference sees what an operation on the vector does, and writes to the vector
example : obs 7 (VStmt.run LZ [.plain (.vecNew 0 [1, 2, 3]) false, .elem 7 (vbuf 0) 1, .plain (.vecScale 5 0) false] z0) =
    .ok 10 := by decide +kernel

example : (VStmt.run LZ [.plain (.vecNew 0 [1, 2, 3]) false, .iter 7 (vbuf 0) 0, .incr 7, .store 7 9] z0).map
    (fun s => s.st.mem (vbuf 0)) = .ok [1, 9, 3] := by decide +kernel

-- `x = x + x` moves a new vector into `x`
example : obs 7 (VStmt.run LZ [.plain (.vecNew 0 [1, 2, 3]) false, .elem 7 (vbuf 0) 1, .plain (.vecAdd 0 0 0) false] z0) =
    .error (.ub .dangling) := by decide +kernel

-- for matrices it depends on `std::vector`
example : obs 7 (VStmt.run LZ [.plain (.matNew 0 1 2 [1, 2]) false, .elem 7 (mbuf 0) 1, .plain (.matAdd 0 0 0) false] z0) =
    .ok 4 := by decide +kernel

example : obs 7 (VStmt.run LZ [.plain (.matNew 0 1 2 [1, 2]) false, .elem 7 (mbuf 0) 1, .plain (.matAdd 0 0 0) true] z0) =
    .error (.ub .dangling) := by decide +kernel

-- a reference to the source of a move, and one to its target
example : obs 7 (VStmt.run LZ [.plain (.vecNew 0 [1, 2, 3]) false, .plain (.vecNew 1 [4]) false, .elem 7 (vbuf 0) 1,
    .elem 8 (vbuf 1) 0, .plain (.vecMove 1 0 []) false] z0) = .ok 2 := by decide +kernel

example : obs 8 (VStmt.run LZ [.plain (.vecNew 0 [1, 2, 3]) false, .plain (.vecNew 1 [4]) false, .elem 7 (vbuf 0) 1,
    .elem 8 (vbuf 1) 0, .plain (.vecMove 1 0 []) false] z0) = .error (.ub .dangling) := by decide +kernel

-- `scale(x(0, 0), x)`
example : (VStmt.run LZ [.plain (.matNew 0 2 2 [2, 3, 4, 5]) false, .elem 7 (mbuf 0) 0,
    .given 7 (fun v => .matScale v 0) false] z0).map (fun s => s.st.mem (mbuf 0)) = .ok [4, 6, 8, 10] := by decide +kernel

-- `for (auto& e : x) e = e + 1;`
example : (VStmt.run LZ [.plain (.vecNew 0 [1, 2, 3]) false, .iter 7 (vbuf 0) 0] z0 >>= fun s =>
    VStmt.rangeFor LZ (· + 1) 7 4 (s.sto.own (vbuf 0), 3) s).map (fun s => s.st.mem (vbuf 0)) = .ok [2, 3, 4] := by
  decide +kernel

-- an iterator at the end is not dereferenced
example : obs 7 (VStmt.run LZ [.plain (.vecNew 0 [1, 2, 3]) false, .iter 7 (vbuf 0) 3] z0) = .error (.ub .oob) := by
  decide +kernel

-- the hypotheses of the theorems hold together
example : ∃ s, Reachable LZ s ∧ RefersTo LZ s 7 (vbuf 0) 1 := by
  have h : Reachable LZ z0 := ⟨_, [], rfl⟩
  cases e : VStmt.run LZ [.plain (.vecNew 0 [1, 2, 3]) false] z0 with
  | error f => simp [VStmt.run, VStmt.exec, VStmt.obj, dnLang, DnStmt.act] at e
  | ok s =>
    have hs : Reachable LZ s := ⟨_, _, e⟩
    have hv : LZ.val s.st (vbuf 0) = [1, 2, 3] := by
      simp only [VStmt.run, VStmt.exec, VStmt.obj, dnLang, DnStmt.act, ok_bind] at e
      injection e with e
      rw [← e]; rfl
    have hb : (VStmt.elem 7 (vbuf 0) 1).exec LZ s = .ok (s.bind 7 (s.sto.own (vbuf 0)) 1) := by
      simp only [VStmt.exec]; rw [if_pos (by rw [hv]; decide)]
    cases e' : VStmt.run LZ [.elem 7 (vbuf 0) 1, .plain (.vecScale 5 0) false] s with
    | error f =>
      simp only [VStmt.run, hb] at e'
      have : (VStmt.plain (.vecScale 5 0) false).exec LZ (s.bind 7 (s.sto.own (vbuf 0)) 1) =
          .ok { s.bind 7 (s.sto.own (vbuf 0)) 1 with
            st := { s.st with mem := s.st.mem.setBuf (vbuf 0) ((s.st.mem (vbuf 0)).map fun a => 5 * a) } } := by
        simp only [VStmt.exec, VStmt.obj]
        show (noexcept (scalCore _ s.st.mem (vbuf 0) (s.st.mem.len (vbuf 0))) >>= _) >>= _ = _
        rw [scalCore_eq rfl, Lalib.noexcept_ok]
        rfl
      rw [this] at e'
      cases e'
    | ok s' =>
      obtain ⟨t0, is0, h0⟩ := hs
      refine ⟨s', ⟨t0, is0 ++ [.elem 7 (vbuf 0) 1, .plain (.vecScale 5 0) false], ?_⟩, ?_⟩
      · have app : ∀ (is js : List (VStmt (DnStmt Int) Int)) (u v : VState (DnStore Int)), VStmt.run LZ is u = .ok v →
            VStmt.run LZ (is ++ js) u = VStmt.run LZ js v := by
          intro is
          induction is with
          | nil => intro js u v h; injection h with h; rw [← h]; rfl
          | cons i is ih =>
            intro js u v h
            simp only [VStmt.run, List.cons_append] at h ⊢
            cases ei : i.exec LZ u with
            | ok w => rw [ei] at h; exact ih js w v h
            | error f =>
              rw [ei] at h
              cases f with
              | throw x => exact ih js u v h
              | _ => cases h
        rw [app _ _ _ _ h0]; exact e'
      · refine C78_dense_stable true List.range s s' ⟨t0, is0, h0⟩ 7 (vbuf 0) 1 ⟨0, .inl rfl⟩ _ (.inl rfl) _ ?_ e'
        intro i hi
        rw [List.mem_singleton] at hi
        subst hi
        simp [dnAssigned]

/-- Insertion sort of the positions, as an example of `std::ranges::sort`. -/
private def isort : SortFn := fun lt l => l.insertionSort fun a b => lt b a = false

private abbrev LS : Lang (SpStmt Int) (SpStore Int) Int := spLang isort

private abbrev w0 : VState (SpStore Int) := VState.start ⟨fun _ => ⟨[], [], []⟩, fun _ => ⟨[], [], []⟩⟩

-- `x += x` makes references into `x` unusable, `scale(3, x)` does not
example : (VStmt.run LS [.plain (.coo (.construct 0 [4, 5] [0, 1] [0, 1])) false, .elem 7 (cooObj 0) 1,
    .plain (.coo (.scale 0 3)) false] w0 >>= fun s => s.load LS 7) = .ok 15 := by decide +kernel

example : (VStmt.run LS [.plain (.coo (.construct 0 [4, 5] [0, 1] [0, 1])) false, .elem 7 (cooObj 0) 1,
    .plain (.coo (.addAssign 0 0)) false] w0 >>= fun s => s.load LS 7) = .error (.ub .dangling) := by decide +kernel

private abbrev e0 : VState (ExtStore Int) := VState.start ⟨fun _ => ⟨0, []⟩, fun _ => ⟨0, []⟩⟩

example : (VStmt.run extLang [.plain (.upWith 0 [4]) true, .elem 7 1 0, .plain (.upWith 0 [5, 6]) false] e0 >>=
    fun s => s.load extLang 7) = .ok 4 := by decide +kernel

example : (VStmt.run extLang [.plain (.upWith 0 [4]) true, .elem 7 1 0, .plain (.upWith 0 [5, 6]) true] e0 >>=
    fun s => s.load extLang 7) = .error (.ub .dangling) := by decide +kernel

end examples

end Lalib.Props
