import Verif.Model.Views
import Verif.Proofs.Keeps
import Verif.Proofs.DenseStore

/-! # Lemmas about arrays, references and iterators -/

namespace Lalib

variable {T : Type}

namespace Sto

/-- Every object has an array of its own, every allocated array belongs to an object, and the counters are ahead. -/
structure Wf (o : Sto) : Prop where
  has : ∀ p, o.owner (o.own p) = some p
  uniq : ∀ b p, o.owner b = some p → o.own p = b
  old : ∀ b, o.owner b ≠ none → b.2 < o.gen b.1

/-- An array that has been freed. -/
def Dead (o : Sto) (b : Blk) : Prop := o.owner b = none ∧ b.2 < o.gen b.1

theorem wf_init : init.Wf where
  has := fun p => by simp [init]
  uniq := by
    intro b p h
    simp only [init] at h ⊢
    split at h
    · next h0 => injection h with h; rw [← h, ← h0]
    · cases h
  old := by
    intro b h
    simp only [init] at h ⊢
    split at h
    · next h0 => omega
    · exact absurd rfl h

variable {o : Sto}

theorem Wf.own_old (h : o.Wf) (p : Nat) : (o.own p).2 < o.gen (o.own p).1 := h.old _ (by rw [h.has p]; simp)

theorem Wf.ne_new (h : o.Wf) (p r : Nat) : o.own r ≠ (p, o.gen p) := by
  intro e
  have := h.own_old r
  rw [e] at this
  simp at this

theorem Wf.own_inj (h : o.Wf) {p q : Nat} (e : o.own p = o.own q) : p = q := by
  have h1 := h.has p
  rw [e, h.has q] at h1
  injection h1 with h1
  exact h1.symm

theorem Wf.fresh (h : o.Wf) (p : Nat) : (o.fresh p).Wf where
  has := by
    intro r
    simp only [Sto.fresh]
    by_cases hr : r = p
    · simp [hr]
    · simp only [hr, if_false]
      rw [if_neg (h.ne_new p r), if_neg fun e => hr (h.own_inj e)]
      exact h.has r
  uniq := by
    intro b r hb
    simp only [Sto.fresh] at hb ⊢
    by_cases h1 : b = (p, o.gen p)
    · rw [if_pos h1] at hb
      injection hb with hb
      rw [if_pos hb.symm, h1]
    · rw [if_neg h1] at hb
      by_cases h2 : b = o.own p
      · rw [if_pos h2] at hb; cases hb
      · rw [if_neg h2] at hb
        have hr : r ≠ p := by
          rintro rfl
          exact h2 (h.uniq b r hb).symm
        rw [if_neg hr]
        exact h.uniq b r hb
  old := by
    intro b hb
    simp only [Sto.fresh] at hb ⊢
    by_cases h1 : b = (p, o.gen p)
    · rw [h1]; simp
    · rw [if_neg h1] at hb
      by_cases h2 : b = o.own p
      · rw [if_pos h2] at hb; exact absurd rfl hb
      · rw [if_neg h2] at hb
        have := h.old b hb
        split
        · next e => rw [e] at this; omega
        · exact this

theorem Wf.take (h : o.Wf) {p q : Nat} (hpq : p ≠ q) : (o.take p q).Wf where
  has := by
    intro r
    simp only [Sto.take]
    by_cases hr : r = p
    · simp only [hr, if_true]
      rw [if_neg (h.ne_new q q)]
    · simp only [hr, if_false]
      by_cases hq : r = q
      · simp [hq]
      · simp only [hq, if_false]
        rw [if_neg (h.ne_new q r), if_neg fun e => hq (h.own_inj e), if_neg fun e => hr (h.own_inj e)]
        exact h.has r
  uniq := by
    intro b r hb
    simp only [Sto.take] at hb ⊢
    by_cases h1 : b = (q, o.gen q)
    · rw [if_pos h1] at hb
      injection hb with hb
      rw [if_neg (by rw [← hb]; exact fun e => hpq e.symm), if_pos hb.symm, h1]
    · rw [if_neg h1] at hb
      by_cases h2 : b = o.own q
      · rw [if_pos h2] at hb
        injection hb with hb
        rw [if_pos hb.symm, h2]
      · rw [if_neg h2] at hb
        by_cases h3 : b = o.own p
        · rw [if_pos h3] at hb; cases hb
        · rw [if_neg h3] at hb
          have hr : r ≠ p := by rintro rfl; exact h3 (h.uniq b r hb).symm
          have hq : r ≠ q := by rintro rfl; exact h2 (h.uniq b r hb).symm
          rw [if_neg hr, if_neg hq]
          exact h.uniq b r hb
  old := by
    intro b hb
    simp only [Sto.take] at hb ⊢
    by_cases h1 : b = (q, o.gen q)
    · rw [h1]; simp
    · rw [if_neg h1] at hb
      have key : o.owner b ≠ none := by
        by_cases h2 : b = o.own q
        · rw [h2, h.has q]; simp
        · rw [if_neg h2] at hb
          by_cases h3 : b = o.own p
          · rw [if_pos h3] at hb; exact absurd rfl hb
          · rw [if_neg h3] at hb; exact hb
      have := h.old b key
      split
      · next e => rw [e] at this; omega
      · exact this

theorem Wf.step (h : o.Wf) (u : Upd) : (o.step u).Wf := by
  cases u with
  | fresh p => exact h.fresh p
  | take p q =>
    simp only [Sto.step]
    split
    · exact h.fresh p
    · next hpq => exact h.take hpq

theorem Wf.steps (h : o.Wf) (l : List Upd) : (l.foldl Sto.step o).Wf := by
  induction l generalizing o with
  | nil => exact h
  | cons u l ih => exact ih (h.step u)

theorem gen_step (o : Sto) (u : Upd) (r : Nat) : o.gen r ≤ (o.step u).gen r := by
  cases u with
  | fresh p =>
    simp only [Sto.step, Sto.fresh]
    split
    · next e => rw [e]; omega
    · exact Nat.le_refl _
  | take p q =>
    simp only [Sto.step]
    split
    · simp only [Sto.fresh]
      split
      · next e => rw [e]; omega
      · exact Nat.le_refl _
    · simp only [Sto.take]
      split
      · next e => rw [e]; omega
      · exact Nat.le_refl _

theorem gen_steps (o : Sto) (l : List Upd) (r : Nat) : o.gen r ≤ (l.foldl Sto.step o).gen r := by
  induction l generalizing o with
  | nil => exact Nat.le_refl _
  | cons u l ih => exact Nat.le_trans (gen_step o u r) (ih (o.step u))

theorem own_step (o : Sto) {u : Upd} {p : Nat} (hp : p ∉ u.hits) : (o.step u).own p = o.own p := by
  cases u with
  | fresh q =>
    simp only [Upd.hits, List.mem_singleton] at hp
    simp [Sto.step, Sto.fresh, hp]
  | take q r =>
    simp only [Upd.hits, List.mem_cons, List.not_mem_nil, or_false, not_or] at hp
    simp only [Sto.step]
    split
    · simp [Sto.fresh, hp.1]
    · simp [Sto.take, hp.1, hp.2]

theorem own_steps (o : Sto) {l : List Upd} {p : Nat} (hp : ∀ u ∈ l, p ∉ u.hits) : (l.foldl Sto.step o).own p = o.own p := by
  induction l generalizing o with
  | nil => rfl
  | cons u l ih =>
    show (l.foldl Sto.step (o.step u)).own p = o.own p
    rw [ih (o.step u) fun v hv => hp v (List.mem_cons_of_mem _ hv), own_step o (hp u (List.mem_cons_self ..))]

theorem Wf.dead_step (h : o.Wf) (u : Upd) {b : Blk} (hb : o.Dead b) : (o.step u).Dead b := by
  obtain ⟨h1, h2⟩ := hb
  refine ⟨?_, Nat.lt_of_lt_of_le h2 (gen_step o u _)⟩
  have hn : ∀ p, b ≠ (p, o.gen p) := by
    rintro p rfl
    simp at h2
  have ho : ∀ p, b ≠ o.own p := by
    rintro p rfl
    rw [h.has p] at h1; cases h1
  cases u with
  | fresh p => simp only [Sto.step, Sto.fresh]; rw [if_neg (hn p), if_neg (ho p), h1]
  | take p q =>
    simp only [Sto.step]
    split
    · simp only [Sto.fresh]; rw [if_neg (hn p), if_neg (ho p), h1]
    · simp only [Sto.take]; rw [if_neg (hn q), if_neg (ho q), if_neg (ho p), h1]

theorem Wf.dead_steps (h : o.Wf) (l : List Upd) {b : Blk} (hb : o.Dead b) : (l.foldl Sto.step o).Dead b := by
  induction l generalizing o with
  | nil => exact hb
  | cons u l ih => exact ih (h.step u) (h.dead_step u hb)

/-- The array an object had before it got a new one. -/
theorem Wf.dead_fresh (h : o.Wf) (p : Nat) : (o.fresh p).Dead (o.own p) := by
  refine ⟨?_, Nat.lt_of_lt_of_le (h.own_old p) (gen_step o (.fresh p) _)⟩
  simp only [Sto.fresh]
  rw [if_neg (h.ne_new p p), if_pos trivial]

theorem Wf.dead_take (h : o.Wf) {p q : Nat} (hpq : p ≠ q) : (o.take p q).Dead (o.own p) := by
  have hg := gen_step o (.take p q) (o.own p).1
  simp only [Sto.step, if_neg hpq] at hg
  refine ⟨?_, Nat.lt_of_lt_of_le (h.own_old p) hg⟩
  simp only [Sto.take]
  rw [if_neg (h.ne_new q p), if_neg fun e => hpq (h.own_inj e), if_pos trivial]

end Sto

/-! ## Programs with references -/

variable {St S : Type}

/-- The accessors of the objects fit together. -/
structure Lang.Lawful (L : Lang St S T) : Prop where
  self : ∀ s p l, L.val (L.put s p l) p = l
  other : ∀ s p q l, q ≠ p → L.val (L.put s p l) q = L.val s q

/-- The arrays are in order, and no variable refers to an array which is still to be allocated. -/
structure VState.Wf (s : VState S) : Prop where
  sto : s.sto.Wf
  ref : ∀ r b k, s.ref r = some (b, k) → b.2 < s.sto.gen b.1

/-- Variable `r` refers to element `k` of object `p`. -/
def VState.Denotes (L : Lang St S T) (s : VState S) (r p k : Nat) : Prop :=
  s.ref r = some (s.sto.own p, k) ∧ k < (L.val s.st p).length

/-- Variable `r` refers to an array that has been freed. -/
def VState.Dangling (s : VState S) (r : Nat) : Prop := ∃ b k, s.ref r = some (b, k) ∧ s.sto.Dead b

namespace VStmt

variable (L : Lang St S T)

theorem obj_ok {st : St} {c : Bool} {s s' : VState S} (h : obj L st c s = .ok s') :
    ∃ t, L.act st s.st = .ok t ∧ s' = { s with st := t, sto := (L.upd st c).foldl Sto.step s.sto } := by
  unfold obj at h
  cases e : L.act st s.st with
  | error f => rw [e] at h; cases h
  | ok t => rw [e] at h; injection h with h; exact ⟨t, rfl, h.symm⟩

theorem obj_wf {st : St} {c : Bool} {s s' : VState S} (h : obj L st c s = .ok s') (hw : s.Wf) : s'.Wf := by
  obtain ⟨t, _, rfl⟩ := obj_ok L h
  exact ⟨hw.sto.steps _, fun r b k e => Nat.lt_of_lt_of_le (hw.ref r b k e) (Sto.gen_steps _ _ _)⟩

theorem bind_wf {s : VState S} (hw : s.Wf) (r p k : Nat) : (s.bind r (s.sto.own p) k).Wf := by
  refine ⟨hw.sto, ?_⟩
  intro q b j e
  simp only [VState.bind] at e
  split at e
  · injection e with e; injection e with e1 e2; subst e1; exact hw.sto.own_old p
  · exact hw.ref q b j e

/-- What a statement which returns has done. -/
theorem exec_cases {i : VStmt St T} {s s' : VState S} (h : i.exec L s = .ok s') :
    (∃ st c, ((∃ r f v, i = .given r f c ∧ s.load L r = .ok v ∧ st = f v) ∨ i = .plain st c) ∧ obj L st c s = .ok s') ∨
    (∃ r p k, (i = .elem r p k ∨ i = .iter r p k ∨ i = .incr r) ∧ s' = s.bind r (s.sto.own p) k) ∨
    (∃ r v p k, i = .store r v ∧ s.find r = .ok (p, k) ∧ k < (L.val s.st p).length ∧
      s' = { s with st := L.put s.st p ((L.val s.st p).set k v) }) := by
  cases i with
  | plain st c => exact .inl ⟨st, c, .inr rfl, h⟩
  | given r f c =>
    simp only [exec] at h
    cases e : s.load L r with
    | error x => rw [e] at h; cases h
    | ok v => rw [e] at h; exact .inl ⟨f v, c, .inl ⟨r, f, v, rfl, e, rfl⟩, h⟩
  | elem r p k =>
    simp only [exec] at h
    split at h
    · injection h with h; exact .inr (.inl ⟨r, p, k, .inl rfl, h.symm⟩)
    · cases h
  | iter r p k =>
    simp only [exec] at h
    split at h
    · injection h with h; exact .inr (.inl ⟨r, p, k, .inr (.inl rfl), h.symm⟩)
    · cases h
  | incr r =>
    simp only [exec] at h
    cases e : s.find r with
    | error x => rw [e] at h; cases h
    | ok pk =>
      obtain ⟨p, k⟩ := pk
      rw [e] at h
      simp only [ok_bind] at h
      split at h
      · injection h with h; exact .inr (.inl ⟨r, p, k + 1, .inr (.inr rfl), h.symm⟩)
      · cases h
  | store r v =>
    simp only [exec] at h
    cases e : s.find r with
    | error x => rw [e] at h; cases h
    | ok pk =>
      obtain ⟨p, k⟩ := pk
      rw [e] at h
      simp only [ok_bind] at h
      by_cases hk : k < (L.val s.st p).length
      · rw [lwr_ok hk, ok_bind] at h
        injection h with h
        exact .inr (.inr ⟨r, v, p, k, rfl, e, hk, h.symm⟩)
      · rw [lwr_oob (by omega)] at h; cases h

theorem exec_wf {i : VStmt St T} {s s' : VState S} (h : i.exec L s = .ok s') (hw : s.Wf) : s'.Wf := by
  rcases exec_cases L h with ⟨st, c, _, h⟩ | ⟨r, p, k, _, rfl⟩ | ⟨r, v, p, k, _, _, _, rfl⟩
  · exact obj_wf L h hw
  · exact bind_wf hw r p k
  · exact ⟨hw.sto, hw.ref⟩

/-- An invariant of every statement is an invariant of a program. -/
theorem run_ind {I : VState S → Prop} {is : List (VStmt St T)}
    (h : ∀ i ∈ is, ∀ s s', I s → i.exec L s = .ok s' → I s') {s s' : VState S} (hs : I s) (hr : run L is s = .ok s') :
    I s' := by
  induction is generalizing s with
  | nil => injection hr with hr; rw [← hr]; exact hs
  | cons i is ih =>
    simp only [run] at hr
    cases e : i.exec L s with
    | ok t =>
      rw [e] at hr
      exact ih (fun j hj => h j (List.mem_cons_of_mem _ hj)) (h i (List.mem_cons_self ..) s t hs e) hr
    | error f =>
      rw [e] at hr
      cases f with
      | throw x => exact ih (fun j hj => h j (List.mem_cons_of_mem _ hj)) hs hr
      | _ => cases hr

/-- The statement does not replace the array of `p`, does not shorten it, and gives `r` no new value. -/
def Leaves (r p : Nat) : VStmt St T → Prop
  | .plain st c => (∀ u ∈ L.upd st c, p ∉ u.hits) ∧
      ∀ s s', L.act st s = .ok s' → (L.val s p).length ≤ (L.val s' p).length
  | .given _ f c => ∀ v, (∀ u ∈ L.upd (f v) c, p ∉ u.hits) ∧
      ∀ s s', L.act (f v) s = .ok s' → (L.val s p).length ≤ (L.val s' p).length
  | .elem q _ _ | .iter q _ _ | .incr q => q ≠ r
  | .store _ _ => True

/-- The statement gives `r` no new value. -/
def NotTo (r : Nat) : VStmt St T → Prop
  | .elem q _ _ | .iter q _ _ | .incr q => q ≠ r
  | _ => True

theorem exec_denotes (hL : L.Lawful) {i : VStmt St T} {s s' : VState S} {r p k : Nat} (h : i.exec L s = .ok s')
    (hi : i.Leaves L r p) (hd : s.Denotes L r p k) : s'.Denotes L r p k ∧ s'.sto.own p = s.sto.own p := by
  rcases exec_cases L h with ⟨st, c, hc, h⟩ | ⟨q, o, j, hc, rfl⟩ | ⟨q, v, o, j, rfl, hf, hj, rfl⟩
  · have key : (∀ u ∈ L.upd st c, p ∉ u.hits) ∧
        ∀ s s', L.act st s = .ok s' → (L.val s p).length ≤ (L.val s' p).length := by
      rcases hc with ⟨_, f, v, rfl, _, rfl⟩ | rfl
      · exact hi v
      · exact hi
    obtain ⟨t, ht, rfl⟩ := obj_ok L h
    have ho := Sto.own_steps s.sto key.1
    exact ⟨⟨by show s.ref r = _; rw [ho]; exact hd.1, Nat.lt_of_lt_of_le hd.2 (key.2 _ _ ht)⟩, ho⟩
  · have hq : q ≠ r := by
      rcases hc with rfl | rfl | rfl <;> exact hi
    refine ⟨⟨?_, hd.2⟩, rfl⟩
    simp only [VState.bind]
    rw [if_neg fun e => hq e.symm]
    exact hd.1
  · refine ⟨⟨hd.1, ?_⟩, rfl⟩
    show k < (L.val (L.put s.st o _) p).length
    by_cases e : p = o
    · subst e; rw [hL.self]; simpa using hd.2
    · rw [hL.other _ _ _ _ e]; exact hd.2

theorem exec_dangling {i : VStmt St T} {s s' : VState S} {r : Nat} (h : i.exec L s = .ok s')
    (hi : i.NotTo r) (hw : s.Wf) (hd : s.Dangling r) : s'.Dangling r := by
  obtain ⟨b, k, hb, hd⟩ := hd
  rcases exec_cases L h with ⟨st, c, hc, h⟩ | ⟨q, o, j, hc, rfl⟩ | ⟨q, v, o, j, rfl, hf, hj, rfl⟩
  · obtain ⟨t, ht, rfl⟩ := obj_ok L h
    exact ⟨b, k, hb, hw.sto.dead_steps _ hd⟩
  · have hq : q ≠ r := by
      rcases hc with rfl | rfl | rfl <;> exact hi
    refine ⟨b, k, ?_, hd⟩
    simp only [VState.bind]
    rw [if_neg fun e => hq e.symm]
    exact hb
  · exact ⟨b, k, hb, hd⟩

end VStmt

namespace VState

variable {L : Lang St S T}

theorem Denotes.find {s : VState S} {r p k : Nat} (h : s.Denotes L r p k) (hw : s.Wf) : s.find r = .ok (p, k) := by
  unfold VState.find
  rw [h.1]
  simp only [hw.sto.has p]

theorem Denotes.load {s : VState S} {r p k : Nat} (h : s.Denotes L r p k) (hw : s.Wf) :
    s.load L r = .ok ((L.val s.st p)[k]'h.2) := by
  unfold VState.load
  rw [h.find hw, ok_bind]
  exact lrd_ok h.2

theorem Denotes.store {s : VState S} {r p k : Nat} (h : s.Denotes L r p k) (hw : s.Wf) (v : T) :
    (VStmt.store r v).exec L s = .ok { s with st := L.put s.st p ((L.val s.st p).set k v) } := by
  simp only [VStmt.exec]
  rw [h.find hw, ok_bind]
  simp only [lwr_ok h.2, ok_bind]

theorem Dangling.find {s : VState S} {r : Nat} (h : s.Dangling r) : s.find r = .error (.ub .dangling) := by
  obtain ⟨b, k, h1, h2⟩ := h
  unfold VState.find
  rw [h1]
  simp only [h2.1]

end VState

/-! ## Operations keep the lengths -/

/-- If `x`, started on `m`, returns a memory, every buffer has the length it had. -/
def Lens (m : Mem T) (x : Res (Mem T)) : Prop := ∀ m', x = .ok m' → ∀ p, m'.len p = m.len p

namespace Lens

theorem err {m : Mem T} {e : Fault} : Lens m (.error e) := fun _ h => nomatch h

theorem wr (r : Nat) (m : Mem T) (i : Nat) (v : T) : Lens m (m.wr r i v) := by
  intro m' h p
  by_cases hi : i < m.len r
  · rw [Mem.wr_ok hi] at h
    injection h with h
    rw [← h, Mem.len_upd]
  · rw [Mem.wr_oob (by omega)] at h
    cases h

theorem val {α : Type} {m : Mem T} {x : Res α} {f : α → Res (Mem T)} (h : ∀ a, Lens m (f a)) : Lens m (x >>= f) := by
  cases x with
  | ok a => exact h a
  | error e => exact err

theorem bind {m : Mem T} {x : Res (Mem T)} {f : Mem T → Res (Mem T)} (hx : Lens m x) (h : ∀ m', Lens m' (f m')) :
    Lens m (x >>= f) := by
  cases x with
  | error e => exact err
  | ok a =>
    intro m' e p
    rw [h a m' e p, hx a rfl p]

theorem noexcept {m : Mem T} {x : Res (Mem T)} (h : Lens m x) : Lens m (noexcept x) := by
  intro m' e
  refine h m' ?_
  cases x with
  | ok a => exact e
  | error f => cases f <;> cases e

theorem order {f : Nat → Mem T → Res (Mem T)} (h : ∀ i m, Lens m (f i m)) (l : List Nat) (m : Mem T) :
    Lens m (forOrder f l m) := by
  induction l generalizing m with
  | nil => intro m' e p; cases e; rfl
  | cons i l ih => exact bind (h i m) fun m' => ih m'

theorem up {f : Nat → Mem T → Res (Mem T)} (h : ∀ i m, Lens m (f i m)) (n lo : Nat) (m : Mem T) :
    Lens m (forUp f lo n m) := by
  induction n generalizing lo m with
  | zero => intro m' e p; cases e; rfl
  | succ n ih => exact bind (h lo m) fun m' => ih (lo + 1) m'

theorem range {f : Nat → Mem T → Res (Mem T)} (h : ∀ i m, Lens m (f i m)) (lo hi : Nat) (m : Mem T) :
    Lens m (forRange lo hi f m) := up h _ _ _

theorem elem1 (f : T → T) (v r i : Nat) (m : Mem T) : Lens m (elem1 f v r i m) := val fun _ => wr _ _ _ _

theorem elem2 (f : T → T → T) (v w r i : Nat) (m : Mem T) : Lens m (elem2 f v w r i m) :=
  val fun _ => val fun _ => wr _ _ _ _

theorem addCore [Add T] (ord : List Nat) (m : Mem T) (v w r n : Nat) : Lens m (addCore ord m v w r n) := by
  unfold Lalib.addCore
  split
  · exact range (fun _ _ => elem2 _ _ _ _ _ _) _ _ _
  · exact order (fun _ _ => elem2 _ _ _ _ _ _) _ _

theorem subCore [Sub T] (ord : List Nat) (m : Mem T) (v w r n : Nat) : Lens m (subCore ord m v w r n) := by
  unfold Lalib.subCore
  split
  · exact range (fun _ _ => elem2 _ _ _ _ _ _) _ _ _
  · exact order (fun _ _ => elem2 _ _ _ _ _ _) _ _

theorem copyTo (src : List T) (n r : Nat) (m : Mem T) : Lens m (copyTo src n r m) :=
  range (fun _ _ => val fun _ => wr _ _ _ _) _ _ _

theorem gemvCore [Zero T] [Add T] [Mul T] (n k : Nat) (alpha : T) (a x : Nat) (beta : T) (r : Nat) (m : Mem T) :
    Lens m (gemvCore n k alpha a x beta r m) := by
  unfold Lalib.gemvCore
  split
  · exact val fun _ => copyTo _ _ _ _
  · exact range (fun _ _ => val fun _ => bind (wr _ _ _ _) fun _ =>
      range (fun _ _ => val fun _ => val fun _ => val fun _ => wr _ _ _ _) _ _ _) _ _ _

theorem gemmCore [Zero T] [Add T] [Mul T] (n k o : Nat) (alpha : T) (a b : Nat) (beta : T) (r : Nat) (m : Mem T) :
    Lens m (gemmCore n k o alpha a b beta r m) := by
  unfold Lalib.gemmCore
  split
  · exact val fun _ => copyTo _ _ _ _
  · exact range (fun _ _ => range (fun _ _ => val fun _ => bind (wr _ _ _ _) fun _ =>
      range (fun _ _ => val fun _ => val fun _ => val fun _ => wr _ _ _ _) _ _ _) _ _ _) _ _ _

end Lens

end Lalib
