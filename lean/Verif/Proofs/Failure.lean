import Verif.Spec.Failure
import Verif.Proofs.Sparse
import Mathlib.Tactic.Ring

/-! # Proofs about failing calls -/

namespace Lalib

variable {T α β : Type}

/-! ## Computations that throw no exception -/

/-- Not an exception. -/
def Fault.NoThrow (f : Fault) : Prop := ∀ e, f ≠ .throw e

/-- A value with `P`, or a fault that is no exception. -/
abbrev Quiet (P : α → Prop) (r : Res α) : Prop := Sat P Fault.NoThrow r

theorem noThrow_ub (k : UB) : Fault.NoThrow (.ub k) := fun _ => nofun

theorem noThrow_diverge : Fault.NoThrow .diverge := fun _ => nofun

theorem lrd_quiet (l : List T) (i : Nat) : Quiet (fun _ => True) (lrd l i) := by
  unfold lrd
  split
  · exact trivial
  · exact noThrow_ub _

theorem lwr_quiet (l : List T) (i : Nat) (x : T) : Quiet (fun l' => l'.length = l.length) (lwr l i x) := by
  unfold lwr
  split
  · exact List.length_set
  · exact noThrow_ub _

theorem mapM_quiet (l : List T) (ids : List Nat) :
    Quiet (fun _ => True) (ids.mapM (fun k => lrd l k)) := by
  induction ids with
  | nil => exact trivial
  | cons k ids ih =>
    rw [List.mapM_cons]
    exact (lrd_quiet l k).bind fun _ _ => ih.bind fun _ _ => trivial

namespace Coo

theorem sort_quiet (srt : SortFn) (a : Coo T) : Quiet (fun _ => True) (a.sort srt) := by
  unfold sort
  split
  · exact (mapM_quiet _ _).bind fun _ _ => (mapM_quiet _ _).bind fun _ _ => (mapM_quiet _ _).bind fun _ _ => trivial
  · exact noThrow_ub _

theorem push_quiet {W : Prop} (cap : Nat) {a : Coo T} (ha : W → a.Wf) (i j : Nat) (v : T) :
    Quiet (fun a => W → a.Wf) (push cap a i j v) := by
  unfold push
  split
  · intro h
    have := ha h
    simp [Wf] at this ⊢
    exact this
  · exact noThrow_ub _

variable [Add T]

theorem addStep_quiet {W : Prop} (rhs : Coo T → Coo T) (cap i cEnd rEnd : Nat) {s : AddSt T} (hs : W → s.a.Wf) :
    Quiet (fun r => W → (r.elim AddSt.a AddSt.a).Wf) (addStep rhs cap i cEnd rEnd s) := by
  unfold addStep
  refine (lrd_quiet _ _).bind fun ca _ => (lrd_quiet _ _).bind fun cb _ => ?_
  split
  · refine (lrd_quiet _ _).bind fun va _ => (lrd_quiet _ _).bind fun vb _ => (lwr_quiet _ _ _).bind fun l hl => ?_
    have : W → Wf { s.a with val := l } := fun h => ⟨(hs h).1.trans hl.symm, (hs h).2.trans hl.symm⟩
    split <;> exact this
  · split
    · split
      · exact hs
      · refine (lrd_quiet _ _).bind fun vb _ => (push_quiet cap hs i cb vb).bind fun a ha => ?_
        split <;> exact ha
    · refine (lrd_quiet _ _).bind fun vb _ => (push_quiet cap hs i cb vb).bind fun a ha => ?_
      split <;> exact ha

theorem addWhile_quiet {W : Prop} (rhs : Coo T → Coo T) (cap i cEnd rEnd : Nat) :
    ∀ (fuel : Nat) {s : AddSt T}, (W → s.a.Wf) → Quiet (fun s => W → s.a.Wf) (addWhile rhs cap i cEnd rEnd fuel s)
  | 0, s, hs => by
    unfold addWhile
    split
    · exact noThrow_diverge
    · exact hs
  | fuel + 1, s, hs => by
    unfold addWhile
    split
    · refine (addStep_quiet rhs cap i cEnd rEnd hs).bind fun r hr => ?_
      cases r with
      | inl s' => exact addWhile_quiet rhs cap i cEnd rEnd fuel hr
      | inr s' => exact hr
    · exact hs

theorem upperBound_quiet (l : List Nat) (lo hi i : Nat) : Quiet (fun _ => True) (upperBound l lo hi i) := by
  unfold upperBound
  split
  · simp only
    split
    · exact trivial
    · exact noThrow_ub _
  · exact noThrow_ub _

theorem maxElem_quiet (l : List Nat) : Quiet (fun _ => True) (maxElem l) := by
  unfold maxElem
  split
  · exact noThrow_ub _
  · exact trivial

omit [Add T] in
theorem shape_quiet (a : Coo T) : Quiet (fun _ => True) a.shape :=
  (maxElem_quiet _).bind fun _ _ => (maxElem_quiet _).bind fun _ _ => trivial

theorem addRow_quiet {W : Prop} (rhs : Coo T → Coo T) (cap nA nB i : Nat) {s : AddRow T} (hs : W → s.a.Wf) :
    Quiet (fun s => W → s.a.Wf) (addRow rhs cap nA nB i s) :=
  (upperBound_quiet _ _ _ _).bind fun _ _ => (upperBound_quiet _ _ _ _).bind fun _ _ =>
    (addWhile_quiet rhs cap i _ _ _ hs).bind fun _ h => h

theorem addRows_quiet {W : Prop} (rhs : Coo T → Coo T) (cap nA nB : Nat) :
    ∀ (fuel i : Nat) {s : AddRow T}, (W → s.a.Wf) → Quiet (fun s => W → s.a.Wf) (addRows rhs cap nA nB fuel i s)
  | 0, i, s, hs => by
    unfold addRows
    refine (shape_quiet _).bind fun _ _ => ?_
    split
    · exact noThrow_diverge
    · exact hs
  | fuel + 1, i, s, hs => by
    unfold addRows
    refine (shape_quiet _).bind fun _ _ => ?_
    split
    · exact (addRow_quiet rhs cap nA nB i hs).bind fun _ h => addRows_quiet rhs cap nA nB fuel (i + 1) h
    · exact hs

end Coo

theorem noexcept_quiet {P : α → Prop} {r : Res α} (h : Quiet P r) : noexcept r = r := by
  match r, h with
  | .ok _, _ => rfl
  | .error (.throw e), h => exact absurd rfl (h e)
  | .error (.ub _), _ => rfl
  | .error .terminate, _ => rfl
  | .error .assertFail, _ => rfl
  | .error .nonFinite, _ => rfl
  | .error .blasParam, _ => rfl
  | .error .diverge, _ => rfl

/-! ## Code that leaves the objects alone -/

/-- The requests from `k` to `k'` are granted. -/
def Granted (g : Nat → Bool) (k k' : Nat) : Prop := ∀ i, k ≤ i → i < k' → g i = true

/-- One of the requests from `k` to `k'` is refused. -/
def Denied (g : Nat → Bool) (k k' : Nat) : Prop := ∃ i, k ≤ i ∧ i < k' ∧ g i = false

namespace Code

@[simp] theorem bind_eq (c : Code T α) (f : α → Code T β) (s : World T × Nat) :
    (c >>= f) s = match c s with
      | (.ok a, s) => f a s
      | (.error e, s) => (.error e, s) := rfl

/-- `c` has the outcome of `r`, or a request is refused. -/
def Mir (g : Nat → Bool) (ref die : Bool) (r : Res α) (w : World T) (k : Nat) :
    Except Stop α × (World T × Nat) → Prop
  | (.ok a, (w', k')) => r = .ok a ∧ w' = w ∧ k ≤ k' ∧ Granted g k k'
  | (.error (.fault f), (w', k')) =>
    (r = .error f ∧ ∀ e, f = .throw e → w' = w ∧ Granted g k k') ∨ (f = .terminate ∧ die = true ∧ Denied g k k')
  | (.error .badAlloc, (w', k')) => w' = w ∧ (ref = true ∨ ∃ e, r = .error (.throw e)) ∧ Denied g k k'

/-- `Mir` in every state. -/
def Mirrors (g : Nat → Bool) (ref die : Bool) (c : Code T α) (r : Res α) : Prop :=
  ∀ w k, Mir g ref die r w k (c (w, k))

variable {g : Nat → Bool} {ref die : Bool}

theorem Granted.trans {k l m : Nat} (h : Granted g k l) (h' : Granted g l m) : Granted g k m := fun i hi hm =>
  if hl : i < l then h i hi hl else h' i (by omega) hm

theorem mirrors_val (a : α) : Mirrors g ref die (val a : Code T α) (.ok a) := fun w k =>
  ⟨rfl, rfl, le_refl _, fun i h h' => absurd h (by omega)⟩

theorem mirrors_request : Mirrors g true die (request g : Code T Unit) (.ok ()) := fun w k => by
  unfold request
  by_cases h : g k = true
  · simp only [h, if_true, Mir, true_and]
    exact ⟨by omega, fun i h1 h2 => (by omega : i = k) ▸ h⟩
  · simp only [h, Mir, if_false, Bool.false_eq_true]
    exact ⟨trivial, Or.inl trivial, k, le_refl _, by omega, by simpa using h⟩

theorem Mirrors.bind {c : Code T α} {r : Res α} {f : α → Code T β} {s : α → Res β} (h : Mirrors g ref die c r)
    (h' : ∀ a, r = .ok a → Mirrors g ref die (f a) (s a)) : Mirrors g ref die (c >>= f) (r >>= s) := fun w k => by
  have h1 := h w k
  rw [bind_eq]
  match hc : c (w, k), h1 with
  | (.ok a, (w', k')), h1 =>
    obtain ⟨hr, rfl, hk, hg⟩ := h1
    have h2 := h' a hr w' k'
    subst hr
    simp only [ok_bind]
    match hf : f a (w', k'), h2 with
    | (.ok b, (w'', k'')), h2 => exact ⟨h2.1, h2.2.1, by have := h2.2.2.1; omega, Granted.trans hg h2.2.2.2⟩
    | (.error (.fault t), (w'', k'')), h2 =>
      rcases h2 with ⟨h2, h3⟩ | ⟨h2, h3, i, h4, h5, h6⟩
      · exact Or.inl ⟨h2, fun e he => ⟨(h3 e he).1, Granted.trans hg (h3 e he).2⟩⟩
      · exact Or.inr ⟨h2, h3, i, by omega, h5, h6⟩
    | (.error .badAlloc, (w'', k'')), h2 =>
      obtain ⟨h2, h3, i, h4, h5, h6⟩ := h2
      exact ⟨h2, h3, i, by omega, h5, h6⟩
  | (.error (.fault t), (w', k')), h1 =>
    rcases h1 with ⟨h1, h2⟩ | h1
    · exact Or.inl ⟨by rw [h1]; rfl, h2⟩
    · exact Or.inr h1
  | (.error .badAlloc, (w', k')), h1 =>
    refine ⟨h1.1, ?_, h1.2.2⟩
    rcases h1.2.1 with h | ⟨e, h⟩
    · exact Or.inl h
    · exact Or.inr ⟨e, by rw [h]; rfl⟩

theorem mirrors_requests : ∀ n, Mirrors g true die (requests g n : Code T Unit) (.ok ())
  | 0 => mirrors_val ()
  | n + 1 => mirrors_request.bind (s := fun _ => .ok ()) fun _ _ => mirrors_requests n

theorem Mirrors.mono {ref' die' : Bool} (hr : ref = true → ref' = true) (hd : die = true → die' = true)
    {c : Code T α} {r : Res α} (h : Mirrors g ref die c r) : Mirrors g ref' die' c r := fun w k => by
  have h1 := h w k
  match c (w, k), h1 with
  | (.ok a, (w', k')), h1 => exact h1
  | (.error (.fault t), (w', k')), h1 => exact h1.imp id fun h => ⟨h.1, hd h.2.1, h.2.2⟩
  | (.error .badAlloc, (w', k')), h1 => exact ⟨h1.1, h1.2.1.imp hr id, h1.2.2⟩

theorem mirrors_eval (r : Res α) : Mirrors g ref die (eval g r : Code T α) r := fun w k => by
  match r with
  | .ok a => exact mirrors_val a w k
  | .error (.throw e) =>
    have h := mirrors_requests (T := T) (g := g) (die := die) 2 w k
    show Mir g ref die _ w k ((requests g 2 >>= fun _ => (stop (.throw e) : Code T α)) (w, k))
    rw [bind_eq]
    match hq : requests g 2 (w, k), h with
    | (.ok a, (w', k')), h =>
      exact Or.inl ⟨rfl, fun e' _ => ⟨h.2.1, h.2.2.2⟩⟩
    | (.error (.fault t), (w', k')), h =>
      rcases h with ⟨h, _⟩ | h
      · cases h
      · exact Or.inr h
    | (.error .badAlloc, (w', k')), h =>
      exact ⟨h.1, Or.inr ⟨e, rfl⟩, h.2.2⟩
  | .error (.ub _) => exact Or.inl ⟨rfl, fun _ => nofun⟩
  | .error .terminate => exact Or.inl ⟨rfl, fun _ => nofun⟩
  | .error .assertFail => exact Or.inl ⟨rfl, fun _ => nofun⟩
  | .error .nonFinite => exact Or.inl ⟨rfl, fun _ => nofun⟩
  | .error .blasParam => exact Or.inl ⟨rfl, fun _ => nofun⟩
  | .error .diverge => exact Or.inl ⟨rfl, fun _ => nofun⟩

/-- In a `noexcept` function a refused request ends the program. -/
theorem Mirrors.nothrow {c : Code T α} {r : Res α} (h : Mirrors g ref die c r) (hd : ref = true → die = true) :
    Mirrors g false die (nothrow c) (noexcept r) := fun w k => by
  have h1 := h w k
  unfold Code.nothrow
  match hc : c (w, k), h1 with
  | (.ok a, (w', k')), h1 =>
    exact ⟨by rw [h1.1]; rfl, h1.2⟩
  | (.error .badAlloc, (w', k')), h1 =>
    rcases h1.2.1 with hr | ⟨e, hr⟩
    · exact Or.inr ⟨rfl, hd hr, h1.2.2⟩
    · exact Or.inl ⟨by rw [hr]; rfl, fun _ => nofun⟩
  | (.error (.fault (.throw e)), (w', k')), h1 =>
    rcases h1 with ⟨h1, _⟩ | ⟨h1, _⟩
    · exact Or.inl ⟨by rw [h1]; rfl, fun _ => nofun⟩
    · cases h1
  | (.error (.fault (.ub t)), (w', k')), h1 =>
    exact h1.imp (fun h => ⟨by rw [h.1]; rfl, fun _ => nofun⟩) id
  | (.error (.fault .terminate), (w', k')), h1 =>
    exact h1.imp (fun h => ⟨by rw [h.1]; rfl, fun _ => nofun⟩) id
  | (.error (.fault .assertFail), (w', k')), h1 =>
    exact h1.imp (fun h => ⟨by rw [h.1]; rfl, fun _ => nofun⟩) id
  | (.error (.fault .nonFinite), (w', k')), h1 =>
    exact h1.imp (fun h => ⟨by rw [h.1]; rfl, fun _ => nofun⟩) id
  | (.error (.fault .blasParam), (w', k')), h1 =>
    exact h1.imp (fun h => ⟨by rw [h.1]; rfl, fun _ => nofun⟩) id
  | (.error (.fault .diverge), (w', k')), h1 =>
    exact h1.imp (fun h => ⟨by rw [h.1]; rfl, fun _ => nofun⟩) id

end Code

theorem Code.bind_assoc' {γ : Type} (c : Code T α) (f : α → Code T β) (h : β → Code T γ) (s : World T × Nat) :
    ((c >>= f) >>= h) s = (c >>= fun a => f a >>= h) s := by
  simp only [bind_eq]
  rcases c s with ⟨_ | a, s'⟩ <;> rfl

theorem noexcept_noexcept (r : Res α) : noexcept (noexcept r) = noexcept r := by
  rcases r with (_ | _ | _ | _ | _ | _ | _) | _ <;> rfl

theorem put_self (f : Nat → α) (x : Nat) (a : α) : put f x a x = a := if_pos rfl

theorem put_put (f : Nat → α) (x : Nat) (a b : α) : put (put f x a) x b = put f x b := by
  funext q
  by_cases h : q = x <;> simp [put, h]

namespace Call

open Code

/-- A call whose body leaves the objects (as they are after the moves) alone and whose last steps `fin` cannot fail. -/
theorem ends_of_mirrors {g : Nat → Bool} {c : Call T} {w w₁ : World T} {k : Nat} {ref die : Bool} {body : Code T α}
    {r : Res α} {fin : α → Code T (Made T)} {mk : α → Made T} {wd : α → World T}
    {out : Except Stop (Made T) × (World T × Nat)} {eff : Res (Made T × World T)} (h : Mirrors g ref die body r)
    (hout : out = (body >>= fin) (w₁, k)) (hfin : ∀ a k, fin a (w₁, k) = (.ok (mk a), (wd a, k)))
    (heff : eff = r >>= fun a => .ok (mk a, wd a)) (heat : eaten c w = w₁) (hr : ref = true → c.mayRefuse = true)
    (hd : die = true → c.mayDie = true) : Ends g c eff (eaten c w) k out := by
  subst hout heff heat
  have h1 := h (eaten c w) k
  rw [bind_eq]
  match hc : body (eaten c w, k), h1 with
  | (.ok a, (w', k')), h1 =>
    obtain ⟨rfl, rfl, -, hg⟩ := h1
    simp only [hfin]
    exact ⟨rfl, hg⟩
  | (.error (.fault t), (w', k')), h1 =>
    rcases h1 with ⟨rfl, h2⟩ | ⟨h1, h2, h3⟩
    · exact Or.inl ⟨rfl, h2⟩
    · exact Or.inr ⟨h1, hd h2, h3⟩
  | (.error .badAlloc, (w', k')), h1 =>
    refine ⟨h1.1, ?_, h1.2.2⟩
    rcases h1.2.1 with h | ⟨e, rfl⟩
    · exact Or.inl (hr h)
    · exact Or.inr ⟨e, rfl⟩

theorem Ends.later {g : Nat → Bool} {c : Call T} {eff : Res (Made T × World T)} {eat : World T} {k k' : Nat}
    {out : Except Stop (Made T) × (World T × Nat)} (hk : k ≤ k') (hg : Granted g k k') (h : Ends g c eff eat k' out) :
    Ends g c eff eat k out := by
  match out, h with
  | (.ok a, (w, l)), h => exact ⟨h.1, Granted.trans hg h.2⟩
  | (.error (.fault t), (w, l)), h =>
    rcases h with ⟨h1, h2⟩ | ⟨h1, h2, i, h3, h4, h5⟩
    · exact Or.inl ⟨h1, fun e he => ⟨(h2 e he).1, Granted.trans hg (h2 e he).2⟩⟩
    · exact Or.inr ⟨h1, h2, i, by omega, h4, h5⟩
  | (.error .badAlloc, (w, l)), h =>
    obtain ⟨h1, h2, i, h3, h4, h5⟩ := h
    exact ⟨h1, h2, i, by omega, h4, h5⟩

theorem nothrow_bind {c : Code T α} {f : α → Code T β} (s : World T × Nat)
    (hf : ∀ a s, ∃ b s', f a s = (.ok b, s')) : nothrow (c >>= f) s = (nothrow c >>= f) s := by
  rw [bind_eq]
  simp only [Code.nothrow, bind_eq]
  match c s with
  | (.ok a, s') =>
    obtain ⟨b, s'', h⟩ := hf a s'
    simp only [h]
  | (.error .badAlloc, s') => rfl
  | (.error (.fault (.throw e)), s') => rfl
  | (.error (.fault (.ub t)), s') => rfl
  | (.error (.fault .terminate), s') => rfl
  | (.error (.fault .assertFail), s') => rfl
  | (.error (.fault .nonFinite), s') => rfl
  | (.error (.fault .blasParam), s') => rfl
  | (.error (.fault .diverge), s') => rfl

theorem mirrors_sort {g : Nat → Bool} {ref die : Bool} (hd : die = true) (srt : SortFn) (a : Coo T) :
    Mirrors g ref die (sortC g srt a) (a.sort srt) := by
  have h : Mirrors g true true (do requests g 4; eval g (a.sort srt) : Code T (Coo T)) (a.sort srt) :=
    (mirrors_requests 4).bind (s := fun _ => a.sort srt) fun _ _ => mirrors_eval _
  have h' := h.nothrow (fun _ => rfl)
  rw [noexcept_quiet (Coo.sort_quiet srt a)] at h'
  exact h'.mono (fun h => absurd h Bool.false_ne_true) (fun _ => hd)

theorem mirrors_cooBody {g : Nat → Bool} {ref die : Bool} (hd : die = true) (srt : SortFn) (v : List T)
    (r c : List Nat) : Mirrors g ref die (cooBody g srt v r c) (Coo.new srt v r c) :=
  (mirrors_eval _).bind fun _ _ => mirrors_sort hd srt _

theorem mirrors_cooCopy {g : Nat → Bool} (srt : SortFn) (v : List T) (r c : List Nat) :
    Mirrors g true true (cooCopyC g srt v r c) (Coo.new srt v r c) :=
  (mirrors_requests 3).bind (s := fun _ => Coo.new srt v r c) fun _ _ => mirrors_cooBody rfl srt v r c

theorem mirrors_cooUnit {g : Nat → Bool} [One T] (srt : SortFn) (n : Nat) :
    Mirrors g true true (cooUnitC g srt n : Code T (Coo T)) (Coo.unit srt n) :=
  (mirrors_requests 3).bind (s := fun _ => Coo.unit srt n) fun _ _ => (mirrors_eval _).bind fun _ _ =>
    mirrors_cooCopy srt _ _ _

theorem mirrors_ofCoo {g : Nat → Bool} (a : Coo T) :
    Mirrors g false true (nothrow (do requests g 4; eval g (Csr.ofCoo a)) : Code T (Csr T)) (Csr.ofCoo a) := by
  have h : Mirrors g true true (do requests g 4; eval g (Csr.ofCoo a) : Code T (Csr T)) (Csr.ofCoo a) :=
    (mirrors_requests 4).bind (s := fun _ => Csr.ofCoo a) fun _ _ => mirrors_eval _
  have h' := h.nothrow (fun _ => rfl)
  rwa [Csr.ofCoo, noexcept_noexcept] at h'

/-- A copy in a `noexcept` constructor, and a computation. -/
theorem mirrors_copied {g : Nat → Bool} (r : Res α) :
    Mirrors g false true ((nothrow (request g) : Code T Unit) >>= fun _ => eval g r) r :=
  (mirrors_request.nothrow fun _ => rfl).bind (s := fun _ => r) fun _ _ => mirrors_eval _

variable [Zero T] [One T] [Add T] [Sub T] [Mul T] [CDiv T] [CZero T] [CSqrt T] [LT T] [DecidableLT T]

theorem run_ends (g : Nat → Bool) (srt : SortFn) (rt : Nat → Nat) (nd : Bool) (c : Call T) (w : World T) (k : Nat) :
    Ends g c (effect srt rt nd c w) (eaten c w) k (run g srt rt nd c (w, k)) := by
  cases c with
  | cooCopy v r c =>
    exact ends_of_mirrors (w₁ := w) (mirrors_cooCopy srt _ _ _) rfl (fun _ _ => rfl) rfl rfl (fun _ => rfl) (fun _ => rfl)
  | cooMove v r c =>
    have hw : eaten (.cooMove v r c) w = { w with vec := put w.vec v [], ids := put (put w.ids r []) c [] } := by
      have : (fun q => if q = r ∨ q = c then [] else w.ids q) = put (put w.ids r []) c [] := by
        funext q
        unfold put
        by_cases h1 : q = c <;> by_cases h2 : q = r <;> simp [h1, h2]
      show { w with vec := _, ids := _ } = _
      rw [this]; rfl
    exact ends_of_mirrors (die := true) (ref := false) (mk := .coo) (wd := fun _ => eaten (.cooMove v r c) w)
      (mirrors_cooBody rfl srt _ _ _) rfl (fun _ _ => by rw [hw]; rfl) rfl hw nofun (fun _ => rfl)
  | cooUnit n =>
    exact ends_of_mirrors (mirrors_cooUnit srt n) rfl (fun _ _ => rfl) rfl rfl (fun _ => rfl) (fun _ => rfl)
  | cooAdd x y =>
    have h := mirrors_requests (T := T) (g := g) (die := true) 3 w k
    set rhs : Coo T → Coo T := if y = x then id else fun _ => w.coo y with hrhs
    have hb : rhs (w.coo x) = w.coo y := by
      by_cases hy : y = x
      · simp [hrhs, hy]
      · simp [hrhs, hy]
    set merged := Coo.addRows rhs ((w.coo x).val.length + (w.coo y).nnz) (w.coo x).row.length (w.coo y).row.length
      ((w.coo y).row.foldr max 0 + 1) 0 ⟨w.coo x, 0, 0⟩ with hm
    have he : run g srt rt nd (.cooAdd x y) (w, k) = ((requests g 3 : Code T Unit) >>= fun _ => now >>= fun w =>
        eval g (Coo.addRows (if y = x then id else fun _ => w.coo y) ((w.coo x).val.length + (w.coo y).nnz)
          (w.coo x).row.length (w.coo y).row.length ((w.coo y).row.foldr max 0 + 1) 0 ⟨w.coo x, 0, 0⟩) >>= fun s =>
        upd (fun w => { w with coo := put w.coo x s.a }) >>= fun _ => sortC g srt s.a >>= fun t =>
        upd (fun w => { w with coo := put w.coo x t }) >>= fun _ => val .nothing) (w, k) := rfl
    have heff : effect srt rt nd (.cooAdd x y) w = merged >>= fun s => s.a.sort srt >>= fun a =>
        .ok (.nothing, { w with coo := put w.coo x a }) := by
      show (Coo.addAssign srt rhs (w.coo x) >>= fun a => _) = _
      unfold Coo.addAssign
      rw [hb]
      simp only [← hm]
      cases merged <;> rfl
    rw [he, heff, bind_eq]
    match (requests g 3 : Code T Unit) (w, k), h with
    | (.ok a, (w', k')), h =>
      obtain ⟨-, rfl, hk, hg⟩ := h
      refine Ends.later hk hg ?_
      have h1 := mirrors_eval (T := T) (g := g) (ref := false) (die := false) merged w' k'
      show Ends g _ _ w' k' ((eval g merged >>= fun s => _) (w', k'))
      rw [bind_eq]
      match eval g merged (w', k'), h1 with
      | (.ok s, (w'', k'')), h1 =>
        obtain ⟨h1, rfl, hk, hg⟩ := h1
        refine Ends.later hk hg ?_
        rw [h1]
        have h2 := mirrors_sort (g := g) (ref := false) (die := true) rfl srt s.a
          { w'' with coo := put w''.coo x s.a } k''
        have hq := Coo.sort_quiet srt s.a
        show Ends g _ (s.a.sort srt >>= _) w'' k'' ((sortC g srt s.a >>= fun t => _)
          ({ w'' with coo := put w''.coo x s.a }, k''))
        rw [bind_eq]
        match sortC g srt s.a ({ w'' with coo := put w''.coo x s.a }, k''), h2 with
        | (.ok t, (w3, k3)), h2 =>
          obtain ⟨h2, rfl, -, hg⟩ := h2
          rw [h2]
          simp only [bind_eq, upd, val, put_put]
          exact ⟨rfl, hg⟩
        | (.error (.fault f), (w3, k3)), h2 =>
          rcases h2 with ⟨h2, -⟩ | ⟨h2, -, h3⟩
          · rw [h2] at hq ⊢
            exact Or.inl ⟨rfl, fun e he => absurd he (hq e)⟩
          · exact Or.inr ⟨h2, rfl, h3⟩
        | (.error .badAlloc, (w3, k3)), h2 =>
          rcases h2.2.1 with h | ⟨e, h⟩
          · cases h
          · rw [h] at hq
            exact absurd rfl (hq e)
      | (.error (.fault f), (w'', k'')), h1 =>
        rcases h1 with ⟨h1, h2⟩ | ⟨_, h1, _⟩
        · rw [h1]
          exact Or.inl ⟨rfl, h2⟩
        · cases h1
      | (.error .badAlloc, (w'', k'')), h1 =>
        rcases h1.2.1 with h | ⟨e, h⟩
        · cases h
        · exact ⟨h1.1, Or.inl rfl, h1.2.2⟩
    | (.error (.fault t), (w', k')), h =>
      rcases h with ⟨h, _⟩ | h
      · cases h
      · exact Or.inr ⟨h.1, rfl, h.2.2⟩
    | (.error .badAlloc, (w', k')), h => exact ⟨h.1, Or.inl rfl, h.2.2⟩
  | csrCopy v p c =>
    exact ends_of_mirrors (die := false) ((mirrors_requests 3).bind fun _ _ => mirrors_eval _) (bind_assoc' _ _ _ _).symm
      (fun _ _ => rfl) rfl rfl (fun _ => rfl) nofun
  | csrMove v p c =>
    have hw : eaten (.csrMove v p c) w = { w with vec := put w.vec v [], ids := put (put w.ids p []) c [] } := by
      have : (fun q => if q = p ∨ q = c then [] else w.ids q) = put (put w.ids p []) c [] := by
        funext q
        unfold put
        by_cases h1 : q = c <;> by_cases h2 : q = p <;> simp [h1, h2]
      show { w with vec := _, ids := _ } = _
      rw [this]; rfl
    exact ends_of_mirrors (die := false) (ref := false) (mk := .csr) (wd := fun _ => eaten (.csrMove v p c) w)
      (mirrors_eval _) rfl (fun _ _ => by rw [hw]; rfl) rfl hw nofun nofun
  | csrUnit n =>
    exact ends_of_mirrors (die := false) ((mirrors_requests 6).bind fun _ _ => mirrors_eval _) (bind_assoc' _ _ _ _).symm
      (fun _ _ => rfl) rfl rfl (fun _ => rfl) nofun
  | csrOfCoo x =>
    exact ends_of_mirrors (mirrors_ofCoo _) rfl (fun _ _ => rfl) rfl rfl nofun (fun _ => rfl)
  | csrOfCooMove x =>
    exact ends_of_mirrors (mirrors_ofCoo _) rfl (fun _ _ => rfl) rfl rfl nofun (fun _ => rfl)
  | hessNew v =>
    refine ends_of_mirrors (ref := false) (die := false) (w₁ := w) (mk := fun n => .hess ⟨n, w.vec v⟩)
      (wd := fun _ => { w with vec := put w.vec v [] })
      (mirrors_eval (Hess.calcSize rt (w.vec v).length)) rfl (fun _ _ => rfl) ?_ rfl nofun nofun
    simp only [effect, Hess.new]
    cases Hess.calcSize rt (w.vec v).length <;> rfl
  | upNew v =>
    refine ends_of_mirrors (ref := false) (die := false) (w₁ := w) (mk := fun n => .up ⟨n, w.vec v⟩)
      (wd := fun _ => { w with vec := put w.vec v [] })
      ((mirrors_eval (ref := false) (UTri.calcSize rt (w.vec v).length)).nothrow nofun) (nothrow_bind _ fun _ _ => ⟨_, _, rfl⟩)
      (fun _ _ => rfl) ?_ rfl nofun nofun
    simp only [effect, UTri.new]
    rcases UTri.calcSize rt (w.vec v).length with (_ | _ | _ | _ | _ | _ | _) | _ <;> rfl
  | lowNew n v => exact ⟨rfl, fun i h h' => absurd h (by omega)⟩
  | hermNew n v => exact ⟨rfl, fun i h h' => absurd h (by omega)⟩
  | hessZero x =>
    refine ends_of_mirrors (w₁ := w) (mk := fun _ => .nothing)
      ((mirrors_requests (g := g) (die := true) 2).nothrow fun _ => rfl) (nothrow_bind _ fun _ _ => ⟨_, _, rfl⟩)
      (fun _ k => ?_) (wd := fun _ => { w with hess := put w.hess x (⟨_, _⟩ : Hess T) }) rfl rfl nofun (fun _ => rfl)
    simp only [put_put, put_self]
  | hessWith x v =>
    refine ends_of_mirrors (ref := true) (die := false) (w₁ := w) (mk := fun _ => .nothing)
      (fin := fun _ => do
        upd fun w => { w with hess := put w.hess x { w.hess x with h := (w.hess x).h ++ w.vec v } }
        upd fun w => { w with hess := put w.hess x { w.hess x with n := (w.hess x).n + 1 } }
        val .nothing)
      (wd := fun _ => { w with hess := put w.hess x ⟨(w.hess x).n + 1, (w.hess x).h ++ w.vec v⟩ })
      ((mirrors_eval (throwIf ((w.vec v).length != (w.hess x).n + 2) .invalidArgument)).bind fun _ _ => mirrors_request)
      (by rw [bind_assoc']; rfl) (fun _ k => ?_) ?_ rfl (fun _ => rfl) nofun
    · simp only [bind_eq, upd, val, put_put, put_self]
    · simp only [effect, Hess.extendWith]
      cases throwIf ((w.vec v).length != (w.hess x).n + 2) .invalidArgument <;> rfl
  | upZero x =>
    refine ends_of_mirrors (w₁ := w) (mk := fun _ => .nothing)
      ((mirrors_requests (g := g) (die := true) 2).nothrow fun _ => rfl) (nothrow_bind _ fun _ _ => ⟨_, _, rfl⟩)
      (fun _ k => ?_) (wd := fun _ => { w with up := put w.up x (⟨_, _⟩ : UTri T) }) rfl rfl nofun (fun _ => rfl)
    simp only [bind_eq, upd, val, put_put, put_self]
  | upWith x v =>
    refine ends_of_mirrors (ref := true) (die := false) (w₁ := w) (mk := fun _ => .nothing)
      (fin := fun _ => do
        upd fun w => { w with up := put w.up x { w.up x with u := (w.up x).u ++ w.vec v } }
        upd fun w => { w with up := put w.up x { w.up x with n := (w.up x).n + 1 } }
        val .nothing)
      (wd := fun _ => { w with up := put w.up x ⟨(w.up x).n + 1, (w.up x).u ++ w.vec v⟩ })
      ((mirrors_eval (throwIf ((w.vec v).length != (w.up x).n + 1) .invalidArgument)).bind fun _ _ => mirrors_request)
      (by rw [bind_assoc']; rfl) (fun _ k => ?_) ?_ rfl (fun _ => rfl) nofun
    · simp only [bind_eq, upd, val, put_put, put_self]
    · simp only [effect, UTri.extendWith]
      cases throwIf ((w.vec v).length != (w.up x).n + 1) .invalidArgument <;> rfl
  | hermLower x => exact ⟨rfl, fun i h h' => absurd h (by omega)⟩
  | triChol x =>
    exact ends_of_mirrors (ref := false) (die := false) (mirrors_eval _) rfl (fun _ _ => rfl) rfl rfl nofun nofun
  | chol x =>
    exact ends_of_mirrors (mirrors_copied _) (bind_assoc' _ _ _ _).symm (fun _ _ => rfl) rfl rfl nofun (fun _ => rfl)
  | modChol x =>
    exact ends_of_mirrors (mirrors_copied _) (bind_assoc' _ _ _ _).symm (fun _ _ => rfl) rfl rfl nofun (fun _ => rfl)
  | iluDense x =>
    exact ends_of_mirrors (mirrors_copied _) (bind_assoc' _ _ _ _).symm (fun _ _ => rfl) rfl rfl nofun (fun _ => rfl)
  | iluCoo x =>
    exact ends_of_mirrors (ref := false) (die := false) (mirrors_eval _) rfl (fun _ _ => rfl) rfl rfl nofun nofun
  | iluCsr x =>
    exact ends_of_mirrors (ref := false) (die := false) (mirrors_eval _) rfl (fun _ _ => rfl) rfl rfl nofun nofun
  | gmresDense x tol =>
    have h := (mirrors_copied (T := T) (g := g) (Gmres.new (dGOps nd) (w.dn x) tol))
    refine ends_of_mirrors (fin := fun a => val (.gmresDense a)) ((mirrors_request.nothrow fun _ => rfl).bind
      (s := fun _ => Gmres.new (dGOps nd) (w.dn x) tol) fun _ _ => h) ?_ (fun _ _ => rfl) rfl rfl nofun (fun _ => rfl)
    rw [bind_assoc']
    exact congrArg (fun f => ((nothrow (request g) : Code T Unit) >>= f) (w, k))
      (funext fun _ => funext fun _ => (bind_assoc' _ _ _ _).symm)
  | gmresCsr x tol =>
    have h := (mirrors_requests (T := T) (g := g) (die := true) 3).nothrow (fun _ => rfl) w k
    have he : run g srt rt nd (.gmresCsr x tol) (w, k) = ((nothrow (requests g 3) : Code T Unit) >>= fun _ =>
        takeCsr x >>= fun a => eval g (Gmres.new (csrGOps nd) a tol) >>= fun a => val (.gmresCsr a)) (w, k) := rfl
    rw [he, bind_eq]
    match (nothrow (requests g 3) : Code T Unit) (w, k), h with
    | (.ok a, (w', k')), h =>
      obtain ⟨-, rfl, hk, hg⟩ := h
      refine Ends.later hk hg ?_
      exact ends_of_mirrors (ref := false) (die := false) (mirrors_eval _) rfl (fun _ _ => rfl) rfl rfl nofun nofun
    | (.error (.fault t), (w', k')), h =>
      rcases h with ⟨h, _⟩ | h
      · cases h
      · exact Or.inr ⟨h.1, rfl, h.2.2⟩
    | (.error .badAlloc, (w', k')), h =>
      rcases h.2.1 with h | ⟨e, h⟩ <;> cases h

omit [Zero T] [One T] [Add T] [Sub T] [Mul T] [CDiv T] [CZero T] [CSqrt T] [LT T] [DecidableLT T] in
theorem noexcept_bind_ne (r : Res α) (f : α → β) (e : Exn) : (noexcept r >>= fun a => .ok (f a)) ≠ .error (.throw e) := by
  rcases r with (_ | _ | _ | _ | _ | _ | _) | _ <;> nofun

omit [Zero T] [One T] [Add T] [Sub T] [Mul T] [CDiv T] [CZero T] [CSqrt T] [LT T] [DecidableLT T] in
theorem bind_ok_snd {r : Res α} {f : α → Made T} {w w' : World T} {m : Made T}
    (h : (r >>= fun a => .ok (f a, w)) = .ok (m, w')) : w' = w := by
  cases r with
  | error e => cases h
  | ok a => cases h; rfl

theorem effect_noexcept (srt : SortFn) (rt : Nat → Nat) (nd : Bool) {c : Call T} (hc : c.isNoexcept = true)
    (w : World T) (e : Exn) : effect srt rt nd c w ≠ .error (.throw e) := by
  cases c <;> first | exact absurd hc Bool.false_ne_true | exact noexcept_bind_ne _ _ _ | nofun

theorem effect_consumes (srt : SortFn) (rt : Nat → Nat) (nd : Bool) {c : Call T} (hc : c.consumes = true)
    (w : World T) {m : Made T} {w' : World T} (h : effect srt rt nd c w = .ok (m, w')) : w' = eaten c w := by
  cases c <;> first | exact bind_ok_snd h | cases hc

/-! ## Which calls memory can fail -/

theorem refuse_sharp (srt : SortFn) (rt : Nat → Nat) (nd : Bool) {c : Call T} (hc : c.mayRefuse = true) (w : World T)
    (k : Nat) {m : Made T} {w' : World T} (h : effect srt rt nd c w = .ok (m, w')) :
    ∃ g, (run g srt rt nd c (w, k)).1 = .error .badAlloc := by
  refine ⟨fun _ => false, ?_⟩
  cases c with
  | hessWith x v =>
    simp only [effect, Hess.extendWith] at h
    show ((eval _ (throwIf ((w.vec v).length != (w.hess x).n + 2) .invalidArgument) >>= fun _ => request _ >>= _ : Code T _)
      (w, k)).1 = _
    rw [bind_eq]
    cases ht : throwIf ((w.vec v).length != (w.hess x).n + 2) .invalidArgument with
    | error e => rw [ht] at h; cases h
    | ok u => rfl
  | upWith x v =>
    simp only [effect, UTri.extendWith] at h
    show ((eval _ (throwIf ((w.vec v).length != (w.up x).n + 1) .invalidArgument) >>= fun _ => request _ >>= _ : Code T _)
      (w, k)).1 = _
    rw [bind_eq]
    cases ht : throwIf ((w.vec v).length != (w.up x).n + 1) .invalidArgument with
    | error e => rw [ht] at h; cases h
    | ok u => rfl
  | _ => first | rfl | cases hc

omit [Zero T] [One T] [Add T] [Sub T] [Mul T] [CDiv T] [CZero T] [CSqrt T] [LT T] [DecidableLT T] in
theorem requests_granted {g : Nat → Bool} (w : World T) :
    ∀ (n k : Nat), (∀ i, k ≤ i → i < k + n → g i = true) → requests g n (w, k) = (.ok (), (w, k + n))
  | 0, _, _ => rfl
  | n + 1, k, h => by
    show ((request g >>= fun _ => requests g n : Code T Unit) (w, k)) = _
    rw [bind_eq]
    have : (request g : Code T Unit) (w, k) = (.ok (), (w, k + 1)) := by
      simp [request, h k (le_refl _) (by omega)]
    rw [this]
    simp only
    rw [requests_granted w n (k + 1) fun i h1 h2 => h i (by omega) (by omega)]
    congr 2
    omega

omit [Zero T] [One T] [Add T] [Sub T] [Mul T] [CDiv T] [CZero T] [CSqrt T] [LT T] [DecidableLT T] in
theorem sortC_denied {g : Nat → Bool} (srt : SortFn) (a : Coo T) (w : World T) {k : Nat} (h : g k = false) :
    sortC g srt a (w, k) = (.error (.fault .terminate), (w, k + 1)) := by
  have : (requests g 4 >>= fun _ => eval g (a.sort srt) : Code T (Coo T)) (w, k) = (.error .badAlloc, (w, k + 1)) := by
    rw [bind_eq]
    have h1 : (requests g 4 : Code T Unit) (w, k) = (.error .badAlloc, (w, k + 1)) := by
      show ((request g >>= fun _ => requests g 3 : Code T Unit) (w, k)) = _
      rw [bind_eq]
      simp [request, h]
    rw [h1]
  unfold sortC
  simp only [Code.nothrow]
  rw [this]

omit [Zero T] [One T] [Add T] [Sub T] [Mul T] [CDiv T] [CZero T] [CSqrt T] [LT T] [DecidableLT T] in
theorem cooBody_denied {g : Nat → Bool} (srt : SortFn) {v : List T} {r c : List Nat} (w : World T) {k : Nat}
    (h : g k = false) {a : Coo T} (hn : Coo.new srt v r c = .ok a) :
    (cooBody g srt v r c (w, k)).1 = .error (.fault .terminate) := by
  unfold cooBody
  rw [bind_eq]
  unfold Coo.new at hn
  cases ht : throwIf (v.length != r.length || v.length != c.length) .runtimeError with
  | error e => rw [ht] at hn; cases hn
  | ok u =>
    show (sortC g srt _ (w, k)).1 = _
    rw [sortC_denied srt _ w h]

omit [Zero T] [One T] [Add T] [Sub T] [Mul T] [CDiv T] [CZero T] [CSqrt T] [LT T] [DecidableLT T] in
theorem cooCopy_denied {g : Nat → Bool} (srt : SortFn) {v : List T} {r c : List Nat} (w : World T) {k : Nat}
    (hg : ∀ i, k ≤ i → i < k + 3 → g i = true) (h : g (k + 3) = false) {a : Coo T} (hn : Coo.new srt v r c = .ok a) :
    (cooCopyC g srt v r c (w, k)).1 = .error (.fault .terminate) := by
  unfold cooCopyC
  rw [bind_eq, requests_granted w 3 k hg]
  exact cooBody_denied srt w h hn

omit [Zero T] [One T] [Add T] [Sub T] [Mul T] [CDiv T] [CZero T] [CSqrt T] [LT T] [DecidableLT T] in
theorem bind_fst_error {c : Code T α} {f : α → Code T β} {s : World T × Nat} {e : Stop} (h : (c s).1 = .error e) :
    ((c >>= f) s).1 = .error e := by
  rw [bind_eq]
  match c s, h with
  | (.ok a, s'), h => cases h
  | (.error e', s'), h => cases h; rfl

omit [Zero T] [One T] [Add T] [Sub T] [Mul T] [CDiv T] [CZero T] [CSqrt T] [LT T] [DecidableLT T] in
theorem bind_ok_fst {r : Res α} {f : α → Res β} {b : β} (h : (r >>= f) = .ok b) : ∃ a, r = .ok a ∧ f a = .ok b := by
  cases r with
  | error e => cases h
  | ok a => exact ⟨a, rfl, h⟩

theorem die_sharp (srt : SortFn) (rt : Nat → Nat) (nd : Bool) {c : Call T} (hc : c.mayDie = true) (w : World T)
    (k : Nat) {m : Made T} {w' : World T} (h : effect srt rt nd c w = .ok (m, w')) :
    ∃ g, (run g srt rt nd c (w, k)).1 = .error (.fault .terminate) := by
  cases c with
  | cooCopy v r c =>
    obtain ⟨a, ha, -⟩ := bind_ok_fst h
    refine ⟨fun i => decide (i < k + 3), bind_fst_error (c := cooCopyC _ srt _ _ _) (cooCopy_denied srt w ?_ ?_ ha)⟩
    · intro i _ h; simpa using h
    · simp
  | cooMove v r c =>
    obtain ⟨a, ha, -⟩ := bind_ok_fst h
    exact ⟨fun _ => false, bind_fst_error (c := cooBody _ srt _ _ _) (cooBody_denied srt _ rfl ha)⟩
  | cooUnit n =>
    obtain ⟨a, ha, -⟩ := bind_ok_fst h
    obtain ⟨p, hp, ha⟩ := bind_ok_fst ha
    refine ⟨fun i => decide (i < k + 6), bind_fst_error ?_⟩
    unfold cooUnitC
    rw [bind_eq, requests_granted w 3 k fun i _ h => by simp; omega]
    simp only
    rw [bind_eq, hp]
    refine cooCopy_denied srt w ?_ ?_ ha
    · intro i _ h; simp; omega
    · simp
  | cooAdd x y =>
    refine ⟨fun i => decide (i < k + 3), ?_⟩
    obtain ⟨a, ha, -⟩ := bind_ok_fst h
    obtain ⟨t, ht, ha⟩ := bind_ok_fst ha
    have hb : (if y = x then id else fun _ => w.coo y : Coo T → Coo T) (w.coo x) = w.coo y := by
      by_cases hy : y = x
      · simp [hy]
      · simp [hy]
    rw [hb] at ht
    show ((requests _ 3 >>= fun _ => now >>= fun w => _ : Code T _) (w, k)).1 = _
    rw [bind_eq, requests_granted w 3 k fun i _ h => by simp; omega]
    show ((eval _ (Coo.addRows _ _ _ _ _ _ _) >>= fun s => _ : Code T _) (w, k + 3)).1 = _
    rw [ht, bind_eq]
    refine bind_fst_error (c := sortC _ srt _) ?_
    rw [sortC_denied srt _ _ (by simp)]
  | _ => first | exact absurd hc Bool.false_ne_true | exact ⟨fun _ => false, rfl⟩

/-! ## Programs -/

theorem runAll_leaves (g : Nat → Bool) (srt : SortFn) (rt : Nat → Nat) (nd : Bool) :
    ∀ (cs : List (Call T)) (w : World T) (k : Nat) {w' : World T} {k' : Nat},
      runAll g srt rt nd cs (w, k) = (.ok (), (w', k')) → Leaves srt rt nd cs w w'
  | [], w, k, w', k', h => by
    cases h
    exact .nil w
  | c :: cs, w, k, w', k', h => by
    have he := run_ends g srt rt nd c w k
    unfold runAll at h
    match hr : run g srt rt nd c (w, k), he with
    | (.ok m, (w1, k1)), he =>
      rw [hr] at h
      exact .done he.1 (runAll_leaves g srt rt nd cs w1 k1 h)
    | (.error .badAlloc, (w1, k1)), he =>
      rw [hr] at h
      refine .caught he.2.1 ?_
      rw [← he.1]
      exact runAll_leaves g srt rt nd cs w1 k1 h
    | (.error (.fault (.throw e)), (w1, k1)), he =>
      rw [hr] at h
      rcases he with ⟨he, hw⟩ | ⟨he, -⟩
      · refine .caught (.inr ⟨e, he⟩) ?_
        rw [← (hw e rfl).1]
        exact runAll_leaves g srt rt nd cs w1 k1 h
      · cases he
    | (.error (.fault (.ub t)), (w1, k1)), he => rw [hr] at h; cases h
    | (.error (.fault .terminate), (w1, k1)), he => rw [hr] at h; cases h
    | (.error (.fault .assertFail), (w1, k1)), he => rw [hr] at h; cases h
    | (.error (.fault .nonFinite), (w1, k1)), he => rw [hr] at h; cases h
    | (.error (.fault .blasParam), (w1, k1)), he => rw [hr] at h; cases h
    | (.error (.fault .diverge), (w1, k1)), he => rw [hr] at h; cases h

end Call

/-! ## Objects in order -/

theorem Coo.addAssign_inOrder [Add T] {srt : SortFn} (hs : LawfulSort srt) (rhs : Coo T → Coo T) {a b : Coo T}
    (ha : a.Wf) (h : Coo.addAssign srt rhs a = .ok b) : b.Wf ∧ b.Sorted := by
  obtain ⟨t, ht, hb⟩ := Call.bind_ok_fst h
  have hq := Coo.addRows_quiet (W := True) rhs (a.val.length + (rhs a).nnz) a.row.length (rhs a).row.length
    ((rhs a).row.foldr max 0 + 1) 0 (s := ⟨a, 0, 0⟩) (fun _ => ha)
  rw [ht] at hq
  obtain ⟨b', hb', hw, -, hsrt⟩ := sort_spec hs (hq trivial)
  rw [hb'] at hb
  cases hb
  exact ⟨hw, hsrt⟩

namespace World.InOrder

variable [Zero T] [One T] [Add T] [Sub T] [Mul T] [CDiv T] [CZero T] [CSqrt T] [LT T] [DecidableLT T]

omit [Zero T] [One T] [Add T] [Sub T] [Mul T] [CDiv T] [CZero T] [CSqrt T] [LT T] [DecidableLT T] in
theorem eaten {w : World T} (h : w.InOrder) (c : Call T) : (c.eaten w).InOrder := by
  have hE : (⟨[], [], []⟩ : Coo T).Wf ∧ (⟨[], [], []⟩ : Coo T).Sorted := ⟨⟨rfl, rfl⟩, List.Pairwise.nil⟩
  cases c with
  | triChol x =>
    refine ⟨h.coo, h.up, h.hess, fun q => ?_⟩
    by_cases hq : q = x
    · exact Or.inl (by simp [Call.eaten, hq])
    · simpa [Call.eaten, hq] using h.herm q
  | iluCoo x =>
    refine ⟨fun q => ?_, h.up, h.hess, h.herm⟩
    by_cases hq : q = x
    · simpa [Call.eaten, hq] using hE
    · simpa [Call.eaten, hq] using h.coo q
  | _ => exact ⟨h.coo, h.up, h.hess, h.herm⟩

theorem effect {srt : SortFn} (hs : LawfulSort srt) (rt : Nat → Nat) (nd : Bool) {w : World T} (h : w.InOrder)
    {c : Call T} {m : Made T} {w' : World T} (he : Call.effect srt rt nd c w = .ok (m, w')) : w'.InOrder := by
  by_cases hc : c.consumes = true
  · rw [Call.effect_consumes srt rt nd hc w he]
    exact h.eaten c
  cases c with
  | cooAdd x y =>
    obtain ⟨a, ha, he⟩ := Call.bind_ok_fst he
    cases he
    refine ⟨fun q => ?_, h.up, h.hess, h.herm⟩
    by_cases hq : q = x
    · simpa [hq] using Coo.addAssign_inOrder hs _ (h.coo x).1 ha
    · simpa [hq] using h.coo q
  | hessZero x =>
    cases he
    refine ⟨h.coo, h.up, fun q => ?_, h.herm⟩
    by_cases hq : q = x
    · have := h.hess x
      have e : ((w.hess x).n + 1) * ((w.hess x).n + 1 + 3) = (w.hess x).n * ((w.hess x).n + 3) + 2 * ((w.hess x).n + 2) := by
        ring
      simp only [hq, if_true, e, List.length_append]
      split <;> rename_i h0
      · simp [h0]
      · rw [List.length_replicate]; omega
    · simpa [hq] using h.hess q
  | hessWith x v =>
    obtain ⟨a, ha, he⟩ := Call.bind_ok_fst he
    obtain ⟨t, ht, ha⟩ := Call.bind_ok_fst ha
    cases he
    cases ha
    refine ⟨h.coo, h.up, fun q => ?_, h.herm⟩
    by_cases hq : q = x
    · have := h.hess x
      have e : ((w.hess x).n + 1) * ((w.hess x).n + 1 + 3) = (w.hess x).n * ((w.hess x).n + 3) + 2 * ((w.hess x).n + 2) := by
        ring
      have hv : (w.vec v).length = (w.hess x).n + 2 := by
        by_contra hne
        rw [throwIf_ne hne] at ht
        cases ht
      simp only [hq, if_true, e, List.length_append, hv]
      omega
    · simpa [hq] using h.hess q
  | upZero x =>
    cases he
    refine ⟨h.coo, fun q => ?_, h.hess, h.herm⟩
    by_cases hq : q = x
    · have := h.up x
      have e : ((w.up x).n + 1) * ((w.up x).n + 1 + 1) = (w.up x).n * ((w.up x).n + 1) + 2 * ((w.up x).n + 1) := by ring
      simp only [hq, if_true, e, List.length_append, List.length_replicate]
      omega
    · simpa [hq] using h.up q
  | upWith x v =>
    obtain ⟨a, ha, he⟩ := Call.bind_ok_fst he
    obtain ⟨t, ht, ha⟩ := Call.bind_ok_fst ha
    cases he
    cases ha
    refine ⟨h.coo, fun q => ?_, h.hess, h.herm⟩
    by_cases hq : q = x
    · have := h.up x
      have e : ((w.up x).n + 1) * ((w.up x).n + 1 + 1) = (w.up x).n * ((w.up x).n + 1) + 2 * ((w.up x).n + 1) := by ring
      have hv : (w.vec v).length = (w.up x).n + 1 := by
        by_contra hne
        rw [throwIf_ne hne] at ht
        cases ht
      simp only [hq, if_true, e, List.length_append, hv]
      omega
    · simpa [hq] using h.up q
  | hermLower x =>
    cases he
    refine ⟨h.coo, h.up, h.hess, fun q => ?_⟩
    by_cases hq : q = x
    · exact Or.inl (by simp [hq])
    · simpa [hq] using h.herm q
  | _ =>
    first
    | exact absurd rfl hc
    | (obtain ⟨a, ha, he⟩ := Call.bind_ok_fst he
       cases he
       exact ⟨h.coo, h.up, h.hess, h.herm⟩)

theorem leaves {srt : SortFn} (hs : LawfulSort srt) (rt : Nat → Nat) (nd : Bool) {cs : List (Call T)} {w w' : World T}
    (hl : Call.Leaves srt rt nd cs w w') (h : w.InOrder) : w'.InOrder := by
  induction hl with
  | nil w => exact h
  | done he _ ih => exact ih (h.effect hs rt nd he)
  | caught _ _ ih => exact ih (h.eaten _)

end World.InOrder

end Lalib
