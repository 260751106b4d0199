import Verif.Spec.LogRel
import Verif.Spec.Sqrt
import Verif.Spec.Eval
import Mathlib.Analysis.SpecialFunctions.Sqrt
import Mathlib.Analysis.Calculus.Deriv.Add
import Mathlib.Analysis.Calculus.Deriv.Inv
import Mathlib.Topology.Algebra.Order.LiminfLimsup

/-! # A family of runs against one run: proofs -/

namespace Lalib

open Filter Topology

variable {ι : Type} {l : Filter ι}

namespace Lim

variable {α α' : ι → Type} {β β' : Type} {P : (∀ i, α i) → β → Prop} {Q : (∀ i, α' i) → β' → Prop}

theorem error (r : ∀ i, Res (α i)) (e : Fault) : Lim l P r (.error e) := fun _ h => nomatch h

theorem ok {a : ∀ i, α i} {b : β} (h : P a b) : Lim l P (fun i => .ok (a i)) (.ok b) :=
  fun _ e => ⟨a, .of_forall fun _ => rfl, by cases e; exact h⟩

theorem of_eventually {r r₂ : ∀ i, Res (α i)} {r' : Res β} (h : Lim l P r₂ r') (e : ∀ᶠ i in l, r i = r₂ i) :
    Lim l P r r' := fun b hb => by
  obtain ⟨a, ha, hp⟩ := h b hb
  exact ⟨a, (e.and ha).mono fun _ h => h.1.trans h.2, hp⟩

theorem bind {r : ∀ i, Res (α i)} {r' : Res β} {f : ∀ i, α i → Res (α' i)} {g : β → Res β'} (h : Lim l P r r')
    (hf : ∀ a b, P a b → Lim l Q (fun i => f i (a i)) (g b)) : Lim l Q (fun i => r i >>= f i) (r' >>= g) := by
  match r', h with
  | .error e, _ => exact error _ e
  | .ok b, h =>
    obtain ⟨a, ha, hp⟩ := h b rfl
    exact (hf a b hp).of_eventually (ha.mono fun i h => by rw [h]; rfl)

theorem mono {P' : (∀ i, α i) → β → Prop} {r : ∀ i, Res (α i)} {r' : Res β} (h : Lim l P r r')
    (hP : ∀ a b, P a b → P' a b) : Lim l P' r r' := fun b hb => by
  obtain ⟨a, ha, hp⟩ := h b hb
  exact ⟨a, ha, hP a b hp⟩

theorem noexcept {r : ∀ i, Res (α i)} {r' : Res β} (h : Lim l P r r') :
    Lim l P (fun i => noexcept (r i)) (Lalib.noexcept r') := by
  match r', h with
  | .ok b, h =>
    intro _ e
    cases e
    obtain ⟨a, ha, hp⟩ := h b rfl
    exact ⟨a, ha.mono fun i h => by beta_reduce; rw [h]; rfl, hp⟩
  | .error e, _ => cases e <;> exact error _ _

/-- The same check on both sides. -/
theorem check {c : ι → Res Unit} {c' : Res Unit} (h : ∀ i, c i = c') {r : ∀ i, Res (α i)} {r' : Res β} (hr : Lim l P r r') :
    Lim l P (fun i => c i >>= fun _ => r i) (c' >>= fun _ => r') := by
  match c', h with
  | .ok _, h => exact hr.of_eventually (.of_forall fun i => by rw [h i]; rfl)
  | .error e, _ => exact error _ _

/-- The same value on both sides. -/
theorem same {γ : Type} {c : ι → Res γ} {c' : Res γ} (h : ∀ i, c i = c') {f : ∀ i, γ → Res (α i)} {g : γ → Res β}
    (hr : ∀ x, c' = .ok x → Lim l P (fun i => f i x) (g x)) : Lim l P (fun i => c i >>= f i) (c' >>= g) := by
  match c', h, hr with
  | .ok x, h, hr => exact (hr x rfl).of_eventually (.of_forall fun i => by rw [h i]; rfl)
  | .error e, _, _ => exact error _ _

section loops
variable {σ : ι → Type} {τ : Type} {I : (∀ i, σ i) → τ → Prop}

theorem forUp {f : ∀ i, Nat → σ i → Res (σ i)} {g : Nat → τ → Res τ} :
    ∀ {lo n : Nat} {s : ∀ i, σ i} {t : τ}, I s t →
      (∀ k s t, lo ≤ k → k < lo + n → I s t → Lim l I (fun i => f i k (s i)) (g k t)) →
      Lim l I (fun i => forUp (f i) lo n (s i)) (Lalib.forUp g lo n t)
  | lo, 0, s, t, h, _ => ok h
  | lo, n + 1, s, t, h, hf => by
    show Lim l I (fun i => f i lo (s i) >>= fun s => Lalib.forUp (f i) (lo + 1) n s)
      (g lo t >>= fun t => Lalib.forUp g (lo + 1) n t)
    exact (hf lo s t (Nat.le_refl _) (by omega) h).bind fun s' t' h' =>
      forUp h' fun k s t h1 h2 hk => hf k s t (by omega) (by omega) hk

theorem forRange {f : ∀ i, Nat → σ i → Res (σ i)} {g : Nat → τ → Res τ} {lo hi : Nat} {s : ∀ i, σ i} {t : τ} (h : I s t)
    (hf : ∀ k s t, lo ≤ k → k < hi → I s t → Lim l I (fun i => f i k (s i)) (g k t)) :
    Lim l I (fun i => forRange lo hi (f i) (s i)) (Lalib.forRange lo hi g t) :=
  forUp h fun k s t h1 h2 => hf k s t h1 (by omega)

/-- An invariant that mentions the counter. -/
theorem forRangeJ {J : Nat → (∀ i, σ i) → τ → Prop} {f : ∀ i, Nat → σ i → Res (σ i)} {g : Nat → τ → Res τ} {lo hi : Nat}
    {s : ∀ i, σ i} {t : τ} (hle : lo ≤ hi) (h : J lo s t)
    (hf : ∀ k s t, lo ≤ k → k < hi → J k s t → Lim l (J (k + 1)) (fun i => f i k (s i)) (g k t)) :
    Lim l (J hi) (fun i => Lalib.forRange lo hi (f i) (s i)) (Lalib.forRange lo hi g t) := by
  have key : ∀ (n lo : Nat) (s : ∀ i, σ i) (t : τ), J lo s t →
      (∀ k s t, lo ≤ k → k < lo + n → J k s t → Lim l (J (k + 1)) (fun i => f i k (s i)) (g k t)) →
      Lim l (J (lo + n)) (fun i => Lalib.forUp (f i) lo n (s i)) (Lalib.forUp g lo n t) := by
    intro n
    induction n with
    | zero => intro lo s t h _; exact ok h
    | succ n ih =>
      intro lo s t h hf
      show Lim l _ (fun i => f i lo (s i) >>= fun s => Lalib.forUp (f i) (lo + 1) n s)
        (g lo t >>= fun t => Lalib.forUp g (lo + 1) n t)
      refine (hf lo s t (Nat.le_refl _) (by omega) h).bind fun s' t' h' => ?_
      have := ih (lo + 1) s' t' h' fun k s t h1 h2 hk => hf k s t (by omega) (by omega) hk
      rwa [show lo + 1 + n = lo + (n + 1) by omega] at this
  have := key (hi - lo) lo s t h fun k s t h1 h2 hk => hf k s t h1 (by omega) hk
  rwa [show lo + (hi - lo) = hi by omega] at this

theorem forDown {f : ∀ i, Nat → σ i → Res (σ i)} {g : Nat → τ → Res τ} :
    ∀ {n : Nat} {s : ∀ i, σ i} {t : τ}, I s t → (∀ k s t, k < n → I s t → Lim l I (fun i => f i k (s i)) (g k t)) →
      Lim l I (fun i => forDown (f i) n (s i)) (Lalib.forDown g n t)
  | 0, s, t, h, _ => ok h
  | n + 1, s, t, h, hf => by
    show Lim l I (fun i => f i n (s i) >>= fun s => Lalib.forDown (f i) n s) (g n t >>= fun t => Lalib.forDown g n t)
    exact (hf n s t (by omega) h).bind fun s' t' h' => forDown h' fun k s t hk => hf k s t (by omega)

theorem forOrder {f : ∀ i, Nat → σ i → Res (σ i)} {g : Nat → τ → Res τ} :
    ∀ {ord : List Nat} {s : ∀ i, σ i} {t : τ}, I s t → (∀ k s t, I s t → Lim l I (fun i => f i k (s i)) (g k t)) →
      Lim l I (fun i => forOrder (f i) ord (s i)) (Lalib.forOrder g ord t)
  | [], s, t, h, _ => ok h
  | k :: ord, s, t, h, hf => by
    show Lim l I (fun i => f i k (s i) >>= fun s => Lalib.forOrder (f i) ord s) (g k t >>= fun t => Lalib.forOrder g ord t)
    exact (hf k s t h).bind fun s' t' h' => forOrder h' hf

/-- A loop that is left early on the right says nothing; a loop that goes on does so on both sides. -/
def Goes {ρ : ι → Type} {ρ' : Type} (l : Filter ι) (I : (∀ i, σ i) → τ → Prop) (r : ∀ i, Res (σ i ⊕ ρ i))
    (r' : Res (τ ⊕ ρ')) : Prop :=
  ∀ t, r' = .ok (.inl t) → ∃ s, (∀ᶠ i in l, r i = .ok (.inl (s i))) ∧ I s t

section
variable {ρ : ι → Type} {ρ' : Type}

theorem Goes.of_eventually {r r₂ : ∀ i, Res (σ i ⊕ ρ i)} {r' : Res (τ ⊕ ρ')} (h : Goes l I r₂ r')
    (e : ∀ᶠ i in l, r i = r₂ i) : Goes l I r r' := fun t ht => by
  obtain ⟨s, hs, hI⟩ := h t ht
  exact ⟨s, (e.and hs).mono fun _ h => h.1.trans h.2, hI⟩

theorem Goes.inl {s : ∀ i, σ i} {t : τ} (h : I s t) : Goes l I (fun i => (.ok (.inl (s i)) : Res (σ i ⊕ ρ i)))
    (.ok (.inl t) : Res (τ ⊕ ρ')) := fun _ e => ⟨s, .of_forall fun _ => rfl, by cases e; exact h⟩

theorem Goes.inr (r : ∀ i, Res (σ i ⊕ ρ i)) (b : ρ') : Goes l I r (.ok (.inr b)) := fun _ e => nomatch e

theorem Goes.bind {α : ι → Type} {β : Type} {P : (∀ i, α i) → β → Prop} {r : ∀ i, Res (α i)} {r' : Res β}
    {f : ∀ i, α i → Res (σ i ⊕ ρ i)} {g : β → Res (τ ⊕ ρ')} (h : Lim l P r r')
    (hf : ∀ a b, P a b → Goes l I (fun i => f i (a i)) (g b)) : Goes l I (fun i => r i >>= f i) (r' >>= g) := by
  match r', h with
  | .error e, _ => exact fun _ e => nomatch e
  | .ok b, h =>
    obtain ⟨a, ha, hp⟩ := h b rfl
    exact (hf a b hp).of_eventually (ha.mono fun i h => by rw [h]; rfl)

end

theorem forUpRet {ρ : ι → Type} {ρ' : Type} {J : Nat → (∀ i, σ i) → τ → Prop} {f : ∀ i, Nat → σ i → Res (σ i ⊕ ρ i)}
    {g : Nat → τ → Res (τ ⊕ ρ')} :
    ∀ {lo n : Nat} {s : ∀ i, σ i} {t : τ}, J lo s t →
      (∀ k s t, lo ≤ k → k < lo + n → J k s t → Goes l (J (k + 1)) (fun i => f i k (s i)) (g k t)) →
      Goes l (J (lo + n)) (fun i => forUpRet (f i) lo n (s i)) (Lalib.forUpRet g lo n t)
  | lo, 0, s, t, h, _ => fun t' e => ⟨s, .of_forall fun _ => rfl, by cases e; exact h⟩
  | lo, n + 1, s, t, h, hf => by
    intro t' e
    unfold Lalib.forUpRet at e
    cases eg : g lo t with
    | error x => rw [eg] at e; exact nomatch e
    | ok v =>
      rw [eg, ok_bind] at e
      match v, e with
      | .inr r, e => simp at e
      | .inl t1, e =>
        obtain ⟨s1, h1, h2⟩ := hf lo s t (Nat.le_refl _) (by omega) h t1 eg
        have := forUpRet (f := f) (g := g) h2 (fun k s t h1 h2 hk => hf k s t (by omega) (by omega) hk) t' e
        obtain ⟨s2, h3, h4⟩ := this
        refine ⟨s2, (h1.and h3).mono fun i h => ?_, by rwa [show lo + 1 + n = lo + (n + 1) by omega] at h4⟩
        obtain ⟨e1, e2⟩ := h
        beta_reduce at e1 e2 ⊢
        unfold Lalib.forUpRet
        rw [e1]
        exact e2

theorem forRet {ρ : ι → Type} {ρ' : Type} {J : Nat → (∀ i, σ i) → τ → Prop} {f : ∀ i, Nat → σ i → Res (σ i ⊕ ρ i)}
    {g : Nat → τ → Res (τ ⊕ ρ')} {n : Nat} {s : ∀ i, σ i} {t : τ} (h : J 0 s t)
    (hf : ∀ k s t, k < n → J k s t → Goes l (J (k + 1)) (fun i => f i k (s i)) (g k t)) :
    Goes l (J n) (fun i => forRet 0 n (f i) (s i)) (Lalib.forRet 0 n g t) := by
  have := forUpRet (l := l) (J := J) (f := f) (g := g) (lo := 0) (n := n - 0) h fun k s t _ h2 hk => hf k s t (by omega) hk
  simpa [Lalib.forRet] using this

end loops

end Lim

namespace LogRel

variable {T : ι → Type} {T' : Type} [∀ i, Zero (T i)] [∀ i, One (T i)] [∀ i, Neg (T i)]
    [∀ i, Add (T i)] [∀ i, Sub (T i)] [∀ i, Mul (T i)] [∀ i, CDiv (T i)] [∀ i, CZero (T i)] [∀ i, CSqrt (T i)]
    [∀ i, LT (T i)] [Zero T'] [One T'] [Neg T'] [Add T'] [Sub T'] [Mul T'] [CDiv T'] [CZero T'] [CSqrt T'] [LT T']
  {S : LogRel l T T'}

theorem Buf.lrd {a : ∀ i, List (T i)} {b : List T'} (h : S.Buf a b) (k : Nat) :
    Lim l S.rel (fun i => lrd (a i) k) (Lalib.lrd b k) := by
  by_cases hk : k < b.length
  · rw [lrd_val hk]
    exact (Lim.ok (h.2 k hk)).of_eventually (.of_forall fun i => lrd_val (by rw [h.1 i]; exact hk))
  · rw [lrd_oob (by omega)]; exact .error _ _

theorem Buf.set {a : ∀ i, List (T i)} {b : List T'} (h : S.Buf a b) (k : Nat) {x : ∀ i, T i} {y : T'} (hx : S.rel x y)
    (hk : k < b.length) : S.Buf (fun i => (a i).set k (x i)) (b.set k y) := by
  refine ⟨fun i => by simpa using h.1 i, fun j hj => ?_⟩
  have hj' : j < b.length := by simpa using hj
  have e : (fun i => val0 ((a i).set k (x i)) j) = fun i => if j = k then x i else val0 (a i) j :=
    funext fun i => val0_set (by rw [h.1 i]; exact hk) _ _
  rw [val0_set hk, e]
  split
  · exact hx
  · exact h.2 j hj'

theorem Buf.lwr {a : ∀ i, List (T i)} {b : List T'} (h : S.Buf a b) (k : Nat) {x : ∀ i, T i} {y : T'} (hx : S.rel x y) :
    Lim l S.Buf (fun i => lwr (a i) k (x i)) (Lalib.lwr b k y) := by
  by_cases hk : k < b.length
  · rw [lwr_ok hk]
    exact (Lim.ok (h.set k hx hk)).of_eventually (.of_forall fun i => lwr_ok (by rw [h.1 i]; exact hk) _)
  · rw [lwr_oob (by omega)]; exact .error _ _

theorem Buf.zeros (n : Nat) : S.Buf (fun i => List.replicate n (0 : T i)) (List.replicate n 0) := by
  refine ⟨by simp, fun k hk => ?_⟩
  have hk' : k < n := by simpa using hk
  have e : ∀ (U : Type) [Zero U], val0 (List.replicate n (0 : U)) k = 0 := fun U _ => by
    rw [val0_of_lt (by simpa using hk')]; simp
  simp only [e]
  exact S.zero

theorem Buf.push {a : ∀ i, List (T i)} {b : List T'} (h : S.Buf a b) {x : ∀ i, T i} {y : T'} (hx : S.rel x y) :
    S.Buf (fun i => a i ++ [x i]) (b ++ [y]) := by
  refine ⟨fun i => by simp [h.1 i], fun k hk => ?_⟩
  have hk' : k < b.length + 1 := by simpa using hk
  have e : ∀ (U : Type) [Zero U] (c : List U) (z : U), c.length = b.length →
      val0 (c ++ [z]) k = if k < b.length then val0 c k else z := by
    intro U _ c z hc
    rw [val0_append, hc]
    split
    · rfl
    · rw [show k - b.length = 0 by omega]; rfl
  rw [e T' b y rfl, show (fun i => val0 (a i ++ [x i]) k) = fun i => if k < b.length then val0 (a i) k else x i from
    funext fun i => e (T i) (a i) (x i) (h.1 i)]
  split
  · next hk => exact h.2 k hk
  · exact hx

theorem Buf.one {x : ∀ i, T i} {y : T'} (hx : S.rel x y) : S.Buf (fun i => [x i]) [y] :=
  ⟨fun _ => rfl, fun k hk => by obtain rfl : k = 0 := by simpa using hk
                                exact hx⟩

theorem Buf.map {a : ∀ i, List (T i)} {b : List T'} (h : S.Buf a b) {f : ∀ i, T i → T i} {g : T' → T'}
    (hf : ∀ x y, S.rel x y → S.rel (fun i => f i (x i)) (g y)) : S.Buf (fun i => (a i).map (f i)) (b.map g) := by
  refine ⟨fun i => by simpa using h.1 i, fun k hk => ?_⟩
  have hk' : k < b.length := by simpa using hk
  have e : ∀ (U : Type) [Zero U] (c : List U) (φ : U → U), k < c.length → val0 (c.map φ) k = φ (val0 c k) := by
    intro U _ c φ hc
    rw [val0_of_lt (by simpa using hc), val0_of_lt hc]; simp
  rw [e T' b g hk', show (fun i => val0 ((a i).map (f i)) k) = fun i => f i (val0 (a i) k) from
    funext fun i => e (T i) (a i) (f i) (by rw [h.1 i]; exact hk')]
  exact hf _ _ (h.2 k hk')

variable {P : Nat → Prop} {m : ∀ i, Mem (T i)} {m' : Mem T'}

theorem Bufs.len (h : S.Bufs P m m') {p : Nat} (hp : P p) (i : ι) : (m i).len p = m'.len p := (h p hp).1 i

theorem Bufs.rd (h : S.Bufs P m m') {p : Nat} (hp : P p) (k : Nat) :
    Lim l S.rel (fun i => (m i).rd p k) (m'.rd p k) := (h p hp).lrd k

theorem Bufs.setBuf {Q : Nat → Prop} (h : S.Bufs P m m') {p : Nat} {a : ∀ i, List (T i)} {b : List T'}
    (hl : S.Buf a b) (hQ : ∀ q, Q q → q ≠ p → P q) :
    S.Bufs Q (fun i => (m i).setBuf p (a i)) (m'.setBuf p b) := by
  intro q hq
  by_cases e : q = p
  · subst e; simp only [Mem.setBuf_self]; exact hl
  · simp only [Mem.setBuf_other _ e]; exact h q (hQ q hq e)

theorem Bufs.wr (h : S.Bufs P m m') {p : Nat} (hp : P p) (k : Nat) {x : ∀ i, T i} {y : T'} (hx : S.rel x y) :
    Lim l (S.Bufs P) (fun i => (m i).wr p k (x i)) (m'.wr p k y) := by
  by_cases hk : k < m'.len p
  · rw [Mem.wr_ok hk]
    refine (Lim.ok (a := fun i => (m i).upd p k (x i)) fun q hq => ?_).of_eventually
      (.of_forall fun i => Mem.wr_ok (by rw [h.len hp i]; exact hk) _)
    by_cases e : q = p
    · subst e
      simp only [Mem.upd_same_buf]
      exact (h q hq).set k hx hk
    · simp only [Mem.upd_other _ e]; exact h q hq
  · rw [Mem.wr_oob (by omega)]; exact .error _ _

theorem addUp {f : ∀ i, Nat → T i} {g : Nat → T'} {lo hi : Nat} :
    ∀ {s : ∀ i, T i} {t : T'}, S.rel s t → (∀ k, lo ≤ k → k < hi → S.rel (fun i => f i k) (g k)) →
      S.rel (fun i => addUp (f i) lo hi (s i)) (Lalib.addUp g lo hi t) := by
  intro s t h hf
  have key : ∀ (L : List Nat) (s : ∀ i, T i) (t : T'), S.rel s t → (∀ k ∈ L, S.rel (fun i => f i k) (g k)) →
      S.rel (fun i => L.foldl (fun v k => v + f i k) (s i)) (L.foldl (fun v k => v + g k) t) := by
    intro L
    induction L with
    | nil => intro s t h _; exact h
    | cons k L ih =>
      intro s t h hL
      exact ih _ _ (S.add h (hL k (by simp))) fun j hj => hL j (by simp [hj])
  exact key _ s t h fun k hk => hf k (by simp at hk; omega) (by simp at hk; omega)

end LogRel

/-! ## Limits of real numbers -/

/-- The limit of a family of real numbers. -/
noncomputable def limRel (l : Filter ι) : LogRel l (fun _ => ℝ) ℝ where
  rel f a := Tendsto f l (𝓝 a)
  zero := tendsto_const_nhds
  one := tendsto_const_nhds
  neg h := h.neg
  add h k := h.add k
  sub h k := h.sub k
  mul h k := h.mul k
  div := by
    intro f g a b h k
    rw [divC_eq]
    split
    · exact .error _ _
    · next hb =>
      refine (Lim.ok (h.div k hb)).of_eventually ((k.eventually_ne hb).mono fun i hi => ?_)
      rw [divC_eq, if_neg hi]
      rfl
  zero_isZ := ⟨fun _ => rfl, rfl⟩
  nz h ha := h.eventually_ne ha
  pos := by
    intro f a h ha hn
    have hp : 0 < a := lt_of_le_of_ne (not_lt.mp hn) (Ne.symm ha)
    exact (h.eventually_const_lt hp).mono fun i hi => ⟨hi.ne', hi.not_gt⟩
  sqrt := by
    intro f a h ha hn
    have hp : 0 < a := lt_of_le_of_ne (not_lt.mp hn) (Ne.symm ha)
    rw [sqrtC_eq, if_neg hn]
    refine (Lim.ok ((Real.continuous_sqrt.tendsto a).comp h)).of_eventually ((h.eventually_const_lt hp).mono fun i hi => ?_)
    rw [sqrtC_eq, if_neg hi.not_gt]
    rfl

/-! ## Derivatives -/

/-- Value and derivative of a function at `t`. -/
noncomputable def dualRel (t : ℝ) : LogRel (𝓝 t) (fun _ => ℝ) Dual where
  rel f a := f t = a.re ∧ HasDerivAt f a.eps t
  zero := ⟨rfl, hasDerivAt_const t 0⟩
  one := ⟨rfl, hasDerivAt_const t 1⟩
  neg h := ⟨congrArg _ h.1, HasDerivAt.neg h.2⟩
  add h k := ⟨congrArg₂ _ h.1 k.1, HasDerivAt.add h.2 k.2⟩
  sub h k := ⟨congrArg₂ _ h.1 k.1, HasDerivAt.sub h.2 k.2⟩
  mul {f g a b} h k := ⟨congrArg₂ _ h.1 k.1, by
    have := h.2.mul k.2
    rw [h.1, k.1] at this
    exact this⟩
  div := by
    intro f g a b h k
    show Lim _ _ _ (if b.re = 0 then .error .nonFinite else .ok _)
    split
    · exact .error _ _
    · next hb =>
      have hg : g t ≠ 0 := by rw [k.1]; exact hb
      have := h.2.div k.2 hg
      rw [h.1, k.1] at this
      refine (Lim.ok (P := fun (f : ℝ → ℝ) (a : Dual) => f t = a.re ∧ HasDerivAt f a.eps t) (a := fun i => f i / g i)
        ⟨congrArg₂ _ h.1 k.1, this⟩).of_eventually ((k.2.continuousAt.eventually_ne hg).mono fun i hi => ?_)
      rw [divC_eq, if_neg hi]
  zero_isZ := ⟨fun _ => rfl, rfl⟩
  nz {f a} h ha := h.2.continuousAt.eventually_ne (by rw [h.1]; exact ha)
  pos := by
    intro f a h ha hn
    have hp : 0 < f t := by rw [h.1]; exact lt_of_le_of_ne (not_lt.mp hn) (Ne.symm ha)
    exact (h.2.continuousAt.tendsto.eventually_const_lt hp).mono fun i hi => ⟨hi.ne', hi.not_gt⟩
  sqrt := by
    intro f a h ha hn
    have hq : 0 < a.re := lt_of_le_of_ne (not_lt.mp hn) (Ne.symm ha)
    have hp : 0 < f t := by rw [h.1]; exact hq
    show Lim _ _ _ (if a.re ≤ 0 then .error .nonFinite else .ok _)
    rw [if_neg (not_le.mpr hq)]
    have := h.2.sqrt hp.ne'
    rw [h.1] at this
    refine (Lim.ok (P := fun (f : ℝ → ℝ) (a : Dual) => f t = a.re ∧ HasDerivAt f a.eps t) (a := fun i => Real.sqrt (f i))
      ⟨congrArg _ h.1, this⟩).of_eventually ((h.2.continuousAt.tendsto.eventually_const_lt hp).mono fun i hi => ?_)
    rw [sqrtC_eq, if_neg hi.not_gt]
    rfl

/-- The values of dual numbers. -/
noncomputable def dualVal : LogRel (⊤ : Filter Unit) (fun _ => Dual) ℝ where
  rel f a := (f ()).re = a
  zero := rfl
  one := rfl
  neg h := by subst h; rfl
  add h k := by subst h k; rfl
  sub h k := by subst h k; rfl
  mul h k := by subst h k; rfl
  div := by
    rintro f g _ _ rfl rfl
    rw [divC_eq]
    split
    · exact .error _ _
    · next hb =>
      refine (Lim.ok (P := fun (f : Unit → Dual) a => (f ()).re = a)
        (a := fun i => ⟨(f i).re / (g i).re, ((f i).eps * (g i).re - (f i).re * (g i).eps) / (g i).re ^ 2⟩) rfl).of_eventually
        (.of_forall fun i => ?_)
      show (if (g i).re = 0 then _ else _) = _
      rw [if_neg hb]
  zero_isZ := ⟨fun _ => rfl, rfl⟩
  nz := by rintro f _ rfl ha; exact .of_forall fun i => ha
  pos := by rintro f _ rfl ha hn; exact .of_forall fun i => ⟨ha, hn⟩
  sqrt := by
    rintro f _ rfl ha hn
    have hp : 0 < (f ()).re := lt_of_le_of_ne (not_lt.mp hn) (Ne.symm ha)
    rw [sqrtC_eq, if_neg hn]
    refine (Lim.ok (P := fun (f : Unit → Dual) a => (f ()).re = a)
      (a := fun i => ⟨Real.sqrt (f i).re, (f i).eps / (2 * Real.sqrt (f i).re)⟩) rfl).of_eventually (.of_forall fun i => ?_)
    show (if (f i).re ≤ 0 then _ else _) = _
    rw [if_neg (not_le.mpr hp)]

/-! ## Higher and higher precision -/

theorem Rounding.tendsto {R : ι → Rounding} (hu : Tendsto (fun i => (R i).u) l (𝓝 0)) {f : ι → ℝ} {a : ℝ}
    (h : Tendsto f l (𝓝 a)) : Tendsto (fun i => (R i).rnd (f i)) l (𝓝 a) := by
  have h0 : Tendsto (fun i => (R i).rnd (f i) - f i) l (𝓝 0) := by
    rw [tendsto_zero_iff_abs_tendsto_zero]
    have : Tendsto (fun i => (R i).u * |f i|) l (𝓝 0) := by simpa using hu.mul h.abs
    exact squeeze_zero (fun i => abs_nonneg _) (fun i => (R i).err (f i)) this
  simpa using h0.add h

/-- Rounded numbers whose values tend to a real number as the unit roundoff tends to zero. -/
noncomputable def precRel (l : Filter ι) (R : ι → Rounding) (hu : Tendsto (fun i => (R i).u) l (𝓝 0)) :
    LogRel l (fun i => Fl (R i)) ℝ where
  rel f a := Tendsto (fun i => (f i).val) l (𝓝 a)
  zero := tendsto_const_nhds
  one := tendsto_const_nhds
  neg h := h.neg
  add h k := Rounding.tendsto hu (h.add k)
  sub h k := Rounding.tendsto hu (h.sub k)
  mul h k := Rounding.tendsto hu (h.mul k)
  div := by
    intro f g a b h k
    rw [divC_eq]
    split
    · exact .error _ _
    · next hb =>
      refine (Lim.ok (P := fun (f : ∀ i, Fl (R i)) a => Tendsto (fun i => (f i).val) l (𝓝 a)) (a := fun i => f i / g i)
        (Rounding.tendsto hu (h.div k hb))).of_eventually ((k.eventually_ne hb).mono fun i hi => ?_)
      rw [divC_eq, if_neg fun e => hi (congrArg Fl.val e)]
  zero_isZ := ⟨fun _ => rfl, rfl⟩
  nz h ha := (h.eventually_ne ha).mono fun i hi e => hi (congrArg Fl.val e)
  pos := by
    intro f a h ha hn
    have hp : 0 < a := lt_of_le_of_ne (not_lt.mp hn) (Ne.symm ha)
    exact (h.eventually_const_lt hp).mono fun i hi => ⟨fun e => hi.ne' (congrArg Fl.val e), hi.not_gt⟩
  sqrt := by
    intro f a h ha hn
    have hp : 0 < a := lt_of_le_of_ne (not_lt.mp hn) (Ne.symm ha)
    rw [sqrtC_eq, if_neg hn]
    refine (Lim.ok (P := fun (f : ∀ i, Fl (R i)) a => Tendsto (fun i => (f i).val) l (𝓝 a)) (a := fun i => Sqrt.sqrt (f i))
      (Rounding.tendsto hu ((Real.continuous_sqrt.tendsto a).comp h))).of_eventually
      ((h.eventually_const_lt hp).mono fun i hi => ?_)
    rw [sqrtC_eq, if_neg (show ¬ f i < 0 from hi.not_gt)]

/-! ## Intervals -/

namespace Iv
variable {D : Directed}

theorem corner_le {a b c d x y : ℝ} (hx : a ≤ x ∧ x ≤ b) (hy : c ≤ y ∧ y ≤ d) :
    a * c ≤ x * y ∨ a * d ≤ x * y ∨ b * c ≤ x * y ∨ b * d ≤ x * y := by
  have h1 : ∀ p, p * c ≤ p * y ∨ p * d ≤ p * y := fun p => by
    rcases le_total 0 p with h | h
    · exact .inl (mul_le_mul_of_nonneg_left hy.1 h)
    · exact .inr (mul_le_mul_of_nonpos_left hy.2 h)
  rcases le_total 0 y with h | h
  · have := mul_le_mul_of_nonneg_right hx.1 h
    rcases h1 a with h2 | h2
    · exact .inl (h2.trans this)
    · exact .inr (.inl (h2.trans this))
  · have := mul_le_mul_of_nonpos_right hx.2 h
    rcases h1 b with h2 | h2
    · exact .inr (.inr (.inl (h2.trans this)))
    · exact .inr (.inr (.inr (h2.trans this)))

theorem le_corner {a b c d x y : ℝ} (hx : a ≤ x ∧ x ≤ b) (hy : c ≤ y ∧ y ≤ d) :
    x * y ≤ a * c ∨ x * y ≤ a * d ∨ x * y ≤ b * c ∨ x * y ≤ b * d := by
  have := corner_le (x := -x) (a := -b) (b := -a) ⟨neg_le_neg hx.2, neg_le_neg hx.1⟩ hy
  simp only [neg_mul, neg_le_neg_iff] at this
  tauto

/-- The smallest of four numbers rounded down, and the largest of four rounded up. -/
theorem has_corners {p q r s v : ℝ} (h1 : p ≤ v ∨ q ≤ v ∨ r ≤ v ∨ s ≤ v) (h2 : v ≤ p ∨ v ≤ q ∨ v ≤ r ∨ v ≤ s) :
    Iv.Has (D := D) ⟨min (min (D.dn p) (D.dn q)) (min (D.dn r) (D.dn s)),
      max (max (D.up p) (D.up q)) (max (D.up r) (D.up s))⟩ v := by
  constructor
  · rcases h1 with h | h | h | h
    · exact (min_le_left _ _).trans ((min_le_left _ _).trans ((D.dn_le _).trans h))
    · exact (min_le_left _ _).trans ((min_le_right _ _).trans ((D.dn_le _).trans h))
    · exact (min_le_right _ _).trans ((min_le_left _ _).trans ((D.dn_le _).trans h))
    · exact (min_le_right _ _).trans ((min_le_right _ _).trans ((D.dn_le _).trans h))
  · rcases h2 with h | h | h | h
    · exact h.trans ((D.le_up _).trans ((le_max_left _ _).trans (le_max_left _ _)))
    · exact h.trans ((D.le_up _).trans ((le_max_right _ _).trans (le_max_left _ _)))
    · exact h.trans ((D.le_up _).trans ((le_max_left _ _).trans (le_max_right _ _)))
    · exact h.trans ((D.le_up _).trans ((le_max_right _ _).trans (le_max_right _ _)))

theorem has_mul {I J : Iv D} {x y : ℝ} (hx : I.Has x) (hy : J.Has y) : (I * J).Has (x * y) :=
  has_corners (corner_le hx hy) (le_corner hx hy)

theorem has_div {I J : Iv D} {x y : ℝ} (hx : I.Has x) (hy : J.Has y) (h0 : ¬ (J.lo ≤ 0 ∧ 0 ≤ J.hi)) :
    Iv.Has (D := D) ⟨min (min (D.dn (I.lo / J.lo)) (D.dn (I.lo / J.hi))) (min (D.dn (I.hi / J.lo)) (D.dn (I.hi / J.hi))),
      max (max (D.up (I.lo / J.lo)) (D.up (I.lo / J.hi))) (max (D.up (I.hi / J.lo)) (D.up (I.hi / J.hi)))⟩ (x / y) := by
  have hi : J.hi⁻¹ ≤ y⁻¹ ∧ y⁻¹ ≤ J.lo⁻¹ := by
    rcases lt_or_ge 0 J.lo with h | h
    · have hy0 : 0 < y := h.trans_le hy.1
      exact ⟨inv_anti₀ hy0 hy.2, inv_anti₀ h hy.1⟩
    · have h1 : J.hi < 0 := by
        by_contra h2
        exact h0 ⟨h, not_lt.mp h2⟩
      have hy0 : y < 0 := hy.2.trans_lt h1
      have hl0 : J.lo < 0 := hy.1.trans_lt hy0
      exact ⟨(inv_le_inv_of_neg h1 hy0).mpr hy.2, (inv_le_inv_of_neg hy0 hl0).mpr hy.1⟩
  have h1 := corner_le hx hi
  have h2 := le_corner hx hi
  simp only [← div_eq_mul_inv] at h1 h2
  exact has_corners (by tauto) (by tauto)

end Iv

/-- Intervals that contain a number each. -/
noncomputable def ivRel (D : Directed) : LogRel (⊤ : Filter Unit) (fun _ => ℝ) (Iv D) where
  rel f I := I.Has (f ())
  zero := ⟨le_refl _, le_refl _⟩
  one := ⟨le_refl _, le_refl _⟩
  neg h := ⟨neg_le_neg h.2, neg_le_neg h.1⟩
  add h k := ⟨(D.dn_le _).trans (add_le_add h.1 k.1), (add_le_add h.2 k.2).trans (D.le_up _)⟩
  sub h k := ⟨(D.dn_le _).trans (sub_le_sub h.1 k.2), (sub_le_sub h.2 k.1).trans (D.le_up _)⟩
  mul h k := Iv.has_mul h k
  div := by
    intro f g I J h k
    show Lim _ _ _ (if J.lo ≤ 0 ∧ 0 ≤ J.hi then .error .nonFinite else .ok _)
    split
    · exact .error _ _
    · next hJ =>
      have hg : g () ≠ 0 := fun e => hJ (by have := k; rw [e] at this; exact this)
      refine (Lim.ok (P := fun (f : Unit → ℝ) (I : Iv D) => I.Has (f ())) (a := fun i => f i / g i)
        (Iv.has_div h k hJ)).of_eventually (.of_forall fun i => ?_)
      rw [divC_eq, if_neg hg]
  zero_isZ := ⟨fun _ => rfl, ⟨le_refl _, le_refl _⟩⟩
  nz {f I} h hI := .of_forall fun i e => hI (by
    have h := h
    rw [show f () = 0 from e] at h
    exact h)
  pos := by
    intro f I h hI hn
    have h1 : 0 ≤ I.lo := not_lt.mp hn
    have h2 : 0 < f () := by
      rcases lt_or_eq_of_le (h1.trans h.1) with h3 | h3
      · exact h3
      · exact absurd ⟨h3 ▸ h.1, h3 ▸ h.2⟩ hI
    exact .of_forall fun i => ⟨h2.ne', h2.not_gt⟩
  sqrt := by
    intro f I h hI hn
    have h1 : 0 ≤ I.lo := not_lt.mp hn
    show Lim _ _ _ (if I.lo < 0 then .error .nonFinite else .ok _)
    rw [if_neg (not_lt.mpr h1)]
    refine (Lim.ok (P := fun (f : Unit → ℝ) (I : Iv D) => I.Has (f ())) (a := fun i => Real.sqrt (f i))
      ⟨(D.dn_le _).trans (Real.sqrt_le_sqrt h.1), (Real.sqrt_le_sqrt h.2).trans (D.le_up _)⟩).of_eventually
      (.of_forall fun i => ?_)
    rw [sqrtC_eq, if_neg (not_lt.mpr (h1.trans h.1))]
    rfl

end Lalib
