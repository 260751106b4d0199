import Verif.Proofs.ScalingRec
import Verif.Model.VecOps

/-! # Two runs in lock-step -/

namespace Lalib

namespace SameOut

variable {α β α' β' : Type} {P : α → β → Prop} {Q : α' → β' → Prop}

theorem error (e : Fault) : SameOut P (.error e) (.error e) := rfl

theorem bind {r : Res α} {r' : Res β} {f : α → Res α'} {g : β → Res β'} (h : SameOut P r r')
    (hf : ∀ a b, P a b → SameOut Q (f a) (g b)) : SameOut Q (r >>= f) (r' >>= g) := by
  match r, r', h with
  | .ok a, .ok b, h => exact hf a b h
  | .error e, .error _, h => cases h; rfl

theorem mono {P' : α → β → Prop} {r : Res α} {r' : Res β} (h : SameOut P r r') (hP : ∀ a b, P a b → P' a b) :
    SameOut P' r r' := by
  match r, r', h with
  | .ok a, .ok b, h => exact hP a b h
  | .error e, .error _, h => exact h

theorem noexcept {r : Res α} {r' : Res β} (h : SameOut P r r') : SameOut P (noexcept r) (noexcept r') := by
  match r, r', h with
  | .ok a, .ok b, h => exact h
  | .error e, .error _, h => cases h; cases e <;> rfl

/-- The same check on both sides. -/
theorem check {c c' : Res Unit} (h : c = c') {r : Res α} {r' : Res β} (hr : SameOut P r r') :
    SameOut P (c >>= fun _ => r) (c' >>= fun _ => r') := by
  subst h
  match c with
  | .ok _ => exact hr
  | .error e => rfl

/-- The same value is computed on both sides. -/
theorem same {γ : Type} {c c' : Res γ} (h : c = c') {f : γ → Res α} {g : γ → Res β}
    (hr : ∀ x, c = .ok x → SameOut P (f x) (g x)) : SameOut P (c >>= f) (c' >>= g) := by
  subst h
  match c, hr with
  | .ok x, hr => exact hr x rfl
  | .error e, _ => rfl

theorem ok_left {r : Res α} {r' : Res β} {a : α} (h : SameOut P r r') (e : r = .ok a) : ∃ b, r' = .ok b ∧ P a b := by
  subst e
  match r', h with
  | .ok b, h => exact ⟨b, rfl, h⟩

theorem ok_right {r : Res α} {r' : Res β} {b : β} (h : SameOut P r r') (e : r' = .ok b) : ∃ a, r = .ok a ∧ P a b := by
  subst e
  match r, h with
  | .ok a, h => exact ⟨a, rfl, h⟩

/-- Read out: both fail in the same way or both succeed. -/
theorem cases {r : Res α} {r' : Res β} (h : SameOut P r r') :
    (∃ e, r = .error e ∧ r' = .error e) ∨ ∃ a b, r = .ok a ∧ r' = .ok b ∧ P a b := by
  match r, r', h with
  | .ok a, .ok b, h => exact .inr ⟨a, b, rfl, rfl, h⟩
  | .error e, .error _, h => cases h; exact .inl ⟨e, rfl, rfl⟩

section loops
variable {σ τ : Type} {I : Nat → σ → τ → Prop}

theorem forUp {f : Nat → σ → Res σ} {g : Nat → τ → Res τ} :
    ∀ {lo n : Nat} {s : σ} {t : τ}, I lo s t →
      (∀ i s t, lo ≤ i → i < lo + n → I i s t → SameOut (I (i + 1)) (f i s) (g i t)) →
      SameOut (I (lo + n)) (forUp f lo n s) (Lalib.forUp g lo n t)
  | lo, 0, s, t, h, _ => h
  | lo, n + 1, s, t, h, hf => by
    show SameOut _ (f lo s >>= fun s => Lalib.forUp f (lo + 1) n s) (g lo t >>= fun t => Lalib.forUp g (lo + 1) n t)
    refine bind (hf lo s t (Nat.le_refl _) (by omega) h) fun s' t' h' => ?_
    have := forUp (f := f) (g := g) (lo := lo + 1) (n := n) h' fun i s t h1 h2 hi => hf i s t (by omega) (by omega) hi
    rwa [show lo + 1 + n = lo + (n + 1) by omega] at this

theorem forRange {f : Nat → σ → Res σ} {g : Nat → τ → Res τ} {lo hi : Nat} {s : σ} {t : τ} (hle : lo ≤ hi)
    (h : I lo s t) (hf : ∀ i s t, lo ≤ i → i < hi → I i s t → SameOut (I (i + 1)) (f i s) (g i t)) :
    SameOut (I hi) (forRange lo hi f s) (Lalib.forRange lo hi g t) := by
  have := forUp (f := f) (g := g) (lo := lo) (n := hi - lo) h fun i s t h1 h2 => hf i s t h1 (by omega)
  rwa [show lo + (hi - lo) = hi by omega] at this

/-- An invariant that does not mention the counter. -/
theorem forRange' {I : σ → τ → Prop} {f : Nat → σ → Res σ} {g : Nat → τ → Res τ} {lo hi : Nat} {s : σ} {t : τ}
    (h : I s t) (hf : ∀ i s t, lo ≤ i → i < hi → I s t → SameOut I (f i s) (g i t)) :
    SameOut I (Lalib.forRange lo hi f s) (Lalib.forRange lo hi g t) := by
  rcases Nat.le_total lo hi with hle | hle
  · exact forRange (I := fun _ => I) hle h hf
  · rw [forRange_of_le hle, forRange_of_le hle]; exact h

theorem forDown {I : σ → τ → Prop} {f : Nat → σ → Res σ} {g : Nat → τ → Res τ} :
    ∀ {n : Nat} {s : σ} {t : τ}, I s t → (∀ i s t, i < n → I s t → SameOut I (f i s) (g i t)) →
      SameOut I (forDown f n s) (Lalib.forDown g n t)
  | 0, s, t, h, _ => h
  | n + 1, s, t, h, hf => by
    show SameOut _ (f n s >>= fun s => Lalib.forDown f n s) (g n t >>= fun t => Lalib.forDown g n t)
    exact bind (hf n s t (by omega) h) fun s' t' h' => forDown h' fun i s t hi => hf i s t (by omega)

theorem forOrder {I : σ → τ → Prop} {f : Nat → σ → Res σ} {g : Nat → τ → Res τ} :
    ∀ {ord : List Nat} {s : σ} {t : τ}, I s t → (∀ i s t, i ∈ ord → I s t → SameOut I (f i s) (g i t)) →
      SameOut I (forOrder f ord s) (Lalib.forOrder g ord t)
  | [], s, t, h, _ => h
  | i :: ord, s, t, h, hf => by
    show SameOut _ (f i s >>= fun s => Lalib.forOrder f ord s) (g i t >>= fun t => Lalib.forOrder g ord t)
    exact bind (hf i s t (by simp) h) fun s' t' h' => forOrder h' fun j s t hj => hf j s t (by simp [hj])

/-- Results of a loop body that may return. -/
def Both {ρ ρ' : Type} (I : σ → τ → Prop) (R : ρ → ρ' → Prop) : σ ⊕ ρ → τ ⊕ ρ' → Prop
  | .inl s, .inl t => I s t
  | .inr r, .inr r' => R r r'
  | _, _ => False

theorem forUpRet {ρ ρ' : Type} {I : σ → τ → Prop} {R : ρ → ρ' → Prop} {f : Nat → σ → Res (σ ⊕ ρ)}
    {g : Nat → τ → Res (τ ⊕ ρ')} : ∀ {lo n : Nat} {s : σ} {t : τ}, I s t →
      (∀ i s t, lo ≤ i → i < lo + n → I s t → SameOut (Both I R) (f i s) (g i t)) →
      SameOut (Both I R) (forUpRet f lo n s) (Lalib.forUpRet g lo n t)
  | lo, 0, s, t, h, _ => h
  | lo, n + 1, s, t, h, hf => by
    unfold Lalib.forUpRet
    refine bind (hf lo s t (Nat.le_refl _) (by omega) h) fun a b hab => ?_
    match a, b, hab with
    | .inl s, .inl t, hab => exact forUpRet hab fun i s t h1 h2 hi => hf i s t (by omega) (by omega) hi
    | .inr r, .inr r', hab => exact hab

theorem forRet {ρ ρ' : Type} {I : σ → τ → Prop} {R : ρ → ρ' → Prop} {f : Nat → σ → Res (σ ⊕ ρ)}
    {g : Nat → τ → Res (τ ⊕ ρ')} {lo hi : Nat} {s : σ} {t : τ} (h : I s t)
    (hf : ∀ i s t, lo ≤ i → i < hi → I s t → SameOut (Both I R) (f i s) (g i t)) :
    SameOut (Both I R) (forRet lo hi f s) (Lalib.forRet lo hi g t) := by
  unfold Lalib.forRet
  exact forUpRet h fun i s t h1 h2 => hf i s t h1 (by omega)

end loops

end SameOut

/-! ## Buffers -/

namespace Scaling

variable {T : Type} [Zero T] [Add T] [Sub T] [Mul T] [Neg T] [Div T] [CDiv T] [CZero T] [LT T] [Sqrt T] [CSqrt T]
  {S : Scaling T}

theorem Buf.lrd {u : Nat → ℝ} {l l' : List T} (h : S.Buf u l l') (i : Nat) : SameOut (S.rel (u i)) (lrd l i) (Lalib.lrd l' i) := by
  by_cases hi : i < l.length
  · rw [lrd_val hi, lrd_val (by rw [← h.1]; exact hi)]; exact h.2 i hi
  · rw [lrd_oob (by omega), lrd_oob (by have := h.1; omega)]; rfl

theorem Buf.lwr {u : Nat → ℝ} {l l' : List T} (h : S.Buf u l l') (i : Nat) {x x' : T} (hx : S.rel (u i) x x') :
    SameOut (S.Buf u) (lwr l i x) (Lalib.lwr l' i x') := by
  have hl := h.1
  by_cases hi : i < l.length
  · rw [lwr_ok hi, lwr_ok (by omega)]
    refine ⟨by simpa using hl, fun j hj => ?_⟩
    have hj' : j < l.length := by simpa using hj
    rw [val0_set hi, val0_set (by omega)]
    split
    · next e => subst e; exact hx
    · exact h.2 j hj'
  · rw [lwr_oob (by omega), lwr_oob (by omega)]; rfl

theorem Buf.zeros {u : Nat → ℝ} (n : Nat) (hu : ∀ i, i < n → S.ok (u i)) :
    S.Buf u (List.replicate n (0 : T)) (List.replicate n 0) := by
  refine ⟨by simp, fun i hi => ?_⟩
  have hi' : i < n := by simpa using hi
  have e : val0 (List.replicate n (0 : T)) i = 0 := by
    rw [val0_of_lt (by simpa using hi')]; simp
  rw [e]
  exact S.zero (hu i hi')

theorem Buf.congr {u v : Nat → ℝ} {l l' : List T} (h : S.Buf u l l') (huv : ∀ i, i < l.length → u i = v i) :
    S.Buf v l l' :=
  ⟨h.1, fun i hi => S.cast (huv i hi) (h.2 i hi)⟩

theorem Buf.map {u v : Nat → ℝ} {l l' : List T} (h : S.Buf u l l') {f f' : T → T}
    (hf : ∀ i a a', i < l.length → S.rel (u i) a a' → S.rel (v i) (f a) (f' a')) : S.Buf v (l.map f) (l'.map f') := by
  have hl := h.1
  refine ⟨by simpa using hl, fun i hi => ?_⟩
  have hi' : i < l.length := by simpa using hi
  have e := hf i _ _ hi' (h.2 i hi')
  rw [val0_of_lt hi', val0_of_lt (show i < l'.length by omega)] at e
  rw [val0_of_lt hi, val0_of_lt (by simpa using (by omega : i < l'.length))]
  simpa using e

variable {P : Nat → Prop} {u : Nat → Nat → ℝ} {m m' : Mem T}

theorem Bufs.len (h : S.Bufs P u m m') {p : Nat} (hp : P p) : m.len p = m'.len p := (h p hp).1

theorem Bufs.rd (h : S.Bufs P u m m') {p : Nat} (hp : P p) (i : Nat) :
    SameOut (S.rel (u p i)) (m.rd p i) (m'.rd p i) := (h p hp).lrd i

theorem Bufs.val (h : S.Bufs P u m m') {p : Nat} (hp : P p) {i : Nat} (hi : i < m.len p) :
    S.rel (u p i) (m.val p i) (m'.val p i) := (h p hp).2 i hi

theorem Bufs.wr (h : S.Bufs P u m m') {p : Nat} (hp : P p) (i : Nat) {x x' : T} (hx : S.rel (u p i) x x') :
    SameOut (S.Bufs P u) (m.wr p i x) (m'.wr p i x') := by
  have hl := h.len hp
  by_cases hi : i < m.len p
  · rw [Mem.wr_ok hi, Mem.wr_ok (by omega)]
    intro q hq
    by_cases e : q = p
    · subst e
      rw [Mem.upd_same_buf, Mem.upd_same_buf]
      have := (h q hq).lwr i hx
      rw [lwr_ok hi, lwr_ok (lt_of_lt_of_eq hi hl)] at this
      exact this
    · rw [Mem.upd_other _ e, Mem.upd_other _ e]; exact h q hq
  · rw [Mem.wr_oob (by omega), Mem.wr_oob (by omega)]; rfl

theorem Bufs.setBuf {Q : Nat → Prop} {v : Nat → Nat → ℝ} (h : S.Bufs P u m m') {p : Nat} {l l' : List T}
    (hl : S.Buf (v p) l l') (hQ : ∀ q, Q q → q ≠ p → P q ∧ v q = u q) :
    S.Bufs Q v (m.setBuf p l) (m'.setBuf p l') := by
  intro q hq
  by_cases e : q = p
  · subst e; rw [Mem.setBuf_self, Mem.setBuf_self]; exact hl
  · rw [Mem.setBuf_other _ e, Mem.setBuf_other _ e, (hQ q hq e).2]; exact h q (hQ q hq e).1

end Scaling

end Lalib
