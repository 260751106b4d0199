import Verif.Model.Counter
import Verif.Spec.Counter

namespace Lalib.Counter

variable {κ σ : Type}

theorem visit_nil (f : Nat → σ → Res σ) (s : σ) : visit f [] s = .ok s := rfl

theorem visit_cons (f : Nat → σ → Res σ) (i : Nat) (l : List Nat) (s : σ) :
    visit f (i :: l) s = f i s >>= visit f l := by
  unfold visit
  rw [List.foldlM_cons]

/-- A loop which passes through the counters `c 0, ..., c (m-1)`, then stops. -/
theorem loop_visit {cond : κ → Bool} {next : κ → κ} {body : κ → σ → Res σ} {f : Nat → σ → Res σ} :
    ∀ (l : List Nat) (c : Nat → κ) (s : σ) (fuel : Nat), l.length < fuel →
      (∀ i, i < l.length → cond (c i) = true ∧ c (i + 1) = next (c i) ∧ body (c i) = f (l.getD i 0)) →
      cond (c l.length) = false → loop cond next body fuel (c 0) s = some (visit f l s)
  | [], c, s, fuel + 1, _, _, h2 => by
    show (if cond (c 0) then _ else _) = _
    rw [show cond (c 0) = false from h2]; rfl
  | i :: l, c, s, fuel + 1, h0, h1, h2 => by
    obtain ⟨e1, e2, e3⟩ := h1 0 (Nat.zero_lt_succ _)
    rw [loop, if_pos e1, e3, visit_cons]
    show (match f i s with | .ok s => _ | .error e => _) = _
    cases f i s with
    | error e => rfl
    | ok s' =>
      rw [← e2]
      exact loop_visit l (fun i => c (i + 1)) s' fuel (by simpa using h0)
        (fun i hi => h1 (i + 1) (by simpa using hi)) (by simpa using h2)

theorem loop_yields {cond : κ → Bool} {next : κ → κ} {body : κ → σ → Res σ} {f : Nat → σ → Res σ}
    {l : List Nat} {s : σ} (c : Nat → κ)
    (h1 : ∀ i, i < l.length → cond (c i) = true ∧ c (i + 1) = next (c i) ∧ body (c i) = f (l.getD i 0))
    (h2 : cond (c l.length) = false) : Yields (fun fuel => loop cond next body fuel (c 0) s) (visit f l s) :=
  ⟨l.length + 1, fun fuel h => loop_visit l c s fuel (by omega) h1 h2⟩

theorem loop_forever {cond : κ → Bool} {next : κ → κ} {body : κ → σ → Res σ} {C : κ → Prop} {I : σ → Prop}
    (hc : ∀ c, C c → cond c = true ∧ C (next c)) (hb : ∀ c s, C c → I s → ∃ s', body c s = .ok s' ∧ I s') :
    ∀ (fuel : Nat) (c : κ) (s : σ), C c → I s → loop cond next body fuel c s = none
  | 0, _, _, _, _ => rfl
  | fuel + 1, c, s, h1, h2 => by
    obtain ⟨s', e, h'⟩ := hb c s h1 h2
    rw [loop, if_pos (hc c h1).1, e]
    exact loop_forever hc hb fuel (next c) s' (hc c h1).2 h'

theorem getD_range' {lo m i : Nat} (h : i < m) : (List.range' lo m).getD i 0 = lo + i := by
  rw [List.getD_eq_getElem?_getD, List.getElem?_range' h]; simp

theorem getD_rev {m i : Nat} (h : i < m) : (List.range m).reverse.getD i 0 = m - 1 - i := by
  rw [List.getD_eq_getElem?_getD, List.getElem?_reverse (by simpa using h), List.length_range,
    List.getElem?_range (by omega)]; rfl

theorem up_yields {f : Nat → σ → Res σ} {cond : Nat → Bool} {lo hi w : Nat} {s : σ} (hlo : lo ≤ hi) (hw : hi < w)
    (h1 : ∀ i, lo ≤ i → i < hi → cond i = true) (h2 : cond hi = false) :
    Yields (fun fuel => loop cond (fun i => (i + 1) % w) f fuel lo s) (visit f (List.range' lo (hi - lo)) s) := by
  have := loop_yields (cond := cond) (next := fun i => (i + 1) % w) (body := f) (f := f)
    (l := List.range' lo (hi - lo)) (s := s) (fun i => lo + i) (fun i h => by
      rw [List.length_range'] at h
      refine ⟨h1 _ (by omega) (by omega), ?_, ?_⟩
      · show lo + (i + 1) = (lo + i + 1) % w
        rw [Nat.mod_eq_of_lt (by omega)]; omega
      · rw [getD_range' h]) (by
      rw [List.length_range', show lo + (hi - lo) = hi by omega]; exact h2)
  exact this

theorem down_yields {f : Nat → σ → Res σ} {m : Nat} {c : Int} {s : σ} (hc : c + 1 = m) :
    Yields (fun fuel => loop (fun i : Int => decide (0 ≤ i)) (fun i => i - 1) (fun i => f i.toNat) fuel c s)
      (visit f (List.range m).reverse s) := by
  have := loop_yields (cond := fun i : Int => decide (0 ≤ i)) (next := fun i => i - 1) (body := fun i => f i.toNat)
    (f := f) (l := (List.range m).reverse) (s := s) (fun i => c - i) (fun i h => by
      rw [List.length_reverse, List.length_range] at h
      refine ⟨decide_eq_true (by omega), ?_, ?_⟩
      · show c - ((i + 1 : Nat) : Int) = c - i - 1
        omega
      · rw [getD_rev h]
        show f (c - i).toNat = _
        congr 1; omega) (by
      rw [List.length_reverse, List.length_range]
      exact decide_eq_false (by omega))
  simpa using this

theorem neg_yields {f : Nat → σ → Res σ} {c : Int} {s : σ} (hc : c < 0) :
    Yields (fun fuel => loop (fun i : Int => decide (0 ≤ i)) (fun i => i - 1) (fun i => f i.toNat) fuel c s)
      (.ok s) := by
  refine ⟨1, fun fuel hf => ?_⟩
  obtain ⟨fuel, rfl⟩ : ∃ m, fuel = m + 1 := ⟨fuel - 1, by omega⟩
  show loop _ _ _ (fuel + 1) c s = _
  rw [loop, if_neg (by simp only [decide_eq_true_eq]; omega)]

theorem forUp_visit (f : Nat → σ → Res σ) : ∀ (n lo : Nat) (s : σ), forUp f lo n s = visit f (List.range' lo n) s
  | 0, _, _ => rfl
  | n + 1, lo, s => by
    rw [forUp, List.range'_succ, visit_cons]
    congr 1
    funext s'
    exact forUp_visit f n (lo + 1) s'

theorem forDown_visit (f : Nat → σ → Res σ) : ∀ (n : Nat) (s : σ), forDown f n s = visit f (List.range n).reverse s
  | 0, _ => rfl
  | n + 1, s => by
    rw [forDown, List.range_succ, List.reverse_append]
    show _ = visit f (n :: (List.range n).reverse) s
    rw [visit_cons]
    congr 1
    funext s'
    exact forDown_visit f n s'

end Lalib.Counter
