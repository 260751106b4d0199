import Verif.Proofs.Counter
import Verif.Model.VecOps
import Verif.Proofs.VecOps

/-! # C47: loops with 32-bit counters

`n` is a `size_t`.  The claim "every loop visits `0, ..., n-1`, each once, and terminates" is false for `n ≥ 2^32`
(and for the loops with an `int32_t` counter above `2^31`); the theorems say what each kind of loop does. -/

namespace Lalib.Props

open Lalib Counter

variable {σ T : Type}

/-- `for (auto i = lo; i < n; ++i)` below `2^32`. -/
theorem C47_up_partial (lo n : Nat) (hlo : lo ≤ n) (hn : n < 2 ^ 32) (f : Nat → σ → Res σ) (s : σ) :
    Yields (fun fuel => up32 lo n f fuel s) (visit f (List.range' lo (n - lo)) s) :=
  up_yields (w := 2 ^ 32) hlo hn (fun _ _ h => decide_eq_true h) (decide_eq_false (Nat.lt_irrefl _))

/-- It never terminates from `2^32` on. -/
theorem C47_up_false (lo n : Nat) (hlo : lo < 2 ^ 32) (hn : 2 ^ 32 ≤ n) (f : Nat → σ → Res σ) (I : σ → Prop)
    (hf : NeverFails (2 ^ 32) I f) (s : σ) (hs : I s) : Forever fun fuel => up32 lo n f fuel s := by
  intro fuel
  refine loop_forever (C := fun i => i < 2 ^ 32) (I := I) (fun i hi => ⟨decide_eq_true (by omega), ?_⟩)
    (fun i s hi h => hf i s hi h) fuel lo s hlo hs
  exact Nat.mod_lt _ (by norm_num)

/-- The two cases together: the loop over a body that does not fail terminates exactly below `2^32`. -/
theorem C47_up_iff (n : Nat) (f : Nat → σ → Res σ) (I : σ → Prop) (hf : NeverFails (2 ^ 32) I f) (s : σ)
    (hs : I s) : (∃ r, Yields (fun fuel => up32 0 n f fuel s) r) ↔ n < 2 ^ 32 := by
  constructor
  · rintro ⟨r, k, h⟩
    by_contra hc
    have := C47_up_false 0 n (by norm_num) (by omega) f I hf s hs k
    have h' := h k (Nat.le_refl _)
    rw [this] at h'
    cases h'
  · intro h
    exact ⟨_, C47_up_partial 0 n (Nat.zero_le _) h f s⟩

/-- The same loop, written with `std::views::iota(0u, n)`. -/
theorem C47_iota_partial (lo n : Nat) (hlo : lo ≤ n) (hn : n < 2 ^ 32) (f : Nat → σ → Res σ) (s : σ) :
    Yields (fun fuel => iota32 lo n f fuel s) (visit f (List.range' lo (n - lo)) s) :=
  up_yields (w := 2 ^ 32) hlo hn (fun i _ h => decide_eq_true (by omega)) (decide_eq_false (by omega))

theorem C47_iota_false (lo n : Nat) (hlo : lo < 2 ^ 32) (hn : 2 ^ 32 ≤ n) (f : Nat → σ → Res σ) (I : σ → Prop)
    (hf : NeverFails (2 ^ 32) I f) (s : σ) (hs : I s) : Forever fun fuel => iota32 lo n f fuel s := by
  intro fuel
  refine loop_forever (C := fun i => i < 2 ^ 32) (I := I) (fun i hi => ⟨decide_eq_true (by omega), ?_⟩)
    (fun i s hi h => hf i s hi h) fuel lo s hlo hs
  exact Nat.mod_lt _ (by norm_num)

/-- `for (auto j = 0u; j <= i; ++j)` with a 32-bit `i`: fails only for the largest `i`. -/
theorem C47_le_partial (hi : Nat) (h : hi + 1 < 2 ^ 32) (f : Nat → σ → Res σ) (s : σ) :
    Yields (fun fuel => le32 0 hi f fuel s) (visit f (List.range' 0 (hi + 1)) s) :=
  up_yields (hi := hi + 1) (w := 2 ^ 32) (Nat.zero_le _) h (fun _ _ h => decide_eq_true (Nat.lt_succ_iff.mp h))
    (decide_eq_false (Nat.not_succ_le_self hi))

theorem C47_le_false (f : Nat → σ → Res σ) (I : σ → Prop)
    (hf : NeverFails (2 ^ 32) I f) (s : σ) (hs : I s) : Forever fun fuel => le32 0 (2 ^ 32 - 1) f fuel s := by
  intro fuel
  refine loop_forever (C := fun i => i < 2 ^ 32) (I := I) (fun i hi => ⟨decide_eq_true (by omega), ?_⟩)
    (fun i s hi h => hf i s hi h) fuel 0 s (by norm_num) hs
  exact Nat.mod_lt _ (by norm_num)

/-- The loops over `size_t` counters are right for every size. -/
theorem C47_up64 (lo n : Nat) (hlo : lo ≤ n) (hn : n < 2 ^ 64) (f : Nat → σ → Res σ) (s : σ) :
    Yields (fun fuel => up64 lo n f fuel s) (visit f (List.range' lo (n - lo)) s) :=
  up_yields (w := 2 ^ 64) hlo hn (fun _ _ h => decide_eq_true h) (decide_eq_false (Nat.lt_irrefl _))

theorem C47_post64 (n : Nat) (hn : n < 2 ^ 64) (f : Nat → σ → Res σ) (s : σ) :
    Yields (fun fuel => post64 n f fuel s) (visit f (List.range n).reverse s) := by
  have := loop_yields (cond := fun i : Nat => decide (i > 0)) (next := fun i => sub64 i 1)
    (body := fun i => f (sub64 i 1)) (f := f) (l := (List.range n).reverse) (s := s) (fun i => n - i) (fun i h => by
      rw [List.length_reverse, List.length_range] at h
      refine ⟨decide_eq_true (by omega), ?_, ?_⟩
      · show n - (i + 1) = sub64 (n - i) 1
        unfold sub64; omega
      · rw [getD_rev h]
        have e : sub64 (n - i) 1 = n - 1 - i := by unfold sub64; omega
        show f (sub64 (n - i) 1) = _
        rw [e]) (by
      rw [List.length_reverse, List.length_range, Nat.sub_self]; rfl)
  exact this

/-- `for (int64_t i = n - 1; i >= 0; --i)` up to `2^63`. -/
theorem C47_down64 (n : Nat) (hn : n ≤ 2 ^ 63) (f : Nat → σ → Res σ) (s : σ) :
    Yields (fun fuel => down64 n f fuel s) (visit f (List.range n).reverse s) := by
  refine down_yields ?_
  unfold toI64 sub64
  rw [Int.bmod_def]
  split <;> omega

/-- How many indices `for (int32_t i = n - k; i >= 0; --i)` visits. -/
def downCount (n k : Nat) : Nat := if (n - k) % 2 ^ 32 < 2 ^ 31 then (n - k) % 2 ^ 32 + 1 else 0

/-- What `for (int32_t i = n - k; i >= 0; --i)` does, for every `size_t n ≥ k`. -/
theorem C47_down32_partial (n k : Nat) (hk : k ≤ n) (hn : n < 2 ^ 64) (f : Nat → σ → Res σ) (s : σ) :
    Yields (fun fuel => down32 n k f fuel s) (visit f (List.range (downCount n k)).reverse s) := by
  have e : sub64 n k = n - k := by unfold sub64; omega
  unfold down32 toI32
  rw [e, Int.bmod_def]
  unfold downCount
  by_cases h : (n - k) % 2 ^ 32 < 2 ^ 31
  · rw [if_pos h, if_pos (by omega)]
    exact down_yields (by omega)
  · rw [if_neg h, if_neg (by omega)]
    exact neg_yields (by omega)

/-- The empty system: no index is visited. -/
theorem C47_down32_zero (f : Nat → σ → Res σ) (s : σ) :
    Yields (fun fuel => down32 0 1 f fuel s) (.ok s) := by
  exact neg_yields (by decide)

/-- It visits every index exactly for `n - k < 2^31`. -/
theorem C47_down32_iff (n k : Nat) : downCount n k = n - k + 1 ↔ n - k < 2 ^ 31 := by
  unfold downCount
  split <;> omega

/-- The backward substitution of a system of between `2^31 + 1` and `2^32` unknowns does nothing at all, and one of
`2^32 + 1` unknowns only computes the first of them. -/
theorem C47_down32_false (f : Nat → σ → Res σ) (s : σ) :
    (∀ n, 2 ^ 31 < n → n ≤ 2 ^ 32 → Yields (fun fuel => down32 n 1 f fuel s) (.ok s)) ∧
    Yields (fun fuel => down32 (2 ^ 32 + 1) 1 f fuel s) (visit f [0] s) := by
  refine ⟨fun n h1 h2 => ?_, ?_⟩
  · have := C47_down32_partial n 1 (by omega) (by omega) f s
    have e : downCount n 1 = 0 := by unfold downCount; rw [if_neg (by omega)]
    rw [e] at this
    exact this
  · have := C47_down32_partial (2 ^ 32 + 1) 1 (by omega) (by omega) f s
    have e : downCount (2 ^ 32 + 1) 1 = 1 := by decide
    rw [e] at this
    exact this

/-- The inner loop of the backward substitution, `for (auto j = i + 1; j < static_cast<int32_t>(n); ++j)`. -/
theorem C47_inner_partial (i n : Nat) (hi : i < n) (hn : n < 2 ^ 31) (f : Nat → σ → Res σ) (s : σ) :
    Yields (fun fuel => inner32 i n f fuel s) (visit f (List.range' (i + 1) (n - (i + 1))) s) := by
  have e0 : ∀ fuel, inner32 i n f fuel s = loop (fun j => decide (j < toI32 n)) (fun j => j + 1)
      (fun j => f j.toNat) fuel ((i : Int) + 1) s := fun fuel => if_pos (by omega)
  simp only [e0]
  have e : toI32 n = n := by unfold toI32; rw [Int.bmod_def]; split <;> omega
  rw [e]
  have := loop_yields (cond := fun j : Int => decide (j < n)) (next := fun j => j + 1) (body := fun j => f j.toNat)
    (f := f) (l := List.range' (i + 1) (n - (i + 1))) (s := s) (fun k => (i : Int) + 1 + k) (fun k h => by
      rw [List.length_range'] at h
      refine ⟨decide_eq_true (by omega), ?_, ?_⟩
      · show (i : Int) + 1 + ((k + 1 : Nat) : Int) = i + 1 + k + 1
        omega
      · rw [getD_range' h]
        show f ((i : Int) + 1 + k).toNat = _
        congr 1) (by
      rw [List.length_range']
      exact decide_eq_false (by omega))
  simpa using this

/-- With `2^31` unknowns its start overflows, undefined behaviour. -/
theorem C47_inner_false (f : Nat → σ → Res σ) (s : σ) :
    Yields (fun fuel => inner32 (2 ^ 31 - 1) (2 ^ 31) f fuel s) (.error (.ub .overflow)) :=
  ⟨0, fun _ _ => rfl⟩

/-! ## What this says about the other models -/

/-- The loops `forRange` and `forDown` of all other model files visit the same indices as the machine does: for sizes
below `2^32` (unsigned counters), `2^31` (`int32_t`). -/
theorem C47_model_partial (f : Nat → σ → Res σ) (s : σ) :
    (∀ lo n, lo ≤ n → n < 2 ^ 32 → Yields (fun fuel => up32 lo n f fuel s) (forRange lo n f s)) ∧
    (∀ lo n, lo ≤ n → n < 2 ^ 32 → Yields (fun fuel => iota32 lo n f fuel s) (forRange lo n f s)) ∧
    (∀ n, n ≤ 2 ^ 31 → Yields (fun fuel => down32 n 1 f fuel s) (forDown f n s)) ∧
    (∀ n, 0 < n → n ≤ 2 ^ 31 → Yields (fun fuel => down32 n 2 f fuel s) (forDown f (n - 1) s)) ∧
    (∀ i n, i < n → n < 2 ^ 31 → Yields (fun fuel => inner32 i n f fuel s) (forRange (i + 1) n f s)) ∧
    (∀ n, n ≤ 2 ^ 63 → Yields (fun fuel => down64 n f fuel s) (forDown f n s)) ∧
    (∀ n, n < 2 ^ 64 → Yields (fun fuel => post64 n f fuel s) (forDown f n s)) ∧
    ∀ lo n, lo ≤ n → n < 2 ^ 64 → Yields (fun fuel => up64 lo n f fuel s) (forRange lo n f s) := by
  unfold forRange
  simp only [forUp_visit, forDown_visit]
  refine ⟨fun lo n h1 h2 => C47_up_partial lo n h1 h2 f s, fun lo n h1 h2 => C47_iota_partial lo n h1 h2 f s, ?_, ?_,
    fun i n h1 h2 => C47_inner_partial i n h1 h2 f s, fun n h => C47_down64 n h f s, fun n h => C47_post64 n h f s,
    fun lo n h1 h2 => C47_up64 lo n h1 h2 f s⟩
  · intro n h
    rcases Nat.eq_zero_or_pos n with rfl | h0
    · exact C47_down32_zero f s
    · have := C47_down32_partial n 1 h0 (by omega) f s
      rwa [(C47_down32_iff n 1).mpr (by omega), Nat.sub_add_cancel h0] at this
  · intro n h0 h
    rcases Nat.lt_or_ge n 2 with h2 | h2
    · obtain rfl : n = 1 := by omega
      exact neg_yields (by decide)
    · have := C47_down32_partial n 2 h2 (by omega) f s
      rwa [(C47_down32_iff n 2).mpr (by omega), show n - 2 + 1 = n - 1 by omega] at this

/-- `neg(x, r)` of the internal backend on vectors of at least `2^32` elements never returns. -/
theorem C47_neg_false [Neg T] (m : Mem T) (x r : Nat) (hx : m.len x = m.len r) (hn : 2 ^ 32 ≤ m.len r) :
    Forever fun fuel => up32 0 (m.len r) (elem1 (fun a => -a) x r) fuel m := by
  refine C47_up_false 0 _ (by norm_num) hn _ (fun m' => m'.len x = m.len r ∧ m'.len r = m.len r) ?_ m ⟨hx, rfl⟩
  rintro i m' hi ⟨h1, h2⟩
  unfold elem1
  have e1 : i < m'.len x := by omega
  have e2 : i < m'.len r := by omega
  have e3 : m'.rd x i = .ok ((m' x)[i]'e1) := lrd_ok e1
  rw [e3, ok_bind, Mem.wr_ok e2]
  exact ⟨_, rfl, by rw [Mem.len_upd, h1], by rw [Mem.len_upd, h2]⟩

/-- Concrete: a loop of `2^32` rounds that counts. -/
example : Forever fun fuel => up32 0 (2 ^ 32) (fun _ k => .ok (k + 1)) fuel (0 : Nat) :=
  C47_up_false 0 _ (by norm_num) (Nat.le_refl _) _ (fun _ => True) (fun _ k _ _ => ⟨k + 1, rfl, trivial⟩) 0 trivial

example : Yields (fun fuel => up32 0 3 (fun i l => .ok (l ++ [i])) fuel ([] : List Nat)) (.ok [0, 1, 2]) :=
  C47_up_partial 0 3 (by decide) (by decide) _ _

example : Yields (fun fuel => down32 3 1 (fun i l => .ok (l ++ [i])) fuel ([] : List Nat)) (.ok [2, 1, 0]) :=
  C47_down32_partial 3 1 (by decide) (by decide) _ _

end Lalib.Props
