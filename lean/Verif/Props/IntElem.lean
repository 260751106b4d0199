import Verif.Proofs.IntElem
import Verif.Props.Vec
import Verif.Props.Dense
import Verif.Props.Eval

/-! # Property C90: integer element types

The functions which compile for integers: the element-wise ones, cross products, and the products with explicit scalars.
Signed types: every element of the result is the exact integer, or there was an overflow (which is undefined behaviour);
the theorems say exactly when.  Unsigned types: the exact integer modulo `2^w`. -/

namespace Lalib.Props

open Lalib Finset

variable {b : ℕ}

theorem val0_zip {T : Type} [Zero T] {f : T → T → T} {l l' : List T} {i : ℕ} (h : i < l.length) (h' : i < l'.length) :
    val0 (List.zipWith f l l') i = f (val0 l i) (val0 l' i) := by
  rw [val0_of_lt (by simp [h, h']), val0_of_lt h, val0_of_lt h', List.getElem_zipWith]

theorem val0_maps {T : Type} [Zero T] {f : T → T} {l : List T} {i : ℕ} (h : i < l.length) :
    val0 (l.map f) i = f (val0 l i) := by
  rw [val0_of_lt (by simpa using h), val0_of_lt h, List.getElem_map]

/-! ## Signed -/

open SInt

/-- `add`, `sub`, `neg`, `scale`, `axpy` of vectors, with any aliasing. -/
theorem C90_vec (n : ℕ) (m : Mem (SInt b)) (x y r : ℕ) (al : SInt b) (A : ℤ) (X Y : ℕ → ℤ) (hx : m.len x = n)
    (hy : m.len y = n) (hr : m.len r = n) (hA : al.Is A) (hX : Holds m x n X) (hY : Holds m y n Y) (ord : List ℕ)
    (hp : ord.Perm (List.range n)) :
    (∃ m', addDD ord m x y r = .ok m' ∧ addSS ord n m x y r = .ok m' ∧ m'.len r = n ∧ (∀ q, q ≠ r → m' q = m q) ∧
      ∀ i, i < n → (m'.val r i).Gives (InRange b (X i + Y i)) (X i + Y i)) ∧
    (∃ m', subDD ord m x y r = .ok m' ∧ subSS ord n m x y r = .ok m' ∧ m'.len r = n ∧ (∀ q, q ≠ r → m' q = m q) ∧
      ∀ i, i < n → (m'.val r i).Gives (InRange b (X i - Y i)) (X i - Y i)) ∧
    (∃ m', negD m x r = .ok m' ∧ m'.len r = n ∧ (∀ q, q ≠ r → m' q = m q) ∧
      ∀ i, i < n → (m'.val r i).Gives (InRange b (-X i)) (-X i)) ∧
    (∃ m', scaleV al m x = .ok m' ∧ m'.len x = n ∧ (∀ q, q ≠ x → m' q = m q) ∧
      ∀ i, i < n → (m'.val x i).Gives (InRange b (A * X i)) (A * X i)) ∧
    (∃ m', axpyD al m x y = .ok m' ∧ axpyS n al m x y = .ok m' ∧ m'.len y = n ∧ (∀ q, q ≠ y → m' q = m q) ∧
      ∀ i, i < n → (m'.val y i).Gives (InRange b (A * X i) ∧ InRange b (A * X i + Y i)) (A * X i + Y i)) := by
  have lx : (m x).length = n := hx
  have ly : (m y).length = n := hy
  refine ⟨?_, ?_, ?_, ?_, ?_⟩
  · obtain ⟨m', e, h1, h2⟩ := C01_add m x y r (by omega) (by omega) ord (by rw [hx]; exact hp)
    obtain ⟨m2, e2, _, h3, h4⟩ := C01_add_sized n m x y r hx hy hr ord hp
    obtain rfl : m' = m2 := funext fun q => by
      by_cases hq : q = r
      · subst hq; rw [h1, h3]
      · rw [h2 q hq, h4 q hq]
    refine ⟨m', e, e2, by show (m' r).length = n; rw [h1]; simp [lx, ly], h2, fun i hi => ?_⟩
    show (val0 (m' r) i).Gives _ _
    rw [h1, val0_zip (by omega) (by omega)]
    exact (hX i hi).add (hY i hi)
  · obtain ⟨m', e, h1, h2⟩ := C01_sub m x y r (by omega) (by omega) ord (by rw [hx]; exact hp)
    obtain ⟨m2, e2, _, h3, h4⟩ := C01_sub_sized n m x y r hx hy hr ord hp
    obtain rfl : m' = m2 := funext fun q => by
      by_cases hq : q = r
      · subst hq; rw [h1, h3]
      · rw [h2 q hq, h4 q hq]
    refine ⟨m', e, e2, by show (m' r).length = n; rw [h1]; simp [lx, ly], h2, fun i hi => ?_⟩
    show (val0 (m' r) i).Gives _ _
    rw [h1, val0_zip (by omega) (by omega)]
    exact (hX i hi).sub (hY i hi)
  · obtain ⟨m', e, h1, h2⟩ := C01_neg m x r (by omega)
    refine ⟨m', e, by show (m' r).length = n; rw [h1]; simp [lx], h2, fun i hi => ?_⟩
    show (val0 (m' r) i).Gives _ _
    rw [h1, val0_maps (by omega)]
    exact (hX i hi).neg
  · obtain ⟨m', e, h1, h2⟩ := C01_scale al m x
    refine ⟨m', e, by show (m' x).length = n; rw [h1]; simp [lx], h2, fun i hi => ?_⟩
    show (val0 (m' x) i).Gives _ _
    rw [h1, val0_maps (by omega)]
    exact hA.mul (hX i hi)
  · obtain ⟨m', e, e2, h1, h2⟩ := C01_axpy al m x y (by omega)
    rw [hx] at e2
    refine ⟨m', e, e2, by show (m' y).length = n; rw [h1]; simp [lx, ly], h2, fun i hi => ?_⟩
    show (val0 (m' y) i).Gives _ _
    rw [h1, val0_zip (by omega) (by omega)]
    exact ((hA.mul (hX i hi)).add (hY i hi).gives).congr (by simp) rfl

/-- Cross products, the result object being an operand or not. -/
theorem C90_cross (nd dx dy dr : Bool) (m : Mem (SInt b)) (x y r : ℕ) (X Y : ℕ → ℤ) (hx : m.len x = 3)
    (hy : m.len y = 3) (hr : m.len r = 3) (hX : Holds m x 3 X) (hY : Holds m y 3 Y) :
    ∃ m', cross3 nd dx dy dr m x y r = .ok m' ∧ m'.len r = 3 ∧ (∀ q, q ≠ r → m' q = m q) ∧
      ∀ i j k, (i, j, k) ∈ [(0, 1, 2), (1, 2, 0), (2, 0, 1)] →
        (m'.val r i).Gives (InRange b (X j * Y k) ∧ InRange b (Y j * X k) ∧ InRange b (X j * Y k - X k * Y j))
          (X j * Y k - X k * Y j) := by
  have e : cross3 nd dx dy dr m x y r = .ok (m.setBuf r [m.val x 1 * m.val y 2 - m.val y 1 * m.val x 2,
      m.val x 2 * m.val y 0 - m.val y 2 * m.val x 0, m.val x 0 * m.val y 1 - m.val y 0 * m.val x 1]) := by
    simp only [cross3, cross3Core, hx, hy, hr, beq_self_eq_true, Bool.or_true, cassert_true, ok_bind,
      Mem.rd_ok (show 0 < m.len x by omega), Mem.rd_ok (show 1 < m.len x by omega),
      Mem.rd_ok (show 2 < m.len x by omega), Mem.rd_ok (show 0 < m.len y by omega),
      Mem.rd_ok (show 1 < m.len y by omega), Mem.rd_ok (show 2 < m.len y by omega)]
    rw [Mem.wr_ok (by omega), ok_bind, Mem.wr_ok (by rw [Mem.len_upd]; omega), ok_bind,
      Mem.wr_ok (by rw [Mem.len_upd, Mem.len_upd]; omega), Lalib.noexcept_ok]
    congr 1
    simp only [Mem.upd_eq_setBuf, Mem.setBuf_self, Mem.setBuf_setBuf, set3 hr]
  refine ⟨_, e, by show (Mem.setBuf _ _ _ r).length = 3; rw [Mem.setBuf_self]; rfl, fun q hq => Mem.setBuf_other _ hq _, ?_⟩
  have key : ∀ j k, j < 3 → k < 3 → (m.val x j * m.val y k - m.val y j * m.val x k).Gives
      (InRange b (X j * Y k) ∧ InRange b (Y j * X k) ∧ InRange b (X j * Y k - X k * Y j)) (X j * Y k - X k * Y j) := by
    intro j k hj hk
    refine (((hX j hj).mul (hY k hk)).sub ((hY j hj).mul (hX k hk))).congr ?_ (by ring)
    rw [mul_comm (X k) (Y j)]
  intro i j k h
  show SInt.Gives (b := b) (val0 (Mem.setBuf m r _ r) i) _ _
  rw [Mem.setBuf_self]
  simp only [List.mem_cons, Prod.mk.injEq, List.not_mem_nil, or_false] at h
  rcases h with ⟨rfl, rfl, rfl⟩ | ⟨rfl, rfl, rfl⟩ | ⟨rfl, rfl, rfl⟩
  · exact key 1 2 (by omega) (by omega)
  · exact key 2 0 (by omega) (by omega)
  · exact key 0 1 (by omega) (by omega)

/-- `y := alpha A x + beta y`, in place or not. -/
theorem C90_gemv (nd : Bool) (alpha beta : SInt b) (a : MatRef) (x y : ℕ) (s : Mem (SInt b)) (ha : a.Wf s)
    (hx : s.len x = a.m) (hy : s.len y = a.n) (hay : a.buf ≠ y) (Al Be : ℤ) (A : ℕ → ℕ → ℤ) (X Y : ℕ → ℤ) (h1 : alpha.Is Al)
    (h2 : beta.Is Be) (hA : ∀ i k, i < a.n → k < a.m → (entry a.m (s a.buf) i k).Is (A i k)) (hX : Holds s x a.m X)
    (hY : Holds s y a.n Y) :
    ∃ s', gemvDD nd alpha a x beta y s = .ok s' ∧ gemvSD nd alpha a x beta y s = .ok s' ∧
      gemvSS alpha a x beta y s = .ok s' ∧ s'.len y = a.n ∧ (∀ q, q ≠ y → s' q = s q) ∧
      ∀ i, i < a.n → (s'.val y i).Gives (AccFits b a.m Al (A i) X (Be * Y i))
        (Al * (∑ k ∈ range a.m, A i k * X k) + Be * Y i) := by
  obtain ⟨s', e1, e2, e3, h3, h4⟩ := C55_gemv nd alpha beta a x y s ha hx hy hay
  refine ⟨s', e1, e2, e3, by show (s' y).length = a.n; rw [h3]; simp, h4, fun i hi => ?_⟩
  show (val0 (s' y) i).Gives _ _
  rw [h3, val0_map_range, if_pos hi]
  refine (acc_gives h1 (h2.mul (hY i hi)) (fun k hk => hA i k hi hk) fun k hk => hX k hk).congr Iff.rfl ?_
  rw [mul_sum, add_comm]
  congr 1
  exact sum_congr rfl fun k _ => by ring

/-- `C := alpha A B + beta C`, with any aliasing. -/
theorem C90_gemm (nd : Bool) (alpha beta : SInt b) (a c d : MatRef) (s : Mem (SInt b)) (ha : a.Wf s) (hc : c.Wf s)
    (hd : d.Wf s) (g1 : a.n = d.n) (g2 : c.m = d.m) (g3 : a.m = c.n) (Al Be : ℤ) (A C D : ℕ → ℕ → ℤ) (h1 : alpha.Is Al)
    (h2 : beta.Is Be) (hA : ∀ i k, i < d.n → k < a.m → (entry a.m (s a.buf) i k).Is (A i k))
    (hC : ∀ k j, k < a.m → j < d.m → (entry d.m (s c.buf) k j).Is (C k j))
    (hD : ∀ i j, i < d.n → j < d.m → (entry d.m (s d.buf) i j).Is (D i j)) :
    ∃ s', gemmDDD nd alpha a c beta d s = .ok s' ∧ gemmSSS alpha a c beta d s = .ok s' ∧ (∀ q, q ≠ d.buf → s' q = s q) ∧
      ∀ i j, i < d.n → j < d.m → (entry d.m (s' d.buf) i j).Gives (AccFits b a.m Al (A i) (fun k => C k j) (Be * D i j))
        (Al * (∑ k ∈ range a.m, A i k * C k j) + Be * D i j) := by
  obtain ⟨s', e1, e2, _, _, _, _, _, h3, h4⟩ := C55_gemm nd alpha beta a c d s ha hc hd g1 g2 g3
  refine ⟨s', e1, e2, h4, fun i j hi hj => ?_⟩
  rw [h3, entry_matOf _ hi hj]
  refine (acc_gives (z := Be * D i j) (A := A i) (X := fun k => C k j) h1 ?_ (fun k hk => hA i k hi hk) fun k hk => hC k j hk hj).congr Iff.rfl ?_
  · unfold gemmStart
    split
    · exact h2.mul (hD i j hi hj)
    · rw [mul_comm Be]; exact (hD i j hi hj).mul h2
  · rw [mul_sum, add_comm]
    congr 1
    exact sum_congr rfl fun k _ => by ring

/-- Enough for the products: all `|alpha A|` and the sum of the absolute values of all terms are below `2^b`. -/
theorem C90_fits (n : ℕ) (alpha t : ℤ) (a x : ℕ → ℤ) (h1 : ∀ k, k < n → |alpha * a k| < 2 ^ b)
    (h2 : |t| + ∑ k ∈ range n, |alpha * a k * x k| < 2 ^ b) : AccFits b n alpha a x t := accFits_of h1 h2

/-- Element-wise sums and differences of matrices. -/
theorem C90_mat (nd : Bool) (ord : List ℕ) (m1 m2 mr : MatRef) (s : Mem (SInt b)) (h1 : m1.Wf s) (h2 : m2.Wf s)
    (hr : mr.Wf s) (hs : m1.n = m2.n ∧ m1.m = m2.m) (hsr : m1.n = mr.n ∧ m1.m = mr.m)
    (hp : ord.Perm (List.range (m1.n * m1.m))) (X Y : ℕ → ℤ) (hX : Holds s m1.buf (m1.n * m1.m) X)
    (hY : Holds s m2.buf (m1.n * m1.m) Y) :
    (∃ s', matAddDD nd ord m1 m2 mr s = .ok s' ∧ matAddSS ord m1 m2 mr s = .ok s' ∧ ∀ i, i < m1.n * m1.m →
      (s'.val mr.buf i).Gives (InRange b (X i + Y i)) (X i + Y i)) ∧
    (∃ s', matSubDD nd ord m1 m2 mr s = .ok s' ∧ matSubSS ord m1 m2 mr s = .ok s' ∧ ∀ i, i < m1.n * m1.m →
      (s'.val mr.buf i).Gives (InRange b (X i - Y i)) (X i - Y i)) := by
  have l1 : (s m1.buf).length = m1.n * m1.m := h1
  have l2 : (s m2.buf).length = m1.n * m1.m := by rw [hs.1, hs.2]; exact h2
  obtain ⟨⟨s1, e1, _, e2, h3, _⟩, ⟨s2, e3, _, e4, h4, _⟩⟩ := C14_add_sub nd ord m1 m2 mr s h1 h2 hr hs hsr hp
  refine ⟨⟨s1, e1, e2, fun i hi => ?_⟩, ⟨s2, e3, e4, fun i hi => ?_⟩⟩
  · show (val0 (s1 mr.buf) i).Gives _ _
    rw [h3, val0_zip (by omega) (by omega)]
    exact (hX i hi).add (hY i hi)
  · show (val0 (s2 mr.buf) i).Gives _ _
    rw [h4, val0_zip (by omega) (by omega)]
    exact (hX i hi).sub (hY i hi)

/-! ## Unsigned: the integers modulo `2^w` -/

/-- `y := alpha A x + beta y` of unsigned integers, in place or not: the exact result modulo `2^w`. -/
theorem C90_unsigned_gemv (w : ℕ) (nd : Bool) (alpha beta : ZMod (2 ^ w)) (a : MatRef) (x y : ℕ) (s : Mem (ZMod (2 ^ w)))
    (ha : a.Wf s) (hx : s.len x = a.m) (hy : s.len y = a.n) (hay : a.buf ≠ y) (i : ℕ) (hi : i < a.n) :
    ∃ s', gemvDD nd alpha a x beta y s = .ok s' ∧ gemvSD nd alpha a x beta y s = .ok s' ∧
      gemvSS alpha a x beta y s = .ok s' ∧
      (val0 (s' y) i).val =
        (alpha.val * (∑ k ∈ range a.m, (entry a.m (s a.buf) i k).val * (val0 (s x) k).val) + beta.val * (val0 (s y) i).val) %
          2 ^ w := by
  obtain ⟨s', e1, e2, e3, h, _⟩ := C12_mul nd alpha beta a x y s ha hx hy hay
  refine ⟨s', e1, e2, e3, ?_⟩
  have : NeZero (2 ^ w) := ⟨by positivity⟩
  rw [h, val0_map_range, if_pos hi, ← ZMod.val_natCast]
  congr 1
  push_cast
  simp only [ZMod.natCast_val, ZMod.cast_id', id_eq]

/-- `C := alpha A B + beta C`, with any aliasing. -/
theorem C90_unsigned_gemm (w : ℕ) (nd : Bool) (alpha beta : ZMod (2 ^ w)) (a c d : MatRef) (s : Mem (ZMod (2 ^ w)))
    (ha : a.Wf s) (hc : c.Wf s) (hd : d.Wf s) (g1 : a.n = d.n) (g2 : c.m = d.m) (g3 : a.m = c.n) (i j : ℕ) (hi : i < d.n)
    (hj : j < d.m) :
    ∃ s', gemmDDD nd alpha a c beta d s = .ok s' ∧ gemmSSS alpha a c beta d s = .ok s' ∧
      (entry d.m (s' d.buf) i j).val =
        (alpha.val * (∑ k ∈ range a.m, (entry a.m (s a.buf) i k).val * (entry d.m (s c.buf) k j).val) +
          beta.val * (entry d.m (s d.buf) i j).val) % 2 ^ w := by
  obtain ⟨s', e1, e2, _, _, _, _, _, h, _⟩ := C13_mul nd alpha beta a c d s ha hc hd g1 g2 g3
  refine ⟨s', e1, e2, ?_⟩
  have : NeZero (2 ^ w) := ⟨by positivity⟩
  rw [h, entry_matOf _ hi hj, ← ZMod.val_natCast]
  congr 1
  push_cast
  simp only [ZMod.natCast_val, ZMod.cast_id', id_eq]

/-- The element-wise functions, any aliasing. -/
theorem C90_unsigned_vec (w : ℕ) (n : ℕ) (m : Mem (ZMod (2 ^ w))) (x y r : ℕ) (al : ZMod (2 ^ w)) (hx : m.len x = n)
    (hy : m.len y = n) (hr : m.len r = n) (ord : List ℕ) (hp : ord.Perm (List.range n)) (i : ℕ) (hi : i < n) :
    (∃ m', addDD ord m x y r = .ok m' ∧ (m'.val r i).val = ((m.val x i).val + (m.val y i).val) % 2 ^ w) ∧
    (∃ m', subDD ord m x y r = .ok m' ∧ (m'.val r i).val = ((m.val x i).val + (2 ^ w - (m.val y i).val)) % 2 ^ w) ∧
    (∃ m', negD m x r = .ok m' ∧ (m'.val r i).val = (2 ^ w - (m.val x i).val) % 2 ^ w) ∧
    (∃ m', scaleV al m x = .ok m' ∧ (m'.val x i).val = (al.val * (m.val x i).val) % 2 ^ w) ∧
    (∃ m', axpyD al m x y = .ok m' ∧ (m'.val y i).val = (al.val * (m.val x i).val + (m.val y i).val) % 2 ^ w) := by
  have lx : (m x).length = n := hx
  have ly : (m y).length = n := hy
  have : NeZero (2 ^ w) := ⟨by positivity⟩
  have cst : ∀ v : ZMod (2 ^ w), ((2 ^ w - v.val : ℕ) : ZMod (2 ^ w)) = -v := by
    intro v
    rw [Nat.cast_sub (ZMod.val_lt v).le, ZMod.natCast_self, ZMod.natCast_val, ZMod.cast_id', id_eq, zero_sub]
  refine ⟨?_, ?_, ?_, ?_, ?_⟩
  · obtain ⟨m', e, h1, _⟩ := C01_add m x y r (by omega) (by omega) ord (by rw [hx]; exact hp)
    refine ⟨m', e, ?_⟩
    show (val0 (m' r) i).val = _
    rw [h1, val0_zip (by omega) (by omega), ← ZMod.val_natCast]
    congr 1
    push_cast
    simp only [ZMod.natCast_val, ZMod.cast_id', id_eq]
    rfl
  · obtain ⟨m', e, h1, _⟩ := C01_sub m x y r (by omega) (by omega) ord (by rw [hx]; exact hp)
    refine ⟨m', e, ?_⟩
    show (val0 (m' r) i).val = _
    rw [h1, val0_zip (by omega) (by omega), ← ZMod.val_natCast]
    congr 1
    rw [Nat.cast_add, cst, ← sub_eq_add_neg]
    simp only [ZMod.natCast_val, ZMod.cast_id', id_eq]
    rfl
  · obtain ⟨m', e, h1, _⟩ := C01_neg m x r (by omega)
    refine ⟨m', e, ?_⟩
    show (val0 (m' r) i).val = _
    rw [h1, val0_maps (by omega), ← ZMod.val_natCast]
    congr 1
    rw [cst]
    rfl
  · obtain ⟨m', e, h1, _⟩ := C01_scale al m x
    refine ⟨m', e, ?_⟩
    show (val0 (m' x) i).val = _
    rw [h1, val0_maps (by omega), ← ZMod.val_natCast]
    congr 1
    push_cast
    simp only [ZMod.natCast_val, ZMod.cast_id', id_eq]
    rfl
  · obtain ⟨m', e, _, h1, _⟩ := C01_axpy al m x y (by omega)
    refine ⟨m', e, ?_⟩
    show (val0 (m' y) i).val = _
    rw [h1, val0_zip (by omega) (by omega), ← ZMod.val_natCast]
    congr 1
    push_cast
    simp only [ZMod.natCast_val, ZMod.cast_id', id_eq]
    rfl

/-! ## Examples -/

-- an `int` whose negative does not exist
example : ¬ InRange 31 (-(-2 ^ 31)) ∧ InRange 31 (-2 ^ 31) := by decide

-- the exact result fits but the call overflows on the way: `(2^31 - 1) + 1 * 1 + 1 * (-1)`
example : ¬ AccFits 31 2 1 (fun k => if k = 0 then 1 else -1) (fun _ => 1) (2 ^ 31 - 1) ∧ InRange 31
    (2 ^ 31 - 1 + ∑ k ∈ range 2, 1 * (if k = 0 then 1 else -1) * 1) := by
  refine ⟨fun h => ?_, by decide⟩
  have := (h.2 0 (by omega)).2.2
  revert this
  decide

-- a product that fits
example : AccFits 31 2 3 (fun k => 1000 + k) (fun k => 2000 - k) 17 :=
  C90_fits 2 3 17 _ _ (fun k hk => by
    rcases (by omega : k = 0 ∨ k = 1) with rfl | rfl <;> norm_num) (by norm_num [sum_range_succ])

end Lalib.Props
