import Verif.Proofs.LogRel
import Verif.Model.Tdma
import Verif.Model.Cholesky
import Verif.Model.Cgs
import Verif.Props.Ilu
import Verif.Proofs.Eval

/-! # Property C93: one program, many number types

A family of calls, one for each `i`, with numbers of type `T i`, is compared with one call with numbers of another type `T'`.
`S : LogRel l T T'` says what it means that a number of `T'` describes a family of numbers.  If the call with `T'` returns,
then the calls of the family return (for `i` eventually), and their results are described by its results. -/

namespace Lalib.Props

open Lalib Filter Topology

variable {ι : Type} {l : Filter ι} {T : ι → Type} {T' : Type} [∀ i, Zero (T i)] [∀ i, One (T i)] [∀ i, Neg (T i)]
    [∀ i, Add (T i)] [∀ i, Sub (T i)] [∀ i, Mul (T i)] [∀ i, CDiv (T i)] [∀ i, CZero (T i)] [∀ i, CSqrt (T i)]
    [∀ i, LT (T i)] [Zero T'] [One T'] [Neg T'] [Add T'] [Sub T'] [Mul T'] [CDiv T'] [CZero T'] [CSqrt T'] [LT T']
  (S : LogRel l T T')

section vec
variable {P : Nat → Prop} {m : ∀ i, Mem (T i)} {m' : Mem T'}

theorem logRel_dotCore (h : S.Bufs P m m') {x y : Nat} (hx : P x) (hy : P y) (n : Nat) :
    Lim l S.rel (fun i => dotCore (m i) x y n) (dotCore m' x y n) :=
  (h.rd hx 0).bind fun _ _ ha => (h.rd hy 0).bind fun _ _ hb =>
    Lim.forRange (S.mul ha hb) fun k _ _ _ _ hr =>
      (h.rd hx k).bind fun _ _ ha => (h.rd hy k).bind fun _ _ hb => .ok (S.add hr (S.mul ha hb))

/-- Scalar products. -/
theorem C93_dot (h : S.Bufs P m m') (x y : Nat) (hx : P x) (hy : P y) (N : Nat) :
    Lim l S.rel (fun i => dynDot (m i) x y) (dynDot m' x y) ∧ Lim l S.rel (fun i => dotDD (m i) x y) (dotDD m' x y) ∧
    Lim l S.rel (fun i => dotSS N (m i) x y) (dotSS N m' x y) ∧
    Lim l S.rel (fun i => sizedDotDyn N (m i) x y) (sizedDotDyn N m' x y) := by
  have k := logRel_dotCore S h hx hy
  unfold dynDot dotDD dotSS sizedDotDyn
  simp only [h.len hx, h.len hy]
  exact ⟨.check (fun _ => rfl) (k _), (Lim.check (fun _ => rfl) (k _)).noexcept, (k N).noexcept, (k N).noexcept⟩

theorem logRel_tree (h : S.Bufs P m m') {x y : Nat} (hx : P x) (hy : P y) :
    ∀ t : RedTree, Lim l S.rel (fun i => t.eval (m i) x y) (t.eval m' x y)
  | .zero => .ok S.zero
  | .leaf k => (h.rd hx k).bind fun _ _ ha => (h.rd hy k).bind fun _ _ hb => .ok (S.mul ha hb)
  | .node t u => (logRel_tree h hx hy t).bind fun _ _ ha => (logRel_tree h hx hy u).bind fun _ _ hb => .ok (S.add ha hb)

/-- The same for every shape of the `simd` reduction. -/
theorem C93_dot_any_shape (h : S.Bufs P m m') (x y : Nat) (hx : P x) (hy : P y) (t : RedTree) :
    Lim l S.rel (fun i => dotCoreTree t (m i) x y) (dotCoreTree t m' x y) :=
  (h.rd hx 0).bind fun _ _ ha => (h.rd hy 0).bind fun _ _ hb =>
    (logRel_tree S h hx hy t).bind fun _ _ hr => .ok (S.add (S.mul ha hb) hr)

/-- The norm of a vector whose sum of squares is not zero.  (At zero the square root has no derivative.) -/
theorem C93_norm2 (h : S.Bufs P m m') (x : Nat) (hx : P x)
    (h0 : ¬ IsZ (addUp (fun k => m'.val x k * m'.val x k) 0 (m'.len x) 0))
    (h1 : ¬ addUp (fun k => m'.val x k * m'.val x k) 0 (m'.len x) 0 < 0) :
    Lim l S.rel (fun i => vecNorm2 (m i) x) (vecNorm2 m' x) := by
  unfold vecNorm2
  refine Lim.noexcept ?_
  rw [norm2Core_raw (Nat.le_refl _)]
  refine (S.sqrt (LogRel.addUp (f := fun i k => (m i).val x k * (m i).val x k) (s := fun _ => 0) S.zero fun k _ hk =>
    S.mul ((h x hx).2 k hk) ((h x hx).2 k hk)) h0 h1).of_eventually (.of_forall fun i => ?_)
  rw [norm2Core_raw (Nat.le_refl _), h.len hx]

theorem logRel_elem1 (h : S.Bufs P m m') {f : ∀ i, T i → T i} {f' : T' → T'} {v vr : Nat} (hv : P v) (hr : P vr) {k : Nat}
    (hf : ∀ a a', S.rel a a' → S.rel (fun i => f i (a i)) (f' a')) :
    Lim l (S.Bufs P) (fun i => elem1 (f i) v vr k (m i)) (elem1 f' v vr k m') :=
  (h.rd hv k).bind fun a a' ha => h.wr hr k (hf a a' ha)

theorem logRel_elem2 (h : S.Bufs P m m') {f : ∀ i, T i → T i → T i} {f' : T' → T' → T'} {v w vr : Nat} (hv : P v) (hw : P w)
    (hr : P vr) {k : Nat} (hf : ∀ a a' b b', S.rel a a' → S.rel b b' → S.rel (fun i => f i (a i) (b i)) (f' a' b')) :
    Lim l (S.Bufs P) (fun i => elem2 (f i) v w vr k (m i)) (elem2 f' v w vr k m') :=
  (h.rd hv k).bind fun a a' ha => (h.rd hw k).bind fun b b' hb => h.wr hr k (hf a a' b b' ha hb)

theorem logRel_addCore (h : S.Bufs P m m') {v w r : Nat} (hv : P v) (hw : P w) (hr : P r) (ord : List Nat) (n : Nat) :
    Lim l (S.Bufs P) (fun i => addCore ord (m i) v w r n) (addCore ord m' v w r n) := by
  have hs : ∀ k (s : ∀ i, Mem (T i)) s', S.Bufs P s s' →
      Lim l (S.Bufs P) (fun i => elem2 (· + ·) v w r k (s i)) (elem2 (· + ·) v w r k s') := fun k s s' hs =>
    logRel_elem2 S hs (f := fun _ a b => a + b) hv hw hr fun _ _ _ _ ha hb => S.add ha hb
  unfold addCore
  split
  · exact Lim.forRange h fun k s s' _ _ h => hs k s s' h
  · exact Lim.forOrder h hs

theorem logRel_subCore (h : S.Bufs P m m') {v w r : Nat} (hv : P v) (hw : P w) (hr : P r) (ord : List Nat) (n : Nat) :
    Lim l (S.Bufs P) (fun i => subCore ord (m i) v w r n) (subCore ord m' v w r n) := by
  have hs : ∀ k (s : ∀ i, Mem (T i)) s', S.Bufs P s s' →
      Lim l (S.Bufs P) (fun i => elem2 (· - ·) v w r k (s i)) (elem2 (· - ·) v w r k s') := fun k s s' hs =>
    logRel_elem2 S hs (f := fun _ a b => a - b) hv hw hr fun _ _ _ _ ha hb => S.sub ha hb
  unfold subCore
  split
  · exact Lim.forRange h fun k s s' _ _ h => hs k s s' h
  · exact Lim.forOrder h hs

/-- Sums and differences, whichever of the vectors are the same object. -/
theorem C93_add (h : S.Bufs P m m') (v w r : Nat) (hv : P v) (hw : P w) (hr : P r) (ord : List Nat) (N : Nat) :
    Lim l (S.Bufs P) (fun i => addDD ord (m i) v w r) (addDD ord m' v w r) ∧
    Lim l (S.Bufs P) (fun i => addSS ord N (m i) v w r) (addSS ord N m' v w r) ∧
    Lim l (S.Bufs P) (fun i => addSD ord N (m i) v w r) (addSD ord N m' v w r) ∧
    Lim l (S.Bufs P) (fun i => subDD ord (m i) v w r) (subDD ord m' v w r) ∧
    Lim l (S.Bufs P) (fun i => subSS ord N (m i) v w r) (subSS ord N m' v w r) ∧
    Lim l (S.Bufs P) (fun i => subSD ord N (m i) v w r) (subSD ord N m' v w r) := by
  have ha := logRel_addCore S h hv hw hr ord
  have hb := logRel_subCore S h hv hw hr ord
  unfold addDD addSS addSD subDD subSS subSD
  simp only [h.len hv, h.len hw]
  exact ⟨.check (fun _ => rfl) (ha _), (ha N).noexcept, .check (fun _ => rfl) (ha N), .check (fun _ => rfl) (hb _),
    (hb N).noexcept, .check (fun _ => rfl) (hb N)⟩

/-- `y := alpha x + y`. -/
theorem C93_axpy (h : S.Bufs P m m') (x y : Nat) (hx : P x) (hy : P y) (alpha : ∀ i, T i) (alpha' : T')
    (hal : S.rel alpha alpha') (N : Nat) :
    Lim l (S.Bufs P) (fun i => axpyD (alpha i) (m i) x y) (axpyD alpha' m' x y) ∧
    Lim l (S.Bufs P) (fun i => axpyS N (alpha i) (m i) x y) (axpyS N alpha' m' x y) := by
  have hk : ∀ n, Lim l (S.Bufs P) (fun i => axpyCore (alpha i) (m i) x y n) (axpyCore alpha' m' x y n) := fun n =>
    Lim.forRange h fun k s s' _ _ hs => logRel_elem2 S hs (f := fun i a b => alpha i * a + b) hx hy hy
      fun _ _ _ _ h1 h2 => S.add (S.mul hal h1) h2
  unfold axpyD axpyS
  simp only [h.len hx, h.len hy]
  exact ⟨(Lim.check (fun _ => rfl) (hk _)).noexcept, (hk N).noexcept⟩

/-- `x := alpha x`, `r := x / alpha` and `r := -x`. -/
theorem C93_scale (h : S.Bufs P m m') (x r : Nat) (hx : P x) (alpha : ∀ i, T i) (alpha' : T') (hal : S.rel alpha alpha') :
    Lim l (S.Bufs P) (fun i => scaleV (alpha i) (m i) x) (scaleV alpha' m' x) ∧
    Lim l (S.Bufs fun p => p = r ∨ P p) (fun i => divOpAt (m i) x (alpha i) r) (divOpAt m' x alpha' r) ∧
    Lim l (S.Bufs fun p => p = r ∨ P p) (fun i => negOpAt (m i) x r) (negOpAt m' x r) := by
  have hk : ∀ (Q : Nat → Prop) (a : ∀ i, T i) (a' : T') (s : ∀ i, Mem (T i)) s' y n, S.rel a a' → S.Bufs Q s s' → Q y →
      Lim l (S.Bufs Q) (fun i => scalCore (a i) (s i) y n) (scalCore a' s' y n) := fun Q a a' s s' y n ha hs hy =>
    Lim.forRange hs fun k s s' _ _ hs => logRel_elem1 S hs (f := fun i b => a i * b) hy hy fun _ _ hb => S.mul ha hb
  have hcp : ∀ {a : ∀ i, List (T i)} {b}, S.Buf a b →
      S.Bufs (fun p => p = r ∨ P p) (fun i => (m i).setBuf r (a i)) (m'.setBuf r b) := fun hab =>
    h.setBuf hab fun q hq hqr => hq.resolve_left hqr
  refine ⟨?_, ?_, ?_⟩
  · unfold scaleV
    simp only [h.len hx]
    exact (hk _ _ _ _ _ _ _ hal h hx).noexcept
  · unfold divOpAt reciprocal
    simp only [h.len hx]
    exact Lim.noexcept ((S.div S.one hal).bind fun a a' ha => hk _ _ _ _ _ _ _ ha (hcp (h x hx)) (.inl rfl))
  · unfold negOpAt negD
    have hc := hcp (LogRel.Buf.zeros (S := S) (m'.len x))
    simp only [h.len hx]
    have hxr : x = r ∨ P x := .inr hx
    simp only [hc.len hxr, hc.len (.inl rfl)]
    refine Lim.noexcept (.check (fun _ => rfl) ?_)
    exact Lim.forRange hc fun k s s' _ _ hs => logRel_elem1 S hs (f := fun i b => -b) hxr (.inl rfl) fun _ _ hb => S.neg hb

/-- Cross products. -/
theorem C93_cross (h : S.Bufs P m m') (x y r : Nat) (hx : P x) (hy : P y) (hr : P r) (nd dx dy dr : Bool) :
    Lim l S.rel (fun i => cross2 nd dx dy (m i) x y) (cross2 nd dx dy m' x y) ∧
    Lim l (S.Bufs P) (fun i => cross3 nd dx dy dr (m i) x y r) (cross3 nd dx dy dr m' x y r) ∧
    Lim l (S.Bufs P) (fun i => crossAcc nd dx dy dr (m i) x y r) (crossAcc nd dx dy dr m' x y r) := by
  unfold cross2 cross3 crossAcc
  simp only [h.len hx, h.len hy, h.len hr]
  refine ⟨Lim.noexcept (.check (fun _ => rfl) (.check (fun _ => rfl) ?_)),
    Lim.noexcept (.check (fun _ => rfl) (.check (fun _ => rfl) (.check (fun _ => rfl) ?_))),
    Lim.noexcept (.check (fun _ => rfl) (.check (fun _ => rfl) (.check (fun _ => rfl) ?_)))⟩
  · exact (h.rd hx 0).bind fun _ _ k1 => (h.rd hy 1).bind fun _ _ k2 => (h.rd hy 0).bind fun _ _ k3 =>
      (h.rd hx 1).bind fun _ _ k4 => .ok (S.sub (S.mul k1 k2) (S.mul k3 k4))
  · refine (h.rd hx 0).bind fun _ _ p0 => (h.rd hx 1).bind fun _ _ p1 => (h.rd hx 2).bind fun _ _ p2 =>
      (h.rd hy 0).bind fun _ _ q0 => (h.rd hy 1).bind fun _ _ q1 => (h.rd hy 2).bind fun _ _ q2 => ?_
    exact (h.wr hr 0 (S.sub (S.mul p1 q2) (S.mul q1 p2))).bind fun s s' hs =>
      (hs.wr hr 1 (S.sub (S.mul p2 q0) (S.mul q2 p0))).bind fun s s' hs => hs.wr hr 2 (S.sub (S.mul p0 q1) (S.mul q0 p1))
  · refine (h.rd hx 0).bind fun _ _ p0 => (h.rd hx 1).bind fun _ _ p1 => (h.rd hx 2).bind fun _ _ p2 =>
      (h.rd hy 0).bind fun _ _ q0 => (h.rd hy 1).bind fun _ _ q1 => (h.rd hy 2).bind fun _ _ q2 =>
      (h.rd hr 0).bind fun _ _ r0 => (h.rd hr 1).bind fun _ _ r1 => (h.rd hr 2).bind fun _ _ r2 => ?_
    exact (h.wr hr 0 (S.add (S.sub (S.mul p1 q2) (S.mul q1 p2)) r0)).bind fun s s' hs =>
      (hs.wr hr 1 (S.add (S.sub (S.mul p2 q0) (S.mul q2 p0)) r1)).bind fun s s' hs =>
      hs.wr hr 2 (S.add (S.sub (S.mul p0 q1) (S.mul q0 p1)) r2)

theorem logRel_copyTo {t : ∀ i, List (T i)} {t' : List T'} (ht : S.Buf t t') (n : Nat) {y : Nat} (hy : P y)
    (h : S.Bufs P m m') : Lim l (S.Bufs P) (fun i => copyTo (t i) n y (m i)) (copyTo t' n y m') :=
  Lim.forRange h fun k s s' _ _ hs => (ht.lrd k).bind fun _ _ ha => hs.wr hy k ha

theorem logRel_gemvCore (h : S.Bufs P m m') {a x y : Nat} (ha : P a) (hx : P x) (hy : P y) {alpha beta : ∀ i, T i}
    {alpha' beta' : T'} (hal : S.rel alpha alpha') (hbe : S.rel beta beta') (n k : Nat) :
    Lim l (S.Bufs P) (fun i => gemvCore n k (alpha i) a x (beta i) y (m i)) (gemvCore n k alpha' a x beta' y m') := by
  unfold gemvCore
  split
  · refine Lim.bind (P := S.Buf) (Lim.forRange (LogRel.Buf.zeros n) fun p t t' _ _ ht => ?_) fun t t' ht =>
      logRel_copyTo S ht n hy h
    exact (h.rd hy p).bind fun _ _ hyp => (ht.lwr p (S.mul hbe hyp)).bind fun t t' ht =>
      Lim.forRange ht fun q t t' _ _ ht => (ht.lrd p).bind fun _ _ h1 => (h.rd ha _).bind fun _ _ h2 =>
        (h.rd hx q).bind fun _ _ h3 => ht.lwr p (S.add h1 (S.mul (S.mul hal h2) h3))
  · refine Lim.forRange h fun p s s' _ _ hs => ?_
    exact (hs.rd hy p).bind fun _ _ hyp => (hs.wr hy p (S.mul hbe hyp)).bind fun s s' hs =>
      Lim.forRange hs fun q s s' _ _ hs => (hs.rd hy p).bind fun _ _ h1 => (hs.rd ha _).bind fun _ _ h2 =>
        (hs.rd hx q).bind fun _ _ h3 => hs.wr hy p (S.add h1 (S.mul (S.mul hal h2) h3))

/-- Matrix-vector products: any shapes, any sharing of storage. -/
theorem C93_gemv (h : S.Bufs P m m') (nd : Bool) (a : MatRef) (x y : Nat) (ha : P a.buf) (hx : P x) (hy : P y)
    (alpha beta : ∀ i, T i) (alpha' beta' : T') (hal : S.rel alpha alpha') (hbe : S.rel beta beta') :
    Lim l (S.Bufs P) (fun i => gemvDD nd (alpha i) a x (beta i) y (m i)) (gemvDD nd alpha' a x beta' y m') ∧
    Lim l (S.Bufs P) (fun i => gemvSD nd (alpha i) a x (beta i) y (m i)) (gemvSD nd alpha' a x beta' y m') ∧
    Lim l (S.Bufs P) (fun i => gemvSS (alpha i) a x (beta i) y (m i)) (gemvSS alpha' a x beta' y m') := by
  have k := logRel_gemvCore S h ha hx hy hal hbe a.n a.m
  unfold gemvDD gemvSD gemvSS
  simp only [h.len hx, h.len hy]
  exact ⟨Lim.noexcept (.check (fun _ => rfl) (.check (fun _ => rfl) k)), Lim.noexcept (.check (fun _ => rfl) k), k.noexcept⟩

theorem logRel_gemmCore (h : S.Bufs P m m') {a b c : Nat} (ha : P a) (hb : P b) (hc : P c) {alpha beta : ∀ i, T i}
    {alpha' beta' : T'} (hal : S.rel alpha alpha') (hbe : S.rel beta beta') (n k o : Nat) :
    Lim l (S.Bufs P) (fun i => gemmCore n k o (alpha i) a b (beta i) c (m i)) (gemmCore n k o alpha' a b beta' c m') := by
  unfold gemmCore
  split
  · refine Lim.bind (P := S.Buf) (Lim.forRange (LogRel.Buf.zeros (n * k)) fun p t t' _ _ ht => ?_) fun t t' ht =>
      logRel_copyTo S ht (n * k) hc h
    exact Lim.forRange ht fun q t t' _ _ ht => (h.rd hc _).bind fun _ _ hyp => (ht.lwr _ (S.mul hbe hyp)).bind fun t t' ht =>
      Lim.forRange ht fun r t t' _ _ ht => (ht.lrd _).bind fun _ _ h1 => (h.rd ha _).bind fun _ _ h2 =>
        (h.rd hb _).bind fun _ _ h3 => ht.lwr _ (S.add h1 (S.mul (S.mul hal h2) h3))
  · refine Lim.forRange h fun p s s' _ _ hs => ?_
    exact Lim.forRange hs fun q s s' _ _ hs => (hs.rd hc _).bind fun _ _ hyp => (hs.wr hc _ (S.mul hyp hbe)).bind fun s s' hs =>
      Lim.forRange hs fun r s s' _ _ hs => (hs.rd hc _).bind fun _ _ h1 => (hs.rd ha _).bind fun _ _ h2 =>
        (hs.rd hb _).bind fun _ _ h3 => hs.wr hc _ (S.add h1 (S.mul (S.mul hal h2) h3))

/-- Matrix-matrix products: any shapes, any sharing of storage. -/
theorem C93_gemm (h : S.Bufs P m m') (nd : Bool) (a b c : MatRef) (ha : P a.buf) (hb : P b.buf) (hc : P c.buf)
    (alpha beta : ∀ i, T i) (alpha' beta' : T') (hal : S.rel alpha alpha') (hbe : S.rel beta beta') :
    Lim l (S.Bufs P) (fun i => gemmDDD nd (alpha i) a b (beta i) c (m i)) (gemmDDD nd alpha' a b beta' c m') ∧
    Lim l (S.Bufs P) (fun i => gemmSSS (alpha i) a b (beta i) c (m i)) (gemmSSS alpha' a b beta' c m') ∧
    Lim l (S.Bufs P) (fun i => gemmDSS nd (alpha i) a b (beta i) c (m i)) (gemmDSS nd alpha' a b beta' c m') ∧
    Lim l (S.Bufs P) (fun i => gemmSDS nd (alpha i) a b (beta i) c (m i)) (gemmSDS nd alpha' a b beta' c m') ∧
    Lim l (S.Bufs P) (fun i => gemmDDS nd (alpha i) a b (beta i) c (m i)) (gemmDDS nd alpha' a b beta' c m') ∧
    Lim l (S.Bufs P) (fun i => gemmDSD nd (alpha i) a b (beta i) c (m i)) (gemmDSD nd alpha' a b beta' c m') ∧
    Lim l (S.Bufs P) (fun i => gemmSDD nd (alpha i) a b (beta i) c (m i)) (gemmSDD nd alpha' a b beta' c m') := by
  have k := logRel_gemmCore S h ha hb hc hal hbe
  unfold gemmDDD gemmSSS gemmDSS gemmSDS gemmDDS gemmDSD gemmSDD
  exact ⟨Lim.noexcept (.check (fun _ => rfl) (.check (fun _ => rfl) (.check (fun _ => rfl) (k _ _ _)))), (k _ _ _).noexcept,
    Lim.noexcept (.check (fun _ => rfl) (.check (fun _ => rfl) (k _ _ _))),
    Lim.noexcept (.check (fun _ => rfl) (.check (fun _ => rfl) (k _ _ _))),
    Lim.noexcept (.check (fun _ => rfl) (.check (fun _ => rfl) (.check (fun _ => rfl) (k _ _ _)))),
    Lim.noexcept (.check (fun _ => rfl) (.check (fun _ => rfl) (.check (fun _ => rfl) (k _ _ _)))),
    Lim.noexcept (.check (fun _ => rfl) (.check (fun _ => rfl) (.check (fun _ => rfl) (k _ _ _))))⟩

/-- Sparse products: the matrices have the same pattern. -/
theorem C93_spmv (h : S.Bufs P m m') (nd : Bool) (a : ∀ i, Csr (T i)) (a' : Csr T') (hptr : ∀ i, (a i).rowPtr = a'.rowPtr)
    (hcol : ∀ i, (a i).col = a'.col) (hval : S.Buf (fun i => (a i).val) a'.val) (x y : Nat) (hx : P x) (hy : P y)
    (alpha beta : ∀ i, T i) (alpha' beta' : T') (hal : S.rel alpha alpha') (hbe : S.rel beta beta') :
    Lim l (S.Bufs P) (fun i => Csr.mul nd (alpha i) (a i) x (beta i) y (m i)) (Csr.mul nd alpha' a' x beta' y m') := by
  have hsh : ∀ i, (a i).shape = a'.shape := fun i => by unfold Csr.shape; rw [hptr i, hcol i]
  unfold Csr.mul
  refine Lim.noexcept (Lim.same hsh fun sh _ => ?_)
  simp only [h.len hx, h.len hy]
  refine .check (fun _ => rfl) (.check (fun _ => rfl) ?_)
  unfold Csr.mulCore
  simp only [hptr, hcol]
  refine Lim.forRange h fun p s s' _ _ hs => (hs.rd hy p).bind fun _ _ hyp =>
    (hs.wr hy p (S.mul hbe hyp)).bind fun s s' hs => Lim.same (fun _ => rfl) fun b _ => Lim.same (fun _ => rfl) fun e _ => ?_
  exact Lim.forRange hs fun q s s' _ _ hs => (hs.rd hy p).bind fun _ _ h1 => (hval.lrd q).bind fun _ _ h2 =>
    Lim.same (fun _ => rfl) fun c _ => (hs.rd hx c).bind fun _ _ h3 => hs.wr hy p (S.add h1 (S.mul (S.mul hal h2) h3))

end vec

/-! ## Gram-Schmidt -/

/-- The Gram-Schmidt process. -/
theorem C93_cgs (nd : Bool) (sz : Option Nat) (M : Nat) (m : ∀ i, Mem (T i)) (m' : Mem T') (h : S.Bufs (· < M) m m') :
    Lim l (S.Bufs (· < M)) (fun i => Cgs.cgs nd sz M (m i)) (Cgs.cgs nd sz M m') := by
  have hat : ∀ k v, Cgs.at' M k = .ok v → v = k ∧ k < M := by
    intro k v e
    unfold Cgs.at' at e
    split at e
    · next hk => exact ⟨(Except.ok.inj e).symm, hk⟩
    · exact nomatch e
  unfold Cgs.cgs
  refine Lim.same (fun _ => rfl) fun v0 hv0 => ?_
  obtain ⟨rfl, h0⟩ := hat _ _ hv0
  simp only [h.len h0]
  refine Lim.forRange h fun j s s' _ _ hs => ?_
  unfold Cgs.outer
  refine Lim.same (fun _ => rfl) fun v1 hv1 => ?_
  obtain ⟨rfl, h1⟩ := hat _ _ hv1
  simp only [hs.len h1]
  refine Lim.check (fun _ => rfl) (Lim.same (fun _ => rfl) fun vj hvj => ?_)
  obtain ⟨rfl, hj⟩ := hat _ _ hvj
  have hcp : S.Bufs (· ≤ M) (fun i => (s i).setBuf M (s i vj)) (s'.setBuf M (s' vj)) :=
    hs.setBuf (hs vj hj) fun q hq hqM => by omega
  refine Lim.mono (Lim.forRange hcp fun k t t' _ _ ht => ?_) fun t t' ht p hp => ht p (Nat.le_of_lt hp)
  unfold Cgs.inner
  refine Lim.same (fun _ => rfl) fun k' hk' => Lim.same (fun _ => rfl) fun j' hj' => ?_
  obtain ⟨rfl, hk⟩ := hat _ _ hk'
  obtain ⟨rfl, -⟩ := hat _ _ hj'
  have hd : Lim l S.rel (fun i => Cgs.dot sz (t i) k' M) (Cgs.dot sz t' k' M) := by
    have := C93_dot S ht k' M (Nat.le_of_lt hk) (Nat.le_refl _)
    unfold Cgs.dot
    cases sz with
    | none => exact (this 0).2.1
    | some N => exact (this N).2.2.1
  have hmd : Lim l S.rel (fun i => Cgs.mdot sz (t i) k' k') (Cgs.mdot sz t' k' k') := by
    have := C93_dot S ht k' k' (Nat.le_of_lt hk) (Nat.le_of_lt hk)
    unfold Cgs.mdot
    cases sz with
    | none => exact (this 0).1
    | some N => exact (this N).2.2.1
  refine hd.bind fun _ _ ha => hmd.bind fun _ _ hb => (S.div (S.neg ha) hb).bind fun q q' hq => ?_
  have := C93_axpy S ht k' j' (Nat.le_of_lt hk) (Nat.le_of_lt hj) q q' hq
  unfold Cgs.axpy
  cases sz with
  | none => exact (this 0).1
  | some N => exact (this N).2

/-! ## Tri-diagonal systems -/

section tdma
variable {P : Nat → Prop} {m : ∀ i, Mem (T i)} {m' : Mem T'}

/-- The three diagonals. -/
def LogTri (a : ∀ i, TriDiag (T i)) (a' : TriDiag T') : Prop :=
  S.Buf (fun i => (a i).d) a'.d ∧ S.Buf (fun i => (a i).dl) a'.dl ∧ S.Buf (fun i => (a i).du) a'.du

theorem logRel_tdma {a : ∀ i, TriDiag (T i)} {a' : TriDiag T'} (ha : LogTri S a a') (h : S.Bufs P m m') {b x : Nat}
    (hb : P b) (hx : P x) (n nrow : Nat) :
    Lim l (S.Bufs P) (fun i => Tdma.tdma (a i) n nrow b x (m i)) (Tdma.tdma a' n nrow b x m') := by
  obtain ⟨hd, hl, hu⟩ := ha
  refine Lim.forRange h fun k s s' _ _ hs => ?_
  unfold Tdma.column
  let Q : (∀ i, List (T i) × List (T i)) → List T' × List T' → Prop :=
    fun pq pq' => S.Buf (fun i => (pq i).1) pq'.1 ∧ S.Buf (fun i => (pq i).2) pq'.2
  have hf : Lim l Q (fun i => Tdma.fwd (a i) (s i) n nrow b k) (Tdma.fwd a' s' n nrow b k) := by
    unfold Tdma.fwd
    refine (hu.lrd 0).bind fun _ _ h1 => (hd.lrd 0).bind fun _ _ h2 => (S.div (S.neg h1) h2).bind fun _ _ h3 =>
      (hs.rd hb k).bind fun _ _ h4 => (S.div h4 h2).bind fun _ _ h5 => ?_
    refine Lim.forRange (I := Q) ⟨.one h3, .one h5⟩ fun j pq pq' _ _ hpq => ?_
    unfold Tdma.fwdStep
    exact (hd.lrd j).bind fun _ _ k1 => (hl.lrd _).bind fun _ _ k2 => (hpq.1.lrd _).bind fun _ _ k3 =>
      (hu.lrd j).bind fun _ _ k4 => (S.div (S.neg k4) (S.add k1 (S.mul k2 k3))).bind fun _ _ k5 =>
      (hs.rd hb _).bind fun _ _ k6 => (hpq.2.lrd _).bind fun _ _ k7 =>
      (S.div (S.sub k6 (S.mul k2 k7)) (S.add k1 (S.mul k2 k3))).bind fun _ _ k8 => .ok ⟨hpq.1.push k5, hpq.2.push k8⟩
  refine hf.bind fun pq pq' hpq => ?_
  refine Lim.bind (P := S.Bufs P) ?_ fun s s' hs => ?_
  · unfold Tdma.tailStep
    exact (hs.rd hb _).bind fun _ _ k1 => (hl.lrd _).bind fun _ _ k2 => (hpq.2.lrd _).bind fun _ _ k3 =>
      (hd.lrd _).bind fun _ _ k4 => (hpq.1.lrd _).bind fun _ _ k5 =>
      (S.div (S.sub k1 (S.mul k2 k3)) (S.add k4 (S.mul k2 k5))).bind fun _ _ k6 => hs.wr hx _ k6
  · refine Lim.forDown hs fun j s s' _ hs => ?_
    unfold Tdma.backStep
    exact (hpq.1.lrd j).bind fun _ _ k1 => (hs.rd hx _).bind fun _ _ k2 => (hpq.2.lrd j).bind fun _ _ k3 =>
      hs.wr hx _ (S.add (S.mul k1 k2) k3)

/-- Tri-diagonal systems, one or several right-hand sides, in place or not. -/
theorem C93_tdma (a : ∀ i, TriDiag (T i)) (a' : TriDiag T') (ha : LogTri S a a') (h : S.Bufs P m m') (nd : Bool) :
    (∀ b x, P b → P x → Lim l (S.Bufs P) (fun i => Tdma.solveVec nd (a i) b x (m i)) (Tdma.solveVec nd a' b x m')) ∧
    ∀ b x : MatRef, P b.buf → P x.buf →
      Lim l (S.Bufs P) (fun i => Tdma.solveMat nd (a i) b x (m i)) (Tdma.solveMat nd a' b x m') := by
  have hsh : ∀ i, (a i).shape = a'.shape := fun i => by unfold TriDiag.shape; rw [ha.1.1 i]
  constructor
  · intro b x hb hx
    unfold Tdma.solveVec
    simp only [hsh, h.len hb]
    exact Lim.noexcept (.check (fun _ => rfl) (logRel_tdma S ha h hb hx _ _))
  · intro b x hb hx
    unfold Tdma.solveMat
    simp only [hsh]
    exact Lim.noexcept (.check (fun _ => rfl) (.check (fun _ => rfl) (logRel_tdma S ha h hb hx _ _)))

end tdma

/-! ## Cholesky factorisations -/

theorem logRel_subMul {a : ∀ i, List (T i)} {a' : List T'} (h : S.Buf a a') (r p q : Nat) :
    Lim l S.Buf (fun i => Chol.subMul r p q (a i)) (Chol.subMul r p q a') :=
  (h.lrd r).bind fun _ _ h1 => (h.lrd p).bind fun _ _ h2 => (h.lrd q).bind fun _ _ h3 => h.lwr r (S.sub h1 (S.mul h2 h3))

theorem logRel_offDiag {a : ∀ i, List (T i)} {a' : List T'} (h : S.Buf a a') (ix : Nat → Nat → Nat) (p q : Nat) :
    Lim l S.Buf (fun i => Chol.offDiag ix p q (a i)) (Chol.offDiag ix p q a') :=
  Lim.bind (P := S.Buf) (Lim.forRange h fun k _ _ _ _ h => logRel_subMul S h _ _ _) fun _ _ h =>
    (h.lrd _).bind fun _ _ h1 => (h.lrd _).bind fun _ _ h2 => (S.div h1 h2).bind fun _ _ h3 => h.lwr _ h3

section chol
variable [∀ i, DecidableLT (T i)] [DecidableLT T']

theorem logRel_row {a : ∀ i, List (T i)} {a' : List T'} (h : S.Buf a a') (ix : Nat → Nat → Nat) (p : Nat) :
    Lim.Goes l S.Buf (fun i => Chol.row ix p (a i)) (Chol.row ix p a') := by
  unfold Chol.row
  refine Lim.Goes.bind (Lim.forRange h fun k _ _ _ _ h => logRel_offDiag S h ix p k) fun _ _ h => ?_
  refine Lim.Goes.bind (Lim.forRange h fun k _ _ _ _ h => logRel_subMul S h _ _ _) fun b b' h => ?_
  refine Lim.Goes.bind (h.lrd _) fun v v' hv => ?_
  split
  · exact .inr _ _
  · next hz =>
    split
    · exact .inr _ _
    · next hn =>
      refine Lim.Goes.of_eventually (r₂ := fun i => do
          let s ← sqrtC (v i)
          let l ← lwr (b i) (ix p p) s
          .ok (.inl l)) (Lim.Goes.bind (S.sqrt hv hz hn) fun w w' hw => Lim.Goes.bind (h.lwr _ hw) fun c c' hc =>
        .inl hc) ((S.pos hv hz hn).mono fun i hi => ?_)
      rw [if_neg hi.1, if_neg hi.2]

/-- The Cholesky factorisation of a matrix whose first pivot is positive.  (`C36_false`: the code accepts a matrix with a bad
first pivot and leaves it as it is.) -/
theorem C93_cholesky (mt : MemType) (n : Nat) (a : ∀ i, List (T i)) (a' : List T') (h : S.Buf a a')
    (h0 : 0 < n → ¬ IsZ (val0 a' 0) ∧ ¬ val0 a' 0 < 0) :
    Lim l S.Buf (fun i => Chol.new mt n (a i)) (Chol.new mt n a') := by
  have hc0 : cIndex mt n 0 0 = 0 := by cases mt <;> simp [cIndex]
  have hgo := Lim.forRet (l := l) (J := fun _ => S.Buf) (f := fun i => Chol.row (cIndex mt n)) (n := n) h
    fun k s t _ hs => logRel_row S hs (cIndex mt n) k
  -- the code of an early return is the number of the row
  have hcode : ∀ k (t : List T') r, Chol.row (cIndex mt n) k t = .ok (.inr r) → r.1 = k := by
    intro k t r e
    unfold Chol.row at e
    cases e1 : forRange 0 k (Chol.offDiag (cIndex mt n) k) t with
    | error x => rw [e1] at e; exact nomatch e
    | ok t1 =>
      rw [e1, ok_bind] at e
      cases e2 : forRange 0 k (fun j l => Chol.subMul (cIndex mt n k k) (cIndex mt n k j) (cIndex mt n k j) l) t1 with
      | error x => rw [e2] at e; exact nomatch e
      | ok t2 =>
        rw [e2, ok_bind] at e
        cases e3 : lrd t2 (cIndex mt n k k) with
        | error x => rw [e3] at e; exact nomatch e
        | ok v =>
          rw [e3, ok_bind] at e
          split at e
          · cases e; rfl
          · split at e
            · cases e; rfl
            · cases es : sqrtC v with
              | error x => rw [es] at e; exact nomatch e
              | ok s =>
                rw [es, ok_bind] at e
                cases ew : lwr t2 (cIndex mt n k k) s with
                | error x => rw [ew] at e; exact nomatch e
                | ok w => rw [ew] at e; exact nomatch e
  have hlate : ∀ k lo (t : List T') r, forUpRet (Chol.row (cIndex mt n)) lo k t = .ok (.inr r) → lo ≤ r.1 := by
    intro k
    induction k with
    | zero => intro lo t r e; exact nomatch e
    | succ k ih =>
      intro lo t r e
      unfold forUpRet at e
      cases er : Chol.row (cIndex mt n) lo t with
      | error x => rw [er] at e; exact nomatch e
      | ok v =>
        rw [er, ok_bind] at e
        cases v with
        | inl t1 => exact Nat.le_of_succ_le (ih _ _ _ e)
        | inr r1 => cases e; exact (hcode _ _ _ er).ge
  have hnz : ∀ r, forRet 0 n (Chol.row (cIndex mt n)) a' = .ok (.inr r) → r.1 ≠ 0 := by
    intro r e hr
    unfold forRet at e
    cases n with
    | zero => exact nomatch e
    | succ n =>
      rw [Nat.sub_zero] at e
      unfold forUpRet at e
      cases er : Chol.row (cIndex mt (n + 1)) 0 a' with
      | error x => rw [er] at e; exact nomatch e
      | ok v =>
        rw [er, ok_bind] at e
        cases v with
        | inl t1 => have := hlate _ _ _ _ e; omega
        | inr r1 =>
          unfold Chol.row at er
          rw [forRange_of_le (Nat.le_refl _), ok_bind, forRange_of_le (Nat.le_refl _), ok_bind, hc0] at er
          cases e3 : lrd a' 0 with
          | error x => rw [e3] at er; exact nomatch er
          | ok v =>
            have hv : v = val0 a' 0 := by
              by_cases hl : 0 < a'.length
              · rw [lrd_val hl] at e3; exact (Except.ok.inj e3).symm
              · rw [lrd_oob (by omega)] at e3; exact nomatch e3
            rw [e3, ok_bind, hv, if_neg (h0 (by omega)).1, if_neg (h0 (by omega)).2] at er
            cases es : sqrtC (val0 a' 0) with
            | error x => rw [es] at er; exact nomatch er
            | ok s =>
              rw [es, ok_bind] at er
              cases ew : lwr a' 0 s with
              | error x => rw [ew] at er; exact nomatch er
              | ok w => rw [ew] at er; exact nomatch er
  intro L e
  unfold Chol.new Chol.decomp at e
  cases er : forRet 0 n (Chol.row (cIndex mt n)) a' with
  | error x => rw [er] at e; exact nomatch e
  | ok v =>
    rw [er, ok_bind] at e
    cases v with
    | inr r =>
      rw [ok_bind] at e
      exfalso
      have := hnz r er
      simp [throwIf, this] at e
    | inl t =>
      have et : t = L := by
        rw [ok_bind] at e
        simpa [throwIf] using e
      subst et
      obtain ⟨c, hc, hct⟩ := hgo t er
      refine ⟨c, hc.mono fun i hi => ?_, hct⟩
      unfold Chol.new Chol.decomp
      beta_reduce at hi ⊢
      rw [hi]
      rfl

end chol

theorem logRel_modSub {a : ∀ i, List (T i)} {a' : List T'} (h : S.Buf a a') (ix : Nat → Nat → Nat) (p q k : Nat) :
    Lim l S.Buf (fun i => Chol.modSub ix p q k (a i)) (Chol.modSub ix p q k a') :=
  (h.lrd _).bind fun _ _ h1 => (h.lrd _).bind fun _ _ h2 => (h.lrd _).bind fun _ _ h3 => (h.lrd _).bind fun _ _ h4 =>
    (S.div (S.mul h2 h3) h4).bind fun _ _ h5 => h.lwr _ (S.sub h1 h5)

/-- The modified factorisation. -/
theorem C93_mod_cholesky (mt : MemType) (n : Nat) (a : ∀ i, List (T i)) (a' : List T') (h : S.Buf a a') :
    Lim l S.Buf (fun i => Chol.modNew mt n (a i)) (Chol.modNew mt n a') := by
  refine Lim.forRange h fun k s s' _ _ hs => ?_
  unfold Chol.modRow
  refine Lim.bind (P := S.Buf) (Lim.forRange hs fun j s s' _ _ hs => Lim.forRange hs fun p s s' _ _ hs =>
    logRel_modSub S hs _ _ _ _) fun s s' hs => ?_
  intro b eb
  cases ev : lrd s' (cIndex mt n k k) with
  | error x => rw [ev] at eb; exact nomatch eb
  | ok v' =>
    obtain ⟨v, hv, hvv⟩ := hs.lrd _ v' ev
    rw [ev, ok_bind] at eb
    by_cases hz : IsZ v'
    · simp [throwIf, hz] at eb
    · have e : s' = b := by simpa [throwIf, hz] using eb
      subst e
      refine ⟨s, (hv.and (S.nz hvv hz)).mono fun i hi => ?_, hs⟩
      obtain ⟨h1, h2⟩ := hi
      beta_reduce at h1 ⊢
      rw [h1, ok_bind]
      simp [throwIf, h2]

section solve
variable {P : Nat → Prop} {m : ∀ i, Mem (T i)} {m' : Mem T'}

theorem logRel_subCell (h : S.Bufs P m m') {x : Nat} (hx : P x) (r p : Nat) {c : ∀ i, Res (T i)} {c' : Res T'}
    (hc : Lim l S.rel c c') : Lim l (S.Bufs P) (fun i => Chol.subCell x r p (c i) (m i)) (Chol.subCell x r p c' m') :=
  (h.rd hx r).bind fun _ _ h1 => hc.bind fun _ _ h2 => (h.rd hx p).bind fun _ _ h3 => h.wr hx r (S.sub h1 (S.mul h2 h3))

theorem logRel_divCell (h : S.Bufs P m m') {x : Nat} (hx : P x) (r q : Nat) {L : ∀ i, List (T i)} {L' : List T'}
    (hL : S.Buf L L') : Lim l (S.Bufs P) (fun i => Chol.divCell x r (L i) q (m i)) (Chol.divCell x r L' q m') :=
  (h.rd hx r).bind fun _ _ h1 => (hL.lrd q).bind fun _ _ h2 => (S.div h1 h2).bind fun _ _ h3 => h.wr hx r h3

theorem logRel_kernel (md : Bool) (mt : MemType) (h : S.Bufs P m m') {b x : Nat} (hb : P b) (hx : P x)
    {L : ∀ i, List (T i)} {L' : List T'} (hL : S.Buf L L') (n nrow : Nat) :
    Lim l (S.Bufs P) (fun i => Chol.kernel md mt n nrow (L i) b x (m i)) (Chol.kernel md mt n nrow L' b x m') := by
  have hbwd : ∀ k (s : ∀ i, Mem (T i)) s', S.Bufs P s s' →
      Lim l (S.Bufs P) (fun i => forDown (Chol.bwdRow (cIndex mt n) n nrow (L i) x k) n (s i))
        (forDown (Chol.bwdRow (cIndex mt n) n nrow L' x k) n s') := fun k s s' hs =>
    Lim.forDown hs fun j s s' _ hs => Lim.bind (P := S.Bufs P)
      (Lim.forRange hs fun p s s' _ _ hs => logRel_subCell S hs hx _ _ (hL.lrd _)) fun s s' hs =>
      logRel_divCell S hs hx _ _ hL
  unfold Chol.kernel
  cases md with
  | false =>
    refine Lim.forRange (f := fun i k m => _) h fun k s s' _ _ hs => Lim.bind (P := S.Bufs P) (Lim.forRange hs fun j s s' _ _ hs => ?_)
      fun s s' hs => hbwd k s s' hs
    exact (hs.rd hb _).bind fun _ _ h1 => (hs.wr hx _ h1).bind fun s s' hs => Lim.bind (P := S.Bufs P)
      (Lim.forRange hs fun p s s' _ _ hs => logRel_subCell S hs hx _ _ (hL.lrd _)) fun s s' hs =>
      logRel_divCell S hs hx _ _ hL
  | true =>
    refine Lim.forRange (f := fun i k m => _) h fun k s s' _ _ hs => Lim.bind (P := S.Bufs P) (Lim.forRange hs fun j s s' _ _ hs => ?_)
      fun s s' hs => hbwd k s s' hs
    exact (hs.rd hb _).bind fun _ _ h1 => (hs.wr hx _ h1).bind fun s s' hs =>
      Lim.forRange hs fun p s s' _ _ hs => logRel_subCell S hs hx _ _
        ((hL.lrd _).bind fun _ _ h2 => (hL.lrd _).bind fun _ _ h3 => S.div h2 h3)

/-- Solving with the factors: vectors and matrices, in place or into a new object `r`. -/
theorem C93_chol_solve (nd md : Bool) (mt : MemType) (n : Nat) (L : ∀ i, List (T i)) (L' : List T') (hL : S.Buf L L')
    (h : S.Bufs P m m') (r : Nat) :
    (∀ b, P b → Lim l (S.Bufs P) (fun i => Chol.solveMutVec nd md mt n (L i) b (m i)) (Chol.solveMutVec nd md mt n L' b m') ∧
      Lim l (S.Bufs fun p => p = r ∨ P p) (fun i => Chol.solveVecAt nd md mt n (L i) b r (m i))
        (Chol.solveVecAt nd md mt n L' b r m')) ∧
    ∀ b : MatRef, P b.buf →
      Lim l (S.Bufs P) (fun i => Chol.solveMutMat nd md mt n (L i) b (m i)) (Chol.solveMutMat nd md mt n L' b m') ∧
      Lim l (S.Bufs fun p => p = r ∨ P p) (fun i => Chol.solveMatAt nd md mt n (L i) b r (m i))
        (Chol.solveMatAt nd md mt n L' b r m') := by
  have hcp : ∀ b, P b → S.Bufs (fun p => p = r ∨ P p) (fun i => (m i).setBuf r (m i b)) (m'.setBuf r (m' b)) := fun b hb =>
    h.setBuf (h b hb) fun q hq hqr => hq.resolve_left hqr
  refine ⟨fun b hb => ⟨?_, ?_⟩, fun b hb => ⟨?_, ?_⟩⟩
  · unfold Chol.solveMutVec
    simp only [h.len hb]
    exact .check (fun _ => rfl) (logRel_kernel S md mt h hb hb hL _ _)
  · unfold Chol.solveVecAt
    simp only [h.len hb]
    exact .check (fun _ => rfl) (logRel_kernel S md mt (hcp b hb) (.inr hb) (.inl rfl) hL _ _)
  · unfold Chol.solveMutMat
    exact .check (fun _ => rfl) (logRel_kernel S md mt h hb hb hL _ _)
  · unfold Chol.solveMatAt
    exact .check (fun _ => rfl) (logRel_kernel S md mt (hcp b.buf hb) (.inr hb) (.inl rfl) hL _ _)

end solve

/-- Back substitution. -/
theorem C93_back_sub (a : ∀ i, UTri (T i)) (a' : UTri T') (hn : ∀ i, (a i).n = a'.n) (hu : S.Buf (fun i => (a i).u) a'.u)
    (y : ∀ i, List (T i)) (y' : List T') (hy : S.Buf y y') :
    Lim l S.Buf (fun i => (a i).backSub (y i)) (a'.backSub y') := by
  have hget : ∀ p q, Lim l S.rel (fun i => (a i).get p q) (a'.get p q) := by
    intro p q
    unfold UTri.get
    split
    · exact hu.lrd _
    · exact .ok S.zero
  unfold UTri.backSub UTri.backSubLoop
  simp only [hn, hy.1]
  refine .check (fun _ => rfl) (Lim.forDown hy fun k s s' _ hs => ?_)
  refine Lim.bind (P := S.Buf) (Lim.forRange hs fun j s s' _ _ hs => ?_) fun s s' hs => ?_
  · exact (hs.lrd k).bind fun _ _ h1 => (hget k j).bind fun _ _ h2 => (hs.lrd j).bind fun _ _ h3 =>
      hs.lwr k (S.sub h1 (S.mul h2 h3))
  · exact (hs.lrd k).bind fun _ _ h1 => (hget k k).bind fun _ _ h2 => (S.div h1 h2).bind fun _ _ h3 => hs.lwr k h3

/-! ## Incomplete LU factorisation -/

section ilu
variable {M : ι → Type} {M' : Type} {ops : ∀ i, MatOps (M i) (T i)} {ops' : MatOps M' T'} {n : Nat}

/-- Matrix objects that stand for related matrices. -/
def LogMat (ops : ∀ i, MatOps (M i) (T i)) (ok : ∀ i, M i → Prop) (ops' : MatOps M' T') (ok' : M' → Prop) (n : Nat)
    (f : ∀ i, M i) (f' : M') : Prop :=
  ∃ (F : ∀ i, Nat → Nat → T i) (F' : Nat → Nat → T'), (∀ᶠ i in l, ok i (f i) ∧ Shows (ops i) n (f i) (F i)) ∧ ok' f' ∧
    Shows ops' n f' F' ∧ ∀ p q, p < n → q < n → S.rel (fun i => F i p q) (F' p q)

theorem logRel_get {f : ∀ i, M i} {f' : M'} {F : ∀ i, Nat → Nat → T i} {F' : Nat → Nat → T'}
    (hf : ∀ᶠ i in l, ∀ p q, p < n → q < n → (ops i).get (f i) p q = .ok (F i p q))
    (hf' : ∀ p q, p < n → q < n → ops'.get f' p q = .ok (F' p q))
    (hF : ∀ p q, p < n → q < n → S.rel (fun i => F i p q) (F' p q)) {p q : Nat} (hp : p < n) (hq : q < n) :
    Lim l S.rel (fun i => (ops i).get (f i) p q) (ops'.get f' p q) := by
  rw [hf' p q hp hq]
  exact (Lim.ok (hF p q hp hq)).of_eventually (hf.mono fun i h => h p q hp hq)

variable {R : ∀ i, M i → (Nat → Nat → T i) → Prop} {R' : M' → (Nat → Nat → T') → Prop}
  {A : ∀ i, Nat → Nat → T i} {A' : Nat → Nat → T'}

/-- Rows before `p` and the first `j` cells of row `p` are done, the other ones are as in the beginning. -/
def IluLog (R : ∀ i, M i → (Nat → Nat → T i) → Prop) (R' : M' → (Nat → Nat → T') → Prop) (A : ∀ i, Nat → Nat → T i)
    (A' : Nat → Nat → T') (n p j : Nat) (f : ∀ i, M i) (f' : M') : Prop :=
  ∃ (F : ∀ i, Nat → Nat → T i) (F' : Nat → Nat → T'), (∀ᶠ i in l, R i (f i) (F i)) ∧ R' f' F' ∧
    (∀ r c, r < n → c < n → S.rel (fun i => F i r c) (F' r c)) ∧
    ∀ r c, r < n → c < n → (p < r ∨ r = p ∧ j ≤ c) → (∀ i, F i r c = A i r c) ∧ F' r c = A' r c

variable (hR : ∀ i, Rep (ops i) n n (R i)) (hR' : Rep ops' n n R')
  (hz : ∀ p q, p < n → q < n → IsZ (A' p q) → ∀ᶠ i in l, IsZ (A i p q))

include hR hR' in
theorem logRel_reduce {f : ∀ i, M i} {f' : M'} {F : ∀ i, Nat → Nat → T i} {F' : Nat → Nat → T'}
    (hf : ∀ᶠ i in l, R i (f i) (F i)) (hf' : R' f' F') (hF : ∀ p q, p < n → q < n → S.rel (fun i => F i p q) (F' p q))
    {p q c : Nat} (hp : p < n) (hq : q < n) (hc : c ≤ n) {v : ∀ i, T i} {v' : T'} (hv : S.rel v v') :
    Lim l S.rel (fun i => Ilu.reduce (ops i) (f i) p q c (v i)) (Ilu.reduce ops' f' p q c v') := by
  have hg : ∀ {p q}, p < n → q < n → Lim l S.rel (fun i => (ops i).get (f i) p q) (ops'.get f' p q) := fun hp hq =>
    logRel_get S (hf.mono fun i h r c hr hc => (hR i).get _ _ r c h hr hc)
      (fun r c hr hc => hR'.get _ _ r c hf' hr hc) hF hp hq
  exact Lim.forRange hv fun k s s' _ hk hs => (hg hp (by omega)).bind fun _ _ h1 => (hg (by omega) hq).bind fun _ _ h2 =>
    .ok (S.sub hs (S.mul h1 h2))

include hR hR' in
/-- Writing a cell that is not zero. -/
theorem logRel_set {f : ∀ i, M i} {f' : M'} {F : ∀ i, Nat → Nat → T i} {F' : Nat → Nat → T'}
    (hf : ∀ᶠ i in l, R i (f i) (F i)) (hf' : R' f' F') (hF : ∀ p q, p < n → q < n → S.rel (fun i => F i p q) (F' p q))
    {p j : Nat} (hp : p < n) (hj : j < n) (hnz : ¬ IsZ (F' p j))
    (ho : ∀ r c, r < n → c < n → (p < r ∨ r = p ∧ j ≤ c) → (∀ i, F i r c = A i r c) ∧ F' r c = A' r c)
    {v : ∀ i, T i} {v' : T'} (hv : S.rel v v') :
    Lim l (IluLog S R R' A A' n p (j + 1)) (fun i => (ops i).set (f i) p j (v i)) (ops'.set f' p j v') := by
  classical
  obtain ⟨g', e', hg'⟩ := hR'.set f' F' p j v' hf' hp hj (fun e => hnz (by rw [e]; exact S.zero_isZ.2))
  rw [e']
  have hleft : ∀ᶠ i in l, ∃ g, (ops i).set (f i) p j (v i) = .ok g ∧ R i g (updAt (F i) p j (v i)) := by
    filter_upwards [hf, S.nz (hF p j hp hj) hnz] with i h1 h2
    exact (hR i).set _ _ p j _ h1 hp hj (fun e => h2 (by rw [e]; exact S.zero_isZ.1 i))
  let g : ∀ i, M i := fun i => if h : ∃ g, (ops i).set (f i) p j (v i) = .ok g ∧ R i g (updAt (F i) p j (v i))
    then h.choose else f i
  have hg : ∀ᶠ i in l, (ops i).set (f i) p j (v i) = .ok (g i) ∧ R i (g i) (updAt (F i) p j (v i)) :=
    hleft.mono fun i h => by
      simp only [g, dif_pos h]
      exact h.choose_spec
  refine (Lim.ok (a := g) ?_).of_eventually (hg.mono fun i h => h.1)
  refine ⟨fun i => updAt (F i) p j (v i), updAt F' p j v', hg.mono fun i h => h.2, hg', fun r c hr hc => ?_,
    fun r c hr hc h => ?_⟩
  · by_cases hrc : r = p ∧ c = j
    · simp only [updAt, if_pos hrc]; exact hv
    · simp only [updAt, if_neg hrc]; exact hF r c hr hc
  · have hne : ¬ (r = p ∧ c = j) := by omega
    simp only [updAt, if_neg hne]
    exact ho r c hr hc (by omega)

include hR hR' hz in
theorem logRel_lowCell {p j : Nat} (hp : p < n) (hj : j < p) {f : ∀ i, M i} {f' : M'}
    (h : IluLog S R R' A A' n p j f f') :
    Lim.Goes l (IluLog S R R' A A' n p (j + 1)) (fun i => Ilu.lowCell (ops i) p j (f i)) (Ilu.lowCell ops' p j f') := by
  obtain ⟨F, F', hf, hf', hF, ho⟩ := h
  have hg : ∀ {p q}, p < n → q < n → Lim l S.rel (fun i => (ops i).get (f i) p q) (ops'.get f' p q) := fun hp hq =>
    logRel_get S (hf.mono fun i h r c hr hc => (hR i).get _ _ r c h hr hc)
      (fun r c hr hc => hR'.get _ _ r c hf' hr hc) hF hp hq
  have hjn : j < n := by omega
  have hgl : ∀ {p q}, p < n → q < n → ∀ᶠ i in l, (ops i).get (f i) p q = .ok (F i p q) := fun hp hq =>
    hf.mono fun i h => (hR i).get _ _ _ _ h hp hq
  unfold Ilu.lowCell
  rw [hR'.get _ _ _ _ hf' hp hjn, ok_bind]
  by_cases hv : IsZ (F' p j)
  · rw [if_neg (not_not.mpr hv)]
    have ho1 := ho p j hp hjn (.inr ⟨rfl, Nat.le_refl _⟩)
    refine Lim.Goes.of_eventually (r₂ := fun i => .ok (.inl (f i))) (.inl ⟨F, F', hf, hf', hF, fun r c hr hc h => ho r c hr hc (by omega)⟩) ?_
    filter_upwards [hgl hp hjn, hz p j hp hjn (ho1.2 ▸ hv)] with i h1 h2
    rw [h1, ok_bind, if_neg (not_not.mpr (by rw [ho1.1 i]; exact h2))]
  · rw [if_pos hv, hR'.get _ _ _ _ hf' hjn hjn, ok_bind]
    by_cases hd : IsZ (F' j j)
    · rw [if_pos hd]; exact .inr _ _
    · rw [if_neg hd]
      refine Lim.Goes.of_eventually (r₂ := fun i => do
          let sum ← Ilu.reduce (ops i) (f i) p j j (F i p j)
          let q ← divC sum (F i j j)
          let a ← (ops i).set (f i) p j q
          .ok (.inl a)) (Lim.Goes.bind (logRel_reduce S hR hR' hf hf' hF hp hjn (by omega) (hF p j hp hjn)) fun _ _ h1 =>
        Lim.Goes.bind (S.div h1 (hF j j hjn hjn)) fun _ _ h2 =>
        Lim.Goes.bind (logRel_set S hR hR' hf hf' hF hp hjn hv ho h2) fun _ _ h3 => .inl h3) ?_
      filter_upwards [hgl hp hjn, hgl hjn hjn, S.nz (hF p j hp hjn) hv, S.nz (hF j j hjn hjn) hd] with i h1 h2 h3 h4
      rw [h1, ok_bind, if_pos h3, h2, ok_bind, if_neg h4]

include hR hR' hz in
theorem logRel_upCell {p j : Nat} (hp : p < n) (hjn : j < n) {f : ∀ i, M i} {f' : M'}
    (h : IluLog S R R' A A' n p j f f') :
    Lim l (IluLog S R R' A A' n p (j + 1)) (fun i => Ilu.upCell (ops i) p j (f i)) (Ilu.upCell ops' p j f') := by
  obtain ⟨F, F', hf, hf', hF, ho⟩ := h
  have hgl : ∀ᶠ i in l, (ops i).get (f i) p j = .ok (F i p j) := hf.mono fun i h => (hR i).get _ _ _ _ h hp hjn
  unfold Ilu.upCell
  rw [hR'.get _ _ _ _ hf' hp hjn, ok_bind]
  by_cases hv : IsZ (F' p j)
  · rw [if_neg (not_not.mpr hv)]
    have ho1 := ho p j hp hjn (.inr ⟨rfl, Nat.le_refl _⟩)
    refine (Lim.ok (a := f) ⟨F, F', hf, hf', hF, fun r c hr hc h => ho r c hr hc (by omega)⟩).of_eventually ?_
    filter_upwards [hgl, hz p j hp hjn (ho1.2 ▸ hv)] with i h1 h2
    rw [h1, ok_bind, if_neg (not_not.mpr (by rw [ho1.1 i]; exact h2))]
  · rw [if_pos hv]
    refine Lim.of_eventually (r₂ := fun i => do
        let sum ← Ilu.reduce (ops i) (f i) p j p (F i p j)
        (ops i).set (f i) p j sum) ((logRel_reduce S hR hR' hf hf' hF hp hjn (by omega) (hF p j hp hjn)).bind fun _ _ h1 =>
      logRel_set S hR hR' hf hf' hF hp hjn hv ho h1) ?_
    filter_upwards [hgl, S.nz (hF p j hp hjn) hv] with i h1 h3
    rw [h1, ok_bind, if_pos h3]

include hR hR' hz in
theorem logRel_iluRow {p : Nat} (hp : p < n) {f : ∀ i, M i} {f' : M'} (h : IluLog S R R' A A' n p 0 f f') :
    Lim.Goes l (IluLog S R R' A A' n (p + 1) 0) (fun i => Ilu.row (ops i) n p (f i)) (Ilu.row ops' n p f') := by
  intro t e
  unfold Ilu.row at e
  have hlow := Lim.forRet (l := l) (J := fun j => IluLog S R R' A A' n p j) (f := fun i => Ilu.lowCell (ops i) p) (n := p) h
    fun k s t hk hs => logRel_lowCell S hR hR' hz hp hk hs
  cases er : forRet 0 p (Ilu.lowCell ops' p) f' with
  | error x => rw [er] at e; exact nomatch e
  | ok v =>
    rw [er, ok_bind] at e
    cases v with
    | inr r => exact nomatch e
    | inl g' =>
      obtain ⟨g, hg, hgg⟩ := hlow g' er
      have hup := Lim.forRangeJ (l := l) (J := fun j => IluLog S R R' A A' n p j) (f := fun i => Ilu.upCell (ops i) p)
        (Nat.le_of_lt hp) hgg fun k s t _ hk hs => logRel_upCell S hR hR' hz hp hk hs
      cases eu : forRange p n (Ilu.upCell ops' p) g' with
      | error x => simp only [eu] at e; exact nomatch e
      | ok w =>
        simp only [eu] at e
        have ew : w = t := by
          rw [ok_bind] at e
          simpa using e
        subst ew
        obtain ⟨u, hu, F, F', k1, k2, k3, k4⟩ := hup w eu
        refine ⟨u, ?_, F, F', k1, k2, k3, fun r c hr hc h => k4 r c hr hc (by omega)⟩
        filter_upwards [hg, hu] with i h1 h2
        unfold Ilu.row
        rw [h1, ok_bind]
        simp only
        rw [h2]
        rfl

end ilu

/-- Incomplete LU in any storage, the matrices of the family having the zeros that the matrix on the right has. -/
theorem C93_ilu {M : ι → Type} {M' : Type} {ops : ∀ i, MatOps (M i) (T i)} {ok : ∀ i, M i → Prop} {ops' : MatOps M' T'}
    {ok' : M' → Prop} (hst : ∀ i, Storage (ops i) (ok i)) (hst' : Storage ops' ok') (n : Nat) (a : ∀ i, M i) (a' : M')
    (A : ∀ i, Nat → Nat → T i) (A' : Nat → Nat → T') (hok : ∀ i, ok i (a i)) (hok' : ok' a')
    (hA : ∀ i, Shows (ops i) n (a i) (A i)) (hA' : Shows ops' n a' A')
    (hAA : ∀ p q, p < n → q < n → S.rel (fun i => A i p q) (A' p q))
    (hz : ∀ p q, p < n → q < n → IsZ (A' p q) → ∀ᶠ i in l, IsZ (A i p q)) :
    Lim l (LogMat S ops ok ops' ok' n) (fun i => Ilu.new (ops i) (a i)) (Ilu.new ops' a') := by
  choose R hR h1 h2 using fun i => storage_rep (hst i) n
  obtain ⟨R', hR', h1', h2'⟩ := storage_rep hst' n
  have hgo := Lim.forRet (l := l) (J := fun p => IluLog S R R' A A' n p 0) (f := fun i => Ilu.row (ops i) n) (n := n)
    (s := a) (t := a') ⟨A, A', .of_forall fun i => h1 i _ _ (hok i) (hA i), h1' _ _ hok' hA', hAA, fun _ _ _ _ _ => ⟨fun _ => rfl, rfl⟩⟩
    fun k s t hk hs => logRel_iluRow S hR hR' hz hk hs
  intro g e
  unfold Ilu.new Ilu.decomp at e
  rw [hA'.1, ok_bind] at e
  simp only at e
  cases er : forRet 0 n (Ilu.row ops' n) a' with
  | error x => rw [er] at e; exact nomatch e
  | ok v =>
    rw [er, ok_bind] at e
    cases v with
    | inr r => exact nomatch e
    | inl t =>
      have et : t = g := by
        rw [ok_bind] at e
        simpa [throwIf] using e
      subst et
      obtain ⟨c, hc, F, F', k1, k2, k3, -⟩ := hgo t er
      refine ⟨c, hc.mono fun i hi => ?_, F, F', k1.mono fun i hi => h2 i _ _ hi, (h2' _ _ k2).1, (h2' _ _ k2).2, k3⟩
      unfold Ilu.new Ilu.decomp
      beta_reduce at hi ⊢
      rw [(hA i).1, ok_bind]
      simp only
      rw [hi]
      rfl

/-- Solving with the two factors. -/
theorem C93_ilu_solve {M : ι → Type} {M' : Type} {ops : ∀ i, MatOps (M i) (T i)} {ok : ∀ i, M i → Prop} {ops' : MatOps M' T'}
    {ok' : M' → Prop} (f : ∀ i, M i) (f' : M') (b : ∀ i, List (T i)) (b' : List T') (hf : LogMat S ops ok ops' ok' b'.length f f')
    (hb : S.Buf b b') : Lim l S.Buf (fun i => Ilu.solve (ops i) (f i) (b i)) (Ilu.solve ops' f' b') := by
  obtain ⟨F, F', k1, k2, k3, k4⟩ := hf
  have hg : ∀ {p q}, p < b'.length → q < b'.length → Lim l S.rel (fun i => (ops i).get (f i) p q) (ops'.get f' p q) :=
    fun hp hq => logRel_get S (k1.mono fun i h => h.2.2) k3.2 k4 hp hq
  unfold Ilu.solve
  simp only [hb.1]
  refine Lim.noexcept (Lim.bind (P := S.Buf) (Lim.forRange (LogRel.Buf.zeros _) fun k s s' _ hk hs => ?_) fun y y' hy =>
    Lim.forDown (LogRel.Buf.zeros _) fun k s s' hk hs => ?_)
  · unfold Ilu.fwdRow
    refine (hb.lrd k).bind fun _ _ h1 => Lim.bind (P := S.rel) (Lim.forRange h1 fun j t t' _ hj ht => ?_) fun _ _ h2 => hs.lwr k h2
    exact (hg hk (by omega)).bind fun _ _ h2 => (hs.lrd j).bind fun _ _ h3 => .ok (S.sub ht (S.mul h2 h3))
  · unfold Ilu.bwdRow
    refine (hy.lrd k).bind fun _ _ h1 => Lim.bind (P := S.rel) (Lim.forRange h1 fun j t t' _ hj ht => ?_) fun _ _ h2 => ?_
    · exact (hg hk hj).bind fun _ _ h2 => (hs.lrd j).bind fun _ _ h3 => .ok (S.sub ht (S.mul h2 h3))
    · exact (hg hk hk).bind fun _ _ h3 => (S.div h2 h3).bind fun _ _ h4 => hs.lwr k h4

end Lalib.Props
