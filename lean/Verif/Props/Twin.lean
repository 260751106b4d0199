import Verif.Proofs.Twin
import Mathlib.Data.Complex.Basic

/-! # Property C94: two number types

A call with numbers of type `T` is compared with the same call with numbers of type `T'`.  `S : Twin T T'` says which numbers
correspond.  If the arguments correspond then both calls return, and the results correspond, or both calls fail in the same
way.  Nothing is assumed of the numbers: not that they form a ring, not that anything is finite. -/

namespace Lalib.Props

open Lalib

variable {T T' : Type} [Zero T] [One T] [Neg T] [Add T] [Sub T] [Mul T] [CDiv T]
    [Zero T'] [One T'] [Neg T'] [Add T'] [Sub T'] [Mul T'] [CDiv T'] (S : Twin T T')

/-! ## Vectors -/

section vec
variable {m : Mem T} {m' : Mem T'} (h : S.M m m')
include h

theorem twin_dotCore (x y n : Nat) : SameOut S.rel (dotCore m x y n) (dotCore m' x y n) :=
  (h.rd x 0).bind fun _ _ ha => (h.rd y 0).bind fun _ _ hb =>
    SameOut.forRange' (S.mul ha hb) fun k _ _ _ _ hr =>
      (h.rd x k).bind fun _ _ ha => (h.rd y k).bind fun _ _ hb => .ok (S.add hr (S.mul ha hb))

/-- Scalar products. -/
theorem C94_dot (x y N : Nat) : SameOut S.rel (dynDot m x y) (dynDot m' x y) ∧ SameOut S.rel (dotDD m x y) (dotDD m' x y) ∧
    SameOut S.rel (dotSS N m x y) (dotSS N m' x y) ∧ SameOut S.rel (sizedDotDyn N m x y) (sizedDotDyn N m' x y) := by
  have k := twin_dotCore S h x y
  unfold dynDot dotDD dotSS sizedDotDyn
  simp only [h.len]
  exact ⟨.check rfl (k _), (SameOut.check rfl (k _)).noexcept, (k N).noexcept, (k N).noexcept⟩

theorem twin_tree (x y : Nat) : ∀ t : RedTree, SameOut S.rel (t.eval m x y) (t.eval m' x y)
  | .zero => .ok S.zero
  | .leaf k => (h.rd x k).bind fun _ _ ha => (h.rd y k).bind fun _ _ hb => .ok (S.mul ha hb)
  | .node t u => (twin_tree x y t).bind fun _ _ ha => (twin_tree x y u).bind fun _ _ hb => .ok (S.add ha hb)

/-- The same for every shape of the `simd` reduction. -/
theorem C94_dot_any_shape (x y : Nat) (t : RedTree) : SameOut S.rel (dotCoreTree t m x y) (dotCoreTree t m' x y) :=
  (h.rd x 0).bind fun _ _ ha => (h.rd y 0).bind fun _ _ hb =>
    (twin_tree S h x y t).bind fun _ _ hr => .ok (S.add (S.mul ha hb) hr)

/-- Norms. -/
theorem C94_norm2 [CSqrt T] [CSqrt T'] (hs : S.SameSqrt) (x : Nat) (t : RedTree) :
    SameOut S.rel (vecNorm2 m x) (vecNorm2 m' x) ∧ SameOut S.rel (norm2CoreTree t m x) (norm2CoreTree t m' x) := by
  constructor
  · unfold vecNorm2
    simp only [h.len]
    refine SameOut.noexcept (SameOut.bind (P := S.rel) (SameOut.forRange' S.zero fun k _ _ _ _ hr => ?_) fun _ _ hr => hs hr)
    exact (h.rd x k).bind fun _ _ ha => (h.rd x k).bind fun _ _ hb => .ok (S.add hr (S.mul ha hb))
  · exact (twin_tree S h x x t).bind fun _ _ hr => hs (S.add S.zero hr)

theorem twin_elem1 {f : T → T} {f' : T' → T'} {v vr k : Nat} (hf : ∀ a a', S.rel a a' → S.rel (f a) (f' a')) :
    SameOut S.M (elem1 f v vr k m) (elem1 f' v vr k m') :=
  (h.rd v k).bind fun a a' ha => h.wr vr k (hf a a' ha)

theorem twin_elem2 {f : T → T → T} {f' : T' → T' → T'} {v w vr k : Nat}
    (hf : ∀ a a' b b', S.rel a a' → S.rel b b' → S.rel (f a b) (f' a' b')) :
    SameOut S.M (elem2 f v w vr k m) (elem2 f' v w vr k m') :=
  (h.rd v k).bind fun a a' ha => (h.rd w k).bind fun b b' hb => h.wr vr k (hf a a' b b' ha hb)

theorem twin_addCore (ord : List Nat) (v w r n : Nat) : SameOut S.M (addCore ord m v w r n) (addCore ord m' v w r n) := by
  unfold addCore
  split
  · exact SameOut.forRange' h fun k _ _ _ _ h => twin_elem2 S h fun _ _ _ _ ha hb => S.add ha hb
  · exact SameOut.forOrder h fun k _ _ _ h => twin_elem2 S h fun _ _ _ _ ha hb => S.add ha hb

theorem twin_subCore (ord : List Nat) (v w r n : Nat) : SameOut S.M (subCore ord m v w r n) (subCore ord m' v w r n) := by
  unfold subCore
  split
  · exact SameOut.forRange' h fun k _ _ _ _ h => twin_elem2 S h fun _ _ _ _ ha hb => S.sub ha hb
  · exact SameOut.forOrder h fun k _ _ _ h => twin_elem2 S h fun _ _ _ _ ha hb => S.sub ha hb

theorem twin_scalCore {a : T} {a' : T'} (ha : S.rel a a') (v n : Nat) : SameOut S.M (scalCore a m v n) (scalCore a' m' v n) :=
  SameOut.forRange' h fun _ _ _ _ _ h => twin_elem1 S h fun _ _ hb => S.mul ha hb

/-- Sums and differences, whichever of the vectors are the same object. -/
theorem C94_add (ord : List Nat) (N v w r : Nat) :
    SameOut S.M (addDD ord m v w r) (addDD ord m' v w r) ∧ SameOut S.M (addSS ord N m v w r) (addSS ord N m' v w r) ∧
    SameOut S.M (addSD ord N m v w r) (addSD ord N m' v w r) ∧ SameOut S.M (addOpAt ord m v w r) (addOpAt ord m' v w r) ∧
    SameOut S.M (subDD ord m v w r) (subDD ord m' v w r) ∧ SameOut S.M (subSS ord N m v w r) (subSS ord N m' v w r) ∧
    SameOut S.M (subSD ord N m v w r) (subSD ord N m' v w r) ∧ SameOut S.M (subOpAt ord m v w r) (subOpAt ord m' v w r) := by
  have hc := h.setBuf r (h v)
  have ha : ∀ n, SameOut S.M (addCore ord m v w r n) (addCore ord m' v w r n) := twin_addCore S h ord v w r
  have hb : ∀ n, SameOut S.M (subCore ord m v w r n) (subCore ord m' v w r n) := twin_subCore S h ord v w r
  unfold addOpAt subOpAt addDD addSS addSD subDD subSS subSD
  simp only [h.len, hc.len]
  exact ⟨.check rfl (ha _), (ha N).noexcept, .check rfl (ha N), .check rfl (twin_addCore S hc ord v w r _),
    .check rfl (hb _), (hb N).noexcept, .check rfl (hb N), .check rfl (twin_subCore S hc ord v w r _)⟩

/-- `y := alpha x + y`. -/
theorem C94_axpy {alpha : T} {alpha' : T'} (hal : S.rel alpha alpha') (N x y : Nat) :
    SameOut S.M (axpyD alpha m x y) (axpyD alpha' m' x y) ∧ SameOut S.M (axpyS N alpha m x y) (axpyS N alpha' m' x y) := by
  have hk : ∀ n, SameOut S.M (axpyCore alpha m x y n) (axpyCore alpha' m' x y n) := fun n =>
    SameOut.forRange' h fun k _ _ _ _ hs => twin_elem2 S hs fun _ _ _ _ h1 h2 => S.add (S.mul hal h1) h2
  unfold axpyD axpyS
  simp only [h.len]
  exact ⟨(SameOut.check rfl (hk _)).noexcept, (hk N).noexcept⟩

/-- Multiples, quotients, negatives. -/
theorem C94_scale {alpha : T} {alpha' : T'} (hal : S.rel alpha alpha') (N x r : Nat) :
    SameOut S.M (scaleV alpha m x) (scaleV alpha' m' x) ∧ SameOut S.M (smulOpAt alpha m x r) (smulOpAt alpha' m' x r) ∧
    SameOut S.M (divOpAt m x alpha r) (divOpAt m' x alpha' r) ∧ SameOut S.M (negOpAt m x r) (negOpAt m' x r) ∧
    SameOut S.M (negD m x r) (negD m' x r) ∧ SameOut S.M (negS N m x r) (negS N m' x r) := by
  have hc := h.setBuf r (h x)
  have hn : ∀ {m : Mem T} {m' : Mem T'}, S.M m m' → ∀ n, SameOut S.M (negCoreSimd m x r n) (negCoreSimd m' x r n) :=
    fun h n => SameOut.forRange' h fun k _ _ _ _ hs => twin_elem1 S hs fun _ _ hb => S.neg hb
  have hz := h.setBuf r (Twin.L.replicate (m'.len x) S.zero)
  unfold scaleV smulOpAt divOpAt negOpAt reciprocal negD negS
  simp only [h.len, hz.len]
  exact ⟨(twin_scalCore S h hal _ _).noexcept, (twin_scalCore S hc hal _ _).noexcept,
    SameOut.noexcept ((S.div S.one hal).bind fun _ _ ha => twin_scalCore S hc ha _ _),
    SameOut.noexcept (.check rfl (hn hz _)), SameOut.noexcept (.check rfl (hn h _)), (hn h _).noexcept⟩

/-- Cross products. -/
theorem C94_cross (nd dx dy dr : Bool) (x y r : Nat) :
    SameOut S.rel (cross2 nd dx dy m x y) (cross2 nd dx dy m' x y) ∧
    SameOut S.M (cross3 nd dx dy dr m x y r) (cross3 nd dx dy dr m' x y r) ∧
    SameOut S.M (crossAcc nd dx dy dr m x y r) (crossAcc nd dx dy dr m' x y r) := by
  unfold cross2 cross3 crossAcc
  simp only [h.len]
  refine ⟨SameOut.noexcept (.check rfl (.check rfl ?_)),
    SameOut.noexcept (.check rfl (.check rfl (.check rfl ?_))),
    SameOut.noexcept (.check rfl (.check rfl (.check rfl ?_)))⟩
  · exact (h.rd x 0).bind fun _ _ k1 => (h.rd y 1).bind fun _ _ k2 => (h.rd y 0).bind fun _ _ k3 =>
      (h.rd x 1).bind fun _ _ k4 => .ok (S.sub (S.mul k1 k2) (S.mul k3 k4))
  · refine (h.rd x 0).bind fun _ _ p0 => (h.rd x 1).bind fun _ _ p1 => (h.rd x 2).bind fun _ _ p2 =>
      (h.rd y 0).bind fun _ _ q0 => (h.rd y 1).bind fun _ _ q1 => (h.rd y 2).bind fun _ _ q2 => ?_
    exact (h.wr r 0 (S.sub (S.mul p1 q2) (S.mul q1 p2))).bind fun s s' hs =>
      (hs.wr r 1 (S.sub (S.mul p2 q0) (S.mul q2 p0))).bind fun s s' hs => hs.wr r 2 (S.sub (S.mul p0 q1) (S.mul q0 p1))
  · refine (h.rd x 0).bind fun _ _ p0 => (h.rd x 1).bind fun _ _ p1 => (h.rd x 2).bind fun _ _ p2 =>
      (h.rd y 0).bind fun _ _ q0 => (h.rd y 1).bind fun _ _ q1 => (h.rd y 2).bind fun _ _ q2 =>
      (h.rd r 0).bind fun _ _ r0 => (h.rd r 1).bind fun _ _ r1 => (h.rd r 2).bind fun _ _ r2 => ?_
    exact (h.wr r 0 (S.add (S.sub (S.mul p1 q2) (S.mul q1 p2)) r0)).bind fun s s' hs =>
      (hs.wr r 1 (S.add (S.sub (S.mul p2 q0) (S.mul q2 p0)) r1)).bind fun s s' hs =>
      hs.wr r 2 (S.add (S.sub (S.mul p0 q1) (S.mul q0 p1)) r2)

/-! ## Dense products -/

theorem twin_copyTo {t : List T} {t' : List T'} (ht : S.L t t') (n y : Nat) :
    SameOut S.M (copyTo t n y m) (copyTo t' n y m') :=
  SameOut.forRange' h fun k _ _ _ _ hs => (ht.lrd k).bind fun _ _ ha => hs.wr y k ha

theorem twin_gemvCore {alpha beta : T} {alpha' beta' : T'} (hal : S.rel alpha alpha') (hbe : S.rel beta beta') (n k a x y : Nat) :
    SameOut S.M (gemvCore n k alpha a x beta y m) (gemvCore n k alpha' a x beta' y m') := by
  unfold gemvCore
  split
  · refine SameOut.bind (P := S.L) (SameOut.forRange' (.replicate n S.zero) fun p t t' _ _ ht => ?_) fun t t' ht =>
      twin_copyTo S h ht n y
    exact (h.rd y p).bind fun _ _ hyp => (ht.lwr p (S.mul hbe hyp)).bind fun t t' ht =>
      SameOut.forRange' ht fun q t t' _ _ ht => (ht.lrd p).bind fun _ _ h1 => (h.rd a _).bind fun _ _ h2 =>
        (h.rd x q).bind fun _ _ h3 => ht.lwr p (S.add h1 (S.mul (S.mul hal h2) h3))
  · refine SameOut.forRange' h fun p s s' _ _ hs => ?_
    exact (hs.rd y p).bind fun _ _ hyp => (hs.wr y p (S.mul hbe hyp)).bind fun s s' hs =>
      SameOut.forRange' hs fun q s s' _ _ hs => (hs.rd y p).bind fun _ _ h1 => (hs.rd a _).bind fun _ _ h2 =>
        (hs.rd x q).bind fun _ _ h3 => hs.wr y p (S.add h1 (S.mul (S.mul hal h2) h3))

/-- Matrix-vector products: any shapes, any sharing of storage. -/
theorem C94_gemv {alpha beta : T} {alpha' beta' : T'} (hal : S.rel alpha alpha') (hbe : S.rel beta beta') (nd : Bool)
    (a : MatRef) (x y : Nat) :
    SameOut S.M (gemvDD nd alpha a x beta y m) (gemvDD nd alpha' a x beta' y m') ∧
    SameOut S.M (gemvSD nd alpha a x beta y m) (gemvSD nd alpha' a x beta' y m') ∧
    SameOut S.M (gemvSS alpha a x beta y m) (gemvSS alpha' a x beta' y m') ∧
    SameOut S.M (matVecAt nd m a x y) (matVecAt nd m' a x y) := by
  have k := twin_gemvCore S h hal hbe a.n a.m a.buf x y
  have hz := h.setBuf y (Twin.L.replicate a.n S.zero)
  unfold gemvDD gemvSD gemvSS matVecAt
  simp only [h.len]
  exact ⟨SameOut.noexcept (.check rfl (.check rfl k)), SameOut.noexcept (.check rfl k), k.noexcept,
    SameOut.noexcept (.check rfl (twin_gemvCore S hz S.one S.zero _ _ _ _ _))⟩

theorem twin_gemmCore {alpha beta : T} {alpha' beta' : T'} (hal : S.rel alpha alpha') (hbe : S.rel beta beta')
    (n k o a b c : Nat) : SameOut S.M (gemmCore n k o alpha a b beta c m) (gemmCore n k o alpha' a b beta' c m') := by
  unfold gemmCore
  split
  · refine SameOut.bind (P := S.L) (SameOut.forRange' (.replicate (n * k) S.zero) fun p t t' _ _ ht => ?_) fun t t' ht =>
      twin_copyTo S h ht (n * k) c
    exact SameOut.forRange' ht fun q t t' _ _ ht => (h.rd c _).bind fun _ _ hyp => (ht.lwr _ (S.mul hbe hyp)).bind fun t t' ht =>
      SameOut.forRange' ht fun r t t' _ _ ht => (ht.lrd _).bind fun _ _ h1 => (h.rd a _).bind fun _ _ h2 =>
        (h.rd b _).bind fun _ _ h3 => ht.lwr _ (S.add h1 (S.mul (S.mul hal h2) h3))
  · refine SameOut.forRange' h fun p s s' _ _ hs => ?_
    exact SameOut.forRange' hs fun q s s' _ _ hs => (hs.rd c _).bind fun _ _ hyp => (hs.wr c _ (S.mul hyp hbe)).bind fun s s' hs =>
      SameOut.forRange' hs fun r s s' _ _ hs => (hs.rd c _).bind fun _ _ h1 => (hs.rd a _).bind fun _ _ h2 =>
        (hs.rd b _).bind fun _ _ h3 => hs.wr c _ (S.add h1 (S.mul (S.mul hal h2) h3))

/-- Matrix-matrix products: any shapes, any sharing of storage. -/
theorem C94_gemm {alpha beta : T} {alpha' beta' : T'} (hal : S.rel alpha alpha') (hbe : S.rel beta beta') (nd : Bool)
    (a b c : MatRef) (r : Nat) :
    SameOut S.M (gemmDDD nd alpha a b beta c m) (gemmDDD nd alpha' a b beta' c m') ∧
    SameOut S.M (gemmSSS alpha a b beta c m) (gemmSSS alpha' a b beta' c m') ∧
    SameOut S.M (gemmDSS nd alpha a b beta c m) (gemmDSS nd alpha' a b beta' c m') ∧
    SameOut S.M (gemmSDS nd alpha a b beta c m) (gemmSDS nd alpha' a b beta' c m') ∧
    SameOut S.M (gemmDDS nd alpha a b beta c m) (gemmDDS nd alpha' a b beta' c m') ∧
    SameOut S.M (gemmDSD nd alpha a b beta c m) (gemmDSD nd alpha' a b beta' c m') ∧
    SameOut S.M (gemmSDD nd alpha a b beta c m) (gemmSDD nd alpha' a b beta' c m') ∧
    SameOut S.M (matMulAt nd m a b r) (matMulAt nd m' a b r) := by
  have k := twin_gemmCore S h hal hbe
  have hz := h.setBuf r (Twin.L.replicate (a.n * b.m) S.zero)
  unfold matMulAt gemmDDD gemmSSS gemmDSS gemmSDS gemmDDS gemmDSD gemmSDD
  exact ⟨SameOut.noexcept (.check rfl (.check rfl (.check rfl (k _ _ _ _ _ _)))), (k _ _ _ _ _ _).noexcept,
    SameOut.noexcept (.check rfl (.check rfl (k _ _ _ _ _ _))),
    SameOut.noexcept (.check rfl (.check rfl (k _ _ _ _ _ _))),
    SameOut.noexcept (.check rfl (.check rfl (.check rfl (k _ _ _ _ _ _)))),
    SameOut.noexcept (.check rfl (.check rfl (.check rfl (k _ _ _ _ _ _)))),
    SameOut.noexcept (.check rfl (.check rfl (.check rfl (k _ _ _ _ _ _)))),
    SameOut.noexcept (SameOut.noexcept (.check rfl (.check rfl (.check rfl (twin_gemmCore S hz S.one S.zero _ _ _ _ _ _)))))⟩

/-- Sums, differences, multiples and negatives of dense matrices. -/
theorem C94_mat_elementwise {alpha : T} {alpha' : T'} (hal : S.rel alpha alpha') (nd : Bool) (ord : List Nat)
    (a b c : MatRef) (r : Nat) :
    SameOut S.M (matAddDD nd ord a b c m) (matAddDD nd ord a b c m') ∧
    SameOut S.M (matAddSD nd ord a b c m) (matAddSD nd ord a b c m') ∧
    SameOut S.M (matAddSS ord a b c m) (matAddSS ord a b c m') ∧
    SameOut S.M (matAddAt nd ord m a b r) (matAddAt nd ord m' a b r) ∧
    SameOut S.M (matSubDD nd ord a b c m) (matSubDD nd ord a b c m') ∧
    SameOut S.M (matSubSD nd ord a b c m) (matSubSD nd ord a b c m') ∧
    SameOut S.M (matSubSS ord a b c m) (matSubSS ord a b c m') ∧
    SameOut S.M (matSubAt nd ord m a b r) (matSubAt nd ord m' a b r) ∧
    SameOut S.M (matScale alpha a m) (matScale alpha' a m') ∧
    SameOut S.M (matSmulAt alpha m a r) (matSmulAt alpha' m' a r) ∧
    SameOut S.M (matNegAt m a r) (matNegAt m' a r) := by
  have hc := h.setBuf r (h a.buf)
  unfold matAddAt matSubAt matSmulAt matNegAt matAddDD matAddSD matAddSS matSubDD matSubSD matSubSS matScale
  exact ⟨SameOut.noexcept (.check rfl (.check rfl (twin_addCore S h _ _ _ _ _))),
    SameOut.noexcept (.check rfl (twin_addCore S h _ _ _ _ _)), (twin_addCore S h _ _ _ _ _).noexcept,
    SameOut.noexcept (SameOut.noexcept (.check rfl (.check rfl (twin_addCore S hc _ _ _ _ _)))),
    SameOut.noexcept (.check rfl (.check rfl (twin_subCore S h _ _ _ _ _))),
    SameOut.noexcept (.check rfl (twin_subCore S h _ _ _ _ _)), (twin_subCore S h _ _ _ _ _).noexcept,
    SameOut.noexcept (SameOut.noexcept (.check rfl (.check rfl (twin_subCore S hc _ _ _ _ _)))),
    (twin_scalCore S h hal _ _).noexcept, (twin_scalCore S hc hal _ _).noexcept.noexcept,
    (twin_scalCore S hc (S.neg S.one) _ _).noexcept.noexcept⟩

/-- Inversion of `2 x 2` matrices, into another matrix, in place, and into a new matrix. -/
theorem C94_invert (a r : Nat) : SameOut S.M (invert22 a r m) (invert22 a r m') ∧
    SameOut S.M (invertInPlace a m) (invertInPlace a m') ∧ SameOut S.M (invertedAt m a r) (invertedAt m' a r) := by
  have hk : ∀ {m : Mem T} {m' : Mem T'}, S.M m m' → ∀ r, SameOut S.M (invert22 a r m) (invert22 a r m') := by
    intro m m' h r
    unfold invert22 rd22 wr22 matScale
    split
    · exact (h.rd a _).bind fun _ _ h1 => (h.rd a _).bind fun _ _ h2 => (h.rd a _).bind fun _ _ h3 =>
        (h.rd a _).bind fun _ _ h4 => (h.rd a _).bind fun _ _ k1 => (h.wr r _ k1).bind fun _ _ h =>
        (h.rd a _).bind fun _ _ k1 => (h.wr r _ k1).bind fun _ _ h =>
        (h.rd a _).bind fun _ _ k1 => (h.wr r _ (S.neg k1)).bind fun _ _ h =>
        (h.rd a _).bind fun _ _ k1 => (h.wr r _ (S.neg k1)).bind fun _ _ h =>
        (S.div S.one (S.sub (S.mul h1 h2) (S.mul h3 h4))).bind fun _ _ hd => (twin_scalCore S h hd _ _).noexcept
    · exact (h.rd a _).bind fun _ _ h1 => (h.rd a _).bind fun _ _ h2 => (h.rd a _).bind fun _ _ h3 =>
        (h.rd a _).bind fun _ _ h4 => (h.rd r _).bind fun _ _ ht => (h.rd r _).bind fun _ _ k1 => (h.wr r _ k1).bind fun _ _ h =>
        (h.wr r _ ht).bind fun _ _ h =>
        (h.rd r _).bind fun _ _ k1 => (h.wr r _ (S.mul k1 (S.neg S.one))).bind fun _ _ h =>
        (h.rd r _).bind fun _ _ k1 => (h.wr r _ (S.mul k1 (S.neg S.one))).bind fun _ _ h =>
        (S.div S.one (S.sub (S.mul h1 h2) (S.mul h3 h4))).bind fun _ _ hd => (twin_scalCore S h hd _ _).noexcept
  exact ⟨hk h r, hk h a, hk (h.setBuf r (Twin.L.replicate 4 S.zero)) r⟩

end vec

/-! ## Operators on values -/

/-- The operators on vectors. -/
theorem C94_vec_values {x y : List T} {x' y' : List T'} (hx : S.L x x') (hy : S.L y y') {alpha : T} {alpha' : T'}
    (hal : S.rel alpha alpha') (ord : List Nat) :
    SameOut S.L (addOp ord x y) (addOp ord x' y') ∧ SameOut S.L (subOp ord x y) (subOp ord x' y') ∧
    SameOut S.L (negOp x) (negOp x') ∧ SameOut S.L (smulOp alpha x) (smulOp alpha' x') ∧
    SameOut S.L (scaled alpha x) (scaled alpha' x') ∧ SameOut S.L (mulsOp x alpha) (mulsOp x' alpha') ∧
    SameOut S.L (divOp x alpha) (divOp x' alpha') := by
  have h2 := Twin.M.of2 hx hy
  have h1 := Twin.M.of1 hx
  have ha := C94_add S h2 ord 0 0 1 2
  have hs := C94_scale S h1 hal 0 0 1
  have hsm : SameOut S.L (smulOp alpha x) (smulOp alpha' x') := hs.2.1.bind fun _ _ h => .ok (h 1)
  refine ⟨ha.2.2.2.1.bind fun _ _ h => .ok (h 2), ha.2.2.2.2.2.2.2.bind fun _ _ h => .ok (h 2),
    hs.2.2.2.1.bind fun _ _ h => .ok (h 1), hsm, hsm.noexcept, ?_, hs.2.2.1.bind fun _ _ h => .ok (h 1)⟩
  unfold mulsOp
  rw [hx.len]
  exact SameOut.noexcept ((twin_scalCore S (h1.setBuf 1 hx) hal _ _).bind fun _ _ h => .ok (h 1))

theorem twin_dset {a : DMat T} {a' : DMat T'} (ha : S.D a a') (i j : Nat) {v : T} {v' : T'} (hv : S.rel v v') :
    SameOut S.D (a.set i j v) (a'.set i j v') := by
  unfold DMat.set
  rw [ha.m]
  exact (ha.elems.lwr _ hv).bind fun _ _ h => .ok ⟨ha.n, rfl, h⟩

theorem twin_dget {a : DMat T} {a' : DMat T'} (ha : S.D a a') (i j : Nat) : SameOut S.rel (a.get i j) (a'.get i j) := by
  unfold DMat.get
  rw [ha.m]
  exact ha.elems.lrd _

/-- Dense matrix objects: constructors and the operators on them. -/
theorem C94_mat_values {a b : DMat T} {a' b' : DMat T'} (ha : S.D a a') (hb : S.D b b') {x : List T} {x' : List T'}
    (hx : S.L x x') {alpha : T} {alpha' : T'} (hal : S.rel alpha alpha') (nd : Bool) (ord : List Nat) (n k : Nat) :
    SameOut S.L (matVec nd a x) (matVec nd a' x') ∧ SameOut S.D (matMul nd a b) (matMul nd a' b') ∧
    SameOut S.D (matAddOp nd ord a b) (matAddOp nd ord a' b') ∧ SameOut S.D (matSubOp nd ord a b) (matSubOp nd ord a' b') ∧
    SameOut S.D (matSmul alpha a) (matSmul alpha' a') ∧ SameOut S.D (matNeg a) (matNeg a') ∧
    SameOut S.D (DMat.newSized n k x) (DMat.newSized n k x') ∧ SameOut S.D (DMat.filled alpha n k) (DMat.filled alpha' n k) ∧
    SameOut S.D (DMat.diag x) (DMat.diag x') ∧ SameOut S.D (DMat.diagConst alpha n) (DMat.diagConst alpha' n) ∧
    SameOut S.D (DMat.identity n) (DMat.identity (T := T') n) := by
  have hu : ∀ n k, S.D (DMat.uninit n k) (DMat.uninit n k) := fun n k => ⟨rfl, rfl, .replicate _ S.zero⟩
  have hdc : ∀ {alpha : T} {alpha' : T'}, S.rel alpha alpha' →
      SameOut S.D (DMat.diagConst alpha n) (DMat.diagConst alpha' n) := fun hal =>
    SameOut.forRange' (hu n n) fun i _ _ _ _ h => twin_dset S h i i hal
  have h1 := Twin.M.of1 ha.elems
  have h2 := Twin.M.of2 ha.elems hb.elems
  unfold matVec matMul matAddOp matSubOp matSmul matNeg DMat.newSized
  rw [ha.n, ha.m, hb.n, hb.m, hx.len]
  have he := C94_mat_elementwise S h2 hal nd ord ⟨0, a'.n, a'.m⟩ ⟨1, b'.n, b'.m⟩ ⟨0, 0, 0⟩ 2
  have hs := C94_mat_elementwise S h1 hal nd ord ⟨0, a'.n, a'.m⟩ ⟨0, 0, 0⟩ ⟨0, 0, 0⟩ 1
  refine ⟨(C94_gemv S (Twin.M.of2 ha.elems hx) hal hal nd ⟨0, a'.n, a'.m⟩ 1 2).2.2.2.bind fun _ _ h => .ok (h 2),
    (C94_gemm S h2 hal hal nd ⟨0, a'.n, a'.m⟩ ⟨1, b'.n, b'.m⟩ ⟨0, 0, 0⟩ 2).2.2.2.2.2.2.2.bind fun _ _ h => .ok ⟨rfl, rfl, h 2⟩,
    he.2.2.2.1.bind fun _ _ h => .ok ⟨rfl, rfl, h 2⟩, he.2.2.2.2.2.2.2.1.bind fun _ _ h => .ok ⟨rfl, rfl, h 2⟩,
    hs.2.2.2.2.2.2.2.2.2.1.bind fun _ _ h => .ok ⟨rfl, rfl, h 1⟩,
    hs.2.2.2.2.2.2.2.2.2.2.bind fun _ _ h => .ok ⟨rfl, rfl, h 1⟩, .check rfl (.ok ⟨rfl, rfl, hx⟩),
    SameOut.forRange' (hu n k) fun i _ _ _ _ h => SameOut.forRange' h fun j _ _ _ _ h => twin_dset S h i j hal, ?_, hdc hal,
    hdc S.one⟩
  unfold DMat.diag
  rw [hx.len]
  exact SameOut.forRange' (hu _ _) fun i _ _ _ _ h => (hx.lrd i).bind fun _ _ hv => twin_dset S h i i hv

/-! ## Sparse matrices -/

section sparse

theorem twin_mapM {l : List T} {l' : List T'} (h : S.L l l') (ids : List Nat) :
    SameOut S.L (ids.mapM fun k => lrd l k) (ids.mapM fun k => lrd l' k) := by
  induction ids with
  | nil => exact .ok .nil
  | cons i ids ih =>
    rw [List.mapM_cons, List.mapM_cons]
    exact (h.lrd i).bind fun _ _ h1 => ih.bind fun _ _ h2 => .ok (.cons h1 h2)

theorem twin_sort {a : Coo T} {a' : Coo T'} (h : S.C a a') (srt : SortFn) : SameOut S.C (a.sort srt) (a'.sort srt) := by
  have hcmp : a.cmp = a'.cmp := by funext i j; unfold Coo.cmp; rw [h.row, h.col]
  unfold Coo.sort
  rw [h.val.len, h.row, h.col, hcmp]
  split
  · exact (twin_mapM S h.val _).bind fun _ _ h1 => .same rfl fun r _ => .same rfl fun c _ => .ok ⟨h1, rfl, rfl⟩
  · exact .error _

theorem twin_cooSearch {a : Coo T} {a' : Coo T'} (h : S.C a a') (i j : Nat) : a.search i j = a'.search i j := by
  unfold Coo.search
  rw [h.val.len, h.row, h.col]

theorem twin_cooGet {a : Coo T} {a' : Coo T'} (h : S.C a a') (i j : Nat) : SameOut S.rel (a.get i j) (a'.get i j) := by
  refine .same (twin_cooSearch S h i j) fun r _ => ?_
  match r with
  | .inr k => exact h.val.lrd k
  | .inl _ => exact .ok S.zero

theorem twin_cooSet {a : Coo T} {a' : Coo T'} (h : S.C a a') (i j : Nat) {v : T} {v' : T'} (hv : S.rel v v') :
    SameOut S.C (a.set i j v) (a'.set i j v') := by
  refine .same (twin_cooSearch S h i j) fun r _ => ?_
  match r with
  | .inr k => exact (h.val.lwr k hv).bind fun _ _ h1 => .ok ⟨h1, h.row, h.col⟩
  | .inl _ => exact .error _

theorem twin_cooScale {a : Coo T} {a' : Coo T'} (h : S.C a a') {alpha : T} {alpha' : T'} (hal : S.rel alpha alpha') :
    SameOut S.C (a.scale alpha) (a'.scale alpha') := by
  unfold Coo.scale Coo.nnz
  rw [h.val.len]
  exact SameOut.noexcept ((twin_scalCore S (Twin.M.of1 h.val) hal _ _).bind fun _ _ h1 => .ok ⟨h1 0, h.row, h.col⟩)

variable {rhs : Coo T → Coo T} {rhs' : Coo T' → Coo T'}

/-- State of the inner loop of `+=`. -/
structure TwinAdd (s : Coo.AddSt T) (s' : Coo.AddSt T') : Prop where
  a : S.C s.a s'.a
  c : s.c = s'.c
  r : s.r = s'.r

/-- State of the outer loop of `+=`. -/
structure TwinAddRow (s : Coo.AddRow T) (s' : Coo.AddRow T') : Prop where
  a : S.C s.a s'.a
  p : s.p = s'.p
  q : s.q = s'.q

theorem twin_push {a : Coo T} {a' : Coo T'} (h : S.C a a') (cap i j : Nat) {v : T} {v' : T'} (hv : S.rel v v') :
    SameOut S.C (Coo.push cap a i j v) (Coo.push cap a' i j v') := by
  unfold Coo.push
  rw [h.val.len, h.row, h.col]
  split
  · exact .ok ⟨h.val.append (.cons hv .nil), rfl, rfl⟩
  · exact .error _

theorem twin_addStep (hr : ∀ a a', S.C a a' → S.C (rhs a) (rhs' a')) {s : Coo.AddSt T} {s' : Coo.AddSt T'} (h : TwinAdd S s s')
    (cap i cEnd rEnd : Nat) :
    SameOut (SameOut.Both (TwinAdd S) (TwinAdd S)) (Coo.addStep rhs cap i cEnd rEnd s) (Coo.addStep rhs' cap i cEnd rEnd s') := by
  obtain ⟨a, c, r⟩ := s
  obtain ⟨a', c', r'⟩ := s'
  obtain ⟨ha, rfl, rfl⟩ := h
  have hb := hr _ _ ha
  dsimp only at ha hb
  unfold Coo.addStep
  dsimp only
  refine .same (by rw [ha.col]) fun ca _ => .same (by rw [hb.col]) fun cb _ => ?_
  have hpush : ∀ (c1 : Nat), SameOut (SameOut.Both (TwinAdd S) (TwinAdd S)) (do
      let vb ← lrd (rhs a).val r
      let a ← Coo.push cap a i cb vb
      if r + 1 = rEnd then .ok (.inr ⟨a, c, r⟩) else .ok (.inl ⟨a, c, c1⟩)) (do
      let vb ← lrd (rhs' a').val r
      let a ← Coo.push cap a' i cb vb
      if r + 1 = rEnd then .ok (.inr ⟨a, c, r⟩) else .ok (.inl ⟨a, c, c1⟩)) := fun c1 =>
    (hb.val.lrd r).bind fun _ _ h1 => (twin_push S ha cap i cb h1).bind fun _ _ h2 => by
      split
      · exact .ok ⟨h2, rfl, rfl⟩
      · exact .ok ⟨h2, rfl, rfl⟩
  split
  · refine (ha.val.lrd c).bind fun _ _ h1 => (hb.val.lrd r).bind fun _ _ h2 => (ha.val.lwr c (S.add h1 h2)).bind fun _ _ h3 => ?_
    split
    · exact .ok ⟨⟨h3, ha.row, ha.col⟩, rfl, rfl⟩
    · exact .ok ⟨⟨h3, ha.row, ha.col⟩, rfl, rfl⟩
  · split
    · split
      · exact .ok ⟨ha, rfl, rfl⟩
      · exact hpush _
    · exact hpush _

theorem twin_addWhile (hr : ∀ a a', S.C a a' → S.C (rhs a) (rhs' a')) (cap i cEnd rEnd : Nat) :
    ∀ (fuel : Nat) {s : Coo.AddSt T} {s' : Coo.AddSt T'}, TwinAdd S s s' →
      SameOut (TwinAdd S) (Coo.addWhile rhs cap i cEnd rEnd fuel s) (Coo.addWhile rhs' cap i cEnd rEnd fuel s')
  | 0, s, s', h => by
    unfold Coo.addWhile
    exact .ite (by rw [h.r]) (fun _ => .error _) fun _ => .ok h
  | fuel + 1, s, s', h => by
    unfold Coo.addWhile
    refine .ite (by rw [h.r]) (fun _ => (twin_addStep S hr h cap i cEnd rEnd).bind fun t t' ht => ?_) fun _ => .ok h
    match t, t', ht with
    | .inl t, .inl t', ht => exact twin_addWhile hr cap i cEnd rEnd fuel ht
    | .inr t, .inr t', ht => exact .ok ht

theorem twin_addRow (hr : ∀ a a', S.C a a' → S.C (rhs a) (rhs' a')) (cap nA nB i : Nat) {s : Coo.AddRow T} {s' : Coo.AddRow T'}
    (h : TwinAddRow S s s') :
    SameOut (TwinAddRow S) (Coo.addRow rhs cap nA nB i s) (Coo.addRow rhs' cap nA nB i s') := by
  unfold Coo.addRow
  have hb := hr _ _ h.a
  refine .same (by rw [h.a.row, h.p]) fun pe _ => .same (by rw [hb.row, h.q]) fun qe _ => ?_
  rw [h.p, h.q]
  exact (twin_addWhile S hr cap i pe qe _ ⟨h.a, rfl, rfl⟩).bind fun _ _ ht => .ok ⟨ht.a, rfl, rfl⟩

theorem twin_cooShape {a : Coo T} {a' : Coo T'} (h : S.C a a') : a.shape = a'.shape := by
  unfold Coo.shape
  rw [h.row, h.col]

theorem twin_addRows (hr : ∀ a a', S.C a a' → S.C (rhs a) (rhs' a')) (cap nA nB : Nat) :
    ∀ (fuel i : Nat) {s : Coo.AddRow T} {s' : Coo.AddRow T'}, TwinAddRow S s s' →
      SameOut (TwinAddRow S) (Coo.addRows rhs cap nA nB fuel i s) (Coo.addRows rhs' cap nA nB fuel i s')
  | 0, i, s, s', h => by
    unfold Coo.addRows
    refine .same (twin_cooShape S (hr _ _ h.a)) fun sh _ => ?_
    exact .ite Iff.rfl (fun _ => .error _) fun _ => .ok h
  | fuel + 1, i, s, s', h => by
    unfold Coo.addRows
    refine .same (twin_cooShape S (hr _ _ h.a)) fun sh _ => ?_
    exact .ite Iff.rfl (fun _ => (twin_addRow S hr cap nA nB i h).bind fun _ _ ht => twin_addRows hr cap nA nB fuel (i + 1) ht)
      fun _ => .ok h

theorem twin_addAssign (hr : ∀ a a', S.C a a' → S.C (rhs a) (rhs' a')) (srt : SortFn) {a : Coo T} {a' : Coo T'} (h : S.C a a') :
    SameOut S.C (a.addAssign srt rhs) (a'.addAssign srt rhs') := by
  have hb := hr _ _ h
  unfold Coo.addAssign Coo.nnz
  dsimp only
  rw [h.val.len, hb.val.len, h.row, hb.row]
  exact (twin_addRows S hr _ _ _ _ 0 ⟨h, rfl, rfl⟩).bind fun _ _ ht => twin_sort S ht.a srt

/-- Coordinate matrices: construction, reading, writing, `+=` (also `a += a`), and the operators. -/
theorem C94_coo (srt : SortFn) {a b : Coo T} {a' b' : Coo T'} (ha : S.C a a') (hb : S.C b b') {x : List T} {x' : List T'}
    (hx : S.L x x') {alpha : T} {alpha' : T'} (hal : S.rel alpha alpha') (row col : List Nat) (n i j : Nat) :
    SameOut S.C (Coo.new srt x row col) (Coo.new srt x' row col) ∧ SameOut S.C (Coo.unit srt n) (Coo.unit (T := T') srt n) ∧
    SameOut S.rel (a.get i j) (a'.get i j) ∧ SameOut S.C (a.set i j alpha) (a'.set i j alpha') ∧
    SameOut S.C (a.addAssign srt fun _ => b) (a'.addAssign srt fun _ => b') ∧
    SameOut S.C (a.addAssign srt id) (a'.addAssign srt id) ∧
    SameOut S.C (a.scale alpha) (a'.scale alpha') ∧ SameOut S.C (Coo.smul alpha a) (Coo.smul alpha' a') ∧
    SameOut S.C (Coo.neg a) (Coo.neg a') ∧ SameOut S.C (Coo.add srt a b) (Coo.add srt a' b') ∧
    SameOut S.C (Coo.sub srt a b) (Coo.sub srt a' b') := by
  have hnew : ∀ {x : List T} {x' : List T'}, S.L x x' → ∀ row col, SameOut S.C (Coo.new srt x row col) (Coo.new srt x' row col) := by
    intro x x' hx row col
    unfold Coo.new
    rw [hx.len]
    exact .check rfl (twin_sort S ⟨hx, rfl, rfl⟩ srt)
  have hadd := twin_addAssign S (rhs := fun _ => b) (rhs' := fun _ => b') (fun _ _ _ => hb) srt ha
  have hneg := (twin_cooScale S hb (S.neg S.one)).noexcept
  exact ⟨hnew hx _ _, .same rfl fun rc _ => hnew (.replicate n S.one) _ _, twin_cooGet S ha i j, twin_cooSet S ha i j hal, hadd,
    twin_addAssign S (rhs := id) (rhs' := id) (fun _ _ h => h) srt ha, twin_cooScale S ha hal, (twin_cooScale S ha hal).noexcept,
    (twin_cooScale S ha (S.neg S.one)).noexcept, hadd.noexcept, SameOut.noexcept (hneg.bind fun _ _ hb =>
      twin_addAssign S (fun _ _ _ => hb) srt ha)⟩

theorem twin_csrSearch {a : Csr T} {a' : Csr T'} (h : S.R a a') (i j : Nat) : a.search i j = a'.search i j := by
  unfold Csr.search
  rw [h.ptr, h.col]

theorem twin_csrGet {a : Csr T} {a' : Csr T'} (h : S.R a a') (i j : Nat) : SameOut S.rel (a.get i j) (a'.get i j) := by
  refine .same (twin_csrSearch S h i j) fun r _ => ?_
  match r with
  | .inr k => exact h.val.lrd k
  | .inl _ => exact .ok S.zero

theorem twin_csrSet {a : Csr T} {a' : Csr T'} (h : S.R a a') (i j : Nat) {v : T} {v' : T'} (hv : S.rel v v') :
    SameOut S.R (a.set i j v) (a'.set i j v') := by
  refine .same (twin_csrSearch S h i j) fun r _ => ?_
  match r with
  | .inr k => exact (h.val.lwr k hv).bind fun _ _ h1 => .ok ⟨h1, h.ptr, h.col⟩
  | .inl _ => exact .error _

theorem twin_csrShape {a : Csr T} {a' : Csr T'} (h : S.R a a') : a.shape = a'.shape := by
  unfold Csr.shape
  rw [h.ptr, h.col]

theorem twin_csrScale {a : Csr T} {a' : Csr T'} (h : S.R a a') {alpha : T} {alpha' : T'} (hal : S.rel alpha alpha') :
    SameOut S.R (a.scale alpha) (a'.scale alpha') := by
  unfold Csr.scale Csr.nnz
  rw [h.val.len]
  exact SameOut.noexcept ((twin_scalCore S (Twin.M.of1 h.val) hal _ _).bind fun _ _ h1 => .ok ⟨h1 0, h.ptr, h.col⟩)

theorem twin_csrMulCore {a : Csr T} {a' : Csr T'} (ha : S.R a a') {m : Mem T} {m' : Mem T'} (h : S.M m m') {alpha beta : T}
    {alpha' beta' : T'} (hal : S.rel alpha alpha') (hbe : S.rel beta beta') (n x y : Nat) :
    SameOut S.M (Csr.mulCore n a alpha x beta y m) (Csr.mulCore n a' alpha' x beta' y m') := by
  unfold Csr.mulCore
  rw [ha.ptr, ha.col]
  refine SameOut.forRange' h fun p s s' _ _ hs => (hs.rd y p).bind fun _ _ hyp =>
    (hs.wr y p (S.mul hbe hyp)).bind fun s s' hs => SameOut.same rfl fun b _ => SameOut.same rfl fun e _ => ?_
  exact SameOut.forRange' hs fun q s s' _ _ hs => (hs.rd y p).bind fun _ _ h1 => (ha.val.lrd q).bind fun _ _ h2 =>
    SameOut.same rfl fun c _ => (hs.rd x c).bind fun _ _ h3 => hs.wr y p (S.add h1 (S.mul (S.mul hal h2) h3))

/-- Sparse products: the matrices have the same pattern. -/
theorem C94_spmv {a : Csr T} {a' : Csr T'} (ha : S.R a a') {m : Mem T} {m' : Mem T'} (h : S.M m m') {alpha beta : T}
    {alpha' beta' : T'} (hal : S.rel alpha alpha') (hbe : S.rel beta beta') (nd : Bool) (x y : Nat) :
    SameOut S.M (Csr.mul nd alpha a x beta y m) (Csr.mul nd alpha' a' x beta' y m') ∧
    SameOut S.M (Csr.mulVecAt nd a m x y) (Csr.mulVecAt nd a' m' x y) := by
  unfold Csr.mul Csr.mulVecAt
  simp only [h.len]
  exact ⟨SameOut.noexcept (.same (twin_csrShape S ha) fun sh _ => .check rfl (.check rfl (twin_csrMulCore S ha h hal hbe _ _ _))),
    SameOut.noexcept (.same (twin_csrShape S ha) fun sh _ => .check rfl
      (twin_csrMulCore S ha (h.setBuf y (Twin.L.replicate sh.1 S.zero)) S.one S.zero _ _ _))⟩

theorem twin_csrMulVec {a : Csr T} {a' : Csr T'} (ha : S.R a a') {x : List T} {x' : List T'} (hx : S.L x x') (nd : Bool) :
    SameOut S.L (a.mulVec nd x) (a'.mulVec nd x') :=
  (C94_spmv S ha (Twin.M.of1 hx) S.zero S.zero nd 0 1).2.bind fun _ _ h => .ok (h 1)

/-- Compressed row matrices: construction, also from a coordinate matrix, reading, writing, and the operators. -/
theorem C94_csr {a : Csr T} {a' : Csr T'} (ha : S.R a a') {b : Coo T} {b' : Coo T'} (hb : S.C b b') {x : List T} {x' : List T'}
    (hx : S.L x x') {alpha : T} {alpha' : T'} (hal : S.rel alpha alpha') (nd : Bool) (ptr col : List Nat) (n i j : Nat) :
    SameOut S.R (Csr.new x ptr col) (Csr.new x' ptr col) ∧ SameOut S.R (Csr.ofCoo b) (Csr.ofCoo b') ∧
    SameOut S.R (Csr.unit n) (Csr.unit (T := T') n) ∧ SameOut S.rel (a.get i j) (a'.get i j) ∧
    SameOut S.R (a.set i j alpha) (a'.set i j alpha') ∧ SameOut S.R (a.scale alpha) (a'.scale alpha') ∧
    SameOut S.R (Csr.smul alpha a) (Csr.smul alpha' a') ∧ SameOut S.R (Csr.neg a) (Csr.neg a') ∧
    SameOut S.L (a.mulVec nd x) (a'.mulVec nd x') := by
  have hnew : ∀ {x : List T} {x' : List T'}, S.L x x' → ∀ ptr col, SameOut S.R (Csr.new x ptr col) (Csr.new x' ptr col) := by
    intro x x' hx ptr col
    unfold Csr.new
    rw [hx.len]
    exact .check rfl (.ok ⟨hx, rfl, rfl⟩)
  refine ⟨hnew hx _ _, ?_, .same rfl fun rc _ => .same rfl fun p _ => hnew (.replicate n S.one) _ _, twin_csrGet S ha i j,
    twin_csrSet S ha i j hal, twin_csrScale S ha hal, (twin_csrScale S ha hal).noexcept,
    (twin_csrScale S ha (S.neg S.one)).noexcept, twin_csrMulVec S ha hx nd⟩
  unfold Csr.ofCoo
  rw [hb.row, hb.col]
  exact SameOut.noexcept (.same rfl fun p _ => .ok ⟨hb.val, rfl, rfl⟩)

end sparse

/-! ## Structured matrices -/

theorem twin_hset {a : Hess T} {a' : Hess T'} (h : S.H a a') (i j : Nat) {v : T} {v' : T'} (hv : S.rel v v') :
    SameOut S.H (a.set i j v) (a'.set i j v') := by
  unfold Hess.set
  exact .ite Iff.rfl (fun _ => (h.h.lwr _ hv).bind fun _ _ k => .ok ⟨h.n, k⟩) fun _ => .error _

theorem twin_hgetMut {a : Hess T} {a' : Hess T'} (h : S.H a a') (i j : Nat) : SameOut S.rel (a.getMut i j) (a'.getMut i j) := by
  unfold Hess.getMut
  exact .ite Iff.rfl (fun _ => h.h.lrd _) fun _ => .error _

theorem twin_hget {a : Hess T} {a' : Hess T'} (h : S.H a a') (i j : Nat) : SameOut S.rel (a.get i j) (a'.get i j) := by
  unfold Hess.get
  exact .ite Iff.rfl (fun _ => h.h.lrd _) fun _ => .ok S.zero

theorem twin_hnew (rt : Nat → Nat) {x : List T} {x' : List T'} (hx : S.L x x') : SameOut S.H (Hess.new rt x) (Hess.new rt x') := by
  unfold Hess.new
  rw [hx.len]
  exact .same rfl fun n _ => .ok ⟨rfl, hx⟩

theorem twin_hextz {a : Hess T} {a' : Hess T'} (h : S.H a a') : SameOut S.H a.extendWithZero a'.extendWithZero := by
  unfold Hess.extendWithZero
  rw [h.n]
  refine .ok ⟨rfl, h.h.append ?_⟩
  split
  · exact .replicate _ S.zero
  · exact .replicate _ S.zero

theorem twin_hcol {a : Hess T} {a' : Hess T'} (h : S.H a a') (j : Nat) : SameOut S.L (a.getCol j) (a'.getCol j) := by
  unfold Hess.getCol
  dsimp only
  rw [h.h.len]
  exact .ite Iff.rfl (fun _ => .ok ((h.h.drop _).take _)) fun _ => .error _

/-- Hessenberg matrices. -/
theorem C94_hessenberg (rt : Nat → Nat) {a : Hess T} {a' : Hess T'} (ha : S.H a a') {x : List T} {x' : List T'} (hx : S.L x x')
    {v : T} {v' : T'} (hv : S.rel v v') (i j : Nat) :
    SameOut S.H (Hess.new rt x) (Hess.new rt x') ∧ SameOut S.H (Hess.withCapacity rt i) (Hess.withCapacity (T := T') rt i) ∧
    SameOut S.rel (a.get i j) (a'.get i j) ∧ SameOut S.rel (a.getMut i j) (a'.getMut i j) ∧
    SameOut S.H (a.set i j v) (a'.set i j v') ∧ SameOut S.H a.extendWithZero a'.extendWithZero ∧
    SameOut S.H (a.extendWith x) (a'.extendWith x') ∧ SameOut S.L (a.getCol j) (a'.getCol j) := by
  refine ⟨twin_hnew S rt hx, (twin_hnew S rt .nil).noexcept, twin_hget S ha i j, twin_hgetMut S ha i j, twin_hset S ha i j hv,
    twin_hextz S ha, ?_, twin_hcol S ha j⟩
  unfold Hess.extendWith
  rw [hx.len, ha.n]
  exact .check rfl (.ok ⟨rfl, ha.h.append hx⟩)

theorem twin_uset {a : UTri T} {a' : UTri T'} (h : S.U a a') (i j : Nat) {v : T} {v' : T'} (hv : S.rel v v') :
    SameOut S.U (a.set i j v) (a'.set i j v') := by
  unfold UTri.set
  exact .ite Iff.rfl (fun _ => (h.u.lwr _ hv).bind fun _ _ k => .ok ⟨h.n, k⟩) fun _ => .error _

theorem twin_ugetMut {a : UTri T} {a' : UTri T'} (h : S.U a a') (i j : Nat) : SameOut S.rel (a.getMut i j) (a'.getMut i j) := by
  unfold UTri.getMut
  exact .ite Iff.rfl (fun _ => h.u.lrd _) fun _ => .error _

theorem twin_uget {a : UTri T} {a' : UTri T'} (h : S.U a a') (i j : Nat) : SameOut S.rel (a.get i j) (a'.get i j) := by
  unfold UTri.get
  exact .ite Iff.rfl (fun _ => h.u.lrd _) fun _ => .ok S.zero

theorem twin_unew (rt : Nat → Nat) {x : List T} {x' : List T'} (hx : S.L x x') : SameOut S.U (UTri.new rt x) (UTri.new rt x') := by
  unfold UTri.new
  rw [hx.len]
  exact SameOut.noexcept (.same rfl fun n _ => .ok ⟨rfl, hx⟩)

theorem twin_uext {a : UTri T} {a' : UTri T'} (h : S.U a a') {x : List T} {x' : List T'} (hx : S.L x x') :
    SameOut S.U (a.extendWith x) (a'.extendWith x') := by
  unfold UTri.extendWith
  rw [hx.len, h.n]
  exact .check rfl (.ok ⟨rfl, h.u.append hx⟩)

theorem twin_backSub {a : UTri T} {a' : UTri T'} (h : S.U a a') {y : List T} {y' : List T'} (hy : S.L y y') :
    SameOut S.L (a.backSub y) (a'.backSub y') := by
  unfold UTri.backSub UTri.backSubLoop
  rw [h.n, hy.len]
  refine .check rfl (SameOut.forDown hy fun k s s' _ hs => ?_)
  refine SameOut.bind (P := S.L) (SameOut.forRange' hs fun j s s' _ _ hs => ?_) fun s s' hs => ?_
  · exact (hs.lrd k).bind fun _ _ h1 => (twin_uget S h k j).bind fun _ _ h2 => (hs.lrd j).bind fun _ _ h3 =>
      hs.lwr k (S.sub h1 (S.mul h2 h3))
  · exact (hs.lrd k).bind fun _ _ h1 => (twin_uget S h k k).bind fun _ _ h2 => (S.div h1 h2).bind fun _ _ h3 => hs.lwr k h3

/-- Upper triangular matrices, with back substitution. -/
theorem C94_upper (rt : Nat → Nat) {a : UTri T} {a' : UTri T'} (ha : S.U a a') {x : List T} {x' : List T'} (hx : S.L x x')
    {v : T} {v' : T'} (hv : S.rel v v') (i j : Nat) :
    SameOut S.U (UTri.new rt x) (UTri.new rt x') ∧ SameOut S.U (UTri.withCapacity rt i) (UTri.withCapacity (T := T') rt i) ∧
    SameOut S.rel (a.get i j) (a'.get i j) ∧ SameOut S.rel (a.getMut i j) (a'.getMut i j) ∧
    SameOut S.U (a.set i j v) (a'.set i j v') ∧ SameOut S.U a.extendWithZero a'.extendWithZero ∧
    SameOut S.U (a.extendWith x) (a'.extendWith x') ∧ SameOut S.L (a.backSub x) (a'.backSub x') := by
  refine ⟨twin_unew S rt hx, (twin_unew S rt .nil).noexcept, twin_uget S ha i j, twin_ugetMut S ha i j, twin_uset S ha i j hv,
    ?_, twin_uext S ha hx, twin_backSub S ha hx⟩
  unfold UTri.extendWithZero
  rw [ha.n]
  exact .ok ⟨rfl, ha.u.append (.replicate _ S.zero)⟩

/-- Tri-diagonal, lower triangular and Hermitian matrices. -/
theorem C94_structured {a : TriDiag T} {a' : TriDiag T'} (ha : S.Tri a a') {b : LTri T} {b' : LTri T'} (hb : S.Lo b b')
    {c : Herm T} {c' : Herm T'} (hc : S.He c c') {v : T} {v' : T'} (hv : S.rel v v') (sized : Bool) (i j : Nat) :
    SameOut S.rel (a.get i j) (a'.get i j) ∧ SameOut S.rel (a.getMut sized i j) (a'.getMut sized i j) ∧
    SameOut S.Tri (a.set sized i j v) (a'.set sized i j v') ∧ a.shape = a'.shape ∧
    SameOut S.rel (b.get i j) (b'.get i j) ∧ SameOut S.Lo (b.set i j v) (b'.set i j v') ∧
    SameOut S.rel (c.get i j) (c'.get i j) ∧ SameOut S.He (c.set i j v) (c'.set i j v') ∧
    SameOut S.Lo c.intoLowerMat c'.intoLowerMat := by
  unfold TriDiag.get TriDiag.getMut TriDiag.set TriDiag.shape
  refine ⟨.ite Iff.rfl (fun _ => ha.d.lrd _) fun _ => .ite Iff.rfl (fun _ => ha.du.lrd _) fun _ =>
      .ite Iff.rfl (fun _ => ha.dl.lrd _) fun _ => .error _,
    .ite Iff.rfl (fun _ => ha.d.lrd _) fun _ => .ite Iff.rfl (fun _ => ha.du.lrd _) fun _ =>
      .ite Iff.rfl (fun _ => ha.dl.lrd _) fun _ => .error _,
    .ite Iff.rfl (fun _ => (ha.d.lwr _ hv).bind fun _ _ h => .ok ⟨ha.dl, h, ha.du⟩) fun _ =>
      .ite Iff.rfl (fun _ => (ha.du.lwr _ hv).bind fun _ _ h => .ok ⟨ha.dl, ha.d, h⟩) fun _ =>
      .ite Iff.rfl (fun _ => (ha.dl.lwr _ hv).bind fun _ _ h => .ok ⟨h, ha.d, ha.du⟩) fun _ => .error _,
    by rw [ha.d.len], hb.l.lrd _, (hb.l.lwr _ hv).bind fun _ _ h => .ok ⟨hb.n, h⟩, hc.l.lrd _,
    (hc.l.lwr _ hv).bind fun _ _ h => .ok ⟨hc.n, h⟩, .ok ⟨hc.n, hc.l⟩⟩

/-! ## Gram-Schmidt -/

/-- The Gram-Schmidt process. -/
theorem C94_cgs (nd : Bool) (sz : Option Nat) (M : Nat) {m : Mem T} {m' : Mem T'} (h : S.M m m') :
    SameOut S.M (Cgs.cgs nd sz M m) (Cgs.cgs nd sz M m') := by
  unfold Cgs.cgs
  refine .same rfl fun v0 _ => ?_
  rw [h.len]
  refine SameOut.forRange' h fun j s s' _ _ hs => ?_
  unfold Cgs.outer
  refine .same rfl fun v1 _ => .check (by rw [hs.len]) (.same rfl fun vj _ => ?_)
  refine SameOut.forRange' (hs.setBuf M (hs vj)) fun k t t' _ _ ht => ?_
  unfold Cgs.inner
  refine .same rfl fun k' _ => .same rfl fun j' _ => ?_
  have hd : SameOut S.rel (Cgs.dot sz t k' M) (Cgs.dot sz t' k' M) := by
    unfold Cgs.dot
    cases sz with
    | none => exact (C94_dot S ht k' M 0).2.1
    | some N => exact (C94_dot S ht k' M N).2.2.1
  have hmd : SameOut S.rel (Cgs.mdot sz t k' k') (Cgs.mdot sz t' k' k') := by
    unfold Cgs.mdot
    cases sz with
    | none => exact (C94_dot S ht k' k' 0).1
    | some N => exact (C94_dot S ht k' k' N).2.2.1
  refine hd.bind fun _ _ ha => hmd.bind fun _ _ hb => (S.div (S.neg ha) hb).bind fun q q' hq => ?_
  unfold Cgs.axpy
  cases sz with
  | none => exact (C94_axpy S ht hq 0 k' j').1
  | some N => exact (C94_axpy S ht hq N k' j').2

/-! ## Tri-diagonal systems -/

theorem twin_tdma {a : TriDiag T} {a' : TriDiag T'} (ha : S.Tri a a') {m : Mem T} {m' : Mem T'} (h : S.M m m')
    (n nrow b x : Nat) : SameOut S.M (Tdma.tdma a n nrow b x m) (Tdma.tdma a' n nrow b x m') := by
  obtain ⟨hl, hd, hu⟩ := ha
  refine SameOut.forRange' h fun k s s' _ _ hs => ?_
  unfold Tdma.column
  let Q : List T × List T → List T' × List T' → Prop := fun pq pq' => S.L pq.1 pq'.1 ∧ S.L pq.2 pq'.2
  have hf : SameOut Q (Tdma.fwd a s n nrow b k) (Tdma.fwd a' s' n nrow b k) := by
    unfold Tdma.fwd
    refine (hu.lrd 0).bind fun _ _ h1 => (hd.lrd 0).bind fun _ _ h2 => (S.div (S.neg h1) h2).bind fun _ _ h3 =>
      (hs.rd b k).bind fun _ _ h4 => (S.div h4 h2).bind fun _ _ h5 => ?_
    refine SameOut.forRange' (I := Q) ⟨.cons h3 .nil, .cons h5 .nil⟩ fun j pq pq' _ _ hpq => ?_
    unfold Tdma.fwdStep
    exact (hd.lrd j).bind fun _ _ k1 => (hl.lrd _).bind fun _ _ k2 => (hpq.1.lrd _).bind fun _ _ k3 =>
      (hu.lrd j).bind fun _ _ k4 => (S.div (S.neg k4) (S.add k1 (S.mul k2 k3))).bind fun _ _ k5 =>
      (hs.rd b _).bind fun _ _ k6 => (hpq.2.lrd _).bind fun _ _ k7 =>
      (S.div (S.sub k6 (S.mul k2 k7)) (S.add k1 (S.mul k2 k3))).bind fun _ _ k8 =>
      .ok ⟨hpq.1.append (.cons k5 .nil), hpq.2.append (.cons k8 .nil)⟩
  refine hf.bind fun pq pq' hpq => ?_
  refine SameOut.bind (P := S.M) ?_ fun s s' hs => ?_
  · unfold Tdma.tailStep
    exact (hs.rd b _).bind fun _ _ k1 => (hl.lrd _).bind fun _ _ k2 => (hpq.2.lrd _).bind fun _ _ k3 =>
      (hd.lrd _).bind fun _ _ k4 => (hpq.1.lrd _).bind fun _ _ k5 =>
      (S.div (S.sub k1 (S.mul k2 k3)) (S.add k4 (S.mul k2 k5))).bind fun _ _ k6 => hs.wr x _ k6
  · refine SameOut.forDown hs fun j s s' _ hs => ?_
    unfold Tdma.backStep
    exact (hpq.1.lrd j).bind fun _ _ k1 => (hs.rd x _).bind fun _ _ k2 => (hpq.2.lrd j).bind fun _ _ k3 =>
      hs.wr x _ (S.add (S.mul k1 k2) k3)

/-- Tri-diagonal systems, one or several right-hand sides, in place or not. -/
theorem C94_tdma {a : TriDiag T} {a' : TriDiag T'} (ha : S.Tri a a') {m : Mem T} {m' : Mem T'} (h : S.M m m') (nd : Bool) :
    (∀ b x, SameOut S.M (Tdma.solveVec nd a b x m) (Tdma.solveVec nd a' b x m')) ∧
    ∀ b x : MatRef, SameOut S.M (Tdma.solveMat nd a b x m) (Tdma.solveMat nd a' b x m') := by
  have hsh : a.shape = a'.shape := by unfold TriDiag.shape; rw [ha.d.len]
  constructor
  · intro b x
    unfold Tdma.solveVec
    rw [hsh, h.len]
    exact SameOut.noexcept (.check rfl (twin_tdma S ha h _ _ _ _))
  · intro b x
    unfold Tdma.solveMat
    rw [hsh]
    exact SameOut.noexcept (.check rfl (.check rfl (twin_tdma S ha h _ _ _ _)))

/-! ## Cholesky factorisations -/

theorem twin_subMul {a : List T} {a' : List T'} (h : S.L a a') (r p q : Nat) :
    SameOut S.L (Chol.subMul r p q a) (Chol.subMul r p q a') :=
  (h.lrd r).bind fun _ _ h1 => (h.lrd p).bind fun _ _ h2 => (h.lrd q).bind fun _ _ h3 => h.lwr r (S.sub h1 (S.mul h2 h3))

/-- The Cholesky factorisation. -/
theorem C94_cholesky [CZero T] [CZero T'] [CSqrt T] [CSqrt T'] [LT T] [LT T'] [DecidableLT T] [DecidableLT T'] (hz : S.SameZ)
    (hs : S.SameSqrt) (hlt : S.SameLt) (mt : MemType) (n : Nat) {a : List T} {a' : List T'} (h : S.L a a') :
    SameOut (fun r r' => r.1 = r'.1 ∧ S.L r.2 r'.2) (Chol.decomp mt n a) (Chol.decomp mt n a') ∧
    SameOut S.L (Chol.new mt n a) (Chol.new mt n a') := by
  have hoff : ∀ {a : List T} {a' : List T'}, S.L a a' → ∀ p q,
      SameOut S.L (Chol.offDiag (cIndex mt n) p q a) (Chol.offDiag (cIndex mt n) p q a') := fun h p q =>
    SameOut.bind (P := S.L) (SameOut.forRange' h fun k _ _ _ _ h => twin_subMul S h _ _ _) fun _ _ h =>
      (h.lrd _).bind fun _ _ h1 => (h.lrd _).bind fun _ _ h2 => (S.div h1 h2).bind fun _ _ h3 => h.lwr _ h3
  have hrow : ∀ i {a : List T} {a' : List T'}, S.L a a' → SameOut (SameOut.Both S.L fun r r' => r.1 = r'.1 ∧ S.L r.2 r'.2)
      (Chol.row (cIndex mt n) i a) (Chol.row (cIndex mt n) i a') := by
    intro i a a' h
    unfold Chol.row
    refine SameOut.bind (P := S.L) (SameOut.forRange' h fun k _ _ _ _ h => hoff h i k) fun _ _ h => ?_
    refine SameOut.bind (P := S.L) (SameOut.forRange' h fun k _ _ _ _ h => twin_subMul S h _ _ _) fun _ _ h => ?_
    refine (h.lrd _).bind fun v v' hv => ?_
    exact .ite (hz hv) (fun _ => .ok ⟨rfl, h⟩) fun _ => .ite (hlt hv S.zero) (fun _ => .ok ⟨rfl, h⟩) fun _ =>
      (hs hv).bind fun _ _ hw => (h.lwr _ hw).bind fun _ _ h => .ok h
  have hd : SameOut (fun r r' => r.1 = r'.1 ∧ S.L r.2 r'.2) (Chol.decomp mt n a) (Chol.decomp mt n a') := by
    unfold Chol.decomp
    refine (SameOut.forRet h fun i s t _ _ hst => hrow i hst).bind fun r r' hr => ?_
    match r, r', hr with
    | .inl _, .inl _, hr => exact .ok ⟨rfl, hr⟩
    | .inr _, .inr _, hr => exact .ok hr
  exact ⟨hd, hd.bind fun r r' hr => .check (by rw [hr.1]) (.ok hr.2)⟩

/-- The modified factorisation. -/
theorem C94_mod_cholesky [CZero T] [CZero T'] (hz : S.SameZ) (mt : MemType) (n : Nat) {a : List T} {a' : List T'} (h : S.L a a') :
    SameOut S.L (Chol.modNew mt n a) (Chol.modNew mt n a') := by
  refine SameOut.forRange' h fun k s s' _ _ hs => ?_
  unfold Chol.modRow
  refine SameOut.bind (P := S.L) (SameOut.forRange' hs fun j s s' _ _ hs => SameOut.forRange' hs fun p s s' _ _ h => ?_)
    fun s s' hs => (hs.lrd _).bind fun v v' hv => .check ?_ (.ok hs)
  · exact (h.lrd _).bind fun _ _ h1 => (h.lrd _).bind fun _ _ h2 => (h.lrd _).bind fun _ _ h3 => (h.lrd _).bind fun _ _ h4 =>
      (S.div (S.mul h2 h3) h4).bind fun _ _ h5 => h.lwr _ (S.sub h1 h5)
  · by_cases e : IsZ v
    · simp [throwIf, e, (hz hv).mp e]
    · have e' : ¬ IsZ v' := fun k => e ((hz hv).mpr k)
      simp [throwIf, e, e']

section solve
variable {m : Mem T} {m' : Mem T'}

theorem twin_subCell (h : S.M m m') (x r p : Nat) {c : Res T} {c' : Res T'}
    (hc : SameOut S.rel c c') : SameOut S.M (Chol.subCell x r p c m) (Chol.subCell x r p c' m') :=
  (h.rd x r).bind fun _ _ h1 => hc.bind fun _ _ h2 => (h.rd x p).bind fun _ _ h3 => h.wr x r (S.sub h1 (S.mul h2 h3))

theorem twin_divCell (h : S.M m m') (x r q : Nat) {L : List T} {L' : List T'}
    (hL : S.L L L') : SameOut S.M (Chol.divCell x r L q m) (Chol.divCell x r L' q m') :=
  (h.rd x r).bind fun _ _ h1 => (hL.lrd q).bind fun _ _ h2 => (S.div h1 h2).bind fun _ _ h3 => h.wr x r h3

theorem twin_kernel (h : S.M m m') {L : List T} {L' : List T'} (hL : S.L L L') (md : Bool) (mt : MemType) (n nrow b x : Nat) :
    SameOut S.M (Chol.kernel md mt n nrow L b x m) (Chol.kernel md mt n nrow L' b x m') := by
  have hbwd : ∀ k (s : Mem T) s', S.M s s' →
      SameOut S.M (forDown (Chol.bwdRow (cIndex mt n) n nrow L x k) n s)
        (forDown (Chol.bwdRow (cIndex mt n) n nrow L' x k) n s') := fun k s s' hs =>
    SameOut.forDown hs fun j s s' _ hs => SameOut.bind (P := S.M)
      (SameOut.forRange' hs fun p s s' _ _ hs => twin_subCell S hs x _ _ (hL.lrd _)) fun s s' hs =>
      twin_divCell S hs x _ _ hL
  unfold Chol.kernel
  cases md with
  | false =>
    refine SameOut.forRange' h fun k s s' _ _ hs => SameOut.bind (P := S.M) (SameOut.forRange' hs fun j s s' _ _ hs => ?_)
      fun s s' hs => hbwd k s s' hs
    exact (hs.rd b _).bind fun _ _ h1 => (hs.wr x _ h1).bind fun s s' hs => SameOut.bind (P := S.M)
      (SameOut.forRange' hs fun p s s' _ _ hs => twin_subCell S hs x _ _ (hL.lrd _)) fun s s' hs =>
      twin_divCell S hs x _ _ hL
  | true =>
    refine SameOut.forRange' h fun k s s' _ _ hs => SameOut.bind (P := S.M) (SameOut.forRange' hs fun j s s' _ _ hs => ?_)
      fun s s' hs => hbwd k s s' hs
    exact (hs.rd b _).bind fun _ _ h1 => (hs.wr x _ h1).bind fun s s' hs =>
      SameOut.forRange' hs fun p s s' _ _ hs => twin_subCell S hs x _ _
        ((hL.lrd _).bind fun _ _ h2 => (hL.lrd _).bind fun _ _ h3 => S.div h2 h3)

/-- Solving with the factors: vectors and matrices, in place or into a new object `r`. -/
theorem C94_chol_solve (h : S.M m m') {L : List T} {L' : List T'} (hL : S.L L L') (nd md : Bool) (mt : MemType) (n r : Nat) :
    (∀ b, SameOut S.M (Chol.solveMutVec nd md mt n L b m) (Chol.solveMutVec nd md mt n L' b m') ∧
      SameOut S.M (Chol.solveVecAt nd md mt n L b r m) (Chol.solveVecAt nd md mt n L' b r m')) ∧
    ∀ b : MatRef, SameOut S.M (Chol.solveMutMat nd md mt n L b m) (Chol.solveMutMat nd md mt n L' b m') ∧
      SameOut S.M (Chol.solveMatAt nd md mt n L b r m) (Chol.solveMatAt nd md mt n L' b r m') := by
  unfold Chol.solveMutVec Chol.solveVecAt Chol.solveMutMat Chol.solveMatAt
  simp only [h.len]
  exact ⟨fun b => ⟨.check rfl (twin_kernel S h hL _ _ _ _ _ _), .check rfl (twin_kernel S (h.setBuf r (h b)) hL _ _ _ _ _ _)⟩,
    fun b => ⟨.check rfl (twin_kernel S h hL _ _ _ _ _ _), .check rfl (twin_kernel S (h.setBuf r (h b.buf)) hL _ _ _ _ _ _)⟩⟩

end solve

/-! ## Incomplete LU factorisation and GMRES -/

/-- The matrix classes to which the solvers apply. -/
theorem C94_classes (nd : Bool) : S.GOps' (dGOps nd) (dGOps nd) S.D ∧ S.GOps' (csrGOps nd) (csrGOps nd) S.R ∧
    S.Ops cooOps cooOps S.C :=
  ⟨⟨⟨fun h => by show Except.ok _ = _; rw [h.n, h.m]; rfl, fun h => twin_dget S h, fun h i j hv => twin_dset S h i j hv⟩,
      fun h hx => (C94_mat_values S h h hx S.zero nd [] 0 0).1⟩,
    ⟨⟨fun h => twin_csrShape S h, fun h => twin_csrGet S h, fun h i j hv => twin_csrSet S h i j hv⟩,
      fun h hx => twin_csrMulVec S h hx nd⟩,
    ⟨fun h => twin_cooShape S h, fun h => twin_cooGet S h, fun h i j hv => twin_cooSet S h i j hv⟩⟩

section ilu
variable {A A' : Type} {ops : MatOps A T} {ops' : MatOps A' T'} {K : A → A' → Prop}

theorem twin_reduce (ho : S.Ops ops ops' K) {a : A} {a' : A'} (h : K a a') (i j c : Nat) {v : T} {v' : T'} (hv : S.rel v v') :
    SameOut S.rel (Ilu.reduce ops a i j c v) (Ilu.reduce ops' a' i j c v') :=
  SameOut.forRange' hv fun k _ _ _ _ hs => (ho.get h i k).bind fun _ _ h1 => (ho.get h k j).bind fun _ _ h2 =>
    .ok (S.sub hs (S.mul h1 h2))

/-- The incomplete factorisation: return code and contents, constructor, solving. -/
theorem C94_ilu [CZero T] [CZero T'] (hz : S.SameZ) (ho : S.Ops ops ops' K) {a : A} {a' : A'} (h : K a a') :
    SameOut (fun r r' => r.1 = r'.1 ∧ K r.2 r'.2) (Ilu.decomp ops a) (Ilu.decomp ops' a') ∧
    SameOut K (Ilu.new ops a) (Ilu.new ops' a') := by
  have hlow : ∀ i j {a : A} {a' : A'}, K a a' → SameOut (SameOut.Both K K) (Ilu.lowCell ops i j a) (Ilu.lowCell ops' i j a') := by
    intro i j a a' h
    unfold Ilu.lowCell
    refine (ho.get h i j).bind fun v v' hv => .ite (not_congr (hz hv)) (fun _ => ?_) fun _ => .ok h
    refine (ho.get h j j).bind fun d d' hd => .ite (hz hd) (fun _ => .ok h) fun _ => ?_
    exact (twin_reduce S ho h i j j hv).bind fun _ _ hs => (S.div hs hd).bind fun _ _ hq => (ho.set h i j hq).bind fun _ _ h => .ok h
  have hup : ∀ i j {a : A} {a' : A'}, K a a' → SameOut K (Ilu.upCell ops i j a) (Ilu.upCell ops' i j a') := by
    intro i j a a' h
    unfold Ilu.upCell
    exact (ho.get h i j).bind fun v v' hv => .ite (not_congr (hz hv)) (fun _ =>
      (twin_reduce S ho h i j i hv).bind fun _ _ hs => ho.set h i j hs) fun _ => .ok h
  have hrow : ∀ m i {a : A} {a' : A'}, K a a' → SameOut (SameOut.Both K K) (Ilu.row ops m i a) (Ilu.row ops' m i a') := by
    intro m i a a' h
    unfold Ilu.row
    refine (SameOut.forRet h fun j s t _ _ hst => hlow i j hst).bind fun r r' hr => ?_
    match r, r', hr with
    | .inr _, .inr _, hr => exact .ok hr
    | .inl _, .inl _, hr =>
      exact SameOut.bind (P := K) (SameOut.forRange' hr fun j _ _ _ _ h => hup i j h) fun _ _ h => .ok h
  have hd : SameOut (fun r r' => r.1 = r'.1 ∧ K r.2 r'.2) (Ilu.decomp ops a) (Ilu.decomp ops' a') := by
    unfold Ilu.decomp
    refine .same (ho.shape h) fun sh _ => ?_
    refine (SameOut.forRet h fun i s t _ _ hst => hrow sh.2 i hst).bind fun r r' hr => ?_
    match r, r', hr with
    | .inl _, .inl _, hr => exact .ok ⟨rfl, hr⟩
    | .inr _, .inr _, hr => exact .ok ⟨rfl, hr⟩
  exact ⟨hd, hd.bind fun r r' hr => .check (by rw [hr.1]) (.ok hr.2)⟩

/-- Solving with the incomplete factors. -/
theorem C94_ilu_solve (ho : S.Ops ops ops' K) {a : A} {a' : A'} (h : K a a') {b : List T} {b' : List T'} (hb : S.L b b') :
    SameOut S.L (Ilu.solve ops a b) (Ilu.solve ops' a' b') := by
  unfold Ilu.solve
  rw [hb.len]
  refine SameOut.noexcept (SameOut.bind (P := S.L) (SameOut.forRange' (.replicate _ S.zero) fun i y y' _ _ hy => ?_) fun y y' hy =>
    SameOut.forDown (.replicate _ S.zero) fun i x x' _ hx => ?_)
  · exact (hb.lrd i).bind fun _ _ h0 => SameOut.bind (P := S.rel) (SameOut.forRange' h0 fun j _ _ _ _ hs =>
      (ho.get h i j).bind fun _ _ h1 => (hy.lrd j).bind fun _ _ h2 => .ok (S.sub hs (S.mul h1 h2))) fun _ _ hs => hy.lwr i hs
  · exact (hy.lrd i).bind fun _ _ h0 => SameOut.bind (P := S.rel) (SameOut.forRange' h0 fun j _ _ _ _ hs =>
      (ho.get h i j).bind fun _ _ h1 => (hx.lrd j).bind fun _ _ h2 => .ok (S.sub hs (S.mul h1 h2))) fun _ _ hs =>
      (ho.get h i i).bind fun _ _ hd => (S.div hs hd).bind fun _ _ hq => hx.lwr i hq

end ilu

/-- Basis vectors. -/
def TwinQ : List (Option (List T)) → List (Option (List T')) → Prop := List.Forall₂ (Option.Rel S.L)

theorem twin_qAt {q : List (Option (List T))} {q' : List (Option (List T'))} (h : TwinQ S q q') (i : Nat) :
    SameOut S.L (Gmres.qAt q i) (Gmres.qAt q' i) := by
  unfold TwinQ at h
  induction h generalizing i with
  | nil => exact SameOut.error _
  | cons ha _ ih =>
    cases i with
    | zero =>
      cases ha with
      | some ha => exact .ok ha
      | none => exact .error _
    | succ i => exact ih i

/-- The local variables of `solve`. -/
structure TwinSt (t : Gmres.St T) (t' : Gmres.St T') : Prop where
  q : TwinQ S t.q t'.q
  hess : S.H t.hess t'.hess
  h : S.rel t.h t'.h
  s : S.L t.s t'.s
  c : S.L t.c t'.c
  r : S.U t.r t'.r
  beta : S.L t.beta t'.beta

theorem twin_gdot {x y : List T} {x' y' : List T'} (hx : S.L x x') (hy : S.L y y') :
    SameOut S.rel (Gmres.dot x y) (Gmres.dot x' y') := (C94_dot S (.of2 hx hy) 0 1 0).2.1

theorem twin_gaxpy {a : T} {a' : T'} (ha : S.rel a a') {x y : List T} {x' y' : List T'} (hx : S.L x x') (hy : S.L y y') :
    SameOut S.L (Gmres.axpy a x y) (Gmres.axpy a' x' y') :=
  (C94_axpy S (.of2 hx hy) ha 0 0 1).1.bind fun _ _ h => .ok (h 1)

theorem twin_smulOp {a : T} {a' : T'} (ha : S.rel a a') {x : List T} {x' : List T'} (hx : S.L x x') :
    SameOut S.L (smulOp a x) (smulOp a' x') := (C94_vec_values S hx hx ha []).2.2.2.1

theorem twin_normalised {a : T} {a' : T'} (ha : S.rel a a') {x : List T} {x' : List T'} (hx : S.L x x') :
    SameOut (Option.Rel S.L) (Gmres.normalised a x) (Gmres.normalised a' x') := by
  unfold Gmres.normalised
  rcases (S.div S.one ha).cases with ⟨e, h1, h2⟩ | ⟨f, f', h1, h2, hf⟩
  · rw [h1, h2]; exact .ok .none
  · rw [h1, h2]; exact (twin_smulOp S hf hx).bind fun _ _ h => .ok (.some h)

section gmres
variable {A A' : Type} {ops : GOps A T} {ops' : GOps A' T'} {K : A → A' → Prop}
  [CSqrt T] [CSqrt T']

/-- The members of a solver object. -/
structure TwinG (K : A → A' → Prop) (g : Gmres A T) (g' : Gmres A' T') : Prop where
  mat : K g.mat g'.mat
  lu : K g.lu g'.lu
  tol : S.rel g.tol g'.tol

theorem twin_arnoldi (hs : S.SameSqrt) (ho : S.GOps' ops ops' K) {g : Gmres A T} {g' : Gmres A' T'} (hg : TwinG S K g g')
    (nd : Bool) {st : Gmres.St T} {st' : Gmres.St T'} (h : TwinSt S st st') :
    SameOut (TwinSt S) (Gmres.arnoldi nd ops g st) (Gmres.arnoldi nd ops' g' st') := by
  unfold Gmres.arnoldi
  have hl : st.q.length = st'.q.length := List.Forall₂.length_eq h.q
  rw [hl]
  dsimp only
  refine (twin_hextz S h.hess).bind fun H H' hH => ?_
  refine SameOut.bind (P := S.H) (by
    unfold Gmres.setSub
    exact .ite Iff.rfl (fun _ => twin_hset S hH _ _ h.h) fun _ => .ok hH) fun H H' hH => ?_
  refine .check (by unfold Hess.shape; rw [hH.n]) ((twin_qAt S h.q _).bind fun qi qi' hqi => ?_)
  refine (ho.mul hg.mat hqi).bind fun _ _ hr => (C94_ilu_solve S ho.toOps hg.lu hr).bind fun v v' hv => ?_
  refine SameOut.bind (P := S.H) (SameOut.forRange' hH fun j _ _ _ _ hH => (twin_qAt S h.q j).bind fun _ _ hq =>
    (twin_gdot S hq hv).bind fun _ _ hd => twin_hset S hH _ _ hd) fun H H' hH => ?_
  refine SameOut.bind (P := S.L) (SameOut.forRange' hv fun j _ _ _ _ hv => (twin_hgetMut S hH j _).bind fun _ _ hh =>
    (twin_qAt S h.q j).bind fun _ _ hq => (twin_smulOp S hh hq).bind fun _ _ hw => twin_gaxpy S (S.neg S.one) hw hv) fun v v' hv => ?_
  refine (C94_norm2 S (.of1 hv) hs 0 .zero).1.bind fun _ _ hn => (twin_normalised S hn hv).bind fun _ _ hqn => ?_
  exact .ok ⟨List.rel_append h.q (.cons hqn .nil), hH, hn, h.s, h.c, h.r, h.beta⟩

theorem twin_givens (hs : S.SameSqrt) (nd : Bool) {st : Gmres.St T} {st' : Gmres.St T'} (h : TwinSt S st st') :
    SameOut (TwinSt S) (Gmres.givensRot nd st) (Gmres.givensRot nd st') := by
  unfold Gmres.givensRot
  have hn : st.hess.shape.1 = st'.hess.shape.1 := h.hess.n
  rw [hn]
  dsimp only
  refine (twin_hcol S h.hess _).bind fun _ _ hc => (twin_uext S h.r hc).bind fun r r' hr => ?_
  have hb := h.beta.append (.cons S.zero .nil)
  refine .check (by unfold UTri.shape; rw [hr.n]) (.check (by rw [hb.len]) ?_)
  refine SameOut.bind (P := S.U) (SameOut.forRange' hr fun i _ _ _ _ hr => (h.c.lrd i).bind fun _ _ k1 => (h.s.lrd i).bind
    fun _ _ k2 => (twin_ugetMut S hr i _).bind fun _ _ k3 => (twin_hget S h.hess _ _).bind fun _ _ k4 =>
      (twin_uset S hr _ _ (S.add (S.mul (S.neg k2) k3) (S.mul k1 k4))).bind fun _ _ hr =>
      twin_uset S hr _ _ (S.add (S.mul k1 k3) (S.mul k2 k4))) fun r r' hr => ?_
  refine (twin_ugetMut S hr _ _).bind fun rn rn' hrn => (hs (S.add (S.mul hrn hrn) (S.mul h.h h.h))).bind fun _ _ hd =>
    (S.div h.h hd).bind fun _ _ hsn => (S.div hrn hd).bind fun _ _ hcn => ?_
  have hss := h.s.append (.cons hsn .nil)
  have hcc := h.c.append (.cons hcn .nil)
  refine .check (by rw [hcc.len]) (.check (by rw [hss.len]) ?_)
  exact (hss.lrd _).bind fun _ _ h1 => (hcc.lrd _).bind fun _ _ h2 => (hb.lrd _).bind fun _ _ h3 =>
    (hb.lwr _ (S.mul (S.neg h1) h3)).bind fun _ _ hb => (hb.lwr _ (S.mul h2 h3)).bind fun _ _ hb =>
    (twin_uset S hr _ _ (S.add (S.mul h2 hrn) (S.mul h1 h.h))).bind fun _ _ hr => .ok ⟨h.q, h.hess, h.h, hss, hcc, hr, hb⟩

/-- The GMRES solver: constructor and `solve`. -/
theorem C94_gmres [CZero T] [CZero T'] [LT T] [LT T'] [DecidableLT T] [DecidableLT T'] (hz : S.SameZ)
    (hs : S.SameSqrt) (hlt : S.SameLt) (ho : S.GOps' ops ops' K) (rt : Nat → Nat) (nd : Bool) :
    (∀ {a a' tol tol'}, K a a' → S.rel tol tol' → SameOut (TwinG S K) (Gmres.new ops a tol) (Gmres.new ops' a' tol')) ∧
    ∀ {g g'} {b : List T} {b' : List T'}, TwinG S K g g' → S.L b b' →
      SameOut S.L (Gmres.solve rt nd ops g b) (Gmres.solve rt nd ops' g' b') := by
  constructor
  · intro a a' tol tol' ha ht
    exact (C94_ilu S hz ho.toOps ha).2.bind fun _ _ hl => .ok ⟨ha, hl, ht⟩
  · intro g g' b b' hg hb
    have hstart : ∀ n, SameOut (TwinSt S) (Gmres.start rt ops g n b) (Gmres.start rt ops' g' n b') := by
      intro n
      unfold Gmres.start
      exact (C94_ilu_solve S ho.toOps hg.lu hb).bind fun _ _ hx => (C94_norm2 S (.of1 hx) hs 0 .zero).1.bind fun _ _ hn =>
        (twin_normalised S hn hx).bind fun _ _ hq => (twin_unew S rt .nil).noexcept.bind fun _ _ hr =>
        (twin_hnew S rt .nil).noexcept.bind fun _ _ hH => .ok ⟨.cons hq .nil, hH, S.zero, .nil, .nil, hr, .cons hn .nil⟩
    have hit : ∀ i (s : Gmres.St T) (s' : Gmres.St T'), TwinSt S s s' →
        SameOut (SameOut.Both (TwinSt S) (TwinSt S)) (Gmres.iterate nd ops g i s) (Gmres.iterate nd ops' g' i s') := by
      intro i s s' h
      unfold Gmres.iterate
      refine (twin_arnoldi S hs ho hg nd h).bind fun _ _ h => (twin_givens S hs nd h).bind fun s s' h => ?_
      unfold Gmres.check
      rw [h.beta.len]
      refine (h.beta.lrd _).bind fun v v' hv => ?_
      have habs : S.rel (Gmres.abs' v) (Gmres.abs' v') := by
        unfold Gmres.abs'
        by_cases e : v < 0
        · rw [if_pos e, if_pos ((hlt hv S.zero).mp e)]; exact S.neg hv
        · rw [if_neg e, if_neg (fun k => e ((hlt hv S.zero).mpr k))]; exact hv
      exact .ite (hlt habs hg.tol) (fun _ => .ok h) fun _ => .ok h
    unfold Gmres.solve
    refine .same (ho.shape hg.mat) fun sh _ => (hstart sh.1).bind fun s s' h => ?_
    refine (SameOut.forRet h fun i s s' _ _ h => hit i s s' h).bind fun r r' hr => ?_
    have ha : TwinSt S (Gmres.after r) (Gmres.after r') := by
      match r, r', hr with
      | .inl _, .inl _, hr => exact hr
      | .inr _, .inr _, hr => exact hr
    dsimp only
    rw [ha.beta.len]
    refine (twin_backSub S ha.r (ha.beta.take _)).bind fun y y' hy => ?_
    have hby := hy.append (ha.beta.drop ((Gmres.after r').beta.length - 1))
    exact SameOut.forRange' (.replicate _ S.zero) fun i _ _ _ _ hx => (hby.lrd i).bind fun _ _ h1 =>
      (twin_qAt S ha.q i).bind fun _ _ h2 => (twin_smulOp S h1 h2).bind fun _ _ h3 => twin_gaxpy S S.one h3 hx

end gmres

/-! ## Homomorphisms of fields

The rational numbers in a larger field, complex conjugation.  Computing with the images of data gives the image of what the
data give, and fails where the data fail. -/

section hom
variable {K L : Type} [Field K] [Field L] [DecidableEq K] [DecidableEq L] (f : K →+* L)

theorem hom_list (x : List K) : (Twin.hom f).L x (x.map f) := by
  induction x with
  | nil => exact .nil
  | cons a x ih => exact .cons rfl ih

theorem hom_mem (m : Mem K) : (Twin.hom f).M m fun p => (m p).map f := fun p => hom_list f (m p)

theorem hom_list_eq {x : List K} {y : List L} (h : (Twin.hom f).L x y) : y = x.map f := by
  unfold Twin.L at h
  induction h with
  | nil => rfl
  | cons h _ ih => rw [ih, show _ = f _ from h]; rfl

theorem sameOut_hom {r : Res (List K)} {r' : Res (List L)} (h : SameOut (Twin.hom f).L r r') : r' = r.map (List.map f) := by
  rcases h.cases with ⟨e, h1, h2⟩ | ⟨a, b, h1, h2, hab⟩
  · rw [h1, h2]; rfl
  · rw [h1, h2, hom_list_eq f hab]; rfl

/-- The solvers commute with homomorphisms of fields: the tri-diagonal solver, the modified Cholesky factorisation, the
incomplete factorisation of a dense matrix with its solve. -/
theorem C94_hom (nd : Bool) (a : TriDiag K) (b : List K) (mt : MemType) (n : Nat) (c : List K) (d : DMat K) :
    (Tdma.solveVec nd ⟨a.dl.map f, a.d.map f, a.du.map f⟩ 0 1 (Mem.ofList [b.map f, b.map f])).map (fun m => m 1) =
      ((Tdma.solveVec nd a 0 1 (Mem.ofList [b, b])).map fun m => m 1).map (List.map f) ∧
    Chol.modNew mt n (c.map f) = (Chol.modNew mt n c).map (List.map f) ∧
    (Ilu.new dOps ⟨d.n, d.m, d.elems.map f⟩).map (·.elems) = ((Ilu.new dOps d).map (·.elems)).map (List.map f) := by
  refine ⟨sameOut_hom f ?_, sameOut_hom f (C94_mod_cholesky _ (Twin.hom_z f) mt n (hom_list f c)), sameOut_hom f ?_⟩
  · have h := (C94_tdma (Twin.hom f) (a := a) (a' := ⟨a.dl.map f, a.d.map f, a.du.map f⟩)
      ⟨hom_list f _, hom_list f _, hom_list f _⟩ (.of2 (hom_list f b) (hom_list f b)) nd).1 0 1
    rcases h.cases with ⟨e, h1, h2⟩ | ⟨u, v, h1, h2, huv⟩
    · rw [h1, h2]; exact .error _
    · rw [h1, h2]; exact huv 1
  · have h := (C94_ilu (Twin.hom f) (Twin.hom_z f) (C94_classes (Twin.hom f) nd).1.toOps (a := d)
      (a' := ⟨d.n, d.m, d.elems.map f⟩) ⟨rfl, rfl, hom_list f _⟩).2
    rcases h.cases with ⟨e, h1, h2⟩ | ⟨u, v, h1, h2, huv⟩
    · exact h1 ▸ h2 ▸ SameOut.error _
    · exact h1 ▸ h2 ▸ huv.elems

end hom

/-- A system with rational data, solved with real numbers. -/
example : (Tdma.solveVec false (⟨[1].map (Rat.castHom ℝ), [2, 2].map (Rat.castHom ℝ), [1].map (Rat.castHom ℝ)⟩ : TriDiag ℝ) 0 1
    (Mem.ofList [[3, 3].map (Rat.castHom ℝ), [3, 3].map (Rat.castHom ℝ)])).map (fun m => m 1) =
      .ok ([1, 1].map (Rat.castHom ℝ)) := by
  have h := (C94_hom (Rat.castHom ℝ) false ⟨[1], [2, 2], [1]⟩ [3, 3] .square 0 [] ⟨0, 0, []⟩).1
  refine h.trans ?_
  have : ((Tdma.solveVec false (⟨[1], [2, 2], [1]⟩ : TriDiag ℚ) 0 1 (Mem.ofList [[3, 3], [3, 3]])).map fun m => m 1) = .ok [1, 1] := by
    decide +kernel
  rw [this]; rfl

/-- Conjugate data give the conjugate solution. -/
example (nd : Bool) (a : TriDiag ℂ) (b : List ℂ) :
    (Tdma.solveVec nd ⟨a.dl.map (starRingEnd ℂ), a.d.map (starRingEnd ℂ), a.du.map (starRingEnd ℂ)⟩ 0 1
      (Mem.ofList [b.map (starRingEnd ℂ), b.map (starRingEnd ℂ)])).map (fun m => m 1) =
      ((Tdma.solveVec nd a 0 1 (Mem.ofList [b, b])).map fun m => m 1).map (List.map (starRingEnd ℂ)) :=
  (C94_hom (starRingEnd ℂ) nd a b .square 0 [] ⟨0, 0, []⟩).1

/-- A division by zero on both sides. -/
example : (Tdma.solveVec false (⟨[1].map (Rat.castHom ℝ), [0, 2].map (Rat.castHom ℝ), [1].map (Rat.castHom ℝ)⟩ : TriDiag ℝ) 0 1
    (Mem.ofList [[3, 3].map (Rat.castHom ℝ), [3, 3].map (Rat.castHom ℝ)])).map (fun m => m 1) = .error .nonFinite := by
  have h := (C94_hom (Rat.castHom ℝ) false ⟨[1], [0, 2], [1]⟩ [3, 3] .square 0 [] ⟨0, 0, []⟩).1
  refine h.trans ?_
  have : ((Tdma.solveVec false (⟨[1], [0, 2], [1]⟩ : TriDiag ℚ) 0 1 (Mem.ofList [[3, 3], [3, 3]])).map fun m => m 1) = .error .nonFinite := by
    decide +kernel
  rw [this]; rfl

end Lalib.Props
