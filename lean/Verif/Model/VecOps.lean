import Verif.Core.Mem

/-!
# Model of the vector operations

Files: `include/lalib/ops/vec_ops_core.hpp`, `include/lalib/ops/vec_ops.hpp`,
`include/lalib/vec/dyn_vec.hpp`, `include/lalib/vec/sized_vec.hpp`.

A `DynVec`/`SizedVec` object is a buffer of `Mem T`; a `SizedVec<T,N>` argument is a buffer whose length is
`N` (guaranteed by its type in C++, a hypothesis here).  The `omp simd` loops run in index order, the
`omp parallel for` loops run in an arbitrary order given by the parameter `ord`
(`Verif/Model/Interleave.lean` refines that to arbitrary interleavings of single accesses).
The 32-bit loop counters are modelled in `Verif/Model/Counter.lean`; here counters are unbounded.
-/

namespace Lalib

variable {T : Type}

/-- The statement `vr[i] = f(v[i])`. -/
def elem1 (f : T → T) (v vr : Nat) (i : Nat) (m : Mem T) : Res (Mem T) := do
  let a ← m.rd v i
  m.wr vr i (f a)

/-- The statement `vr[i] = f(v1[i], v2[i])`. -/
def elem2 (f : T → T → T) (v1 v2 vr : Nat) (i : Nat) (m : Mem T) : Res (Mem T) := do
  let a ← m.rd v1 i
  let b ← m.rd v2 i
  m.wr vr i (f a b)

/-! ## Kernels, `vec_ops_core.hpp` -/

/-- `__neg_core_simd`, `vec_ops_core.hpp:13-19`. -/
def negCoreSimd [Neg T] (m : Mem T) (v vr size : Nat) : Res (Mem T) :=
  forRange 0 size (elem1 (fun a => -a) v vr) m

/-- `__neg_core_parallel`, `vec_ops_core.hpp:22-28`; `ord` is the order of the iterations. -/
def negCoreParallel [Neg T] (ord : List Nat) (m : Mem T) (v vr : Nat) : Res (Mem T) :=
  forOrder (elem1 (fun a => -a) v vr) ord m

/-- `__add_core_simd`, `vec_ops_core.hpp:31-37`. -/
def addCoreSimd [Add T] (m : Mem T) (v1 v2 vr size : Nat) : Res (Mem T) :=
  forRange 0 size (elem2 (· + ·) v1 v2 vr) m

/-- `__add_core_parallel`, `vec_ops_core.hpp:40-46` (also `__add_core_accelerator`, `:49-55`). -/
def addCoreParallel [Add T] (ord : List Nat) (m : Mem T) (v1 v2 vr : Nat) : Res (Mem T) :=
  forOrder (elem2 (· + ·) v1 v2 vr) ord m

/-- `add_core`, `vec_ops_core.hpp:66-77`. -/
def addCore [Add T] (ord : List Nat) (m : Mem T) (v1 v2 vr size : Nat) : Res (Mem T) :=
  if size < 16 then addCoreSimd m v1 v2 vr size else addCoreParallel ord m v1 v2 vr

/-- `__sub_core_simd`, `vec_ops_core.hpp:81-87`. -/
def subCoreSimd [Sub T] (m : Mem T) (v1 v2 vr size : Nat) : Res (Mem T) :=
  forRange 0 size (elem2 (· - ·) v1 v2 vr) m

/-- `__sub_core_parallel`, `vec_ops_core.hpp:90-96` (also `__sub_core_accelerator`, `:99-105`). -/
def subCoreParallel [Sub T] (ord : List Nat) (m : Mem T) (v1 v2 vr : Nat) : Res (Mem T) :=
  forOrder (elem2 (· - ·) v1 v2 vr) ord m

/-- `sub_core`, `vec_ops_core.hpp:116-127`. -/
def subCore [Sub T] (ord : List Nat) (m : Mem T) (v1 v2 vr size : Nat) : Res (Mem T) :=
  if size < 16 then subCoreSimd m v1 v2 vr size else subCoreParallel ord m v1 v2 vr

/-- `__axpy_core_simd`, `vec_ops_core.hpp:131-137`; `axpy_core` (`:158-201`) calls it in every
instantiation of the internal backend. -/
def axpyCore [Add T] [Mul T] (alpha : T) (m : Mem T) (vx vy size : Nat) : Res (Mem T) :=
  forRange 0 size (elem2 (fun a b => alpha * a + b) vx vy vy) m

/-- `__axpy_core_parallel`, `vec_ops_core.hpp:140-146`. -/
def axpyCoreParallel [Add T] [Mul T] (alpha : T) (ord : List Nat) (m : Mem T) (vx vy : Nat) :
    Res (Mem T) :=
  forOrder (elem2 (fun a b => alpha * a + b) vx vy vy) ord m

/-- `__dot_core_simd`, `vec_ops_core.hpp:207-214`, and `dot_core<float/double>`, `:223-242`.
The first product is formed before the loop, whatever `size` is.  The `simd reduction` runs in index
order here; other reduction shapes are the subject of `dotCoreTree`. -/
def dotCore [Add T] [Mul T] (m : Mem T) (v1 v2 size : Nat) : Res T := do
  let a ← m.rd v1 0
  let b ← m.rd v2 0
  forRange 1 size (fun i r => do
    let a ← m.rd v1 i
    let b ← m.rd v2 i
    .ok (r + a * b)) (a * b)

/-- Shapes of a reduction: private accumulators start from zero and partial results are combined in any
order and association. -/
inductive RedTree where
  | zero
  | leaf (i : Nat)
  | node (l r : RedTree)

/-- The iterations which a reduction tree consumes. -/
def RedTree.leaves : RedTree → List Nat
  | .zero => []
  | .leaf i => [i]
  | .node l r => l.leaves ++ r.leaves

/-- Evaluation of a reduction tree on the products `v1[i]*v2[i]`. -/
def RedTree.eval [Zero T] [Add T] [Mul T] (m : Mem T) (v1 v2 : Nat) : RedTree → Res T
  | .zero => .ok 0
  | .leaf i => do
    let a ← m.rd v1 i
    let b ← m.rd v2 i
    .ok (a * b)
  | .node l r => do
    let x ← l.eval m v1 v2
    let y ← r.eval m v1 v2
    .ok (x + y)

/-- `__dot_core_simd` (`vec_ops_core.hpp:207-214`) with an arbitrary shape of the
`simd reduction(+:r)` over the iterations `1 .. size-1`. -/
def dotCoreTree [Zero T] [Add T] [Mul T] (t : RedTree) (m : Mem T) (v1 v2 : Nat) : Res T := do
  let a ← m.rd v1 0
  let b ← m.rd v2 0
  let r ← t.eval m v1 v2
  .ok (a * b + r)

/-- `cross2_core`, `vec_ops_core.hpp:248-251`. -/
def cross2Core [Sub T] [Mul T] (m : Mem T) (v1 v2 : Nat) : Res T := do
  let a0 ← m.rd v1 0
  let b1 ← m.rd v2 1
  let b0 ← m.rd v2 0
  let a1 ← m.rd v1 1
  .ok (a0 * b1 - b0 * a1)

/-- `cross3_core`, `vec_ops_core.hpp:254-261`. -/
def cross3Core [Sub T] [Mul T] (m : Mem T) (v1 v2 vr : Nat) : Res (Mem T) := do
  let a0 ← m.rd v1 0
  let a1 ← m.rd v1 1
  let a2 ← m.rd v1 2
  let b0 ← m.rd v2 0
  let b1 ← m.rd v2 1
  let b2 ← m.rd v2 2
  let r0 := a1 * b2 - b1 * a2
  let r1 := a2 * b0 - b2 * a0
  let r2 := a0 * b1 - b0 * a1
  let m ← m.wr vr 0 r0
  let m ← m.wr vr 1 r1
  m.wr vr 2 r2

/-- `cross3_acc_core`, `vec_ops_core.hpp:264-271`. -/
def cross3AccCore [Add T] [Sub T] [Mul T] (m : Mem T) (v1 v2 vr : Nat) : Res (Mem T) := do
  let a0 ← m.rd v1 0
  let a1 ← m.rd v1 1
  let a2 ← m.rd v1 2
  let b0 ← m.rd v2 0
  let b1 ← m.rd v2 1
  let b2 ← m.rd v2 2
  let c0 ← m.rd vr 0
  let c1 ← m.rd vr 1
  let c2 ← m.rd vr 2
  let r0 := a1 * b2 - b1 * a2 + c0
  let r1 := a2 * b0 - b2 * a0 + c1
  let r2 := a0 * b1 - b0 * a1 + c2
  let m ← m.wr vr 0 r0
  let m ← m.wr vr 1 r1
  m.wr vr 2 r2

/-- `__scal_core_simd`, `vec_ops_core.hpp:277-283`, called by every `scal_core` (`:286-309`) of the
internal backend. -/
def scalCore [Mul T] (alpha : T) (m : Mem T) (v size : Nat) : Res (Mem T) :=
  forRange 0 size (elem1 (fun a => alpha * a) v v) m

/-- `__norm2_core_simd`, `vec_ops_core.hpp:315-322`; called by `norm2_core`, `:325-350`. -/
def norm2Core [Zero T] [Add T] [Mul T] [CSqrt T]
    (m : Mem T) (v size : Nat) : Res T := do
  let r ← forRange 0 size (fun i r => do
    let a ← m.rd v i
    let b ← m.rd v i
    .ok (r + a * b)) 0
  sqrtC r

/-- `__norm2_core_simd` (`vec_ops_core.hpp:315-322`) with an arbitrary shape of the `simd reduction(+:r)`. -/
def norm2CoreTree [Zero T] [Add T] [Mul T] [CSqrt T] (t : RedTree) (m : Mem T)
    (v : Nat) : Res T := do
  let r ← t.eval m v v
  sqrtC (0 + r)

/-! ## Overloads, `vec_ops.hpp` -/

/-- `__check_size`, `vec_ops.hpp:231-235` and `dyn_vec.hpp:213-217`. -/
def checkSize (n1 n2 : Nat) : Res Unit := throwIf (n1 != n2) (.sizeMismatched n1 n2)

/-- `neg(SizedVec, SizedVec&)`, `vec_ops.hpp:240-245`. -/
def negS [Neg T] (N : Nat) (m : Mem T) (v vr : Nat) : Res (Mem T) :=
  noexcept (negCoreSimd m v vr N)

/-- `neg(DynVec, DynVec&)`, `vec_ops.hpp:247-253`: `noexcept`, although the size check throws. -/
def negD [Neg T] (m : Mem T) (v vr : Nat) : Res (Mem T) := noexcept do
  checkSize (m.len v) (m.len vr)
  negCoreSimd m v vr (m.len v)

/-- `add(SizedVec, SizedVec, SizedVec&)`, `vec_ops.hpp:273-278`. -/
def addSS [Add T] (ord : List Nat) (N : Nat) (m : Mem T) (v1 v2 vr : Nat) : Res (Mem T) :=
  noexcept (addCore ord m v1 v2 vr N)

/-- `add(SizedVec, DynVec, SizedVec&)` and `add(DynVec, SizedVec, SizedVec&)`,
`vec_ops.hpp:280-294`. -/
def addSD [Add T] (ord : List Nat) (N : Nat) (m : Mem T) (v1 v2 vr : Nat) : Res (Mem T) := do
  checkSize (m.len v1) (m.len v2)
  addCore ord m v1 v2 vr N

/-- `add(DynVec, DynVec, DynVec&)`, `vec_ops.hpp:296-301`: the size of `vr` is not checked. -/
def addDD [Add T] (ord : List Nat) (m : Mem T) (v1 v2 vr : Nat) : Res (Mem T) := do
  checkSize (m.len v1) (m.len v2)
  addCore ord m v1 v2 vr (m.len v1)

/-- `operator+(DynVec, DynVec)`, `vec_ops.hpp:311-317` (the `SizedVec` form `:304-309` differs only in
that the sizes agree by type), in any memory; `r` is the new object `vr`, which starts as a copy of `v1`. -/
def addOpAt [Add T] (ord : List Nat) (m : Mem T) (v1 v2 r : Nat) : Res (Mem T) :=
  addDD ord (m.setBuf r (m v1)) v1 v2 r

/-- The value of `v1 + v2`, `vec_ops.hpp:304-317`. -/
def addOp [Add T] (ord : List Nat) (v1 v2 : List T) : Res (List T) := do
  let m ← addOpAt ord (Mem.ofList [v1, v2]) 0 1 2
  .ok (m 2)

/-- `sub(SizedVec, SizedVec, SizedVec&)`, `vec_ops.hpp:321-325`. -/
def subSS [Sub T] (ord : List Nat) (N : Nat) (m : Mem T) (v1 v2 vr : Nat) : Res (Mem T) :=
  noexcept (subCore ord m v1 v2 vr N)

/-- `sub(DynVec, SizedVec, SizedVec&)`, `vec_ops.hpp:335-341`.  (The mirror overload `:327-333` returns
`v1` as `SizedVec&` and does not compile.) -/
def subSD [Sub T] (ord : List Nat) (N : Nat) (m : Mem T) (v1 v2 vr : Nat) : Res (Mem T) := do
  checkSize (m.len v1) (m.len v2)
  subCore ord m v1 v2 vr N

/-- `sub(DynVec, DynVec, DynVec&)`, `vec_ops.hpp:343-348`: the size of `vr` is not checked. -/
def subDD [Sub T] (ord : List Nat) (m : Mem T) (v1 v2 vr : Nat) : Res (Mem T) := do
  checkSize (m.len v1) (m.len v2)
  subCore ord m v1 v2 vr (m.len v1)

/-- `operator-(DynVec, DynVec)`, `vec_ops.hpp:358-364` (`SizedVec`: `:351-356`); `r` is the new object. -/
def subOpAt [Sub T] (ord : List Nat) (m : Mem T) (v1 v2 r : Nat) : Res (Mem T) :=
  subDD ord (m.setBuf r (m v1)) v1 v2 r

/-- The value of `v1 - v2`, `vec_ops.hpp:351-364`. -/
def subOp [Sub T] (ord : List Nat) (v1 v2 : List T) : Res (List T) := do
  let m ← subOpAt ord (Mem.ofList [v1, v2]) 0 1 2
  .ok (m 2)

/-- unary `operator-(DynVec)`, `vec_ops.hpp:263-269` (`SizedVec`: `:255-261`); `uninit` is
`DynVec::uninit`, `dyn_vec.hpp:105-109`: `n` value-initialised elements; `r` is the new object. -/
def negOpAt [Neg T] [Zero T] (m : Mem T) (v r : Nat) : Res (Mem T) :=
  negD (m.setBuf r (List.replicate (m.len v) 0)) v r

/-- The value of `-v`, `vec_ops.hpp:255-269`. -/
def negOp [Neg T] [Zero T] (v : List T) : Res (List T) := do
  let m ← negOpAt (Mem.ofList [v]) 0 1
  .ok (m 1)

/-- `axpy(T, SizedVec, SizedVec&)`, `vec_ops.hpp:369-374`. -/
def axpyS [Add T] [Mul T] (N : Nat) (alpha : T) (m : Mem T) (x y : Nat) : Res (Mem T) :=
  noexcept (axpyCore alpha m x y N)

/-- `axpy(T, DynVec, DynVec&)`, `vec_ops.hpp:375-381`: `noexcept`, although the size check throws. -/
def axpyD [Add T] [Mul T] (alpha : T) (m : Mem T) (x y : Nat) : Res (Mem T) := noexcept do
  checkSize (m.len x) (m.len y)
  axpyCore alpha m x y (m.len x)

/-- `scale(T, SizedVec&)` / `scale(T, DynVec&)`, `vec_ops.hpp:387-396`. -/
def scaleV [Mul T] (alpha : T) (m : Mem T) (x : Nat) : Res (Mem T) :=
  noexcept (scalCore alpha m x (m.len x))

/-- `operator*(T, DynVec)`, `vec_ops.hpp:416-421` (`SizedVec`: `:409-414`; `scaled`, `:399-406`, calls
it; `operator*(DynVec, T)`, `:423-435`, has the same body); `r` is the new object, a copy of `x`. -/
def smulOpAt [Mul T] (alpha : T) (m : Mem T) (x r : Nat) : Res (Mem T) :=
  noexcept (scalCore alpha (m.setBuf r (m x)) r (m.len x))

/-- The value of `alpha * x`, `vec_ops.hpp:409-421`. -/
def smulOp [Mul T] (alpha : T) (x : List T) : Res (List T) := do
  let m ← smulOpAt alpha (Mem.ofList [x]) 0 1
  .ok (m 1)

/-- `scaled(T, DynVec)`, `vec_ops.hpp:399-406`. -/
def scaled [Mul T] (alpha : T) (x : List T) : Res (List T) := noexcept (smulOp alpha x)

/-- `operator*(DynVec, T)`, `vec_ops.hpp:430-435` (`SizedVec`: `:423-428`). -/
def mulsOp [Mul T] (x : List T) (alpha : T) : Res (List T) := noexcept do
  let m ← scalCore alpha ((Mem.ofList [x]).setBuf 1 x) 1 x.length
  .ok (m 1)

/-- `reciprocal`, `ops_traits.hpp:41-51`. -/
def reciprocal [Zero T] [One T] [CDiv T] (x : T) : Res T := divC 1 x

/-- `operator/(DynVec, T)`, `vec_ops.hpp:444-449` (`SizedVec`: `:437-442`); `r` is the new object. -/
def divOpAt [Zero T] [One T] [CDiv T] [Mul T] (m : Mem T) (x : Nat) (alpha : T)
    (r : Nat) : Res (Mem T) := noexcept do
  let a ← reciprocal alpha
  scalCore a (m.setBuf r (m x)) r (m.len x)

/-- The value of `x / alpha`, `vec_ops.hpp:437-449`. -/
def divOp [Zero T] [One T] [CDiv T] [Mul T] (x : List T) (alpha : T) :
    Res (List T) := do
  let m ← divOpAt (Mem.ofList [x]) 0 alpha 1
  .ok (m 1)

/-- `dot(SizedVec, SizedVec)`, `vec_ops.hpp:454-459`; `SizedVec::dot(SizedVec)`,
`sized_vec.hpp:199-205`. -/
def dotSS [Add T] [Mul T] (N : Nat) (m : Mem T) (x y : Nat) : Res T :=
  noexcept (dotCore m x y N)

/-- `dot(DynVec, DynVec)`, `vec_ops.hpp:460-466`: `noexcept`, although the size check throws. -/
def dotDD [Add T] [Mul T] (m : Mem T) (x y : Nat) : Res T := noexcept do
  checkSize (m.len x) (m.len y)
  dotCore m x y (m.len x)

/-- `DynVec::dot(DynVec)`, `dyn_vec.hpp:182-189`, and `DynVec::dot(SizedVec)`, `:201-209`. -/
def dynDot [Add T] [Mul T] (m : Mem T) (x y : Nat) : Res T := do
  checkSize (m.len x) (m.len y)
  dotCore m x y (m.len x)

/-- `SizedVec::dot(DynVec)`, `sized_vec.hpp:207-213`: no size check. -/
def sizedDotDyn [Add T] [Mul T] (N : Nat) (m : Mem T) (x y : Nat) : Res T :=
  noexcept (dotCore m x y N)

/-- `DynVec::norm2`, `dyn_vec.hpp:191-197`; `SizedVec::norm2`, `sized_vec.hpp:215-221`. -/
def vecNorm2 [Zero T] [Add T] [Mul T] [CSqrt T] (m : Mem T) (x : Nat) :
    Res T :=
  noexcept (norm2Core m x (m.len x))

/-- `cross` on 2-vectors, `vec_ops.hpp:471-497`; `dx`, `dy` tell which operands are `DynVec`s (their
sizes are asserted). -/
def cross2 [Sub T] [Mul T] (nd dx dy : Bool) (m : Mem T) (x y : Nat) : Res T := noexcept do
  cassert nd (!dx || m.len x == 2)
  cassert nd (!dy || m.len y == 2)
  cross2Core m x y

/-- `cross(x, y, vr)` on 3-vectors, `vec_ops.hpp:506-582`; `dx`, `dy`, `dr` tell which arguments are
`DynVec`s (their sizes are asserted).  The value-returning forms (`:500-505`, `:518-524`) copy `x` to
`vr` first; those with a `DynVec` first operand (`:539-545`, `:560-567`) return a `DynVec` as `SizedVec`
and do not compile. -/
def cross3 [Sub T] [Mul T] (nd dx dy dr : Bool) (m : Mem T) (x y vr : Nat) : Res (Mem T) := noexcept do
  cassert nd (!dx || m.len x == 3)
  cassert nd (!dy || m.len y == 3)
  cassert nd (!dr || m.len vr == 3)
  cross3Core m x y vr

/-- `cross_acc(x, y, vr)`, `vec_ops.hpp:585-639`; flags as in `cross3`. -/
def crossAcc [Add T] [Sub T] [Mul T] (nd dx dy dr : Bool) (m : Mem T) (x y vr : Nat) :
    Res (Mem T) := noexcept do
  cassert nd (!dx || m.len x == 3)
  cassert nd (!dy || m.len y == 3)
  cassert nd (!dr || m.len vr == 3)
  cross3AccCore m x y vr

/-! ## Memory left behind by a throwing call

`Res` forgets the memory when an exception is thrown.  For the overloads which check sizes the following
variants keep it.  The kernels are `noexcept`, so an exception can only come from the check. -/

/-- Outcome of a call together with the memory it leaves behind. -/
structure Out (T : Type) where
  res : Res Unit
  mem : Mem T

/-- A `noexcept` kernel called on `m`.  (If it does not return there is no caller to observe memory.) -/
def Out.kernel (m : Mem T) (k : Mem T → Res (Mem T)) : Out T :=
  match k m with
  | .ok m' => ⟨.ok (), m'⟩
  | .error e => ⟨.error e, m⟩

/-- A check followed by the rest of the function. -/
def Out.check (m : Mem T) (c : Res Unit) (k : Mem T → Out T) : Out T :=
  match c with
  | .ok () => k m
  | .error e => ⟨.error e, m⟩

/-- `add(DynVec, DynVec, DynVec&)`, `vec_ops.hpp:296-301`, with the final memory. -/
def addDDOut [Add T] (ord : List Nat) (m : Mem T) (v1 v2 vr : Nat) : Out T :=
  Out.check m (checkSize (m.len v1) (m.len v2)) fun m =>
    Out.kernel m fun m => addCore ord m v1 v2 vr (m.len v1)

/-- `add(SizedVec, DynVec, SizedVec&)`, `vec_ops.hpp:280-294`, with the final memory. -/
def addSDOut [Add T] (ord : List Nat) (N : Nat) (m : Mem T) (v1 v2 vr : Nat) : Out T :=
  Out.check m (checkSize (m.len v1) (m.len v2)) fun m =>
    Out.kernel m fun m => addCore ord m v1 v2 vr N

/-- `sub(DynVec, DynVec, DynVec&)`, `vec_ops.hpp:343-348`, with the final memory. -/
def subDDOut [Sub T] (ord : List Nat) (m : Mem T) (v1 v2 vr : Nat) : Out T :=
  Out.check m (checkSize (m.len v1) (m.len v2)) fun m =>
    Out.kernel m fun m => subCore ord m v1 v2 vr (m.len v1)

/-- `sub(DynVec, SizedVec, SizedVec&)`, `vec_ops.hpp:335-341`, with the final memory. -/
def subSDOut [Sub T] (ord : List Nat) (N : Nat) (m : Mem T) (v1 v2 vr : Nat) : Out T :=
  Out.check m (checkSize (m.len v1) (m.len v2)) fun m =>
    Out.kernel m fun m => subCore ord m v1 v2 vr N

/-- `DynVec::uninit`, `dyn_vec.hpp:105-109`: `std::vector<T>(n)` value-initialises. -/
def dynVecUninit [Zero T] (n : Nat) : List T := List.replicate n 0

/-- `DynVec::filled`, `dyn_vec.hpp:111-115`. -/
def dynVecFilled (n : Nat) (v : T) : List T := List.replicate n v

/-- `SizedVec(std::vector)` / `SizedVec(initializer_list)`, `sized_vec.hpp:97-121`. -/
def sizedVecNew (N : Nat) (l : List T) : Res (List T) := do
  throwIf (l.length != N) .runtimeError
  .ok l

/-- `SizedVec::filled`, `sized_vec.hpp:88-95, 129-133`. -/
def sizedVecFilled (N : Nat) (v : T) : List T := List.replicate N v

end Lalib
