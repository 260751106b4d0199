import Verif.Model.VecOps

/-!
# Model of the sparse matrices

Files: `include/lalib/mat/sp_mat.hpp`, `include/lalib/ops/mat_ops.hpp`, `include/lalib/ops/sp_mat_ops.hpp`,
`include/lalib/ops/mat_vec_ops*.hpp`.

Library calls of the standard library are modelled by their contracts: `std::sort` is any function that
returns a sorted permutation (`LawfulSort`), `std::upper_bound` is undefined on a range that is not
partitioned, `*std::max_element` is undefined on an empty range.
-/

namespace Lalib

variable {T : Type}

/-! ## Standard library calls -/

/-- `std::ranges::sort(ids, comp)`: a function of the comparison and the input. -/
abbrev SortFn := (Nat → Nat → Bool) → List Nat → List Nat

/-- `comp` is a strict weak ordering on the elements of `l`, the precondition of `std::sort`. -/
structure StrictWeak (lt : Nat → Nat → Bool) : Prop where
  irrefl : ∀ a, lt a a = false
  trans : ∀ a b c, lt a b = true → lt b c = true → lt a c = true
  incomp : ∀ a b c, lt a b = false → lt b a = false → lt b c = false → lt c b = false →
    lt a c = false ∧ lt c a = false

/-- The contract of `std::sort`: a permutation without inversions.  Nothing is said about ties. -/
def LawfulSort (srt : SortFn) : Prop :=
  ∀ lt, StrictWeak lt → ∀ l, (srt lt l).Perm l ∧ (srt lt l).Pairwise (fun a b => lt b a = false)

/-- `std::upper_bound(l.begin()+lo, l.begin()+hi, i, std::less{})` as an index: the first position whose
element exceeds `i`.  Undefined if the range is not partitioned with respect to `i`. -/
def upperBound (l : List Nat) (lo hi i : Nat) : Res Nat :=
  if lo ≤ hi ∧ hi ≤ l.length then
    let seg := (l.drop lo).take (hi - lo)
    let k := (seg.takeWhile (fun x => decide (x ≤ i))).length
    if (seg.drop k).all (fun x => decide (i < x)) then .ok (lo + k) else .error (.ub .unsorted)
  else .error (.ub .oob)

/-- `*std::ranges::max_element(l)`. -/
def maxElem (l : List Nat) : Res Nat :=
  if l = [] then .error (.ub .derefEnd) else .ok (l.foldr max 0)

/-! ## Coordinate format -/

/-- `SpCooMat<T>` (`sp_mat.hpp:129-134`); the member `_zero` is the `0` of `T`. -/
structure Coo (T : Type) where
  val : List T
  row : List Nat
  col : List Nat
  deriving Repr, DecidableEq

namespace Coo

/-- The comparison used by `_sort`, `sp_mat.hpp:431-436`. -/
def cmp (a : Coo T) (i j : Nat) : Bool :=
  if a.row.getD i 0 = a.row.getD j 0 then decide (a.col.getD i 0 < a.col.getD j 0)
  else decide (a.row.getD i 0 < a.row.getD j 0)

/-- `_sort`, `sp_mat.hpp:426-450`.  The comparison reads the index arrays at positions below
`_val.size()`, which the guard makes explicit. -/
def sort (srt : SortFn) (a : Coo T) : Res (Coo T) :=
  if a.val.length ≤ a.row.length ∧ a.val.length ≤ a.col.length then do
    let ids := srt a.cmp (List.range a.val.length)
    let val ← ids.mapM (fun k => lrd a.val k)
    let row ← ids.mapM (fun k => lrd a.row k)
    let col ← ids.mapM (fun k => lrd a.col k)
    .ok ⟨val, row, col⟩
  else .error (.ub .oob)

/-- `SpCooMat(val, row_ids, col_ids)`, `sp_mat.hpp:274-292` (copying and moving constructor). -/
def new (srt : SortFn) (val : List T) (row col : List Nat) : Res (Coo T) := do
  throwIf (val.length != row.length || val.length != col.length) .runtimeError
  sort srt ⟨val, row, col⟩

/-- `SpCooMat()`, `sp_mat.hpp:24`. -/
def empty : Coo T := ⟨[], [], []⟩

/-- `unit(n)`, `sp_mat.hpp:294-306`. -/
def unit [One T] (srt : SortFn) (n : Nat) : Res (Coo T) := do
  let (row, col) ← forRange 0 n (fun i (p : List Nat × List Nat) => do
    let row ← lwr p.1 i i
    let col ← lwr p.2 i i
    .ok (row, col)) (List.replicate n 0, List.replicate n 0)
  new srt (List.replicate n 1) row col

/-- `shape()`, `sp_mat.hpp:309-315`. -/
def shape (a : Coo T) : Res (Nat × Nat) := do
  let r ← maxElem a.row
  let c ← maxElem a.col
  .ok (r + 1, c + 1)

/-- `nnz()`, `sp_mat.hpp:317-320`. -/
def nnz (a : Coo T) : Nat := a.val.length

/-- The search of `operator()` and `mut_at`, `sp_mat.hpp:324-328, 339-343`: the index it returns from. -/
def search (a : Coo T) (i j : Nat) : Res (Unit ⊕ Nat) :=
  forRet 0 a.val.length (fun cnt _ => do
    let r ← lrd a.row cnt
    -- `&&` reads the column only when the row matches
    if r = i then do
      let c ← lrd a.col cnt
      if c = j then .ok (.inr cnt) else .ok (.inl ())
    else .ok (.inl ())) ()

/-- `operator()(i, j) const` / `at`, `sp_mat.hpp:322-335`. -/
def get [Zero T] (a : Coo T) (i j : Nat) : Res T := do
  match ← a.search i j with
  | .inr cnt => lrd a.val cnt
  | .inl _ => .ok 0

/-- `mat.mut_at(i, j) = v`, `sp_mat.hpp:337-345`. -/
def set (a : Coo T) (i j : Nat) (v : T) : Res (Coo T) := do
  match ← a.search i j with
  | .inr cnt => do
    let val ← lwr a.val cnt v
    .ok { a with val := val }
  | .inl _ => .error (.throw .outOfRange)

/-! ### In-place addition -/

/-- State of the inner `while` of `operator+=`: the matrix and the two cursors. -/
structure AddSt (T : Type) where
  a : Coo T
  c : Nat
  r : Nat

/-- `_val.emplace_back(v); _row_ids.emplace_back(i); _col_ids.emplace_back(j);`, `sp_mat.hpp:397-399,
406-408`.  A growth beyond the reserved capacity `cap` would invalidate the iterators kept across it; it
is counted as undefined behaviour as soon as it happens. -/
def push (cap : Nat) (a : Coo T) (i j : Nat) (v : T) : Res (Coo T) :=
  if a.val.length < cap then .ok ⟨a.val ++ [v], a.row ++ [i], a.col ++ [j]⟩
  else .error (.ub .iterInvalid)

/-- One turn of the `while` loop, `sp_mat.hpp:385-414`, row `i`.  `.inl` goes on, `.inr` is a `break`.
`cEnd` and `rEnd` are `cursor_end + 1` and `rcursor_end + 1` (so that they are natural numbers); the
comparisons of the signed cursors are written accordingly.  `rhs` gives the argument `mat` from the
current `*this`: a constant function, or the identity for `a += a`. -/
def addStep [Add T] (rhs : Coo T → Coo T) (cap i cEnd rEnd : Nat) (s : AddSt T) :
    Res (AddSt T ⊕ AddSt T) := do
  let ca ← lrd s.a.col s.c
  let cb ← lrd (rhs s.a).col s.r
  if ca = cb then do
    let va ← lrd s.a.val s.c
    let vb ← lrd (rhs s.a).val s.r
    let val ← lwr s.a.val s.c (va + vb)
    let a := { s.a with val := val }
    if s.r + 1 = rEnd then .ok (.inr { s with a := a })
    else .ok (.inl ⟨a, if s.c + 1 < cEnd then s.c + 1 else s.c,
      if s.r + 1 < rEnd then s.r + 1 else s.r⟩)
  else if ca < cb then
    if s.c + 1 < cEnd then .ok (.inl { s with c := s.c + 1 })
    else do
      let vb ← lrd (rhs s.a).val s.r
      let a ← push cap s.a i cb vb
      if s.r + 1 = rEnd then .ok (.inr { s with a := a })
      else .ok (.inl { s with a := a, r := s.r + 1 })
  else do
    let vb ← lrd (rhs s.a).val s.r
    let a ← push cap s.a i cb vb
    if s.r + 1 = rEnd then .ok (.inr { s with a := a })
    else .ok (.inl { s with a := a, r := if s.r + 1 < rEnd then s.r + 1 else s.r })

/-- The `while` loop, `sp_mat.hpp:384-415`; `rcursor <= rcursor_end` is `r < rEnd`.  `fuel` bounds the number
of turns; running out of it is the outcome `diverge`. -/
def addWhile [Add T] (rhs : Coo T → Coo T) (cap i cEnd rEnd : Nat) : Nat → AddSt T → Res (AddSt T)
  | 0, s => if s.r < rEnd then .error .diverge else .ok s
  | fuel + 1, s =>
    if s.r < rEnd then do
      match ← addStep rhs cap i cEnd rEnd s with
      | .inl s' => addWhile rhs cap i cEnd rEnd fuel s'
      | .inr s' => .ok s'
    else .ok s

/-- State of the outer loop of `operator+=`: the matrix, `row_iter` and `rrow_iter` (as indices). -/
structure AddRow (T : Type) where
  a : Coo T
  p : Nat
  q : Nat

/-- The body of the outer loop for row `i`, `sp_mat.hpp:376-418`. -/
def addRow [Add T] (rhs : Coo T → Coo T) (cap nA nB i : Nat) (s : AddRow T) : Res (AddRow T) := do
  let pe ← upperBound s.a.row s.p nA i
  let qe ← upperBound (rhs s.a).row s.q nB i
  let t ← addWhile rhs cap i pe qe ((pe - s.p) + (qe - s.q)) ⟨s.a, s.p, s.q⟩
  .ok ⟨t.a, pe, qe⟩

/-- The outer loop, `sp_mat.hpp:375-419`: `mat.shape()` is evaluated at every turn. -/
def addRows [Add T] (rhs : Coo T → Coo T) (cap nA nB : Nat) : Nat → Nat → AddRow T → Res (AddRow T)
  | 0, i, s => do
    let sh ← (rhs s.a).shape
    if i < sh.1 then .error .diverge else .ok s
  | fuel + 1, i, s => do
    let sh ← (rhs s.a).shape
    if i < sh.1 then do
      let s ← addRow rhs cap nA nB i s
      addRows rhs cap nA nB fuel (i + 1) s
    else .ok s

/-- `operator+=`, `sp_mat.hpp:365-423`.  After `reserve` the capacity is at least
`size() + mat.nnz()`.  The outer loop is given as many turns as the argument has rows. -/
def addAssign [Add T] (srt : SortFn) (rhs : Coo T → Coo T) (a : Coo T) : Res (Coo T) := do
  let b := rhs a
  let cap := a.val.length + b.nnz
  let s ← addRows rhs cap a.row.length b.row.length (b.row.foldr max 0 + 1) 0 ⟨a, 0, 0⟩
  s.a.sort srt

/-- `scale(alpha, SpCooMat&)`, `mat_ops.hpp:31-35`. -/
def scale [Mul T] (alpha : T) (a : Coo T) : Res (Coo T) := noexcept do
  let m ← scalCore alpha (Mem.ofList [a.val]) 0 a.nnz
  .ok { a with val := m 0 }

/-- `operator*(alpha, SpCooMat)`, `mat_ops.hpp:58-63`: a scaled copy. -/
def smul [Mul T] (alpha : T) (a : Coo T) : Res (Coo T) := noexcept (scale alpha a)

/-- unary `operator-(SpCooMat)`, `mat_ops.hpp:93-99`: a copy scaled by `-1.0`. -/
def neg [Neg T] [One T] [Mul T] (a : Coo T) : Res (Coo T) := noexcept (scale (-1) a)

/-- `operator+(SpCooMat, SpCooMat)`, `sp_mat_ops.hpp:9-14`. -/
def add [Add T] (srt : SortFn) (a b : Coo T) : Res (Coo T) := noexcept (addAssign srt (fun _ => b) a)

/-- `operator-(SpCooMat, SpCooMat)`, `sp_mat_ops.hpp:16-21`. -/
def sub [Add T] [Neg T] [One T] [Mul T] (srt : SortFn) (a b : Coo T) : Res (Coo T) := noexcept do
  let b' ← neg b
  addAssign srt (fun _ => b') a

end Coo

/-! ## Compressed row format -/

/-- `SpMat<T>` (`sp_mat.hpp:260-265`). -/
structure Csr (T : Type) where
  val : List T
  rowPtr : List Nat
  col : List Nat
  deriving Repr, DecidableEq

namespace Csr

/-- The loop of `_convert_coo_crs`, `sp_mat.hpp:466-470`; `fuel` bounds the number of turns. -/
def convLoop (rowIds : List Nat) : Nat → Nat → Nat → List Nat → Res (List Nat)
  | 0, _, it, ptr => if it < rowIds.length then .error .diverge else .ok ptr
  | fuel + 1, i, it, ptr =>
    if it < rowIds.length then do
      let it ← upperBound rowIds it rowIds.length i
      convLoop rowIds fuel (i + 1) it (ptr ++ [it])
    else .ok ptr

/-- `_convert_coo_crs`, `sp_mat.hpp:456-471`, on an empty `row_ptr`.  (`reserve(nnz)` only concerns
capacity; no iterator into `row_ptr` is kept.) -/
def convert (rowIds : List Nat) : Res (List Nat) :=
  convLoop rowIds (rowIds.foldr max 0 + 1) 0 0 [0]

/-- `SpMat(const SpCooMat&)`, `sp_mat.hpp:473-478`, and `SpMat(SpCooMat&&)`, `:480-485` (which copies too,
because `values()` returns a reference to const). -/
def ofCoo (a : Coo T) : Res (Csr T) := noexcept do
  let ptr ← convert a.row
  .ok ⟨a.val, ptr, a.col⟩

/-- `SpMat(val, row_ptr, col_ids)`, `sp_mat.hpp:487-503`. -/
def new (val : List T) (rowPtr col : List Nat) : Res (Csr T) := do
  throwIf (val.length != col.length) .runtimeError
  .ok ⟨val, rowPtr, col⟩

/-- `SpMat()`, `sp_mat.hpp:148`. -/
def empty : Csr T := ⟨[], [], []⟩

/-- `unit(n)`, `sp_mat.hpp:505-518`. -/
def unit [One T] (n : Nat) : Res (Csr T) := do
  let (ptr, col) ← forRange 0 n (fun i (p : List Nat × List Nat) => do
    let ptr ← lwr p.1 i i
    let col ← lwr p.2 i i
    .ok (ptr, col)) (List.replicate (n + 1) 0, List.replicate n 0)
  let ptr ← lwr ptr n n
  new (List.replicate n 1) ptr col

/-- `shape()`, `sp_mat.hpp:521-527`.  The subtraction is on `size_t`. -/
def shape (a : Csr T) : Res (Nat × Nat) := do
  let c ← maxElem a.col
  .ok (if a.rowPtr.length = 0 then 2 ^ 64 - 1 else a.rowPtr.length - 1, c + 1)

/-- `nnz()`, `sp_mat.hpp:529-532`. -/
def nnz (a : Csr T) : Nat := a.val.length

/-- The search of `operator()` and `mut_at`, `sp_mat.hpp:536-540, 551-555`.  `iota(x, y)` requires
`x <= y`. -/
def search (a : Csr T) (i j : Nat) : Res (Unit ⊕ Nat) := do
  let b ← lrd a.rowPtr i
  let e ← lrd a.rowPtr (i + 1)
  if b ≤ e then
    forRet b e (fun cnt _ => do
      let c ← lrd a.col cnt
      if c = j then .ok (.inr cnt) else .ok (.inl ())) ()
  else .error (.ub .oob)

/-- `operator()(i, j) const` / `at`, `sp_mat.hpp:534-547`. -/
def get [Zero T] (a : Csr T) (i j : Nat) : Res T := do
  match ← a.search i j with
  | .inr cnt => lrd a.val cnt
  | .inl _ => .ok 0

/-- `mat.mut_at(i, j) = v`, `sp_mat.hpp:549-557`. -/
def set (a : Csr T) (i j : Nat) (v : T) : Res (Csr T) := do
  match ← a.search i j with
  | .inr cnt => do
    let val ← lwr a.val cnt v
    .ok { a with val := val }
  | .inl _ => .error (.throw .outOfRange)

/-- `scale(alpha, SpMat&)`, `mat_ops.hpp:37-41`. -/
def scale [Mul T] (alpha : T) (a : Csr T) : Res (Csr T) := noexcept do
  let m ← scalCore alpha (Mem.ofList [a.val]) 0 a.nnz
  .ok { a with val := m 0 }

/-- `operator*(alpha, SpMat)`, `mat_ops.hpp:65-70`. -/
def smul [Mul T] (alpha : T) (a : Csr T) : Res (Csr T) := noexcept (scale alpha a)

/-- unary `operator-(SpMat)`, `mat_ops.hpp:101-107`. -/
def neg [Neg T] [One T] [Mul T] (a : Csr T) : Res (Csr T) := noexcept (scale (-1) a)

/-- `_sp_mul_core`, `mat_vec_ops_core.hpp:54-64`.  The matrix is passed by its arrays, which are not
vectors of the memory `s`; `x` and `y` are buffers of `s`. -/
def mulCore [Add T] [Mul T] (n : Nat) (a : Csr T) (alpha : T) (x : Nat) (beta : T) (y : Nat)
    (s : Mem T) : Res (Mem T) :=
  forRange 0 n (fun i s => do
    let yi ← s.rd y i
    let s ← s.wr y i (beta * yi)
    let b ← lrd a.rowPtr i
    let e ← lrd a.rowPtr (i + 1)
    forRange b e (fun k s => do
      let t ← s.rd y i
      let v ← lrd a.val k
      let c ← lrd a.col k
      let xc ← s.rd x c
      s.wr y i (t + alpha * v * xc)) s) s

/-- `mul(alpha, SpMat, DynVec, beta, DynVec&)`, `mat_vec_ops.hpp:49-56`. -/
def mul [Add T] [Mul T] (nd : Bool) (alpha : T) (a : Csr T) (v : Nat) (beta : T) (vr : Nat)
    (s : Mem T) : Res (Mem T) := noexcept do
  let sh ← a.shape
  cassert nd (sh.2 == s.len v)
  cassert nd (sh.1 == s.len vr)
  mulCore sh.1 a alpha v beta vr s

/-- `operator*(SpMat, DynVec)`, `mat_vec_ops.hpp:92-99`; `r` is the new vector. -/
def mulVecAt [Zero T] [One T] [Add T] [Mul T] (nd : Bool) (a : Csr T) (s : Mem T) (v r : Nat) :
    Res (Mem T) := noexcept do
  let sh ← a.shape
  cassert nd (sh.2 == s.len v)
  mulCore sh.1 a 1 v 0 r (s.setBuf r (List.replicate sh.1 0))

/-- The value of `a * x`, `mat_vec_ops.hpp:92-99`. -/
def mulVec [Zero T] [One T] [Add T] [Mul T] (nd : Bool) (a : Csr T) (x : List T) : Res (List T) := do
  let s ← mulVecAt nd a (Mem.ofList [x]) 0 1
  .ok (s 1)

end Csr

end Lalib
