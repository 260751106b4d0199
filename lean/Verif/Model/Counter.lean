import Verif.Core.Loop
import Verif.Core.Mem

/-!
# Model of the loop counters

The loops of the other model files run over unbounded numbers.  Here they are run as the machine does, with
32-bit and 64-bit counters: `size_t` is 64 bits, `auto i = 0u` is a 32-bit unsigned number which wraps around,
`int32_t` / `int64_t` are two's complement (C++20 conversions are modulo `2^32` / `2^64`).

A loop which need not terminate is a function of the number `fuel` of tests of its condition one is willing to
wait for; `none` means that it is still running.
-/

namespace Lalib.Counter

variable {κ σ : Type}

/-- `for (c = start; cond(c); c = next(c)) body(c)` -/
def loop (cond : κ → Bool) (next : κ → κ) (body : κ → σ → Res σ) : (fuel : Nat) → κ → σ → Option (Res σ)
  | 0, _, _ => none
  | fuel + 1, c, s =>
    if cond c then
      match body c s with
      | .ok s => loop cond next body fuel (next c) s
      | .error e => some (.error e)
    else some (.ok s)

/-- `++i` on a 32-bit unsigned counter. -/
def inc32 (i : Nat) : Nat := (i + 1) % 2 ^ 32

/-- `++i` on a 64-bit unsigned counter. -/
def inc64 (i : Nat) : Nat := (i + 1) % 2 ^ 64

/-- `n - k` on `size_t`. -/
def sub64 (n k : Nat) : Nat := (n + 2 ^ 64 - k) % 2 ^ 64

/-- `static_cast<int32_t>(x)` of a `size_t`. -/
def toI32 (x : Nat) : Int := Int.bmod x (2 ^ 32)

/-- `static_cast<int64_t>(x)` of a `size_t`. -/
def toI64 (x : Nat) : Int := Int.bmod x (2 ^ 64)

/-- `for (auto i = lo; i < n; ++i)` with 32-bit unsigned `i` and `size_t n` (or 32-bit unsigned `n`):
`vec_ops_core.hpp:15-318`, `mat_vec_ops_core.hpp:34-57`, `mat_mat_ops_core.hpp:30-43`, `orthogonal.hpp:19-22`,
`gmres.hpp:84`, `ilu.hpp:38-78`, `tdma.hpp:13, 20`, `cholesky_decomposition.hpp:27-57, 76-95, 102`,
`sp_mat.hpp:375, 441`, `dyn_mat.hpp:110-133`, `sized_mat.hpp:134-158`. -/
def up32 (lo n : Nat) (body : Nat → σ → Res σ) (fuel : Nat) (s : σ) : Option (Res σ) :=
  loop (fun i => decide (i < n)) inc32 body fuel lo s

/-- `for (auto j = 0u; j <= hi; ++j)`, `cholesky_decomposition.hpp:77`. -/
def le32 (lo hi : Nat) (body : Nat → σ → Res σ) (fuel : Nat) (s : σ) : Option (Res σ) :=
  loop (fun i => decide (i ≤ hi)) inc32 body fuel lo s

/-- `for (auto i : std::views::iota(0u, n))`: a 32-bit counter compared with `==` against a `size_t`,
`gmres.hpp:69, 104, 107, 129`, `sp_mat.hpp:300, 324, 339, 511`. -/
def iota32 (lo n : Nat) (body : Nat → σ → Res σ) (fuel : Nat) (s : σ) : Option (Res σ) :=
  loop (fun i => decide (i ≠ n)) inc32 body fuel lo s

/-- `for (auto j = i + 1; j < n; ++j)` with `size_t j`, `ilu.hpp:87`, `dyn_mat.hpp:624`; also
`std::views::iota(row_ptr[i], row_ptr[i + 1])`, `sp_mat.hpp:536, 551`, and `mat_vec_ops_core.hpp:59`. -/
def up64 (lo n : Nat) (body : Nat → σ → Res σ) (fuel : Nat) (s : σ) : Option (Res σ) :=
  loop (fun i => decide (i < n)) inc64 body fuel lo s

/-- `for (auto i = n; i-- > 0;)` with `size_t`, `ilu.hpp:85`: the counter is tested before it is decremented. -/
def post64 (n : Nat) (body : Nat → σ → Res σ) (fuel : Nat) (s : σ) : Option (Res σ) :=
  loop (fun i => decide (i > 0)) (fun i => sub64 i 1) (fun i => body (sub64 i 1)) fuel n s

/-- `for (int32_t i = n - k; i >= 0; --i)` with `size_t n`: `cholesky_decomposition.hpp:64, 101` (`k = 1`),
`tdma.hpp:28` (`k = 2`, `tail = n - 1`).  The counter is never decremented below -1, and is used as an index only
while it is not negative. -/
def down32 (n k : Nat) (body : Nat → σ → Res σ) (fuel : Nat) (s : σ) : Option (Res σ) :=
  loop (fun i => decide (0 ≤ i)) (fun i => i - 1) (fun i => body i.toNat) fuel (toI32 (sub64 n k)) s

/-- `for (int64_t i = n - 1; i >= 0; --i)`, `dyn_mat.hpp:623`. -/
def down64 (n : Nat) (body : Nat → σ → Res σ) (fuel : Nat) (s : σ) : Option (Res σ) :=
  loop (fun i => decide (0 ≤ i)) (fun i => i - 1) (fun i => body i.toNat) fuel (toI64 (sub64 n 1)) s

/-- `for (auto j = i + 1; j < static_cast<int32_t>(n); ++j)` inside `down32`, `cholesky_decomposition.hpp:65`:
`j` is an `int32_t`, so `i + 1` must not exceed `2^31 - 1`. -/
def inner32 (i n : Nat) (body : Nat → σ → Res σ) (fuel : Nat) (s : σ) : Option (Res σ) :=
  if i + 1 < 2 ^ 31 then
    loop (fun j => decide (j < toI32 n)) (fun j => j + 1) (fun j => body j.toNat) fuel ((i : Int) + 1) s
  else some (.error (.ub .overflow))

end Lalib.Counter
