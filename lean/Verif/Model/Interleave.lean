import Verif.Model.VecOps

/-!
# Interleaving model of the parallel element-wise loops

`#pragma omp parallel for simd` distributes the iterations of the loops in
`include/lalib/ops/vec_ops_core.hpp:22-28, 40-46, 90-96, 140-146` over threads and SIMD lanes.  Here every
iteration `vr[i] = f(v1[i], v2[i])` consists of three separate accesses (load, load, store) and a schedule
is an arbitrary sequence of iteration numbers, each entry letting that iteration do its next access.
Threads, chunks and lanes only restrict the schedules.  Accesses are atomic and sequentially consistent.
-/

namespace Lalib

variable {T : Type}

/-- Progress of one iteration: nothing done, first operand loaded, both loaded, result stored. -/
inductive Pc (T : Type) where
  | start
  | got1 (a : T)
  | got2 (a b : T)
  | done

/-- Memory and the progress of every iteration. -/
structure PState (T : Type) where
  mem : Mem T
  pc : Nat → Pc T

/-- Set the progress of iteration `i`. -/
def PState.setPc (s : PState T) (i : Nat) (p : Pc T) : PState T :=
  { s with pc := fun j => if j = i then p else s.pc j }

/-- The next access of iteration `i` of `vr[i] = f(v1[i], v2[i])`
(`vec_ops_core.hpp:25, 43, 93, 143`). -/
def pstep (f : T → T → T) (v1 v2 vr i : Nat) (s : PState T) : Res (PState T) :=
  match s.pc i with
  | .start => do
    let a ← s.mem.rd v1 i
    .ok (s.setPc i (.got1 a))
  | .got1 a => do
    let b ← s.mem.rd v2 i
    .ok (s.setPc i (.got2 a b))
  | .got2 a b => do
    let m ← s.mem.wr vr i (f a b)
    .ok ({ s with mem := m }.setPc i .done)
  | .done => .ok s

/-- Run a schedule. -/
def prun (f : T → T → T) (v1 v2 vr : Nat) : List Nat → PState T → Res (PState T)
  | [], s => .ok s
  | i :: is, s => pstep f v1 v2 vr i s >>= prun f v1 v2 vr is

/-- The state at the start of the parallel loop. -/
def pinit (m : Mem T) : PState T := ⟨m, fun _ => .start⟩

/-- All `n` iterations are finished (the barrier at the end of the parallel region). -/
def PState.finished (s : PState T) (n : Nat) : Prop := ∀ i, i < n → s.pc i = .done

end Lalib
