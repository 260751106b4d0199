import Verif.Proofs.Failure

/-!
# C83: what a failed call leaves behind
-/

namespace Lalib.Props

open Lalib Lalib.Call

variable {T : Type} [Zero T] [One T] [Add T] [Sub T] [Mul T] [CDiv T] [CZero T] [CSqrt T] [LT T] [DecidableLT T]

/-- **C83.**  However the requests for memory are answered: a call that returns has done what it does with memory
enough; an exception leaves the objects as `eaten` says, and is the exception of the call or, a request having been
refused, `std::bad_alloc`; the program ends only as it would with memory enough or, a request having been refused, in a
call that allocates in a `noexcept` function. -/
theorem C83_end (g : Nat → Bool) (srt : SortFn) (rt : Nat → Nat) (nd : Bool) (c : Call T) (w : World T) (k : Nat) :
    Ends g c (effect srt rt nd c w) (eaten c w) k (run g srt rt nd c (w, k)) := run_ends g srt rt nd c w k

/-- With memory enough a call does what the other properties say. -/
theorem C83_granted {g : Nat → Bool} (hg : ∀ i, g i = true) (srt : SortFn) (rt : Nat → Nat) (nd : Bool) (c : Call T)
    (w : World T) (k : Nat) :
    (∀ m w', effect srt rt nd c w = .ok (m, w') → ∃ k', run g srt rt nd c (w, k) = (.ok m, (w', k'))) ∧
    ∀ f, effect srt rt nd c w = .error f → ∃ s, run g srt rt nd c (w, k) = (.error (.fault f), s) := by
  have h := C83_end g srt rt nd c w k
  match hr : run g srt rt nd c (w, k), h with
  | (.ok a, (w', k')), h =>
    refine ⟨fun m w'' he => ?_, fun f he => ?_⟩
    · rw [h.1] at he
      cases he
      exact ⟨_, rfl⟩
    · rw [h.1] at he
      cases he
  | (.error (.fault t), (w', k')), h =>
    rcases h with ⟨h, -⟩ | ⟨-, -, i, -, -, hi⟩
    · refine ⟨fun m w'' he => ?_, fun f he => ?_⟩
      · rw [h] at he
        cases he
      · rw [h] at he
        cases he
        exact ⟨_, rfl⟩
    · rw [hg i] at hi
      cases hi
  | (.error .badAlloc, (w', k')), h =>
    obtain ⟨-, -, i, -, -, hi⟩ := h
    rw [hg i] at hi
    cases hi

/-- No exception leaves a function declared `noexcept`. -/
theorem C83_noexcept (g : Nat → Bool) (srt : SortFn) (rt : Nat → Nat) (nd : Bool) {c : Call T} (hc : c.isNoexcept = true)
    (w : World T) (k : Nat) : (run g srt rt nd c (w, k)).1 ≠ .error .badAlloc ∧
      ∀ e, (run g srt rt nd c (w, k)).1 ≠ .error (.fault (.throw e)) := by
  have h := C83_end g srt rt nd c w k
  have hq : ∀ e, effect srt rt nd c w ≠ .error (.throw e) := effect_noexcept srt rt nd hc w
  have hm : c.mayRefuse = false := by cases c <;> first | rfl | cases hc
  match hr : run g srt rt nd c (w, k), h with
  | (.ok a, (w', k')), h => exact ⟨nofun, fun _ => nofun⟩
  | (.error (.fault t), (w', k')), h =>
    refine ⟨nofun, fun e he => ?_⟩
    cases he
    rcases h with ⟨h, -⟩ | ⟨h, -⟩
    · exact hq e h
    · cases h
  | (.error .badAlloc, (w', k')), h =>
    rcases h.2.1 with h | ⟨e, h⟩
    · rw [hm] at h
      cases h
    · exact absurd h (hq e)

/-- **Strong guarantee.**  Except in the calls that take an argument, an exception leaves every object as it was. -/
theorem C83_strong (g : Nat → Bool) (srt : SortFn) (rt : Nat → Nat) (nd : Bool) {c : Call T} (hc : c.consumes = false)
    (w : World T) (k : Nat) {w' : World T} {k' : Nat}
    (h : run g srt rt nd c (w, k) = (.error .badAlloc, (w', k')) ∨
      ∃ e, run g srt rt nd c (w, k) = (.error (.fault (.throw e)), (w', k'))) : w' = w := by
  have he := C83_end g srt rt nd c w k
  have hw : eaten c w = w := by cases c <;> first | rfl | cases hc
  rcases h with h | ⟨e, h⟩
  · rw [h] at he
    exact he.1.trans hw
  · rw [h] at he
    rcases he with ⟨-, he⟩ | ⟨he, -⟩
    · exact (he e rfl).1.trans hw
    · cases he

/-- **No strong guarantee.**  The calls that take an argument have taken it, whether they return or an exception ends
them: the vectors and sparse matrices are empty, the Hermitian matrix has its size and no element. -/
theorem C83_taken (g : Nat → Bool) (srt : SortFn) (rt : Nat → Nat) (nd : Bool) (c : Call T) (hc : c.consumes = true)
    (w : World T) (k : Nat) {o : Except Stop (Made T)} {w' : World T} {k' : Nat}
    (h : run g srt rt nd c (w, k) = (o, (w', k'))) (ho : ∀ f, o = .error (.fault f) → ∃ e, f = .throw e) :
    match c with
    | .cooMove v r c | .csrMove v r c => w'.vec v = [] ∧ w'.ids r = [] ∧ w'.ids c = []
    | .triChol x => (w'.herm x).n = (w.herm x).n ∧
      (∀ i j, (w'.herm x).get i j = .error (.ub .oob)) ∧ ∀ i j t, (w'.herm x).set i j t = .error (.ub .oob)
    | .iluCoo x => w'.coo x = Coo.empty ∧ (w'.coo x).shape = .error (.ub .derefEnd)
    | .iluCsr x | .gmresCsr x _ => w'.csr x = Csr.empty ∧ (w'.csr x).shape = .error (.ub .derefEnd)
    | _ => True := by
  have he := C83_end g srt rt nd c w k
  have hw : w' = eaten c w := by
    rw [h] at he
    match o, ho, he with
    | .ok m, ho, he => exact effect_consumes srt rt nd hc w he.1
    | .error (.fault f), ho, he =>
      obtain ⟨e, rfl⟩ := ho f rfl
      rcases he with ⟨-, he⟩ | ⟨he, -⟩
      · exact (he e rfl).1
      · cases he
    | .error .badAlloc, ho, he => exact he.1
  subst hw
  cases c <;> first | trivial | simp [eaten, Herm.get, Herm.set, lrd, lwr, Coo.empty, Csr.empty, Coo.shape, Csr.shape, maxElem]

/-- The calls that `mayRefuse` names are calls that `std::bad_alloc` can leave. -/
theorem C83_sharp_refuse (srt : SortFn) (rt : Nat → Nat) (nd : Bool) {c : Call T} (hc : c.mayRefuse = true) (w : World T)
    (k : Nat) {m : Made T} {w' : World T} (h : effect srt rt nd c w = .ok (m, w')) :
    ∃ g, (run g srt rt nd c (w, k)).1 = .error .badAlloc := refuse_sharp srt rt nd hc w k h

/-- The calls that `mayDie` names are calls in which a refused request can end the program. -/
theorem C83_sharp_die (srt : SortFn) (rt : Nat → Nat) (nd : Bool) {c : Call T} (hc : c.mayDie = true) (w : World T)
    (k : Nat) {m : Made T} {w' : World T} (h : effect srt rt nd c w = .ok (m, w')) :
    ∃ g, (run g srt rt nd c (w, k)).1 = .error (.fault .terminate) := die_sharp srt rt nd hc w k h

/-- **Programs.**  A program of calls in `try` blocks that ends normally leaves the objects that its calls leave, each
having done what it does or having been ended by an exception. -/
theorem C83_program (g : Nat → Bool) (srt : SortFn) (rt : Nat → Nat) (nd : Bool) (cs : List (Call T)) (w : World T)
    (k : Nat) {w' : World T} {k' : Nat} (h : runAll g srt rt nd cs (w, k) = (.ok (), (w', k'))) :
    Leaves srt rt nd cs w w' := runAll_leaves g srt rt nd cs w k h

/-- **Basic guarantee.**  Objects in order are in order after the program, however many of its calls have failed. -/
theorem C83_basic (g : Nat → Bool) {srt : SortFn} (hs : LawfulSort srt) (rt : Nat → Nat) (nd : Bool)
    (cs : List (Call T)) {w : World T} (hw : w.InOrder) (k : Nat) {w' : World T} {k' : Nat}
    (h : runAll g srt rt nd cs (w, k) = (.ok (), (w', k'))) : w'.InOrder :=
  World.InOrder.leaves hs rt nd (C83_program g srt rt nd cs w k h) hw

section examples

/-- A square root for the examples. -/
local instance : Sqrt ℚ := ⟨fun x => (Nat.sqrt x.num.toNat : ℚ)⟩

/-- Some objects. -/
local instance : Inhabited (World ℚ) := ⟨{
  vec := fun _ => [1, 2, 3]
  ids := fun _ => [0, 1]
  dn := fun _ => ⟨2, 2, [1, 0, 0, -1]⟩
  coo := fun _ => ⟨[5, 6], [0, 1], [0, 1]⟩
  csr := fun _ => ⟨[5], [0, 1, 1], [0]⟩
  herm := fun _ => ⟨2, [1, 0, -1]⟩
  hess := fun _ => ⟨1, [7]⟩
  up := fun _ => ⟨1, [7]⟩ }⟩

-- vectors of different lengths: the exception is thrown after they have been moved from
example : (fun r => (r.1.isOk, r.2.1.vec 0, r.2.1.ids 0, r.2.1.ids 1))
    (run (fun _ => true) Coo.insSort Nat.sqrt false (.cooMove 0 0 1) ((default : World ℚ), 0)) =
    (false, [], [], []) := by decide +kernel

-- with the same vector of indices for rows and columns, the columns are empty
example : (fun r => (r.1.isOk, r.2.1.ids 0))
    (run (fun _ => true) Coo.insSort Nat.sqrt false (.cooMove 0 0 0) ((default : World ℚ), 0)) = (false, []) := by
  decide +kernel

-- the constructor of `HessenbergMat` checks first, and the caller keeps the vector
example : (fun r => (r.1.isOk, r.2.1.vec 0))
    (run (fun _ => true) Coo.insSort Nat.sqrt false (.hessNew 0) ((default : World ℚ), 0)) = (false, [1, 2, 3]) := by
  decide +kernel

-- a Hermitian matrix that is not positive definite is lost, a dense one is not
example : (fun r => (r.1.isOk, (r.2.1.herm 0).n, (r.2.1.herm 0).l))
    (run (fun _ => true) Coo.insSort Nat.sqrt false (.triChol 0) ((default : World ℚ), 0)) = (false, 2, []) := by
  decide +kernel

example : (fun r => (r.1.isOk, (r.2.1.dn 0).elems))
    (run (fun _ => true) Coo.insSort Nat.sqrt false (.chol 0) ((default : World ℚ), 0)) = (false, [1, 0, 0, -1]) := by
  decide +kernel

-- memory refused to `operator+=` while it reserves: nothing has happened
example : (fun r => (r.1.isOk, r.2.1.coo 0))
    (run (fun i => i != 1) Coo.insSort Nat.sqrt false (.cooAdd 0 1) ((default : World ℚ), 0)) =
    (false, ⟨[5, 6], [0, 1], [0, 1]⟩) := by decide +kernel

-- a program: the addition fails for want of memory, the extension for the wrong length, the second addition succeeds
example : (fun r => (r.1.isOk, (r.2.1.coo 0).val, (r.2.1.up 0).u))
    (runAll (fun i => i != 1) Coo.insSort Nat.sqrt false [.cooAdd 0 1, .upWith 0 0, .cooAdd 0 1, .upZero 0]
      ((default : World ℚ), 0)) = (true, [10, 12], [7, 0, 0]) := by decide +kernel

example : World.InOrder (default : World ℚ) where
  coo _ := ⟨⟨rfl, rfl⟩, by simp [Coo.Sorted, Coo.pos, posLe, default]⟩
  up _ := (show 1 = 1 * (1 + 1) / 2 by decide)
  hess _ := (show 1 * (1 + 3) / 2 ≤ 1 + 1 by decide)
  herm _ := .inr (show 3 = 2 * (2 + 1) / 2 by decide)

end examples

end Lalib.Props
