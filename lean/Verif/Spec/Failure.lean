import Verif.Model.Failure
import Verif.Spec.Sparse

/-!
# Specification of failing calls
-/

namespace Lalib

variable {T : Type}

namespace Call

/-- Calls of functions declared `noexcept`. -/
def isNoexcept : Call T → Bool
  | .csrOfCoo _ | .csrOfCooMove _ | .upNew _ | .lowNew _ _ | .hermNew _ _ | .hessZero _ | .upZero _ | .hermLower _ =>
    true
  | _ => false

/-- Calls that would have succeeded and that `std::bad_alloc` can leave. -/
def mayRefuse : Call T → Bool
  | .cooCopy _ _ _ | .cooUnit _ | .cooAdd _ _ | .csrCopy _ _ _ | .csrUnit _ | .hessWith _ _ | .upWith _ _ => true
  | _ => false

/-- Calls that would have succeeded and in which a refused request for memory can end the program. -/
def mayDie : Call T → Bool
  | .cooCopy _ _ _ | .cooMove _ _ _ | .cooUnit _ | .cooAdd _ _ | .csrOfCoo _ | .csrOfCooMove _ | .hessZero _ |
    .upZero _ | .chol _ | .modChol _ | .iluDense _ | .gmresDense _ _ | .gmresCsr _ _ => true
  | _ => false

/-- The objects after a call that an exception has ended: the arguments that were moved from are empty, everything else
is as it was. -/
def eaten : Call T → World T → World T
  | .cooMove v r c, w | .csrMove v r c, w =>
    { w with vec := fun q => if q = v then [] else w.vec q, ids := fun q => if q = r ∨ q = c then [] else w.ids q }
  | .triChol x, w => { w with herm := fun q => if q = x then ⟨(w.herm x).n, []⟩ else w.herm q }
  | .iluCoo x, w => { w with coo := fun q => if q = x then ⟨[], [], []⟩ else w.coo q }
  | .iluCsr x, w | .gmresCsr x _, w => { w with csr := fun q => if q = x then ⟨[], [], []⟩ else w.csr q }
  | _, w => w

/-- Calls that take (part of) an argument even if they fail. -/
def consumes : Call T → Bool
  | .cooMove _ _ _ | .csrMove _ _ _ | .triChol _ | .iluCoo _ | .iluCsr _ | .gmresCsr _ _ => true
  | _ => false

variable [Zero T] [One T] [Add T] [Sub T] [Mul T] [CDiv T] [CZero T] [CSqrt T] [LT T] [DecidableLT T]

/-- What a call makes, and of the objects, when there is memory enough: by the functions that the other properties are
about. -/
def effect (srt : SortFn) (rt : Nat → Nat) (nd : Bool) (c : Call T) (w : World T) : Res (Made T × World T) :=
  match c with
  | .cooCopy v r c => do
    let a ← Coo.new srt (w.vec v) (w.ids r) (w.ids c)
    .ok (.coo a, w)
  | .cooMove v r c => do
    let a ← Coo.new srt (w.vec v) (w.ids r) (if c = r then [] else w.ids c)
    .ok (.coo a, eaten (.cooMove v r c) w)
  | .cooUnit n => do
    let a ← Coo.unit srt n
    .ok (.coo a, w)
  | .cooAdd x y => do
    let a ← Coo.addAssign srt (if y = x then id else fun _ => w.coo y) (w.coo x)
    .ok (.nothing, { w with coo := fun q => if q = x then a else w.coo q })
  | .csrCopy v p c => do
    let a ← Csr.new (w.vec v) (w.ids p) (w.ids c)
    .ok (.csr a, w)
  | .csrMove v p c => do
    let a ← Csr.new (w.vec v) (w.ids p) (if c = p then [] else w.ids c)
    .ok (.csr a, eaten (.csrMove v p c) w)
  | .csrUnit n => do
    let a ← Csr.unit n
    .ok (.csr a, w)
  | .csrOfCoo x | .csrOfCooMove x => do
    let a ← Csr.ofCoo (w.coo x)
    .ok (.csr a, w)
  | .hessNew v => do
    let a ← Hess.new rt (w.vec v)
    .ok (.hess a, { w with vec := fun q => if q = v then [] else w.vec q })
  | .upNew v => do
    let a ← UTri.new rt (w.vec v)
    .ok (.up a, { w with vec := fun q => if q = v then [] else w.vec q })
  | .lowNew n v => do
    let a ← LTri.new n (w.vec v)
    .ok (.low a, { w with vec := fun q => if q = v then [] else w.vec q })
  | .hermNew n v => do
    let a ← Herm.new n (w.vec v)
    .ok (.herm a, { w with vec := fun q => if q = v then [] else w.vec q })
  | .hessZero x => do
    let a ← (w.hess x).extendWithZero
    .ok (.nothing, { w with hess := fun q => if q = x then a else w.hess q })
  | .hessWith x v => do
    let a ← (w.hess x).extendWith (w.vec v)
    .ok (.nothing, { w with hess := fun q => if q = x then a else w.hess q })
  | .upZero x => do
    let a ← (w.up x).extendWithZero
    .ok (.nothing, { w with up := fun q => if q = x then a else w.up q })
  | .upWith x v => do
    let a ← (w.up x).extendWith (w.vec v)
    .ok (.nothing, { w with up := fun q => if q = x then a else w.up q })
  | .hermLower x => do
    let a ← (w.herm x).intoLowerMat
    .ok (.low a, { w with herm := fun q => if q = x then ⟨(w.herm x).n, []⟩ else w.herm q })
  | .triChol x => do
    let l ← Chol.new .triangle (w.herm x).n (w.herm x).l
    .ok (.chol (w.herm x).n l, eaten (.triChol x : Call T) w)
  | .chol x => do
    let l ← Chol.new .square (w.dn x).n (w.dn x).elems
    .ok (.chol (w.dn x).n l, w)
  | .modChol x => do
    let l ← Chol.modNew .square (w.dn x).n (w.dn x).elems
    .ok (.chol (w.dn x).n l, w)
  | .iluDense x => do
    let a ← Ilu.new dOps (w.dn x)
    .ok (.iluDense a, w)
  | .iluCoo x => do
    let a ← Ilu.new cooOps (w.coo x)
    .ok (.iluCoo a, eaten (.iluCoo x : Call T) w)
  | .iluCsr x => do
    let a ← Ilu.new csrOps (w.csr x)
    .ok (.iluCsr a, eaten (.iluCsr x : Call T) w)
  | .gmresDense x tol => do
    let a ← Gmres.new (dGOps nd) (w.dn x) tol
    .ok (.gmresDense a, w)
  | .gmresCsr x tol => do
    let a ← Gmres.new (csrGOps nd) (w.csr x) tol
    .ok (.gmresCsr a, eaten (.gmresCsr x tol) w)

/-- The ends of a call that started after `k` requests, `eff` being what it would do with memory enough and `eat` the
objects that an exception leaves. -/
def Ends (g : Nat → Bool) (c : Call T) (eff : Res (Made T × World T)) (eat : World T) (k : Nat) :
    Except Stop (Made T) × (World T × Nat) → Prop
  | (.ok m, (w, k')) => eff = .ok (m, w) ∧ ∀ i, k ≤ i → i < k' → g i = true
  | (.error (.fault f), (w, k')) =>
    (eff = .error f ∧ ∀ e, f = .throw e → w = eat ∧ ∀ i, k ≤ i → i < k' → g i = true) ∨
    (f = .terminate ∧ c.mayDie = true ∧ ∃ i, k ≤ i ∧ i < k' ∧ g i = false)
  | (.error .badAlloc, (w, k')) =>
    w = eat ∧ (c.mayRefuse = true ∨ ∃ e, eff = .error (.throw e)) ∧ ∃ i, k ≤ i ∧ i < k' ∧ g i = false

/-- The objects that a program of calls with handlers can leave: each call has done what it does, or an exception has
ended it. -/
inductive Leaves (srt : SortFn) (rt : Nat → Nat) (nd : Bool) : List (Call T) → World T → World T → Prop
  | nil (w) : Leaves srt rt nd [] w w
  | done {c cs w m w₁ w₂} : effect srt rt nd c w = .ok (m, w₁) → Leaves srt rt nd cs w₁ w₂ →
    Leaves srt rt nd (c :: cs) w w₂
  | caught {c cs w w₂} : (c.mayRefuse = true ∨ ∃ e, effect srt rt nd c w = .error (.throw e)) →
    Leaves srt rt nd cs (eaten c w) w₂ → Leaves srt rt nd (c :: cs) w w₂

end Call

/-- Objects in order: coordinate matrices sorted and with as many rows and columns as values, structured matrices with
the elements that their sizes ask for, except Hermitian ones that have been moved from. -/
structure World.InOrder (w : World T) : Prop where
  coo : ∀ x, (w.coo x).Wf ∧ (w.coo x).Sorted
  up : ∀ x, (w.up x).u.length = (w.up x).n * ((w.up x).n + 1) / 2
  hess : ∀ x, (w.hess x).n * ((w.hess x).n + 3) / 2 ≤ (w.hess x).h.length + 1
  herm : ∀ x, (w.herm x).l = [] ∨ (w.herm x).l.length = (w.herm x).n * ((w.herm x).n + 1) / 2

end Lalib
