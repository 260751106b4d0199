import Verif.Model.Dense

/-!
# What an operation leaves alone

Without any hypothesis on sizes, aliasing or shapes: if the operation returns, only its result differs.
-/

namespace Lalib

variable {T : Type}

/-- If `x`, started on `m`, returns a memory, that memory differs from `m` in the buffer `r` only. -/
def Keeps (r : Nat) (m : Mem T) (x : Res (Mem T)) : Prop := ∀ m', x = .ok m' → ∀ q, q ≠ r → m' q = m q

namespace Keeps

theorem err {r : Nat} {m : Mem T} {e : Fault} : Keeps r m (.error e) := fun _ h => nomatch h

theorem wr (r : Nat) (m : Mem T) (i : Nat) (v : T) : Keeps r m (m.wr r i v) := by
  intro m' h q hq
  by_cases hi : i < m.len r
  · rw [Mem.wr_ok hi] at h
    injection h with h
    rw [← h, Mem.upd_other _ hq]
  · rw [Mem.wr_oob (by omega)] at h
    cases h

theorem val {α : Type} {r : Nat} {m : Mem T} {x : Res α} {f : α → Res (Mem T)} (h : ∀ a, Keeps r m (f a)) :
    Keeps r m (x >>= f) := by
  cases x with
  | ok a => exact h a
  | error e => exact err

theorem bind {r : Nat} {m : Mem T} {x : Res (Mem T)} {f : Mem T → Res (Mem T)} (hx : Keeps r m x)
    (h : ∀ m', Keeps r m' (f m')) : Keeps r m (x >>= f) := by
  cases x with
  | error e => exact err
  | ok a =>
    intro m' e q hq
    rw [h a m' e q hq, hx a rfl q hq]

theorem noexcept {r : Nat} {m : Mem T} {x : Res (Mem T)} (h : Keeps r m x) : Keeps r m (noexcept x) := by
  intro m' e
  refine h m' ?_
  cases x with
  | ok a => exact e
  | error f => cases f <;> cases e

theorem order {r : Nat} {f : Nat → Mem T → Res (Mem T)} (h : ∀ i m, Keeps r m (f i m)) (l : List Nat) (m : Mem T) :
    Keeps r m (forOrder f l m) := by
  induction l generalizing m with
  | nil => intro m' e q _; cases e; rfl
  | cons i l ih => exact bind (h i m) fun m' => ih m'

theorem up {r : Nat} {f : Nat → Mem T → Res (Mem T)} (h : ∀ i m, Keeps r m (f i m)) (n lo : Nat) (m : Mem T) :
    Keeps r m (forUp f lo n m) := by
  induction n generalizing lo m with
  | zero => intro m' e q _; cases e; rfl
  | succ n ih => exact bind (h lo m) fun m' => ih (lo + 1) m'

theorem range {r : Nat} {f : Nat → Mem T → Res (Mem T)} (h : ∀ i m, Keeps r m (f i m)) (lo hi : Nat) (m : Mem T) :
    Keeps r m (forRange lo hi f m) := up h _ _ _

/-- An operator on a new object. -/
theorem fresh {r : Nat} {m : Mem T} {l : List T} {x : Res (Mem T)} (h : Keeps r (m.setBuf r l) x) : Keeps r m x := by
  intro m' e q hq
  rw [h m' e q hq, Mem.setBuf_other _ hq]

theorem elem1 (f : T → T) (v r i : Nat) (m : Mem T) : Keeps r m (elem1 f v r i m) := val fun _ => wr _ _ _ _

theorem elem2 (f : T → T → T) (v w r i : Nat) (m : Mem T) : Keeps r m (elem2 f v w r i m) :=
  val fun _ => val fun _ => wr _ _ _ _

theorem addCore [Add T] (ord : List Nat) (m : Mem T) (v w r n : Nat) : Keeps r m (addCore ord m v w r n) := by
  unfold Lalib.addCore
  split
  · exact range (fun _ _ => elem2 _ _ _ _ _ _) _ _ _
  · exact order (fun _ _ => elem2 _ _ _ _ _ _) _ _

theorem subCore [Sub T] (ord : List Nat) (m : Mem T) (v w r n : Nat) : Keeps r m (subCore ord m v w r n) := by
  unfold Lalib.subCore
  split
  · exact range (fun _ _ => elem2 _ _ _ _ _ _) _ _ _
  · exact order (fun _ _ => elem2 _ _ _ _ _ _) _ _

theorem addDD [Add T] (ord : List Nat) (m : Mem T) (v w r : Nat) : Keeps r m (addDD ord m v w r) :=
  val fun _ => addCore _ _ _ _ _ _

theorem subDD [Sub T] (ord : List Nat) (m : Mem T) (v w r : Nat) : Keeps r m (subDD ord m v w r) :=
  val fun _ => subCore _ _ _ _ _ _

theorem negD [Neg T] (m : Mem T) (v r : Nat) : Keeps r m (negD m v r) :=
  noexcept (val fun _ => range (fun _ _ => elem1 _ _ _ _ _) _ _ _)

theorem axpyD [Add T] [Mul T] (alpha : T) (m : Mem T) (v r : Nat) : Keeps r m (axpyD alpha m v r) :=
  noexcept (val fun _ => range (fun _ _ => elem2 _ _ _ _ _ _) _ _ _)

theorem scalCore [Mul T] (alpha : T) (m : Mem T) (r n : Nat) : Keeps r m (scalCore alpha m r n) :=
  range (fun _ _ => elem1 _ _ _ _ _) _ _ _

theorem copyTo (src : List T) (n r : Nat) (m : Mem T) : Keeps r m (copyTo src n r m) :=
  range (fun _ _ => val fun _ => wr _ _ _ _) _ _ _

theorem gemvCore [Zero T] [Add T] [Mul T] (n k : Nat) (alpha : T) (a x : Nat) (beta : T) (r : Nat) (m : Mem T) :
    Keeps r m (gemvCore n k alpha a x beta r m) := by
  unfold Lalib.gemvCore
  split
  · exact val fun _ => copyTo _ _ _ _
  · exact range (fun _ _ => val fun _ => bind (wr _ _ _ _) fun _ =>
      range (fun _ _ => val fun _ => val fun _ => val fun _ => wr _ _ _ _) _ _ _) _ _ _

theorem gemmCore [Zero T] [Add T] [Mul T] (n k o : Nat) (alpha : T) (a b : Nat) (beta : T) (r : Nat) (m : Mem T) :
    Keeps r m (gemmCore n k o alpha a b beta r m) := by
  unfold Lalib.gemmCore
  split
  · exact val fun _ => copyTo _ _ _ _
  · exact range (fun _ _ => range (fun _ _ => val fun _ => bind (wr _ _ _ _) fun _ =>
      range (fun _ _ => val fun _ => val fun _ => val fun _ => wr _ _ _ _) _ _ _) _ _ _) _ _ _

theorem gemvDD [Zero T] [Add T] [Mul T] (nd : Bool) (alpha : T) (a : MatRef) (v : Nat) (beta : T) (r : Nat) (m : Mem T) :
    Keeps r m (gemvDD nd alpha a v beta r m) := noexcept (val fun _ => val fun _ => gemvCore _ _ _ _ _ _ _ _)

theorem gemmDDD [Zero T] [Add T] [Mul T] (nd : Bool) (alpha : T) (a b : MatRef) (beta : T) (c : MatRef) (m : Mem T) :
    Keeps c.buf m (gemmDDD nd alpha a b beta c m) :=
  noexcept (val fun _ => val fun _ => val fun _ => gemmCore _ _ _ _ _ _ _ _ _)

theorem matAddDD [Add T] (nd : Bool) (ord : List Nat) (a b c : MatRef) (m : Mem T) :
    Keeps c.buf m (matAddDD nd ord a b c m) := noexcept (val fun _ => val fun _ => addCore _ _ _ _ _ _)

theorem matSubDD [Sub T] (nd : Bool) (ord : List Nat) (a b c : MatRef) (m : Mem T) :
    Keeps c.buf m (matSubDD nd ord a b c m) := noexcept (val fun _ => val fun _ => subCore _ _ _ _ _ _)

theorem matScale [Mul T] (alpha : T) (a : MatRef) (m : Mem T) : Keeps a.buf m (matScale alpha a m) :=
  noexcept (scalCore _ _ _ _)

end Keeps

end Lalib
