import Verif.Model.Device
import Verif.Proofs.VecOps
import Verif.Spec.Basic

/-! # C99: sums of vectors and matrices on an accelerator -/

namespace Lalib.Props

open Lalib

variable {T : Type}

/-! ## The loops -/

/-- `add_core` and `sub_core` with the operation as a parameter. -/
def sumCoreAcc (f : T → T → T) (d : Dev) (ord : List Nat) (w : TwoMem T) (v1 v2 vr n : Nat) : Res (TwoMem T) :=
  if n < 16 then onHost w fun m => forRange 0 n (elem2 f v1 v2 vr) m else targetLoop f d ord w v1 v2 vr

theorem onHost_eq (w : TwoMem T) (k : Mem T → Res (Mem T)) : onHost w k = (k w.host).map fun m => ⟨m, w.dev⟩ := by
  unfold onHost
  cases k w.host <;> rfl

theorem sum_shared (f : T → T → T) {d : Dev} (hd : d.shared = true) (ord : List Nat) (w : TwoMem T) (v1 v2 vr n : Nat) :
    sumCoreAcc f d ord w v1 v2 vr n =
      (if n < 16 then forRange 0 n (elem2 f v1 v2 vr) w.host else forOrder (elem2 f v1 v2 vr) ord w.host).map
        fun m => ⟨m, w.dev⟩ := by
  unfold sumCoreAcc targetLoop
  split
  · rw [onHost_eq]
  · cases forOrder (elem2 f v1 v2 vr) ord w.host <;> rfl

/-- Every iteration is undefined behaviour if one of the buffers has no copy. -/
theorem elem2Dev_absent (f : T → T → T) {d : Dev} {v1 v2 vr : Nat}
    (h : d.copy v1 = none ∨ d.copy v2 = none ∨ d.copy vr = none) (i : Nat) (m : Mem T) :
    ∃ k, elem2Dev f d v1 v2 vr i m = .error (.ub k) := by
  unfold elem2Dev Dev.ptr
  cases h1 : d.copy v1 with
  | none => exact ⟨_, rfl⟩
  | some p =>
    rw [ok_bind]
    by_cases c1 : i < (m p).length
    · rw [Mem.rd, lrd_ok c1, ok_bind]
      cases h2 : d.copy v2 with
      | none => exact ⟨_, rfl⟩
      | some q =>
        rw [ok_bind]
        by_cases c2 : i < (m q).length
        · rw [Mem.rd, lrd_ok c2, ok_bind]
          cases h3 : d.copy vr with
          | none => exact ⟨_, rfl⟩
          | some r => simp [h1, h2, h3] at h
        · rw [Mem.rd_oob (by show (m q).length ≤ i; omega)]; exact ⟨_, rfl⟩
    · rw [Mem.rd_oob (by show (m p).length ≤ i; omega)]; exact ⟨_, rfl⟩

theorem elem2Dev_present (f : T → T → T) {d : Dev} {v1 v2 vr p q r : Nat} (h1 : d.copy v1 = some p)
    (h2 : d.copy v2 = some q) (h3 : d.copy vr = some r) : elem2Dev f d v1 v2 vr = elem2 f p q r := by
  funext i m
  unfold elem2Dev elem2 Dev.ptr
  simp only [h1, h2, h3, ok_bind]

theorem sum_absent (f : T → T → T) {d : Dev} (hd : d.shared = false) {ord : List Nat} {w : TwoMem T} {v1 v2 vr n : Nat}
    (hp : ord.Perm (List.range n)) (hn : 16 ≤ n)
    (h : d.copy v1 = none ∨ d.copy v2 = none ∨ d.copy vr = none) :
    ∃ k, sumCoreAcc f d ord w v1 v2 vr n = .error (.ub k) := by
  unfold sumCoreAcc targetLoop
  rw [if_neg (by omega), if_neg (by simp [hd])]
  cases ord with
  | nil => have := hp.length_eq; simp at this; omega
  | cons i is =>
    obtain ⟨k, e⟩ := elem2Dev_absent f h i w.dev
    exact ⟨k, by simp only [forOrder, e]; rfl⟩

theorem sum_present (f : T → T → T) {d : Dev} (hd : d.shared = false) {ord : List Nat} {w : TwoMem T}
    {v1 v2 vr n p q r : Nat} (hp : ord.Perm (List.range n)) (hn : 16 ≤ n) (h1 : d.copy v1 = some p)
    (h2 : d.copy v2 = some q) (h3 : d.copy vr = some r) (l1 : n ≤ w.dev.len p) (l2 : n ≤ w.dev.len q)
    (l3 : n ≤ w.dev.len r) :
    sumCoreAcc f d ord w v1 v2 vr n =
      .ok ⟨w.host, w.dev.setBuf r (zipPrefix f n (w.dev p) (w.dev q) (w.dev r))⟩ := by
  unfold sumCoreAcc targetLoop
  rw [if_neg (by omega), if_neg (by simp [hd]), elem2Dev_present f h1 h2 h3, elem2_perm f hp l1 l2 l3]
  rfl

theorem sum_short (f : T → T → T) {d : Dev} (hd : d.shared = false) {ord : List Nat} {w : TwoMem T}
    {v1 v2 vr n p q r : Nat} (hp : ord.Perm (List.range n)) (hn : 16 ≤ n) (h1 : d.copy v1 = some p)
    (h2 : d.copy v2 = some q) (h3 : d.copy vr = some r)
    (h : w.dev.len p < n ∨ w.dev.len q < n ∨ w.dev.len r < n) :
    sumCoreAcc f d ord w v1 v2 vr n = .error (.ub .oob) := by
  unfold sumCoreAcc targetLoop
  rw [if_neg (by omega), if_neg (by simp [hd]), elem2Dev_present f h1 h2 h3, elem2_order_oob f hp h]
  rfl

theorem sum_small (f : T → T → T) (d : Dev) (ord : List Nat) (w : TwoMem T) (v1 v2 vr : Nat) {n : Nat} (hn : n < 16) :
    sumCoreAcc f d ord w v1 v2 vr n = (forRange 0 n (elem2 f v1 v2 vr) w.host).map fun m => ⟨m, w.dev⟩ := by
  unfold sumCoreAcc
  rw [if_pos hn, onHost_eq]

/-! ## Shared memory, short vectors -/

/-- On a device that shares the memory of the host, and for less than 16 elements on any device, the outcome is that
of the library without an accelerator, and copies on the device are left alone. -/
theorem C99_same [Add T] [Sub T] (d : Dev) (ord : List Nat) (w : TwoMem T) (v1 v2 vr : Nat)
    (h : d.shared = true ∨ w.host.len v1 < 16) :
    addDDAcc d ord w v1 v2 vr = (addDD ord w.host v1 v2 vr).map (fun m => ⟨m, w.dev⟩) ∧
    subDDAcc d ord w v1 v2 vr = (subDD ord w.host v1 v2 vr).map (fun m => ⟨m, w.dev⟩) := by
  have core : ∀ f : T → T → T, sumCoreAcc f d ord w v1 v2 vr (w.host.len v1) =
      (if w.host.len v1 < 16 then forRange 0 (w.host.len v1) (elem2 f v1 v2 vr) w.host
        else forOrder (elem2 f v1 v2 vr) ord w.host).map fun m => ⟨m, w.dev⟩ := by
    intro f
    rcases h with h | h
    · exact sum_shared f h ord w v1 v2 vr _
    · rw [sum_small f d ord w v1 v2 vr h, if_pos h]
  constructor
  · unfold addDDAcc addDD
    cases checkSize (w.host.len v1) (w.host.len v2) with
    | error e => rfl
    | ok u => exact core (· + ·)
  · unfold subDDAcc subDD
    cases checkSize (w.host.len v1) (w.host.len v2) with
    | error e => rfl
    | ok u => exact core (· - ·)

/-- The same for the operators of vectors. -/
theorem C99_same_operators [Add T] [Sub T] (d : Dev) (ord : List Nat) (w : TwoMem T) (v1 v2 r : Nat)
    (hr : v1 ≠ r) (h : d.shared = true ∨ w.host.len v1 < 16) :
    addOpAcc d ord w v1 v2 r = (addOpAt ord w.host v1 v2 r).map (fun m => ⟨m, w.dev⟩) ∧
    subOpAcc d ord w v1 v2 r = (subOpAt ord w.host v1 v2 r).map (fun m => ⟨m, w.dev⟩) := by
  have e : (w.host.setBuf r (w.host v1)).len v1 = w.host.len v1 := by
    show (w.host.setBuf r (w.host v1) v1).length = _
    rw [Mem.setBuf_other _ hr]
  exact C99_same d ord ⟨w.host.setBuf r (w.host v1), w.dev⟩ v1 v2 r (by rw [← e] at h; exact h)

/-- The same for matrices. -/
theorem C99_same_mat [Add T] [Sub T] (nd : Bool) (d : Dev) (ord : List Nat) (w : TwoMem T) (a b c : MatRef)
    (h : d.shared = true ∨ a.n * a.m < 16) :
    matAddAcc nd d ord a b c w = (matAddDD nd ord a b c w.host).map (fun m => ⟨m, w.dev⟩) ∧
    matSubAcc nd d ord a b c w = (matSubDD nd ord a b c w.host).map (fun m => ⟨m, w.dev⟩) := by
  have core : ∀ f : T → T → T, sumCoreAcc f d ord w a.buf b.buf c.buf (a.n * a.m) =
      (if a.n * a.m < 16 then forRange 0 (a.n * a.m) (elem2 f a.buf b.buf c.buf) w.host
        else forOrder (elem2 f a.buf b.buf c.buf) ord w.host).map fun m => ⟨m, w.dev⟩ := by
    intro f
    rcases h with h | h
    · exact sum_shared f h ord w _ _ _ _
    · rw [sum_small f d ord w _ _ _ h, if_pos h]
  have nx : ∀ r : Res (Mem T), noexcept (r.map fun m => (⟨m, w.dev⟩ : TwoMem T)) =
      (noexcept r).map fun m => (⟨m, w.dev⟩ : TwoMem T) := by
    intro r
    cases r with
    | ok m => rfl
    | error e => cases e <;> rfl
  constructor
  · unfold matAddAcc matAddDD
    rw [← nx]
    congr 1
    cases cassert nd (a.n == b.n && a.m == b.m) with
    | error e => rfl
    | ok u =>
      rw [ok_bind, ok_bind]
      cases cassert nd (a.n == c.n && a.m == c.m) with
      | error e => rfl
      | ok u => exact core (· + ·)
  · unfold matSubAcc matSubDD
    rw [← nx]
    congr 1
    cases cassert nd (a.n == b.n && a.m == b.m) with
    | error e => rfl
    | ok u =>
      rw [ok_bind, ok_bind]
      cases cassert nd (a.n == c.n && a.m == c.m) with
      | error e => rfl
      | ok u => exact core (· - ·)

/-- The operators on matrices. -/
theorem C99_same_mat_operators [Add T] [Sub T] (nd : Bool) (d : Dev) (ord : List Nat) (w : TwoMem T) (a b : MatRef) (r : Nat)
    (h : d.shared = true ∨ a.n * a.m < 16) :
    matAddOpAcc nd d ord w a b r = (matAddAt nd ord w.host a b r).map (fun m => ⟨m, w.dev⟩) ∧
    matSubOpAcc nd d ord w a b r = (matSubAt nd ord w.host a b r).map (fun m => ⟨m, w.dev⟩) := by
  have nx : ∀ r : Res (Mem T), noexcept (r.map fun m => (⟨m, w.dev⟩ : TwoMem T)) =
      (noexcept r).map fun m => (⟨m, w.dev⟩ : TwoMem T) := by
    intro r
    cases r with
    | ok m => rfl
    | error e => cases e <;> rfl
  have e := C99_same_mat nd d ord ⟨w.host.setBuf r (w.host a.buf), w.dev⟩ a b ⟨r, a.n, a.m⟩ h
  unfold matAddOpAcc matSubOpAcc matAddAt matSubAt
  rw [e.1, e.2, nx, nx]
  exact ⟨rfl, rfl⟩

/-! ## A device with its own memory, 16 elements or more -/

/-- If one of the three vectors has no copy on the device the call is undefined behaviour. -/
theorem C99_absent [Add T] [Sub T] {d : Dev} (hd : d.shared = false) {ord : List Nat} {w : TwoMem T} {v1 v2 vr : Nat}
    (hp : ord.Perm (List.range (w.host.len v1))) (hn : 16 ≤ w.host.len v1) (hs : w.host.len v2 = w.host.len v1)
    (h : d.copy v1 = none ∨ d.copy v2 = none ∨ d.copy vr = none) :
    (∃ k, addDDAcc d ord w v1 v2 vr = .error (.ub k)) ∧ ∃ k, subDDAcc d ord w v1 v2 vr = .error (.ub k) := by
  unfold addDDAcc subDDAcc
  rw [hs, checkSize_self, ok_bind, ok_bind]
  exact ⟨sum_absent (· + ·) hd hp hn h, sum_absent (· - ·) hd hp hn h⟩

/-- `x + y` and `x - y` are undefined behaviour for all vectors of 16 elements or more: the program cannot have mapped
the object which the operator creates. -/
theorem C99_operators_false [Add T] [Sub T] {d : Dev} (hd : d.shared = false) {ord : List Nat} {w : TwoMem T}
    {v1 v2 r : Nat} (h1 : v1 ≠ r) (h2 : v2 ≠ r) (hp : ord.Perm (List.range (w.host.len v1)))
    (hn : 16 ≤ w.host.len v1) (hs : w.host.len v2 = w.host.len v1) (hr : d.copy r = none) :
    (∃ k, addOpAcc d ord w v1 v2 r = .error (.ub k)) ∧ ∃ k, subOpAcc d ord w v1 v2 r = .error (.ub k) := by
  have e1 : (w.host.setBuf r (w.host v1)).len v1 = w.host.len v1 := by
    show (w.host.setBuf r (w.host v1) v1).length = _
    rw [Mem.setBuf_other _ h1]
  have e2 : (w.host.setBuf r (w.host v1)).len v2 = w.host.len v2 := by
    show (w.host.setBuf r (w.host v1) v2).length = _
    rw [Mem.setBuf_other _ h2]
  exact C99_absent (w := ⟨w.host.setBuf r (w.host v1), w.dev⟩) hd (by show ord.Perm (List.range (Mem.len _ _)); rw [e1]; exact hp)
    (by show 16 ≤ Mem.len _ _; rw [e1]; exact hn) (by show Mem.len _ _ = Mem.len _ _; rw [e1, e2, hs]) (.inr (.inr hr))

/-- The same for matrices of 16 elements or more. -/
theorem C99_mat_operators_false [Add T] [Sub T] {nd : Bool} {d : Dev} (hd : d.shared = false) {ord : List Nat}
    {w : TwoMem T} {a b : MatRef} {r : Nat} (hp : ord.Perm (List.range (a.n * a.m))) (hn : 16 ≤ a.n * a.m)
    (hs : b.n = a.n ∧ b.m = a.m) (hr : d.copy r = none) :
    (∃ k, matAddOpAcc nd d ord w a b r = .error (.ub k)) ∧ ∃ k, matSubOpAcc nd d ord w a b r = .error (.ub k) := by
  constructor
  · obtain ⟨k, e⟩ := sum_absent (· + ·) hd (w := ⟨w.host.setBuf r (w.host a.buf), w.dev⟩) (v1 := a.buf) (v2 := b.buf)
      (vr := r) hp hn (.inr (.inr hr))
    refine ⟨k, ?_⟩
    unfold matAddOpAcc matAddAcc
    simp only [hs.1, hs.2, beq_self_eq_true, Bool.and_self]
    have : addCoreAcc d ord ⟨w.host.setBuf r (w.host a.buf), w.dev⟩ a.buf b.buf r (a.n * a.m) = .error (.ub k) := e
    cases nd <;> simp [cassert, this, noexcept, ok_bind]
  · obtain ⟨k, e⟩ := sum_absent (· - ·) hd (w := ⟨w.host.setBuf r (w.host a.buf), w.dev⟩) (v1 := a.buf) (v2 := b.buf)
      (vr := r) hp hn (.inr (.inr hr))
    refine ⟨k, ?_⟩
    unfold matSubOpAcc matSubAcc
    simp only [hs.1, hs.2, beq_self_eq_true, Bool.and_self]
    have : subCoreAcc d ord ⟨w.host.setBuf r (w.host a.buf), w.dev⟩ a.buf b.buf r (a.n * a.m) = .error (.ub k) := e
    cases nd <;> simp [cassert, this, noexcept, ok_bind]

/-- With copies of all three vectors the copy of the result receives the sum of the copies; the host sees nothing. -/
theorem C99_present [Add T] [Sub T] {d : Dev} (hd : d.shared = false) {ord : List Nat} {w : TwoMem T}
    {v1 v2 vr p q r : Nat} (hp : ord.Perm (List.range (w.host.len v1))) (hn : 16 ≤ w.host.len v1)
    (hs : w.host.len v2 = w.host.len v1) (h1 : d.copy v1 = some p) (h2 : d.copy v2 = some q) (h3 : d.copy vr = some r)
    (l1 : w.dev.len p = w.host.len v1) (l2 : w.dev.len q = w.host.len v1) (l3 : w.dev.len r = w.host.len v1) :
    addDDAcc d ord w v1 v2 vr = .ok ⟨w.host, w.dev.setBuf r (List.zipWith (· + ·) (w.dev p) (w.dev q))⟩ ∧
    subDDAcc d ord w v1 v2 vr = .ok ⟨w.host, w.dev.setBuf r (List.zipWith (· - ·) (w.dev p) (w.dev q))⟩ := by
  unfold addDDAcc subDDAcc
  rw [hs, checkSize_self, ok_bind, ok_bind]
  have core : ∀ f : T → T → T, sumCoreAcc f d ord w v1 v2 vr (w.host.len v1) =
      .ok ⟨w.host, w.dev.setBuf r (List.zipWith f (w.dev p) (w.dev q))⟩ := by
    intro f
    rw [sum_present f hd hp hn h1 h2 h3 l1.ge l2.ge l3.ge, zipPrefix_full f l1 l2 l3]
  exact ⟨core (· + ·), core (· - ·)⟩

/-- The same for matrices. -/
theorem C99_present_mat [Add T] [Sub T] {nd : Bool} {d : Dev} (hd : d.shared = false) {ord : List Nat} {w : TwoMem T}
    {a b c : MatRef} {p q r : Nat} (hp : ord.Perm (List.range (a.n * a.m))) (hn : 16 ≤ a.n * a.m)
    (hs : b.n = a.n ∧ b.m = a.m) (hs' : c.n = a.n ∧ c.m = a.m)
    (h1 : d.copy a.buf = some p) (h2 : d.copy b.buf = some q) (h3 : d.copy c.buf = some r)
    (l1 : w.dev.len p = a.n * a.m) (l2 : w.dev.len q = a.n * a.m) (l3 : w.dev.len r = a.n * a.m) :
    matAddAcc nd d ord a b c w = .ok ⟨w.host, w.dev.setBuf r (List.zipWith (· + ·) (w.dev p) (w.dev q))⟩ ∧
    matSubAcc nd d ord a b c w = .ok ⟨w.host, w.dev.setBuf r (List.zipWith (· - ·) (w.dev p) (w.dev q))⟩ := by
  have core : ∀ f : T → T → T, sumCoreAcc f d ord w a.buf b.buf c.buf (a.n * a.m) =
      .ok ⟨w.host, w.dev.setBuf r (List.zipWith f (w.dev p) (w.dev q))⟩ := by
    intro f
    rw [sum_present f hd hp hn h1 h2 h3 l1.ge l2.ge l3.ge, zipPrefix_full f l1 l2 l3]
  have hc : ∀ b : Bool, b = true → cassert nd b = .ok () := by
    rintro _ rfl
    cases nd <;> rfl
  unfold matAddAcc matSubAcc
  rw [hc _ (by simp [hs.1, hs.2]), hc _ (by simp [hs'.1, hs'.2])]
  exact ⟨congrArg noexcept (core (· + ·)), congrArg noexcept (core (· - ·))⟩

/-- `C99_iff` for one operation. -/
theorem sum_iff (f : T → T → T) {d : Dev} (hd : d.shared = false) {ord : List Nat} {w : TwoMem T} {v1 v2 vr : Nat}
    (hp : ord.Perm (List.range (w.host.len v1))) (hs : w.host.len v2 = w.host.len v1)
    (hr : w.host.len vr = w.host.len v1) :
    (∃ w', sumCoreAcc f d ord w v1 v2 vr (w.host.len v1) = .ok w' ∧
        Stores w.host w'.host vr (List.zipWith f (w.host v1) (w.host v2))) ↔
      w.host.len v1 < 16 ∨
      (∃ p q r, d.copy v1 = some p ∧ d.copy v2 = some q ∧ d.copy vr = some r ∧ w.host.len v1 ≤ w.dev.len p ∧
          w.host.len v1 ≤ w.dev.len q ∧ w.host.len v1 ≤ w.dev.len r) ∧
        w.host vr = List.zipWith f (w.host v1) (w.host v2) := by
  by_cases hn : w.host.len v1 < 16
  · refine iff_of_true ⟨⟨_, w.dev⟩, ?_, stores_setBuf _ _ _⟩ (.inl hn)
    rw [sum_small f d ord w v1 v2 vr hn, elem2_range f (le_refl _) hs.ge hr.ge, zipPrefix_full f rfl hs hr]
    rfl
  · constructor
    · rintro ⟨w', h, hst⟩
      right
      rcases h1 : d.copy v1 with _ | p
      · obtain ⟨k, e'⟩ := sum_absent f hd (w := w) (vr := vr) (v2 := v2) hp (by omega) (.inl h1)
        rw [e'] at h; cases h
      rcases h2 : d.copy v2 with _ | q
      · obtain ⟨k, e'⟩ := sum_absent f hd (w := w) (vr := vr) (v1 := v1) hp (by omega) (.inr (.inl h2))
        rw [e'] at h; cases h
      rcases h3 : d.copy vr with _ | r
      · obtain ⟨k, e'⟩ := sum_absent f hd (w := w) (v1 := v1) (v2 := v2) hp (by omega) (.inr (.inr h3))
        rw [e'] at h; cases h
      by_cases hl : w.host.len v1 ≤ w.dev.len p ∧ w.host.len v1 ≤ w.dev.len q ∧ w.host.len v1 ≤ w.dev.len r
      · refine ⟨⟨p, q, r, rfl, rfl, rfl, hl⟩, ?_⟩
        rw [sum_present f hd hp (by omega) h1 h2 h3 hl.1 hl.2.1 hl.2.2] at h
        cases h
        exact hst.1
      · rw [sum_short f hd hp (by omega) h1 h2 h3 (by omega)] at h
        cases h
    · rintro (h | ⟨⟨p, q, r, h1, h2, h3, l1, l2, l3⟩, h⟩)
      · exact absurd h hn
      · rw [sum_present f hd hp (by omega) h1 h2 h3 l1 l2 l3]
        exact ⟨_, rfl, h, fun _ _ => rfl⟩

/-- A sum on a device with its own memory gives the caller the right vector exactly if there are less than 16 elements,
or if it is defined and the right vector was in the result object before. -/
theorem C99_iff [Add T] {d : Dev} (hd : d.shared = false) {ord : List Nat} {w : TwoMem T} {v1 v2 vr : Nat}
    (hp : ord.Perm (List.range (w.host.len v1))) (hs : w.host.len v2 = w.host.len v1)
    (hr : w.host.len vr = w.host.len v1) :
    (∃ w', addDDAcc d ord w v1 v2 vr = .ok w' ∧
        Stores w.host w'.host vr (List.zipWith (· + ·) (w.host v1) (w.host v2))) ↔
      w.host.len v1 < 16 ∨
      (∃ p q r, d.copy v1 = some p ∧ d.copy v2 = some q ∧ d.copy vr = some r ∧ w.host.len v1 ≤ w.dev.len p ∧
          w.host.len v1 ≤ w.dev.len q ∧ w.host.len v1 ≤ w.dev.len r) ∧
        w.host vr = List.zipWith (· + ·) (w.host v1) (w.host v2) := by
  have e : addDDAcc d ord w v1 v2 vr = sumCoreAcc (· + ·) d ord w v1 v2 vr (w.host.len v1) := by
    unfold addDDAcc
    rw [hs, checkSize_self, ok_bind]
    rfl
  rw [e]
  exact sum_iff (· + ·) hd hp hs hr

/-- The same for differences. -/
theorem C99_sub_iff [Sub T] {d : Dev} (hd : d.shared = false) {ord : List Nat} {w : TwoMem T} {v1 v2 vr : Nat}
    (hp : ord.Perm (List.range (w.host.len v1))) (hs : w.host.len v2 = w.host.len v1)
    (hr : w.host.len vr = w.host.len v1) :
    (∃ w', subDDAcc d ord w v1 v2 vr = .ok w' ∧
        Stores w.host w'.host vr (List.zipWith (· - ·) (w.host v1) (w.host v2))) ↔
      w.host.len v1 < 16 ∨
      (∃ p q r, d.copy v1 = some p ∧ d.copy v2 = some q ∧ d.copy vr = some r ∧ w.host.len v1 ≤ w.dev.len p ∧
          w.host.len v1 ≤ w.dev.len q ∧ w.host.len v1 ≤ w.dev.len r) ∧
        w.host vr = List.zipWith (· - ·) (w.host v1) (w.host v2) := by
  have e : subDDAcc d ord w v1 v2 vr = sumCoreAcc (· - ·) d ord w v1 v2 vr (w.host.len v1) := by
    unfold subDDAcc
    rw [hs, checkSize_self, ok_bind]
    rfl
  rw [e]
  exact sum_iff (· - ·) hd hp hs hr

/-! ## Programs with directives -/

/-- `target update to` for the operands, the sum, `target update from` for the result: right for 16 elements or more. -/
theorem C99_directives [Add T] [Sub T] {d : Dev} (hd : d.shared = false) {ord : List Nat} {w : TwoMem T} {v1 v2 vr p q r : Nat}
    (hp : ord.Perm (List.range (w.host.len v1))) (hn : 16 ≤ w.host.len v1) (hs : w.host.len v2 = w.host.len v1)
    (h1 : d.copy v1 = some p) (h2 : d.copy v2 = some q) (h3 : d.copy vr = some r)
    (hinj : p = q → v1 = v2) (l3 : w.dev.len r = w.host.len v1) :
    (∃ w', addDDAcc d ord (updateTo d v2 (updateTo d v1 w)) v1 v2 vr = .ok w' ∧
      (updateFrom d vr w').host = w.host.setBuf vr (List.zipWith (· + ·) (w.host v1) (w.host v2))) ∧
    ∃ w', subDDAcc d ord (updateTo d v2 (updateTo d v1 w)) v1 v2 vr = .ok w' ∧
      (updateFrom d vr w').host = w.host.setBuf vr (List.zipWith (· - ·) (w.host v1) (w.host v2)) := by
  have e : updateTo d v2 (updateTo d v1 w) = ⟨w.host, (w.dev.setBuf p (w.host v1)).setBuf q (w.host v2)⟩ := by
    simp [updateTo, hd, h1, h2]
  have ep : (w.dev.setBuf p (w.host v1)).setBuf q (w.host v2) p = w.host v1 := by
    by_cases h : p = q
    · rw [h, Mem.setBuf_self, hinj h]
    · rw [Mem.setBuf_other _ h, Mem.setBuf_self]
  have eq : (w.dev.setBuf p (w.host v1)).setBuf q (w.host v2) q = w.host v2 := Mem.setBuf_self _ _ _
  have er : ((w.dev.setBuf p (w.host v1)).setBuf q (w.host v2)).len r = w.host.len v1 := by
    unfold Mem.len at *
    by_cases h : r = q
    · rw [h, eq, hs]
    · rw [Mem.setBuf_other _ h]
      by_cases h' : r = p
      · rw [h', Mem.setBuf_self]
      · rw [Mem.setBuf_other _ h', l3]
  rw [e]
  have h := C99_present (T := T) hd (w := ⟨w.host, (w.dev.setBuf p (w.host v1)).setBuf q (w.host v2)⟩) hp hn hs h1 h2 h3
    (congrArg List.length ep) ((congrArg List.length eq).trans hs) er
  exact ⟨⟨_, h.1, by simp [updateFrom, hd, h3, ep]⟩, _, h.2, by simp [updateFrom, hd, h3, ep]⟩

/-- The same program loses the result of less than 16 elements: the caller gets back the old copy of the device. -/
theorem C99_directives_false [Add T] [Sub T] {d : Dev} (hd : d.shared = false) {ord : List Nat} {w : TwoMem T}
    {v1 v2 vr p q r : Nat} (hp : ord.Perm (List.range (w.host.len v1))) (hn : w.host.len v1 < 16)
    (hs : w.host.len v2 = w.host.len v1) (hr : w.host.len vr = w.host.len v1)
    (h1 : d.copy v1 = some p) (h2 : d.copy v2 = some q) (h3 : d.copy vr = some r) (hrp : r ≠ p) (hrq : r ≠ q) :
    ∃ w', addDDAcc d ord (updateTo d v2 (updateTo d v1 w)) v1 v2 vr = .ok w' ∧
      w'.host vr = List.zipWith (· + ·) (w.host v1) (w.host v2) ∧ (updateFrom d vr w').host vr = w.dev r := by
  have e : updateTo d v2 (updateTo d v1 w) = ⟨w.host, (w.dev.setBuf p (w.host v1)).setBuf q (w.host v2)⟩ := by
    simp [updateTo, hd, h1, h2]
  rw [e, (C99_same (T := T) d ord ⟨w.host, (w.dev.setBuf p (w.host v1)).setBuf q (w.host v2)⟩ v1 v2 vr (.inr hn)).1, addDD_eq hp hs hr]
  refine ⟨_, rfl, Mem.setBuf_self _ _ _, ?_⟩
  simp [updateFrom, hd, h3, Mem.setBuf_other _ hrp, Mem.setBuf_other _ hrq]

/-! Instances: three vectors with copies `10`, `11`, `12` on a device with its own memory. -/

/-- Buffers `0`, `1`, `2` have copies. -/
def demoDev : Dev := ⟨false, fun b => if b < 3 then some (b + 10) else none⟩

/-- Sixteen ones, sixteen twos, sixteen zeros, and copies of them. -/
def demoWorld : TwoMem Int :=
  let m := Mem.ofList [List.replicate 16 1, List.replicate 16 2, List.replicate 16 0]
  ⟨m, fun b => m (b - 10)⟩

example : (addDDAcc demoDev (List.range 16) demoWorld 0 1 2).map (fun w => (w.host 2, w.dev 12)) =
    .ok (List.replicate 16 0, List.replicate 16 3) := by decide +kernel
example : (addOpAcc demoDev (List.range 16) demoWorld 0 1 3).map (fun w => w.host 3) = .error (.ub .dangling) := by
  decide +kernel
example : ¬ ∃ w', addDDAcc demoDev (List.range 16) demoWorld 0 1 2 = .ok w' ∧
    Stores demoWorld.host w'.host 2 (List.zipWith (· + ·) (demoWorld.host 0) (demoWorld.host 1)) := by
  rw [C99_iff rfl (by decide +kernel) (by decide +kernel) (by decide +kernel)]
  rintro (h | ⟨-, h⟩) <;> revert h <;> decide +kernel

/-- Four by four: the copy of the difference gets the values, the host does not. -/
example : (matSubAcc false demoDev (List.range 16) ⟨0, 4, 4⟩ ⟨1, 4, 4⟩ ⟨2, 4, 4⟩ demoWorld).map (fun w => (w.host 2, w.dev 12)) =
    .ok (List.replicate 16 0, List.replicate 16 (-1)) := by decide +kernel

end Lalib.Props
