import Verif.Proofs.Dense
import Mathlib.Algebra.Field.Basic
import Mathlib.Tactic.FieldSimp

/-! # Element-wise matrix operations and 2x2 inversion -/

namespace Lalib

variable {T : Type}

theorem matAddDD_eq [Add T] {nd : Bool} {ord : List Nat} {m1 m2 mr : MatRef} {s : Mem T}
    (h1 : m1.Wf s) (h2 : m2.Wf s) (hr : mr.Wf s) (hs : m1.n = m2.n ∧ m1.m = m2.m)
    (hsr : m1.n = mr.n ∧ m1.m = mr.m) (hp : ord.Perm (List.range (m1.n * m1.m))) :
    matAddDD nd ord m1 m2 mr s =
      .ok (s.setBuf mr.buf (List.zipWith (· + ·) (s m1.buf) (s m2.buf))) := by
  unfold MatRef.Wf at h1 h2 hr
  rw [← hs.1, ← hs.2] at h2
  rw [← hsr.1, ← hsr.2] at hr
  unfold matAddDD
  rw [← hs.1, ← hs.2, ← hsr.1, ← hsr.2]
  simp only [beq_self_eq_true, Bool.and_self, cassert_true, ok_bind]
  rw [addCore_eq hp h1.ge h2.ge hr.ge, zipPrefix_full _ h1 h2 hr, noexcept_ok]

theorem matSubDD_eq [Sub T] {nd : Bool} {ord : List Nat} {m1 m2 mr : MatRef} {s : Mem T}
    (h1 : m1.Wf s) (h2 : m2.Wf s) (hr : mr.Wf s) (hs : m1.n = m2.n ∧ m1.m = m2.m)
    (hsr : m1.n = mr.n ∧ m1.m = mr.m) (hp : ord.Perm (List.range (m1.n * m1.m))) :
    matSubDD nd ord m1 m2 mr s =
      .ok (s.setBuf mr.buf (List.zipWith (· - ·) (s m1.buf) (s m2.buf))) := by
  unfold MatRef.Wf at h1 h2 hr
  rw [← hs.1, ← hs.2] at h2
  rw [← hsr.1, ← hsr.2] at hr
  unfold matSubDD
  rw [← hs.1, ← hs.2, ← hsr.1, ← hsr.2]
  simp only [beq_self_eq_true, Bool.and_self, cassert_true, ok_bind]
  rw [subCore_eq hp h1.ge h2.ge hr.ge, zipPrefix_full _ h1 h2 hr, noexcept_ok]

theorem matAddAt_eq [Add T] {nd : Bool} {ord : List Nat} {a b : MatRef} {r : Nat} {s : Mem T}
    (ha : a.Wf s) (hb : b.Wf s) (hs : a.n = b.n ∧ a.m = b.m)
    (hp : ord.Perm (List.range (a.n * a.m))) (hra : a.buf ≠ r) (hrb : b.buf ≠ r) :
    matAddAt nd ord s a b r = .ok (s.setBuf r (List.zipWith (· + ·) (s a.buf) (s b.buf))) := by
  have e1 : ∀ l, s.setBuf r l a.buf = s a.buf := fun l => Mem.setBuf_other _ hra _
  have e2 : ∀ l, s.setBuf r l b.buf = s b.buf := fun l => Mem.setBuf_other _ hrb _
  unfold MatRef.Wf at ha hb
  unfold matAddAt
  rw [matAddDD_eq (mr := ⟨r, a.n, a.m⟩) (by unfold MatRef.Wf; simp only [Mem.len, e1]; exact ha)
    (by unfold MatRef.Wf; simp only [Mem.len, e2]; exact hb)
    (by unfold MatRef.Wf; simp only [Mem.len, Mem.setBuf_self]; exact ha) hs ⟨rfl, rfl⟩ hp, e1, e2,
    Mem.setBuf_setBuf, noexcept_ok]

theorem matSubAt_eq [Sub T] {nd : Bool} {ord : List Nat} {a b : MatRef} {r : Nat} {s : Mem T}
    (ha : a.Wf s) (hb : b.Wf s) (hs : a.n = b.n ∧ a.m = b.m)
    (hp : ord.Perm (List.range (a.n * a.m))) (hra : a.buf ≠ r) (hrb : b.buf ≠ r) :
    matSubAt nd ord s a b r = .ok (s.setBuf r (List.zipWith (· - ·) (s a.buf) (s b.buf))) := by
  have e1 : ∀ l, s.setBuf r l a.buf = s a.buf := fun l => Mem.setBuf_other _ hra _
  have e2 : ∀ l, s.setBuf r l b.buf = s b.buf := fun l => Mem.setBuf_other _ hrb _
  unfold MatRef.Wf at ha hb
  unfold matSubAt
  rw [matSubDD_eq (mr := ⟨r, a.n, a.m⟩) (by unfold MatRef.Wf; simp only [Mem.len, e1]; exact ha)
    (by unfold MatRef.Wf; simp only [Mem.len, e2]; exact hb)
    (by unfold MatRef.Wf; simp only [Mem.len, Mem.setBuf_self]; exact ha) hs ⟨rfl, rfl⟩ hp, e1, e2,
    Mem.setBuf_setBuf, noexcept_ok]

theorem matScale_eq [Mul T] {alpha : T} {a : MatRef} {s : Mem T} (ha : a.Wf s) :
    matScale alpha a s = .ok (s.setBuf a.buf ((s a.buf).map fun v => alpha * v)) := by
  unfold matScale
  rw [scalCore_eq ha, noexcept_ok]

theorem matSmulAt_eq [Mul T] {alpha : T} {a : MatRef} {s : Mem T} (ha : a.Wf s) (r : Nat) :
    matSmulAt alpha s a r = .ok (s.setBuf r ((s a.buf).map fun v => alpha * v)) := by
  unfold matSmulAt
  rw [matScale_eq (by unfold MatRef.Wf; simp only [Mem.len, Mem.setBuf_self]; exact ha), Mem.setBuf_self,
    Mem.setBuf_setBuf, noexcept_ok]

theorem matNegAt_eq [CommRing T] {a : MatRef} {s : Mem T} (ha : a.Wf s) (r : Nat) :
    matNegAt s a r = .ok (s.setBuf r ((s a.buf).map fun v => -v)) := by
  have := matSmulAt_eq (alpha := (-1 : T)) ha r
  simpa [matNegAt, matSmulAt] using this

section inv
variable [Field T] [DecidableEq T]

omit [Field T] [DecidableEq T] in
theorem list4 {l : List T} (h : l.length = 4) : ∃ a b c d, l = [a, b, c, d] := by
  match l, h with
  | [a, b, c, d], _ => exact ⟨a, b, c, d, rfl⟩

theorem invert22_run {s : Mem T} {a r : Nat} {p q u v : T} (ha : s a = [p, q, u, v])
    (hr : s.len r = 4) :
    invert22 a r s = if p * v - q * u = 0 then .error .nonFinite else
      .ok (s.setBuf r [v / (p * v - q * u), -q / (p * v - q * u), -u / (p * v - q * u),
        p / (p * v - q * u)]) := by
  obtain ⟨r0, r1, r2, r3, hr4⟩ := list4 (show (s r).length = 4 from hr)
  have key : ∀ (x : T) (s' : Mem T) (l : List T), s' = s.setBuf r [v, -q, -u, p] →
      x = p * v - q * u →
      (do let d ← divC 1 x; matScale d ⟨r, 2, 2⟩ s') = if p * v - q * u = 0 then .error .nonFinite
        else .ok (s.setBuf r [v / (p * v - q * u), -q / (p * v - q * u), -u / (p * v - q * u),
          p / (p * v - q * u)]) := by
    rintro x s' l rfl rfl
    by_cases hd : p * v - q * u = 0
    · rw [if_pos hd, hd, divC_zero]; rfl
    · rw [if_neg hd, divC_ok hd, ok_bind, matScale_eq (by simp [MatRef.Wf, Mem.len]),
        Mem.setBuf_self, Mem.setBuf_setBuf]
      simp only [List.map_cons, List.map_nil]
      congr 3
      · field_simp
      · congr 1
        · field_simp
        · congr 1
          · field_simp
          · congr 1
            field_simp
  unfold invert22
  by_cases h : a = r
  · subst h
    rw [if_neg (by simp)]
    simp only [rd22, wr22, Mem.rd, ha, lrd, Nat.zero_mul, Nat.one_mul, Nat.reduceAdd, ok_bind,
      List.getElem?_cons_zero, List.getElem?_cons_succ]
    rw [← s.setBuf_same a, ha]
    simp only [Mem.setBuf_wr s a (show 0 < [p, q, u, v].length by simp), ok_bind, Mem.setBuf_self,
      List.set_cons_zero, List.set_cons_succ, List.getElem?_cons_zero, List.getElem?_cons_succ,
      Mem.setBuf_wr s a (show 3 < [v, q, u, v].length by simp),
      Mem.setBuf_wr s a (show 1 < [v, q, u, p].length by simp),
      Mem.setBuf_wr s a (show 2 < [v, q * -1, u, p].length by simp), Mem.setBuf_setBuf]
    exact key _ _ [] (by simp) rfl
  · rw [if_pos h]
    simp only [rd22, wr22, Mem.rd, ha, lrd, Nat.zero_mul, Nat.one_mul, Nat.reduceAdd, ok_bind,
      List.getElem?_cons_zero, List.getElem?_cons_succ]
    rw [← s.setBuf_same r, hr4]
    simp only [Mem.setBuf_wr s r (show 0 < [r0, r1, r2, r3].length by simp), ok_bind,
      Mem.setBuf_other s h, ha,
      List.set_cons_zero, List.set_cons_succ, List.getElem?_cons_zero, List.getElem?_cons_succ,
      Mem.setBuf_wr s r (show 3 < [v, r1, r2, r3].length by simp),
      Mem.setBuf_wr s r (show 1 < [v, r1, r2, p].length by simp),
      Mem.setBuf_wr s r (show 2 < [v, -q, r2, p].length by simp), Mem.setBuf_setBuf]
    exact key _ _ [] rfl rfl

end inv

end Lalib
