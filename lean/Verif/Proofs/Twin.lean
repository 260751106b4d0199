import Verif.Spec.Twin
import Verif.Proofs.SameOut

/-! # Two number types: vectors, memories, matrices -/

namespace Lalib

namespace SameOut

theorem ok {α β : Type} {P : α → β → Prop} {a : α} {b : β} (h : P a b) : SameOut P (.ok a) (.ok b) := h

theorem ite {α β : Type} {P : α → β → Prop} {c c' : Prop} [Decidable c] [Decidable c'] (hc : c ↔ c') {r s : Res α} {r' s' : Res β}
    (h : c → SameOut P r r') (k : ¬ c → SameOut P s s') : SameOut P (if c then r else s) (if c' then r' else s') := by
  by_cases h0 : c
  · rw [if_pos h0, if_pos (hc.mp h0)]; exact h h0
  · rw [if_neg h0, if_neg (fun e => h0 (hc.mpr e))]; exact k h0

theorem eq_of {α : Type} {r r' : Res α} (h : SameOut (· = ·) r r') : r = r' := by
  match r, r', h with
  | .ok a, .ok b, h => exact congrArg _ h
  | .error e, .error _, h => exact congrArg _ h

theorem of_eq {α : Type} {r r' : Res α} (h : r = r') : SameOut (· = ·) r r' := by
  subst h
  match r with
  | .ok a => rfl
  | .error e => rfl

end SameOut

namespace Twin

variable {T T' : Type} [Zero T] [One T] [Neg T] [Add T] [Sub T] [Mul T] [CDiv T]
    [Zero T'] [One T'] [Neg T'] [Add T'] [Sub T'] [Mul T'] [CDiv T'] {S : Twin T T'}

theorem L.len {l : List T} {l' : List T'} (h : S.L l l') : l.length = l'.length := List.Forall₂.length_eq h

theorem L.nil : S.L [] [] := List.Forall₂.nil

theorem L.cons {a : T} {a' : T'} {l : List T} {l' : List T'} (h : S.rel a a') (k : S.L l l') : S.L (a :: l) (a' :: l') :=
  List.Forall₂.cons h k

theorem L.append {l k : List T} {l' k' : List T'} (h : S.L l l') (h' : S.L k k') : S.L (l ++ k) (l' ++ k') :=
  List.rel_append h h'

theorem L.replicate (n : Nat) {a : T} {a' : T'} (h : S.rel a a') : S.L (List.replicate n a) (List.replicate n a') := by
  induction n with
  | zero => exact .nil
  | succ n ih => exact .cons h ih

theorem L.take {l : List T} {l' : List T'} (h : S.L l l') (n : Nat) : S.L (l.take n) (l'.take n) := List.forall₂_take n h

theorem L.drop {l : List T} {l' : List T'} (h : S.L l l') (n : Nat) : S.L (l.drop n) (l'.drop n) := List.forall₂_drop n h

theorem L.lrd {l : List T} {l' : List T'} (h : S.L l l') (i : Nat) : SameOut S.rel (lrd l i) (Lalib.lrd l' i) := by
  unfold L at h
  induction h generalizing i with
  | nil => exact SameOut.error _
  | cons ha _ ih =>
    cases i with
    | zero => exact ha
    | succ i => exact ih i

theorem L.set {l : List T} {l' : List T'} (h : S.L l l') (i : Nat) {a : T} {a' : T'} (ha : S.rel a a') :
    S.L (l.set i a) (l'.set i a') := by
  unfold L at h
  induction h generalizing i with
  | nil => exact .nil
  | cons hb ht ih =>
    cases i with
    | zero => exact .cons ha ht
    | succ i => exact .cons hb (ih i)

theorem L.lwr {l : List T} {l' : List T'} (h : S.L l l') (i : Nat) {a : T} {a' : T'} (ha : S.rel a a') :
    SameOut S.L (lwr l i a) (Lalib.lwr l' i a') := by
  unfold Lalib.lwr
  exact .ite (by rw [h.len]) (fun _ => .ok (h.set i ha)) fun _ => .error _

variable {m : Mem T} {m' : Mem T'}

theorem M.len (h : S.M m m') (p : Nat) : m.len p = m'.len p := (h p).len

theorem M.rd (h : S.M m m') (p i : Nat) : SameOut S.rel (m.rd p i) (m'.rd p i) := (h p).lrd i

theorem M.setBuf (h : S.M m m') (p : Nat) {l : List T} {l' : List T'} (hl : S.L l l') : S.M (m.setBuf p l) (m'.setBuf p l') := by
  intro q
  unfold Mem.setBuf
  split
  · exact hl
  · exact h q

theorem M.wr (h : S.M m m') (p i : Nat) {a : T} {a' : T'} (ha : S.rel a a') : SameOut S.M (m.wr p i a) (m'.wr p i a') := by
  unfold Mem.wr
  refine .ite (by rw [(h p).len]) (fun _ => .ok fun q => ?_) fun _ => .error _
  unfold Mem.upd
  split
  · exact (h p).set i ha
  · exact h q

theorem M.ofList {bs : List (List T)} {bs' : List (List T')} (h : List.Forall₂ S.L bs bs') : S.M (Mem.ofList bs) (Mem.ofList bs') := by
  intro p
  unfold Mem.ofList
  induction h generalizing p with
  | nil => simpa using L.nil
  | cons hb _ ih =>
    cases p with
    | zero => exact hb
    | succ p => simpa using ih p

theorem M.of1 {x : List T} {x' : List T'} (h : S.L x x') : S.M (Mem.ofList [x]) (Mem.ofList [x']) := M.ofList (.cons h .nil)

theorem M.of2 {x y : List T} {x' y' : List T'} (h : S.L x x') (k : S.L y y') : S.M (Mem.ofList [x, y]) (Mem.ofList [x', y']) :=
  M.ofList (.cons h (.cons k .nil))

end Twin

end Lalib
