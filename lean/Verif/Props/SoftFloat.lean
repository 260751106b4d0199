import Verif.Proofs.SoftFloat
import Verif.Props.Twin

/-! # Property C95: executable IEEE arithmetic

`Sf F` holds significand and exponent as integers; its operations are computed (`Spec/SoftFloat.lean`).  They are the operations
of `Spec/Ieee.lean`, which are defined by rounding real numbers.  With C94 a run of any function of the library with `Sf F`
gives the result of the run with IEEE numbers, bit for bit: what the kernel computes for `Sf binary64` is what the functions
return for `double`. -/

namespace Lalib.Props

open Lalib Sf

variable {F : Fmt}

/-- Every IEEE number has an executable form, and an executable form stands for one number only; literals are the nearest
numbers. -/
theorem C95_number : (∀ b : Fp F, ∃ a : Sf F, Is a b) ∧ (∀ (a : Sf F) (b b' : Fp F), Is a b → Is a b' → b = b') ∧
    (∀ (a : Sf F) (b : Fp F), Is a b → b = toFp a) ∧ (∀ a : Sf F, ok a = true → Is a (toFp a)) ∧
    ∀ (s : Bool) (n d : Nat), d ≠ 0 → toFp (ofFrac F s n d) = Fp.round F s ((if s then -1 else 1) * (n / d)) :=
  ⟨is_ofFp, fun _ _ _ h h' => is_inj h h', fun _ _ h => is_toFp h, fun _ h => ok_is h,
    fun s n d hd => (is_toFp (ofFrac_is s n d hd)).symm⟩

/-- The operations: sum, difference, product, quotient, root, negation, comparison, test for zero. -/
theorem C95_arith (a a' : Sf F) (b b' : Fp F) (h : Is a b) (h' : Is a' b') :
    Is (-a) (-b) ∧ Is (a + a') (b + b') ∧ Is (a - a') (b - b') ∧ Is (a * a') (b * b') ∧ SameOut Is (divC a a') (divC b b') ∧
    SameOut Is (sqrtC a) (sqrtC b) ∧ (a < a' ↔ b < b') ∧ (IsZ a ↔ IsZ b) ∧ Is (0 : Sf F) 0 ∧ Is (1 : Sf F) 1 :=
  ⟨is_neg h, is_add h h', is_sub h h', is_mul h h', (twin F).div h h', twin_sqrt F h, is_lt h h', is_isZ h, is_zero, is_one⟩

/-- Numbers that stand for themselves. -/
def AllNum (x : List (Sf F)) : Prop := ∀ a ∈ x, Is a (toFp a)

theorem allNum_of_ok {x : List (Sf F)} (h : x.all ok = true) : AllNum x := fun a ha => ok_is (List.all_eq_true.mp h a ha)

theorem allNum_L {x : List (Sf F)} (h : AllNum x) : (twin F).L x (x.map toFp) := by
  induction x with
  | nil => exact .nil
  | cons a x ih => exact .cons (h a (by simp)) (ih fun b hb => h b (by simp [hb]))

theorem L_eq {x : List (Sf F)} {y : List (Fp F)} (h : (twin F).L x y) : y = x.map toFp := by
  unfold Twin.L at h
  induction h with
  | nil => rfl
  | cons h _ ih => rw [ih, is_toFp (show Is _ _ from h)]; rfl

theorem sameOut_num {r : Res (Sf F)} {r' : Res (Fp F)} (h : SameOut (twin F).rel r r') : r' = r.map toFp := by
  rcases h.cases with ⟨e, h1, h2⟩ | ⟨a, b, h1, h2, hab⟩
  · rw [h1, h2]; rfl
  · rw [h1, h2, is_toFp (show Is _ _ from hab)]; rfl

theorem sameOut_list {r : Res (List (Sf F))} {r' : Res (List (Fp F))} (h : SameOut (twin F).L r r') : r' = r.map (List.map toFp) := by
  rcases h.cases with ⟨e, h1, h2⟩ | ⟨a, b, h1, h2, hab⟩
  · rw [h1, h2]; rfl
  · rw [h1, h2, L_eq hab]; rfl

/-- Dense matrices. -/
noncomputable def denseFp (a : DMat (Sf F)) : DMat (Fp F) := ⟨a.n, a.m, a.elems.map toFp⟩
/-- Coordinate matrices. -/
noncomputable def cooFp (a : Coo (Sf F)) : Coo (Fp F) := ⟨a.val.map toFp, a.row, a.col⟩
/-- Compressed row matrices. -/
noncomputable def csrFp (a : Csr (Sf F)) : Csr (Fp F) := ⟨a.val.map toFp, a.rowPtr, a.col⟩
/-- Tri-diagonal matrices. -/
noncomputable def triFp (a : TriDiag (Sf F)) : TriDiag (Fp F) := ⟨a.dl.map toFp, a.d.map toFp, a.du.map toFp⟩
/-- Memories. -/
noncomputable def memFp (m : Mem (Sf F)) : Mem (Fp F) := fun p => (m p).map toFp

theorem dense_D {a : DMat (Sf F)} (h : AllNum a.elems) : (twin F).D a (denseFp a) := ⟨rfl, rfl, allNum_L h⟩
theorem coo_C {a : Coo (Sf F)} (h : AllNum a.val) : (twin F).C a (cooFp a) := ⟨allNum_L h, rfl, rfl⟩
theorem csr_R {a : Csr (Sf F)} (h : AllNum a.val) : (twin F).R a (csrFp a) := ⟨allNum_L h, rfl, rfl⟩
theorem tri_T {a : TriDiag (Sf F)} (h : AllNum a.dl ∧ AllNum a.d ∧ AllNum a.du) : (twin F).Tri a (triFp a) :=
  ⟨allNum_L h.1, allNum_L h.2.1, allNum_L h.2.2⟩
theorem mem_M {m : Mem (Sf F)} (h : ∀ p, AllNum (m p)) : (twin F).M m (memFp m) := fun p => allNum_L (h p)

theorem sameOut_map {α α' : Type} {K : α → α' → Prop} {f : α → α'} {r : Res α} {r' : Res α'} (h : SameOut K r r')
    (hK : ∀ a a', K a a' → a' = f a) : r' = r.map f := by
  rcases h.cases with ⟨e, h1, h2⟩ | ⟨a, b, h1, h2, hab⟩
  · rw [h1, h2]; rfl
  · rw [h1, h2, hK _ _ hab]; rfl

theorem D_eq {a : DMat (Sf F)} {b : DMat (Fp F)} (h : (twin F).D a b) : b = denseFp a := by
  cases b; unfold denseFp; rw [← L_eq h.elems, h.n, h.m]
theorem C_eq {a : Coo (Sf F)} {b : Coo (Fp F)} (h : (twin F).C a b) : b = cooFp a := by
  cases b; unfold cooFp; rw [← L_eq h.val, h.row, h.col]
theorem R_eq {a : Csr (Sf F)} {b : Csr (Fp F)} (h : (twin F).R a b) : b = csrFp a := by
  cases b; unfold csrFp; rw [← L_eq h.val, h.ptr, h.col]
theorem M_eq {m : Mem (Sf F)} {m' : Mem (Fp F)} (h : (twin F).M m m') : m' = memFp m := funext fun p => L_eq (h p)

/-- Vectors. -/
theorem C95_vec (m : Mem (Sf F)) (hm : ∀ p, AllNum (m p)) (x y : Nat) (t : RedTree) (ord : List Nat) (u v : List (Sf F))
    (hu : AllNum u) (hv : AllNum v) (al : Sf F) (hal : Is al (toFp al)) :
    dynDot (memFp m) x y = (dynDot m x y).map toFp ∧ dotCoreTree t (memFp m) x y = (dotCoreTree t m x y).map toFp ∧
    vecNorm2 (memFp m) x = (vecNorm2 m x).map toFp ∧ axpyD (toFp al) (memFp m) x y = (axpyD al m x y).map memFp ∧
    addOp ord (u.map toFp) (v.map toFp) = (addOp ord u v).map (List.map toFp) ∧
    subOp ord (u.map toFp) (v.map toFp) = (subOp ord u v).map (List.map toFp) ∧
    smulOp (toFp al) (u.map toFp) = (smulOp al u).map (List.map toFp) ∧
    divOp (u.map toFp) (toFp al) = (divOp u al).map (List.map toFp) :=
  have h := mem_M hm
  have k := C94_vec_values (twin F) (allNum_L hu) (allNum_L hv) hal ord
  ⟨sameOut_num (C94_dot _ h x y 0).1, sameOut_num (C94_dot_any_shape _ h x y t), sameOut_num (C94_norm2 _ h (twin_sqrt F) x t).1,
    sameOut_map (C94_axpy _ h hal 0 x y).1 fun _ _ => M_eq, sameOut_list k.1, sameOut_list k.2.1, sameOut_list k.2.2.2.1,
    sameOut_list k.2.2.2.2.2.2⟩

/-- Dense matrices. -/
theorem C95_mat (a b : DMat (Sf F)) (ha : AllNum a.elems) (hb : AllNum b.elems) (x : List (Sf F)) (hx : AllNum x) (nd : Bool)
    (ord : List Nat) :
    matVec nd (denseFp a) (x.map toFp) = (matVec nd a x).map (List.map toFp) ∧
    matMul nd (denseFp a) (denseFp b) = (matMul nd a b).map denseFp ∧
    matAddOp nd ord (denseFp a) (denseFp b) = (matAddOp nd ord a b).map denseFp ∧
    matSubOp nd ord (denseFp a) (denseFp b) = (matSubOp nd ord a b).map denseFp :=
  have k := C94_mat_values (twin F) (dense_D ha) (dense_D hb) (allNum_L hx) (twin F).zero nd ord 0 0
  ⟨sameOut_list k.1, sameOut_map k.2.1 fun _ _ => D_eq, sameOut_map k.2.2.1 fun _ _ => D_eq, sameOut_map k.2.2.2.1 fun _ _ => D_eq⟩

/-- Sparse matrices. -/
theorem C95_sparse (srt : SortFn) (a b : Coo (Sf F)) (ha : AllNum a.val) (hb : AllNum b.val) (c : Csr (Sf F)) (hc : AllNum c.val)
    (x : List (Sf F)) (hx : AllNum x) (nd : Bool) :
    Coo.add srt (cooFp a) (cooFp b) = (Coo.add srt a b).map cooFp ∧ Coo.sub srt (cooFp a) (cooFp b) = (Coo.sub srt a b).map cooFp ∧
    Csr.ofCoo (cooFp a) = (Csr.ofCoo a).map csrFp ∧ (csrFp c).mulVec nd (x.map toFp) = (c.mulVec nd x).map (List.map toFp) :=
  have k := C94_coo (twin F) srt (coo_C ha) (coo_C hb) (allNum_L hx) (twin F).zero [] [] 0 0 0
  have l := C94_csr (twin F) (csr_R hc) (coo_C ha) (allNum_L hx) (twin F).zero nd [] [] 0 0 0
  ⟨sameOut_map k.2.2.2.2.2.2.2.2.2.1 fun _ _ => C_eq, sameOut_map k.2.2.2.2.2.2.2.2.2.2 fun _ _ => C_eq,
    sameOut_map l.2.1 fun _ _ => R_eq, sameOut_list l.2.2.2.2.2.2.2.2⟩

/-- The direct solvers: tri-diagonal systems, Cholesky factorisations and their solves, Gram-Schmidt. -/
theorem C95_direct (m : Mem (Sf F)) (hm : ∀ p, AllNum (m p)) (a : TriDiag (Sf F)) (ha : AllNum a.dl ∧ AllNum a.d ∧ AllNum a.du)
    (l : List (Sf F)) (hl : AllNum l) (nd md : Bool) (mt : MemType) (n b x M : Nat) (sz : Option Nat) :
    Tdma.solveVec nd (triFp a) b x (memFp m) = (Tdma.solveVec nd a b x m).map memFp ∧
    Chol.new mt n (l.map toFp) = (Chol.new mt n l).map (List.map toFp) ∧
    Chol.modNew mt n (l.map toFp) = (Chol.modNew mt n l).map (List.map toFp) ∧
    Chol.solveMutVec nd md mt n (l.map toFp) b (memFp m) = (Chol.solveMutVec nd md mt n l b m).map memFp ∧
    Cgs.cgs nd sz M (memFp m) = (Cgs.cgs nd sz M m).map memFp :=
  have h := mem_M hm
  have k := allNum_L hl
  ⟨sameOut_map ((C94_tdma _ (tri_T ha) h nd).1 b x) fun _ _ => M_eq,
    sameOut_list (C94_cholesky _ (twin_z F) (twin_sqrt F) (twin_lt F) mt n k).2,
    sameOut_list (C94_mod_cholesky _ (twin_z F) mt n k),
    sameOut_map ((C94_chol_solve _ h k nd md mt n 0).1 b).1 fun _ _ => M_eq, sameOut_map (C94_cgs _ nd sz M h) fun _ _ => M_eq⟩

/-- Incomplete factorisation and GMRES, for dense and compressed row matrices. -/
theorem C95_iterative (rt : Nat → Nat) (nd : Bool) (a : DMat (Sf F)) (ha : AllNum a.elems) (c : Csr (Sf F)) (hc : AllNum c.val)
    (tol : Sf F) (ht : Is tol (toFp tol)) (b : List (Sf F)) (hb : AllNum b) :
    Ilu.new dOps (denseFp a) = (Ilu.new dOps a).map denseFp ∧ Ilu.new csrOps (csrFp c) = (Ilu.new csrOps c).map csrFp ∧
    Ilu.solve dOps (denseFp a) (b.map toFp) = (Ilu.solve dOps a b).map (List.map toFp) ∧
    Ilu.solve csrOps (csrFp c) (b.map toFp) = (Ilu.solve csrOps c b).map (List.map toFp) ∧
    (Gmres.new (dGOps nd) (denseFp a) (toFp tol) >>= fun g => Gmres.solve rt nd (dGOps nd) g (b.map toFp)) =
      (Gmres.new (dGOps nd) a tol >>= fun g => Gmres.solve rt nd (dGOps nd) g b).map (List.map toFp) ∧
    (Gmres.new (csrGOps nd) (csrFp c) (toFp tol) >>= fun g => Gmres.solve rt nd (csrGOps nd) g (b.map toFp)) =
      (Gmres.new (csrGOps nd) c tol >>= fun g => Gmres.solve rt nd (csrGOps nd) g b).map (List.map toFp) :=
  have k := C94_classes (twin F) nd
  have hd := dense_D ha
  have hr := csr_R hc
  have hl := allNum_L hb
  have g1 := C94_gmres (twin F) (twin_z F) (twin_sqrt F) (twin_lt F) k.1 rt nd
  have g2 := C94_gmres (twin F) (twin_z F) (twin_sqrt F) (twin_lt F) k.2.1 rt nd
  ⟨sameOut_map (C94_ilu _ (twin_z F) k.1.toOps hd).2 fun _ _ => D_eq, sameOut_map (C94_ilu _ (twin_z F) k.2.1.toOps hr).2 fun _ _ => R_eq,
    sameOut_list (C94_ilu_solve _ k.1.toOps hd hl), sameOut_list (C94_ilu_solve _ k.2.1.toOps hr hl),
    sameOut_list ((g1.1 hd ht).bind fun _ _ hg => g1.2 hg hl), sameOut_list ((g2.1 hr ht).bind fun _ _ hg => g2.2 hg hl)⟩

/-! ## Examples -/

/-- Decimal literals. -/
def lit (s : Bool) (n d : Nat) : Dbl := ofFrac binary64 s n d

/-- `0.1 + 0.2` is `0.3000000000000000444`, which is not the number `0.3`. -/
example : lit false 1 10 + lit false 2 10 = .fin false 5404319552844596 (-54) ∧ lit false 3 10 = .fin false 5404319552844595 (-54) := by
  decide +kernel

/-- Underflow to zero with the sign kept, overflow, a subnormal number, a root, a quotient. -/
example : lit true 1 (2 ^ 1074) * lit false 1 2 = (.fin true 0 (-1074) : Dbl) ∧
    lit false (2 ^ 1023) 1 + lit false (2 ^ 1023) 1 = (.inf false : Dbl) ∧
    lit false 3 (2 ^ 1074) * lit false 1 2 = (.fin false 2 (-1074) : Dbl) ∧
    Sf.sqrt (lit false 2 1) = (.fin false 6369051672525773 (-52) : Dbl) ∧
    Sf.div (lit false 1 1) (lit false 3 1) = (.fin false 6004799503160661 (-54) : Dbl) := by
  decide +kernel

/-- The data of `TEST(GmresTests, GmresTest)` (`/repo/test/solver/gmres.cc:46-59`). -/
def gmresMat : DMat Dbl := ⟨3, 3, [4, 2, 6, 2, 5, 5, 6, 5, 14].map (lit false · 1)⟩

set_option maxRecDepth 100000 in
/-- GMRES in `double` on these data returns 5629499534213122/2^52, 6755399441055745/2^52, -4503599627370497/2^52 (the solution
is 1.25, 1.5, -1): IEEE numbers, by computing with their executable form. -/
example : (Gmres.new (dGOps false) (denseFp gmresMat) (toFp (lit false 1 1000000)) >>= fun g =>
      Gmres.solve Nat.sqrt false (dGOps false) g (([2, 5, 1].map (lit false · 1)).map toFp)) =
    .ok ([.fin false 5629499534213122 (-52), .fin false 6755399441055745 (-52), .fin true 4503599627370497 (-52)].map toFp) := by
  have h := (C95_iterative Nat.sqrt false gmresMat (allNum_of_ok (by decide +kernel)) ⟨[], [], []⟩ (allNum_of_ok rfl)
    (lit false 1 1000000) (ok_is (by decide +kernel)) ([2, 5, 1].map (lit false · 1)) (allNum_of_ok (by decide +kernel))).2.2.2.2.1
  have e : ((Gmres.new (dGOps false) gmresMat (lit false 1 1000000) >>= fun g =>
      Gmres.solve Nat.sqrt false (dGOps false) g ([2, 5, 1].map (lit false · 1))) : Res (List Dbl)) =
      .ok [.fin false 5629499534213122 (-52), .fin false 6755399441055745 (-52), .fin true 4503599627370497 (-52)] := by
    decide +kernel
  rw [e] at h
  exact h

end Lalib.Props
