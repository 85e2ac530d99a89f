import Verif.WordRun
import Verif.PropsSimdKernel
/-!
# Words of bits: the scalar functions keep the numbers within the format, the kernels simulate
-/

namespace Repro
open Fmt

variable {F : Fmt} [F.OK]

/-- Every number of a memory has bits. -/
def AllBits (F : Fmt) (m : Mem) : Prop := ∀ a, F.Bits (m a)

/-- A function that maps numbers with bits to numbers with bits. -/
def Keeps (F : Fmt) (f : Mem → Mem) : Prop := ∀ m, AllBits F m → AllBits F (f m)

theorem decMem_bits (w : F.Words) : AllBits F (F.decMem w) := fun _ => dec_bits _

theorem dec_onWords {f : Mem → Mem} (h : Keeps F f) (w : F.Words) : F.decMem (F.onWords f w) = f (F.decMem w) := by
  funext a
  exact dec_enc (h _ (decMem_bits w) a)

omit [F.OK] in
theorem dec_setW (w : F.Words) (a : Int) (v : BitVec F.width) : F.decMem (F.setW w a v) = (F.decMem w).set a (F.dec v) := by
  funext b
  unfold decMem setW Mem.set
  split <;> rfl

/-- Two words with the same number are the same. -/
theorem dec_inj {a b : BitVec F.width} (h : F.dec a = F.dec b) : a = b := by
  have h1 : a.msb = b.msb := congrArg Flt.neg h
  have h2 : a.toNat % 2 ^ (F.width - 1) = b.toNat % 2 ^ (F.width - 1) := congrArg Flt.mag h
  apply BitVec.eq_of_toNat_eq
  have ha := a.isLt
  have hb := b.isLt
  rw [pow_width] at ha hb
  rw [BitVec.msb_eq_decide, BitVec.msb_eq_decide] at h1
  have h3 : (2 ^ (F.width - 1) ≤ a.toNat) ↔ (2 ^ (F.width - 1) ≤ b.toNat) := by simpa using h1
  generalize 2 ^ (F.width - 1) = M at *
  by_cases hc : M ≤ a.toNat
  · have hc' := h3.mp hc
    rw [Nat.mod_eq_sub_mod hc, Nat.mod_eq_sub_mod hc', Nat.mod_eq_of_lt (by omega), Nat.mod_eq_of_lt (by omega)] at h2
    omega
  · have hc' : ¬ M ≤ b.toNat := fun h => hc (h3.mpr h)
    rwa [Nat.mod_eq_of_lt (by omega), Nat.mod_eq_of_lt (by omega)] at h2

/-- A word has an exponent field of the format. -/
theorem dec_word (a : BitVec F.width) : F.expo (F.dec a) ≤ F.emax := by
  have h := dec_bits a
  unfold Bits at h
  rw [(width_pos (F := F)).2.2] at h
  unfold expo
  have := Nat.div_lt_of_lt_mul h
  omega

theorem enc_dec (a : BitVec F.width) : F.enc (F.dec a) = a := dec_inj (dec_enc (dec_bits a))

/-! ### The scalar functions -/

omit [F.OK] in
theorem AllBits.set {m : Mem} (h : AllBits F m) (a : Int) {v : Flt} (hv : F.Bits v) : AllBits F (m.set a v) := fun b => by
  unfold Mem.set
  split
  · exact hv
  · exact h b

omit [F.OK] in
theorem AllBits.foldl {α : Type} {f : Mem → α → Mem} (hf : ∀ m a, AllBits F m → AllBits F (f m a)) :
    ∀ (l : List α) {m : Mem}, AllBits F m → AllBits F (l.foldl f m)
  | [], _, h => h
  | a :: l, _, h => AllBits.foldl hf l (hf _ a h)

omit [F.OK] in
theorem Keeps.comp {f g : Mem → Mem} (hf : Keeps F f) (hg : Keeps F g) : Keeps F (fun m => f (g m)) := fun _ h => hf _ (hg _ h)

theorem bins_bits (i : Nat) : F.Bits (F.bins i) := by
  unfold bins
  split <;> exact roundMag_bits _ _

theorem ofInt_bits (c : Int) : F.Bits (F.ofInt c) := roundMag_bits _ _

theorem renormPri_bits {x : Flt} (h : F.Bits x) : F.Bits (F.renormPri x) := by
  have h1 : 2 ^ (F.p - 2) < 2 ^ (F.width - 1) := by
    rcases ‹F.OK›.isDoubleOrFloat with rfl | rfl <;> decide +kernel
  unfold Bits renormPri
  exact Nat.or_lt_two_pow (Nat.xor_lt_two_pow h (Nat.lt_of_le_of_lt Nat.and_le_left h)) h1

theorem dmrenormM_keeps (fold : Nat) (l : Loc) : Keeps F (F.dmrenormM fold l) := by
  intro m hm
  unfold dmrenormM
  split
  · exact hm
  · exact AllBits.foldl (fun m i h => (h.set _ (add_bits (h _) (ofInt_bits _))).set _ (renormPri_bits (h _))) _ hm

theorem dmdupdateM_keeps (fold : Nat) (x : Flt) (l : Loc) : Keeps F (F.dmdupdateM fold x l) := by
  intro m hm
  unfold dmdupdateM
  dsimp only
  split
  · exact hm
  split
  · exact AllBits.foldl (fun m i h => (h.set _ (bins_bits _)).set _ (zero_bits _)) _ hm
  split
  · exact AllBits.foldl (fun m i h => (h.set _ (bins_bits _)).set _ (zero_bits _)) _
      (AllBits.foldl (fun m i h => by
        have := h.set (l.P i) (h (l.P (i - (F.dmindex (m l.pri) - F.dindex x))))
        exact (h.set _ (h _)).set _ ((h.set _ (h _)) _)) _ hm)
  · exact hm

theorem accum0M_keeps (n : Nat) {t : Nat → Mem → Flt} (ht : ∀ j m, AllBits F m → F.Bits (t j m)) (a : Int) : Keeps F (F.accum0M n t a) := fun m hm =>
  AllBits.foldl (fun m j h => h.set _ (add_bits (h _) (ht j m h))) _ hm

theorem accumAbsM_keeps (n : Nat) (x incX a : Int) : Keeps F (F.accumAbsM n x incX a) := fun m hm =>
  AllBits.foldl (fun m j h => by
    have h1 := h.set a (add_bits (h a) (show F.Bits (fabs (m (x + j * 2 * incX))) from h _))
    exact h1.set a (add_bits (h1 a) (show F.Bits (fabs _) from h1 _))) _ hm

theorem rterm_bits (op : DepOp) {x z : Flt} (hx : F.Bits x) : F.Bits (rterm F op x z) := by
  unfold rterm
  split
  · exact hx
  · exact mul_bits _ _
  · exact hx

theorem zterm_bits (op : DepOp) (k : Nat) {x z : Flt × Flt} (h1 : F.Bits x.1) (h2 : F.Bits x.2) : F.Bits (F.zterm op k x z) := by
  unfold zterm
  split
  · split
    · exact sub_bits (mul_bits _ _) (mul_bits _ _)
    · exact add_bits (mul_bits _ _) (mul_bits _ _)
  · split
    · exact add_bits (mul_bits _ _) (mul_bits _ _)
    · exact sub_bits (mul_bits _ _) (mul_bits _ _)
  · split
    · exact h1
    · exact h2

theorem zmrenormM_keeps (fold : Nat) (l : Loc) : Keeps F (F.zmrenormM fold l) := (dmrenormM_keeps fold l.im).comp (dmrenormM_keeps fold l.re)
theorem zmzupdateM_keeps (fold : Nat) (a b : Flt) (l : Loc) : Keeps F (F.zmzupdateM fold a b l) := (dmdupdateM_keeps fold b l.im).comp (dmdupdateM_keeps fold a l.re)
theorem zmdupdateM_keeps (fold : Nat) (a : Flt) (l : Loc) : Keeps F (F.zmdupdateM fold a l) := (dmdupdateM_keeps fold a l.im).comp (dmdupdateM_keeps fold a l.re)

theorem dmsetzeroM_keeps (fold : Nat) (l : Loc) : Keeps F (dmsetzeroM fold l) := fun m hm => by
  unfold dmsetzeroM
  exact AllBits.foldl (fun m i h => (h.set _ (zero_bits _)).set _ (zero_bits _)) _ hm

theorem zmsetzeroM_keeps (fold : Nat) (l : Loc) : Keeps F (zmsetzeroM fold l) := (dmsetzeroM_keeps fold l.im).comp (dmsetzeroM_keeps fold l.re)

omit [F.OK] in
theorem dmdmsetM_keeps (fold : Nat) (x y : Loc) : Keeps F (dmdmsetM fold x y) := fun m hm => by
  unfold dmdmsetM
  exact AllBits.foldl (fun m i h => (h.set _ (h _)).set _ ((h.set _ (h _)) _)) _ hm

theorem dmdmaddM_keeps (fold : Nat) (x y : Loc) : Keeps F (F.dmdmaddM fold x y) := fun m hm => by
  unfold dmdmaddM
  dsimp only
  split
  · exact hm
  split
  · exact dmdmsetM_keeps _ _ _ _ hm
  split
  · exact hm.set _ (add_bits (hm _) (hm _))
  split
  · refine dmrenormM_keeps _ _ _ (AllBits.foldl (fun m i h => (h.set _ (h _)).set _ ((h.set _ (h _)) _)) _ (AllBits.foldl (fun m i h => ?_) _ hm))
    have h1 := h.set (y.P i) (add_bits (h (x.P i)) (sub_bits (h (y.P (i - (F.dmindex (m y.pri) - F.dmindex (m x.pri))))) (bins_bits 0)))
    refine AllBits.set (AllBits.set h _ (add_bits (h _) (sub_bits (h _) (bins_bits _)))) _ (add_bits ?_ ?_)
    all_goals exact (h.set _ (add_bits (h _) (sub_bits (h _) (bins_bits _)))) _
  · refine dmrenormM_keeps _ _ _ (AllBits.foldl (fun m i h => ?_) _ hm)
    refine AllBits.set (AllBits.set h _ (add_bits (h _) (sub_bits (h _) (bins_bits _)))) _ (add_bits ?_ ?_)
    all_goals exact (h.set _ (add_bits (h _) (sub_bits (h _) (bins_bits _)))) _

theorem rescaleLoopM_keeps (r : Flt) : ∀ (n : Nat) (l : Loc), Keeps F (F.rescaleLoopM r n l)
  | 0, _ => fun _ hm => hm
  | n + 1, l => fun m hm => by
    have h1 := hm.set l.pri (div_bits (m l.pri) r)
    unfold rescaleLoopM
    dsimp only
    split
    · exact dmdupdateM_keeps _ _ _ _ h1
    · exact rescaleLoopM_keeps r n l.next _ h1

theorem dmdrescaleM_keeps (fold : Nat) (a b : Flt) (l : Loc) : Keeps F (F.dmdrescaleM fold a b l) := fun m hm => by
  unfold dmdrescaleM
  dsimp only
  split
  · exact hm
  · exact rescaleLoopM_keeps _ _ _ _ hm

theorem zrescaleLoopM_keeps (r : Flt) (fold : Nat) (l : Loc) : ∀ (n i : Nat), Keeps F (F.zrescaleLoopM r fold l n i)
  | 0, _ => fun _ hm => hm
  | n + 1, i => fun m hm => by
    unfold zrescaleLoopM
    dsimp only
    have h1 := (hm.set (l.pri + i * 2 * l.incpri) (div_bits (m (l.pri + i * 2 * l.incpri)) r))
    have h2 := h1.set (l.pri + i * 2 * l.incpri + 1) (div_bits ((m.set (l.pri + i * 2 * l.incpri) (F.div (m (l.pri + i * 2 * l.incpri)) r)) (l.pri + i * 2 * l.incpri + 1)) r)
    split
    · exact zmdupdateM_keeps _ _ _ _ h2
    · exact zrescaleLoopM_keeps r fold l n (i + 1) _ h2

theorem zmdrescaleM_keeps (fold : Nat) (a b : Flt) (l : Loc) : Keeps F (F.zmdrescaleM fold a b l) := fun m hm => by
  unfold zmdrescaleM
  dsimp only
  split
  · exact hm
  · exact zrescaleLoopM_keeps _ _ _ _ _ _ hm

theorem dmdmaddsqM_keeps (fold : Nat) (tmp : Int) (a b : Flt) (x y : Loc) : Keeps F (fun m => (F.dmdmaddsqM fold tmp a x b y m).2) := fun m hm => by
  dsimp only
  unfold dmdmaddsqM
  split
  · exact dmdmaddM_keeps _ _ _ _ (dmdrescaleM_keeps _ _ _ _ _ hm)
  split
  · exact dmdmaddM_keeps _ _ _ _ hm
  · exact dmdmaddM_keeps _ _ _ _ (dmdrescaleM_keeps _ _ _ _ _ (dmdmsetM_keeps _ _ _ _ hm))

theorem zasumEndM_keeps (fold : Nat) (s l : Loc) : Keeps F (F.zasumEndM fold s l) :=
  (dmdmaddM_keeps fold s.im l).comp ((dmdmaddM_keeps fold s.re l).comp (zmrenormM_keeps fold s))

theorem zssqEndM_keeps (fold : Nat) (t0 t1 : Int) (s l : Loc) (a b : Flt) : Keeps F (fun m => (F.zssqEndM fold t0 t1 s l a b m).2) := fun m hm =>
  dmdmaddsqM_keeps fold t1 _ _ s.im l _ (dmdmaddsqM_keeps fold t0 _ _ s.re l _ (zmrenormM_keeps fold s m hm))

/-! ### The kernels -/

omit [F.OK] in
theorem dec_behind (w : F.Words) (X Z : Int) : nums F (F.behindW w X Z) = behind (F.decMem w) X Z := rfl

omit [F.OK] in
theorem dec_bindY {isa : Isa} (l0 l1 : Loc) (w : F.Words) (σ : IRegs isa.bits F.width) :
    F.decRegs isa (F.bindYW l0 l1 w σ) = bindY l0 l1 (F.decMem w) (F.decRegs isa σ) := by
  funext v t
  unfold decRegs bindYW bindY
  split
  · rename_i hv
    split
    · rfl
    · rfl
    · dsimp only
      rw [if_pos hv]
      cases v <;> first | rfl | skip
      rename_i k j h0 h1
      match k with
      | 0 => exact absurd rfl (h0 j)
      | 1 => exact absurd rfl (h1 j)
      | k + 2 => rfl
  · rename_i hv
    split
    · exact absurd rfl hv
    · exact absurd rfl hv
    · dsimp only
      rw [if_neg hv]

omit [F.OK] in
theorem dec_storeY {isa : Isa} (fold k : Nat) (l : Loc) (σ : IRegs isa.bits F.width) (τ : Regs) (h : ∀ j, F.dec (σ.sc (.y k j)) = τ (.y k j) 0) (w : F.Words) :
    F.decMem (F.storeYW fold k l σ w) = storeY fold k l τ (F.decMem w) := by
  unfold storeYW storeY
  generalize List.range fold = js
  induction js generalizing w with
  | nil => rfl
  | cons j js ih =>
    rw [List.foldl_cons, List.foldl_cons, ih, dec_setW, h]

end Repro
