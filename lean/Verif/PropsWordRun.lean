import Verif.WordRunLemmas
import Verif.PropsRoutineSq
/-!
# C71: the vector routines on words of bits, with vector instructions inside
-/

namespace Repro
open Fmt

variable {F : Fmt}

/-! ### The routines on words simulate the routines on numbers -/

section
variable [F.OK] {isa : Isa} {T : Tune} (hT : T.OK F) (expand : Bool) (fold : Nat)
include hT

theorem kernelW_y {cplx : Bool} (hu : T.Unit F isa cplx) (op : DepOp) (hop : ∀ inv, op = .ssq inv → F.Bits inv) (w : F.Words) (X Z incX incZ : Int) (n : Nat) (l0 l1 : Loc)
    (σ : IRegs isa.bits F.width) (k j : Nat) :
    F.dec (((Gen.mk T cplx op).kernelI F isa (F.behindW w X Z) incX incZ expand fold n (F.bindYW l0 l1 w σ)).sc (.y k j))
      = (Gen.mk T cplx op).kernelCode F (behind (F.decMem w) X Z) incX incZ expand fold n (bindY l0 l1 (F.decMem w) (F.decRegs isa σ)) (.y k j) 0 := by
  rw [C65_deposit hT hu _ _ _ _ _ _ op hop, dec_bindY, dec_behind]

omit hT in
theorem maxW {cplx : Bool} (hu : T.Unit F isa cplx) (prod : Bool) (w : F.Words) (X Z incX incZ : Int) (n : Nat) (σ : IRegs isa.bits F.width) (k : Nat) :
    F.dec (((GenA.mk T cplx prod).codeI F isa (F.behindW w X Z) incX incZ n σ).sc (.am k))
      = (GenA.mk T cplx prod).code F (behind (F.decMem w) X Z) incX incZ n (F.decRegs isa σ) (.am k) 0 := by
  rw [C65_maximum hu, dec_behind]

theorem rloopW_dec (hu : T.Unit F isa false) (op : DepOp) (hop : ∀ inv, op = .ssq inv → F.Bits inv) (l : Loc) (incX incZ : Int) (jA jD : Nat → IRegs isa.bits F.width) (fuel : Nat) :
    ∀ (rem : Nat) (X Z : Int) (dep : Nat) (w : F.Words),
      F.decMem (F.rloopW isa T op expand fold l incX incZ jA jD fuel rem X Z dep w)
        = F.rloopM T op expand fold l incX incZ (fun r => F.decRegs isa (jA r)) (fun r => F.decRegs isa (jD r)) fuel rem X Z dep (F.decMem w) := by
  induction fuel with
  | zero => intro rem X Z dep w; exact dec_onWords (dmrenormM_keeps _ _) w
  | succ fuel ih =>
    intro rem X Z dep w
    unfold rloopW rloopM
    dsimp only
    split
    · exact dec_onWords (dmrenormM_keeps _ _) w
    rw [maxW hu]
    generalize (GenA.mk T false op.prod).code F (behind (F.decMem w) X Z) incX incZ (min rem T.nb) (F.decRegs isa (jA rem)) (.am 0) 0 = amax
    have e1 : F.decMem (if F.isInf amax || F.isInf (F.dec (w l.pri)) then
          F.onWords (F.accum0M (min rem T.nb) (fun j m => rterm F op (m (X + j * incX)) (m (Z + j * incZ))) l.pri) w else w)
        = (if F.isInf amax || F.isInf (F.decMem w l.pri) then
          F.accum0M (min rem T.nb) (fun j m => rterm F op (m (X + j * incX)) (m (Z + j * incZ))) l.pri (F.decMem w) else F.decMem w) := by
      rw [apply_ite F.decMem, dec_onWords (accum0M_keeps _ (fun j m hm => rterm_bits _ (hm _)) _)]
      rfl
    rw [← e1]
    generalize (if F.isInf amax || F.isInf (F.dec (w l.pri)) then
          F.onWords (F.accum0M (min rem T.nb) (fun j m => rterm F op (m (X + j * incX)) (m (Z + j * incZ))) l.pri) w else w) = w1
    rw [show F.decMem w1 l.pri = F.dec (w1 l.pri) from rfl, apply_ite F.decMem, apply_ite F.decMem, ih, ih]
    congr 3
    have e2 : F.decMem (F.onWords (F.dmdupdateM fold amax l) (if dep + min rem T.nb > F.endurance then F.onWords (F.dmrenormM fold l) w1 else w1))
        = F.dmdupdateM fold amax l (if dep + min rem T.nb > F.endurance then F.dmrenormM fold l (F.decMem w1) else F.decMem w1) := by
      rw [dec_onWords (dmdupdateM_keeps _ _ _), apply_ite F.decMem, dec_onWords (dmrenormM_keeps _ _)]
    rw [← e2]
    exact dec_storeY _ _ _ _ _ (fun j => kernelW_y hT expand fold hu op hop _ X Z incX incZ _ l l _ 0 j) _

/-- Both parts of the accumulator. -/
theorem storeZ_dec (hu : T.Unit F isa true) (op : DepOp) (hop : ∀ inv, op = .ssq inv → F.Bits inv) (l : Loc) (w : F.Words) (X Z incX incZ : Int) (n : Nat) (σ : IRegs isa.bits F.width) :
    let τ := (Gen.mk T true op).kernelI F isa (F.behindW w X Z) incX incZ expand fold n (F.bindYW l.re l.im w σ)
    let ρ := (Gen.mk T true op).kernelCode F (behind (F.decMem w) X Z) incX incZ expand fold n (bindY l.re l.im (F.decMem w) (F.decRegs isa σ))
    F.decMem (F.storeYW fold 1 l.im τ (F.storeYW fold 0 l.re τ w)) = storeY fold 1 l.im ρ (storeY fold 0 l.re ρ (F.decMem w)) := by
  intro τ ρ
  rw [dec_storeY _ _ _ _ ρ (fun j => kernelW_y hT expand fold hu op hop _ X Z incX incZ _ l.re l.im _ 1 j),
    dec_storeY _ _ _ _ ρ (fun j => kernelW_y hT expand fold hu op hop _ X Z incX incZ _ l.re l.im _ 0 j)]

theorem zloopW_dec (hu : T.Unit F isa true) (op : DepOp) (hop : ∀ inv, op = .ssq inv → F.Bits inv) (l : Loc) (incX incZ : Int) (jA jD : Nat → IRegs isa.bits F.width) (fuel : Nat) :
    ∀ (rem : Nat) (X Z : Int) (dep : Nat) (w : F.Words),
      F.decMem (F.zloopW isa T op expand fold l incX incZ jA jD fuel rem X Z dep w)
        = F.zloopM T op expand fold l incX incZ (fun r => F.decRegs isa (jA r)) (fun r => F.decRegs isa (jD r)) fuel rem X Z dep (F.decMem w) := by
  induction fuel with
  | zero => intro rem X Z dep w; exact dec_onWords (zmrenormM_keeps _ _) w
  | succ fuel ih =>
    intro rem X Z dep w
    unfold zloopW zloopM
    dsimp only
    by_cases h0 : rem = 0
    · rw [if_pos h0, if_pos h0]
      exact dec_onWords (zmrenormM_keeps _ _) w
    rw [if_neg h0, if_neg h0]
    rw [← maxW hu, ← maxW hu]
    generalize hA0 : ((GenA.mk T true op.prod).codeI F isa (F.behindW w X Z) incX incZ (min rem T.nb) (jA rem)).sc (.am 0) = A0
    generalize hA1 : ((GenA.mk T true op.prod).codeI F isa (F.behindW w X Z) incX incZ (min rem T.nb) (jA rem)).sc (.am 1) = A1
    have acc : ∀ (k : Nat) (A : BitVec F.width) (a : Int) (w : F.Words), F.decMem (if F.isInf (F.dec A) || F.isInf (F.dec (w a)) then
          F.onWords (F.accum0M (min rem T.nb) (fun j m => F.zterm op k (m.pair (X + j * 2 * incX)) (m.pair (Z + j * 2 * incZ))) a) w else w)
        = (if F.isInf (F.dec A) || F.isInf (F.decMem w a) then
          F.accum0M (min rem T.nb) (fun j m => F.zterm op k (m.pair (X + j * 2 * incX)) (m.pair (Z + j * 2 * incZ))) a (F.decMem w) else F.decMem w) := by
      intro k A a w
      rw [apply_ite F.decMem, dec_onWords (accum0M_keeps _ (fun j m hm => zterm_bits _ _ (hm _) (hm _)) _)]
      rfl
    rw [← acc, ← acc]
    generalize (if F.isInf (F.dec A0) || F.isInf (F.dec (w l.pri)) then
          F.onWords (F.accum0M (min rem T.nb) (fun j m => F.zterm op 0 (m.pair (X + j * 2 * incX)) (m.pair (Z + j * 2 * incZ))) l.pri) w else w) = w0
    generalize (if F.isInf (F.dec A1) || F.isInf (F.dec (w0 (l.pri + 1))) then
          F.onWords (F.accum0M (min rem T.nb) (fun j m => F.zterm op 1 (m.pair (X + j * 2 * incX)) (m.pair (Z + j * 2 * incZ))) (l.pri + 1)) w0 else w0) = w1
    rw [show F.decMem w1 l.pri = F.dec (w1 l.pri) from rfl, show F.decMem w1 (l.pri + 1) = F.dec (w1 (l.pri + 1)) from rfl,
      apply_ite F.decMem, apply_ite F.decMem, ih, ih]
    have hb0 : F.Bits (if F.isNaNInf (F.dec (w1 l.pri)) then F.dec (w1 l.pri) else F.dec A0) := by split <;> exact dec_bits _
    have hb1 : F.Bits (if F.isNaNInf (F.dec (w1 (l.pri + 1))) then F.dec (w1 (l.pri + 1)) else F.dec A1) := by split <;> exact dec_bits _
    generalize (if F.isNaNInf (F.dec (w1 l.pri)) then F.dec (w1 l.pri) else F.dec A0) = b0 at *
    generalize (if F.isNaNInf (F.dec (w1 (l.pri + 1))) then F.dec (w1 (l.pri + 1)) else F.dec A1) = b1 at *
    congr 3
    have e2 : F.decMem (F.onWords (F.zmzupdateM fold b0 b1 l) (if dep + min rem T.nb > F.endurance / (if op.prod then 2 else 1) then F.onWords (F.zmrenormM fold l) w1 else w1))
        = F.zmzupdateM fold b0 b1 l (if dep + min rem T.nb > F.endurance / (if op.prod then 2 else 1) then F.zmrenormM fold l (F.decMem w1) else F.decMem w1) := by
      rw [dec_onWords (zmzupdateM_keeps _ _ _ _), apply_ite F.decMem, dec_onWords (zmrenormM_keeps _ _)]
    rw [← e2]
    generalize F.onWords (F.zmzupdateM fold b0 b1 l) (if dep + min rem T.nb > F.endurance / (if op.prod then 2 else 1) then F.onWords (F.zmrenormM fold l) w1 else w1) = w2
    rw [apply_ite F.decMem, dec_setW, apply_ite F.decMem, dec_setW, dec_enc hb0, dec_enc hb1, storeZ_dec hT expand fold hu op hop]

omit hT in
theorem ssqEndW_dec (l : Loc) (scl : Flt) (w : F.Words) :
    (fun r : Flt × F.Words => (r.1, F.decMem r.2)) (F.ssqEndW fold l scl w) = F.ssqEndM fold l scl (F.decMem w) := by
  unfold ssqEndW ssqEndM
  dsimp only
  rw [← dec_onWords (dmrenormM_keeps fold l)]
  rfl

theorem ssqLoopW_dec (hu : T.Unit F isa false) (l : Loc) (incX : Int) (jA jD : Nat → IRegs isa.bits F.width) (fuel : Nat) :
    ∀ (rem : Nat) (X : Int) (dep : Nat) (scl : Flt) (w : F.Words),
      (fun r : Flt × F.Words => (r.1, F.decMem r.2)) (F.ssqLoopW isa T expand fold l incX jA jD fuel rem X dep scl w)
        = F.ssqLoopM T expand fold l incX (fun r => F.decRegs isa (jA r)) (fun r => F.decRegs isa (jD r)) fuel rem X dep scl (F.decMem w) := by
  induction fuel with
  | zero => intro rem X dep scl w; exact ssqEndW_dec fold l scl w
  | succ fuel ih =>
    intro rem X dep scl w
    unfold ssqLoopW ssqLoopM
    dsimp only at ih ⊢
    split
    · exact ssqEndW_dec fold l scl w
    rw [maxW hu]
    generalize (GenA.mk T false false).code F (behind (F.decMem w) X X) incX incX (min rem T.nb) (F.decRegs isa (jA rem)) (.am 0) 0 = amax
    have e1 : F.decMem (if F.isInf amax || F.isInf (F.dec (w l.pri)) then
          F.onWords (F.accum0M (min rem T.nb) (fun j m => fabs (m (X + j * incX))) l.pri) w else w)
        = (if F.isInf amax || F.isInf (F.decMem w l.pri) then
          F.accum0M (min rem T.nb) (fun j m => fabs (m (X + j * incX))) l.pri (F.decMem w) else F.decMem w) := by
      rw [apply_ite F.decMem, dec_onWords (accum0M_keeps (t := fun (j : Nat) m => fabs (m (X + j * incX))) _ (fun j m hm => hm _) _)]
      rfl
    rw [← e1]
    generalize (if F.isInf amax || F.isInf (F.dec (w l.pri)) then
          F.onWords (F.accum0M (min rem T.nb) (fun j m => fabs (m (X + j * incX))) l.pri) w else w) = w1
    rw [show F.decMem w1 l.pri = F.dec (w1 l.pri) from rfl]
    split
    · rfl
    split
    · exact ih _ _ _ _ _
    rw [ih]
    congr 1
    generalize F.dscale amax = new
    generalize (if F.lt scl new then new else scl) = scl'
    have e2 : F.decMem (F.onWords (F.dmdupdateM fold (F.mul (F.div amax scl') (F.div amax scl')) l)
          (if F.lt scl new && F.lt zero scl then F.onWords (F.dmdrescaleM fold new scl l) (if dep + min rem T.nb > F.endurance then F.onWords (F.dmrenormM fold l) w1 else w1)
            else (if dep + min rem T.nb > F.endurance then F.onWords (F.dmrenormM fold l) w1 else w1)))
        = F.dmdupdateM fold (F.mul (F.div amax scl') (F.div amax scl')) l
          (if F.lt scl new && F.lt zero scl then F.dmdrescaleM fold new scl l (if dep + min rem T.nb > F.endurance then F.dmrenormM fold l (F.decMem w1) else F.decMem w1)
            else (if dep + min rem T.nb > F.endurance then F.dmrenormM fold l (F.decMem w1) else F.decMem w1)) := by
      rw [dec_onWords (dmdupdateM_keeps _ _ _), apply_ite F.decMem, dec_onWords (dmdrescaleM_keeps _ _ _ _), apply_ite F.decMem, dec_onWords (dmrenormM_keeps _ _)]
    rw [← e2]
    exact dec_storeY _ _ _ _ _ (fun j => kernelW_y hT expand fold hu _ (fun inv h => by cases h; exact div_bits _ _) _ X X incX incX _ l l _ 0 j) _

theorem zasumLoopW_dec (hu : T.Unit F isa true) (s l : Loc) (incX : Int) (jA jD : Nat → IRegs isa.bits F.width) (fuel : Nat) :
    ∀ (rem : Nat) (X : Int) (dep : Nat) (w : F.Words),
      F.decMem (F.zasumLoopW isa T expand fold s l incX jA jD fuel rem X dep w)
        = F.zasumLoopM T expand fold s l incX (fun r => F.decRegs isa (jA r)) (fun r => F.decRegs isa (jD r)) fuel rem X dep (F.decMem w) := by
  induction fuel with
  | zero => intro rem X dep w; exact dec_onWords (zasumEndM_keeps _ _ _) w
  | succ fuel ih =>
    intro rem X dep w
    unfold zasumLoopW zasumLoopM
    dsimp only
    split
    · exact dec_onWords (zasumEndM_keeps _ _ _) w
    rw [maxW hu, maxW hu]
    generalize F.fmax _ _ = amax
    have e1 : F.decMem (if F.isInf amax || F.isInf (F.dec (w l.pri)) then F.onWords (F.accumAbsM (min rem T.nb) X incX l.pri) w else w)
        = (if F.isInf amax || F.isInf (F.decMem w l.pri) then F.accumAbsM (min rem T.nb) X incX l.pri (F.decMem w) else F.decMem w) := by
      rw [apply_ite F.decMem, dec_onWords (accumAbsM_keeps _ _ _ _)]
      rfl
    rw [← e1]
    generalize (if F.isInf amax || F.isInf (F.dec (w l.pri)) then F.onWords (F.accumAbsM (min rem T.nb) X incX l.pri) w else w) = w1
    rw [apply_ite F.decMem, apply_ite F.decMem, ih, ih, dec_onWords (fun m hm => hm.set _ (add_bits (hm _) (add_bits (hm _) (hm _))))]
    have e2 : F.decMem (F.onWords (F.zmdupdateM fold amax s) (if dep + min rem T.nb > F.endurance then F.onWords (F.zmrenormM fold s) w1 else w1))
        = F.zmdupdateM fold amax s (if dep + min rem T.nb > F.endurance then F.zmrenormM fold s (F.decMem w1) else F.decMem w1) := by
      rw [dec_onWords (zmdupdateM_keeps _ _ _), apply_ite F.decMem, dec_onWords (zmrenormM_keeps _ _)]
    rw [← e2, storeZ_dec hT expand fold hu .asum (fun inv h => by cases h)]
    rfl

omit hT in
theorem zssqEndW_dec (t0 t1 : Int) (s l : Loc) (a b : Flt) (w : F.Words) :
    (fun r : Flt × F.Words => (r.1, F.decMem r.2)) (F.zssqEndW fold t0 t1 s l a b w) = F.zssqEndM fold t0 t1 s l a b (F.decMem w) := by
  unfold zssqEndW
  dsimp only
  exact Prod.ext rfl (dec_onWords (zssqEndM_keeps fold t0 t1 s l a b) w)

theorem zssqLoopW_dec (hu : T.Unit F isa true) (t0 t1 : Int) (s l : Loc) (incX : Int) (scaleY : Flt) (jA jD : Nat → IRegs isa.bits F.width) (fuel : Nat) :
    ∀ (rem : Nat) (X : Int) (dep : Nat) (scl : Flt) (w : F.Words),
      (fun r : Flt × F.Words => (r.1, F.decMem r.2)) (F.zssqLoopW isa T expand fold t0 t1 s l incX scaleY jA jD fuel rem X dep scl w)
        = F.zssqLoopM T expand fold t0 t1 s l incX scaleY (fun r => F.decRegs isa (jA r)) (fun r => F.decRegs isa (jD r)) fuel rem X dep scl (F.decMem w) := by
  induction fuel with
  | zero => intro rem X dep scl w; exact zssqEndW_dec fold t0 t1 s l scl scaleY w
  | succ fuel ih =>
    intro rem X dep scl w
    unfold zssqLoopW zssqLoopM
    dsimp only at ih ⊢
    split
    · exact zssqEndW_dec fold t0 t1 s l scl scaleY w
    rw [maxW hu, maxW hu]
    generalize F.fmax _ _ = amax
    have e1 : F.decMem (if F.isInf amax || F.isInf (F.dec (w l.pri)) then F.onWords (F.accumAbsM (min rem T.nb) X incX l.pri) w else w)
        = (if F.isInf amax || F.isInf (F.decMem w l.pri) then F.accumAbsM (min rem T.nb) X incX l.pri (F.decMem w) else F.decMem w) := by
      rw [apply_ite F.decMem, dec_onWords (accumAbsM_keeps _ _ _ _)]
      rfl
    rw [← e1]
    generalize (if F.isInf amax || F.isInf (F.dec (w l.pri)) then F.onWords (F.accumAbsM (min rem T.nb) X incX l.pri) w else w) = w1
    rw [show F.decMem w1 l.pri = F.dec (w1 l.pri) from rfl, show F.decMem w1 s.pri = F.dec (w1 s.pri) from rfl,
      show F.decMem w1 (s.pri + 1) = F.dec (w1 (s.pri + 1)) from rfl]
    split
    · exact Prod.ext rfl (dec_onWords (fun m hm => hm.set _ (add_bits (hm _) (add_bits (hm _) (hm _)))) w1)
    split
    · exact ih _ _ _ _ _
    rw [ih]
    congr 1
    generalize F.dscale amax = new
    generalize (if F.lt scl new then new else scl) = scl'
    have e2 : F.decMem (F.onWords (F.zmdupdateM fold (F.mul (F.div amax scl') (F.div amax scl')) s)
          (if F.lt scl new && F.lt zero scl then F.onWords (F.zmdrescaleM fold new scl s) (if dep + min rem T.nb > F.endurance then F.onWords (F.zmrenormM fold s) w1 else w1)
            else (if dep + min rem T.nb > F.endurance then F.onWords (F.zmrenormM fold s) w1 else w1)))
        = F.zmdupdateM fold (F.mul (F.div amax scl') (F.div amax scl')) s
          (if F.lt scl new && F.lt zero scl then F.zmdrescaleM fold new scl s (if dep + min rem T.nb > F.endurance then F.zmrenormM fold s (F.decMem w1) else F.decMem w1)
            else (if dep + min rem T.nb > F.endurance then F.zmrenormM fold s (F.decMem w1) else F.decMem w1)) := by
      rw [dec_onWords (zmdupdateM_keeps _ _ _), apply_ite F.decMem, dec_onWords (zmdrescaleM_keeps _ _ _ _), apply_ite F.decMem, dec_onWords (zmrenormM_keeps _ _)]
    rw [← e2]
    exact storeZ_dec hT expand fold hu _ (fun inv h => by cases h; exact div_bits _ _) s _ X X incX incX _ _

end

/-! ### Statements -/

/-- The words of an accumulator: primaries and carries. -/
def accW (F : Fmt) (fold : Nat) (l : Loc) (w : F.Words) : List (BitVec F.width) × List (BitVec F.width) :=
  ((List.range fold).map (fun i => w (l.P i)), (List.range fold).map (fun i => w (l.C i)))

/-- The binned value the words of an accumulator stand for. -/
def viewW (F : Fmt) (fold : Nat) (l : Loc) (w : F.Words) : Binned := ⟨(accW F fold l w).1.map F.dec, (accW F fold l w).2.map F.dec⟩

theorem viewW_eq (fold : Nat) (l : Loc) (w : F.Words) : viewW F fold l w = view fold l (F.decMem w) := by
  unfold viewW accW view decMem
  dsimp only
  rw [List.map_map, List.map_map]
  rfl

theorem map_dec_inj [F.OK] : ∀ {a b : List (BitVec F.width)}, a.map F.dec = b.map F.dec → a = b
  | [], [], _ => rfl
  | [], _ :: _, h => by cases h
  | _ :: _, [], h => by cases h
  | x :: a, y :: b, h => by
    rw [List.map_cons, List.map_cons] at h
    rw [dec_inj (List.cons.inj h).1, map_dec_inj (List.cons.inj h).2]

/-- The same binned value is the same words. -/
theorem accW_of_view [F.OK] {fold : Nat} {l l' : Loc} {w w' : F.Words} (h : viewW F fold l w = viewW F fold l' w') : accW F fold l w = accW F fold l' w' :=
  Prod.ext (map_dec_inj (congrArg Binned.pri h)) (map_dec_inj (congrArg Binned.car h))

section
variable [F.OK] {isa : Isa} {T : Tune} (hT : T.OK F) {expand : Bool} {fold : Nat} (hf : 1 ≤ fold) (he : expand = true → 2 ≤ fold) {l : Loc}
  (n : Nat) (X incX Z incZ : Int) (jA jD : Nat → IRegs isa.bits F.width) (w : F.Words)
include hT hf he

/-- **C71.** `binnedBLAS_dmdsum` on a machine with SSE or AVX, for all contents of the registers: the words of the accumulator are
those of the binned value the list model computes from the numbers in memory; every other word keeps its bits. -/
theorem C71_sum (hu : T.Unit F isa false) (hs : Sep fold l) (hX : ∀ i : Nat, i < n → ¬ l.In fold (X + i * incX)) :
    viewW F fold l (F.rvecW isa T .sum expand fold l n X incX Z incZ jA jD w) = F.dmdsum T fold n (fun a => F.dec (w (X + a))) incX (viewW F fold l w)
    ∧ ∀ a, ¬ l.In fold a → F.rvecW isa T .sum expand fold l n X incX Z incZ jA jD w a = w a := by
  have e := rloopW_dec hT expand fold hu .sum (fun inv h => by cases h) l incX incZ jA jD n n X Z 0 w
  have h := C64_sum (expand := expand) hT hf he n X incX Z incZ (fun r => F.decRegs isa (jA r)) (fun r => F.decRegs isa (jD r)) (F.decMem w) hs hX
  refine ⟨?_, fun a ha => dec_inj ((congrFun e a).trans (h.2 a ha))⟩
  rw [viewW_eq, viewW_eq]
  exact (congrArg (view fold l) e).trans h.1

/-- **C71.** `binnedBLAS_dmdasum`. -/
theorem C71_asum (hu : T.Unit F isa false) (hs : Sep fold l) (hX : ∀ i : Nat, i < n → ¬ l.In fold (X + i * incX)) :
    viewW F fold l (F.rvecW isa T .asum expand fold l n X incX Z incZ jA jD w) = F.dmdasum T fold n (fun a => F.dec (w (X + a))) incX (viewW F fold l w)
    ∧ ∀ a, ¬ l.In fold a → F.rvecW isa T .asum expand fold l n X incX Z incZ jA jD w a = w a := by
  have e := rloopW_dec hT expand fold hu .asum (fun inv h => by cases h) l incX incZ jA jD n n X Z 0 w
  have h := C64_asum (expand := expand) hT hf he n X incX Z incZ (fun r => F.decRegs isa (jA r)) (fun r => F.decRegs isa (jD r)) (F.decMem w) hs hX
  refine ⟨?_, fun a ha => dec_inj ((congrFun e a).trans (h.2 a ha))⟩
  rw [viewW_eq, viewW_eq]
  exact (congrArg (view fold l) e).trans h.1

/-- **C71.** `binnedBLAS_dmddot`. -/
theorem C71_dot (hu : T.Unit F isa false) (hs : Sep fold l) (hX : ∀ i : Nat, i < n → ¬ l.In fold (X + i * incX)) (hZ : ∀ i : Nat, i < n → ¬ l.In fold (Z + i * incZ)) :
    viewW F fold l (F.rvecW isa T .dot expand fold l n X incX Z incZ jA jD w)
      = F.dmddot T fold n (fun a => F.dec (w (X + a))) incX (fun a => F.dec (w (Z + a))) incZ (viewW F fold l w)
    ∧ ∀ a, ¬ l.In fold a → F.rvecW isa T .dot expand fold l n X incX Z incZ jA jD w a = w a := by
  have e := rloopW_dec hT expand fold hu .dot (fun inv h => by cases h) l incX incZ jA jD n n X Z 0 w
  have h := C64_dot (expand := expand) hT hf he n X incX Z incZ (fun r => F.decRegs isa (jA r)) (fun r => F.decRegs isa (jD r)) (F.decMem w) hs hX hZ
  refine ⟨?_, fun a ha => dec_inj ((congrFun e a).trans (h.2 a ha))⟩
  rw [viewW_eq, viewW_eq]
  exact (congrArg (view fold l) e).trans h.1

/-- **C71.** `binnedBLAS_zmzsum`. -/
theorem C71_zsum (hu : T.Unit F isa true) (hs : CSep fold l) (hX : ∀ i : Nat, i < n → ¬ l.CIn fold (X + i * 2 * incX) ∧ ¬ l.CIn fold (X + i * 2 * incX + 1)) :
    (viewW F fold l.re (F.zvecW isa T .sum expand fold l n X incX Z incZ jA jD w), viewW F fold l.im (F.zvecW isa T .sum expand fold l n X incX Z incZ jA jD w))
      = F.zmzsum T fold n (fun a => (F.dec (w (X + 2 * a)), F.dec (w (X + 2 * a + 1)))) incX (viewW F fold l.re w, viewW F fold l.im w)
    ∧ ∀ a, ¬ l.CIn fold a → F.zvecW isa T .sum expand fold l n X incX Z incZ jA jD w a = w a := by
  have e := zloopW_dec hT expand fold hu .sum (fun inv h => by cases h) l incX incZ jA jD n n X Z 0 w
  have h := C64_zsum (expand := expand) hT hf he n X incX Z incZ (fun r => F.decRegs isa (jA r)) (fun r => F.decRegs isa (jD r)) (F.decMem w) hs hX
  refine ⟨?_, fun a ha => dec_inj ((congrFun e a).trans (h.2 a ha))⟩
  simp only [viewW_eq]
  exact (congrArg (cview fold l) e).trans h.1

/-- **C71.** `binnedBLAS_zmzdotu`. -/
theorem C71_dotu (hu : T.Unit F isa true) (hs : CSep fold l) (hX : ∀ i : Nat, i < n → ¬ l.CIn fold (X + i * 2 * incX) ∧ ¬ l.CIn fold (X + i * 2 * incX + 1))
    (hZ : ∀ i : Nat, i < n → ¬ l.CIn fold (Z + i * 2 * incZ) ∧ ¬ l.CIn fold (Z + i * 2 * incZ + 1)) :
    (viewW F fold l.re (F.zvecW isa T .dotu expand fold l n X incX Z incZ jA jD w), viewW F fold l.im (F.zvecW isa T .dotu expand fold l n X incX Z incZ jA jD w))
      = F.zmzdotu T fold n (fun a => (F.dec (w (X + 2 * a)), F.dec (w (X + 2 * a + 1)))) incX (fun a => (F.dec (w (Z + 2 * a)), F.dec (w (Z + 2 * a + 1)))) incZ
        (viewW F fold l.re w, viewW F fold l.im w)
    ∧ ∀ a, ¬ l.CIn fold a → F.zvecW isa T .dotu expand fold l n X incX Z incZ jA jD w a = w a := by
  have e := zloopW_dec hT expand fold hu .dotu (fun inv h => by cases h) l incX incZ jA jD n n X Z 0 w
  have h := C64_dotu (expand := expand) hT hf he n X incX Z incZ (fun r => F.decRegs isa (jA r)) (fun r => F.decRegs isa (jD r)) (F.decMem w) hs hX hZ
  refine ⟨?_, fun a ha => dec_inj ((congrFun e a).trans (h.2 a ha))⟩
  simp only [viewW_eq]
  exact (congrArg (cview fold l) e).trans h.1

/-- **C71.** `binnedBLAS_zmzdotc`. -/
theorem C71_dotc (hu : T.Unit F isa true) (hs : CSep fold l) (hX : ∀ i : Nat, i < n → ¬ l.CIn fold (X + i * 2 * incX) ∧ ¬ l.CIn fold (X + i * 2 * incX + 1))
    (hZ : ∀ i : Nat, i < n → ¬ l.CIn fold (Z + i * 2 * incZ) ∧ ¬ l.CIn fold (Z + i * 2 * incZ + 1)) :
    (viewW F fold l.re (F.zvecW isa T .dotc expand fold l n X incX Z incZ jA jD w), viewW F fold l.im (F.zvecW isa T .dotc expand fold l n X incX Z incZ jA jD w))
      = F.zmzdotc T fold n (fun a => (F.dec (w (X + 2 * a)), F.dec (w (X + 2 * a + 1)))) incX (fun a => (F.dec (w (Z + 2 * a)), F.dec (w (Z + 2 * a + 1)))) incZ
        (viewW F fold l.re w, viewW F fold l.im w)
    ∧ ∀ a, ¬ l.CIn fold a → F.zvecW isa T .dotc expand fold l n X incX Z incZ jA jD w a = w a := by
  have e := zloopW_dec hT expand fold hu .dotc (fun inv h => by cases h) l incX incZ jA jD n n X Z 0 w
  have h := C64_dotc (expand := expand) hT hf he n X incX Z incZ (fun r => F.decRegs isa (jA r)) (fun r => F.decRegs isa (jD r)) (F.decMem w) hs hX hZ
  refine ⟨?_, fun a ha => dec_inj ((congrFun e a).trans (h.2 a ha))⟩
  simp only [viewW_eq]
  exact (congrArg (cview fold l) e).trans h.1

/-- **C71.** `binnedBLAS_dmdssq`. -/
theorem C71_ssq (hu : T.Unit F isa false) {scl : Flt} (hS : scl = zero ∨ F.Finite (F.div F.one scl)) (hs : Sep fold l) (hX : ∀ i : Nat, i < n → ¬ l.In fold (X + i * incX)) :
    ((F.ssqVecW isa T expand fold l n X incX scl jA jD w).1, viewW F fold l (F.ssqVecW isa T expand fold l n X incX scl jA jD w).2)
      = F.dmdssq T fold n (fun a => F.dec (w (X + a))) incX scl (viewW F fold l w)
    ∧ ∀ a, ¬ l.In fold a → (F.ssqVecW isa T expand fold l n X incX scl jA jD w).2 a = w a := by
  have e := ssqLoopW_dec hT expand fold hu l incX jA jD n n X 0 scl w
  have h := C64_ssq (expand := expand) hT hf he n X incX (fun r => F.decRegs isa (jA r)) (fun r => F.decRegs isa (jD r)) (F.decMem w) hS hs hX (fun i _ => dec_word _)
  have e2 := congrArg Prod.snd e
  refine ⟨?_, fun a ha => dec_inj ((congrFun e2 a).trans (h.2 a ha))⟩
  simp only [viewW_eq]
  exact (congrArg (fun r : Flt × Mem => (r.1, view fold l r.2)) e).trans h.1

/-- **C71.** `binnedBLAS_dmzasum`. -/
theorem C71_zasum (hu : T.Unit F isa true) {tmp : Int} (hs : Sep fold l) (hr : Apart fold (zpacked fold tmp).re l) (hi : Apart fold (zpacked fold tmp).im l)
    (hX : ∀ i : Nat, i < n → (¬ l.In fold (X + i * 2 * incX) ∧ ¬ l.In fold (X + i * 2 * incX + 1))
      ∧ (¬ (zpacked fold tmp).CIn fold (X + i * 2 * incX) ∧ ¬ (zpacked fold tmp).CIn fold (X + i * 2 * incX + 1))) :
    viewW F fold l (F.zasumVecW isa T expand fold tmp l n X incX jA jD w)
      = F.dmzasum T fold n (fun a => (F.dec (w (X + 2 * a)), F.dec (w (X + 2 * a + 1)))) incX (viewW F fold l w)
    ∧ ∀ a, ¬ l.In fold a → ¬ (zpacked fold tmp).CIn fold a → F.zasumVecW isa T expand fold tmp l n X incX jA jD w a = w a := by
  have e := zasumLoopW_dec hT expand fold hu (zpacked fold tmp) l incX jA jD n n X 0 (F.onWords (zmsetzeroM fold (zpacked fold tmp)) w)
  rw [dec_onWords (zmsetzeroM_keeps _ _)] at e
  have h := C64_zasum (expand := expand) hT hf he n X incX (fun r => F.decRegs isa (jA r)) (fun r => F.decRegs isa (jD r)) (F.decMem w) hs hr hi hX
  refine ⟨?_, fun a ha hb => dec_inj ((congrFun e a).trans (h.2 a ha hb))⟩
  simp only [viewW_eq]
  exact (congrArg (view fold l) e).trans h.1

/-- **C71.** `binnedBLAS_dmzssq`. -/
theorem C71_zssq (hu : T.Unit F isa true) {tmp t0 t1 : Int} (scaleY : Flt) (hs : Sep fold l) (hr : Apart fold (zpacked fold tmp).re l) (hi : Apart fold (zpacked fold tmp).im l)
    (hr0 : Apart fold (zpacked fold tmp).re (packed fold t0)) (hi0 : Apart fold (zpacked fold tmp).im (packed fold t0))
    (hi1 : Apart fold (zpacked fold tmp).im (packed fold t1)) (hl0 : Apart fold (packed fold t0) l) (hl1 : Apart fold (packed fold t1) l)
    (hX : ∀ i : Nat, i < n → (¬ l.In fold (X + i * 2 * incX) ∧ ¬ l.In fold (X + i * 2 * incX + 1))
      ∧ (¬ (zpacked fold tmp).CIn fold (X + i * 2 * incX) ∧ ¬ (zpacked fold tmp).CIn fold (X + i * 2 * incX + 1))) :
    ((F.zssqVecW isa T expand fold tmp t0 t1 l n X incX scaleY jA jD w).1, viewW F fold l (F.zssqVecW isa T expand fold tmp t0 t1 l n X incX scaleY jA jD w).2)
      = F.dmzssq T fold n (fun a => (F.dec (w (X + 2 * a)), F.dec (w (X + 2 * a + 1)))) incX scaleY (viewW F fold l w)
    ∧ ∀ a, ¬ l.In fold a → ¬ (zpacked fold tmp).CIn fold a → ¬ (packed fold t0).In fold a → ¬ (packed fold t1).In fold a →
      (F.zssqVecW isa T expand fold tmp t0 t1 l n X incX scaleY jA jD w).2 a = w a := by
  have e := zssqLoopW_dec hT expand fold hu t0 t1 (zpacked fold tmp) l incX scaleY jA jD n n X 0 zero (F.onWords (zmsetzeroM fold (zpacked fold tmp)) w)
  rw [dec_onWords (zmsetzeroM_keeps _ _)] at e
  have h := C64_zssq (expand := expand) hT hf he n X incX (fun r => F.decRegs isa (jA r)) (fun r => F.decRegs isa (jD r)) (F.decMem w) scaleY hs hr hi hr0 hi0 hi1 hl0 hl1 hX
  have e2 := congrArg Prod.snd e
  refine ⟨?_, fun a h1 h2 h3 h4 => dec_inj ((congrFun e2 a).trans (h.2 a h1 h2 h3 h4))⟩
  simp only [viewW_eq]
  exact (congrArg (fun r : Flt × Mem => (r.1, view fold l r.2)) e).trans h.1

end

/-- **C71**, end to end. `reproBLAS_rdsum`, `rdasum`, `rddot` on a machine with SSE or AVX: `binned_dbsetzero`, the routine, `binned_ddbconv`, on words. The
number returned is the conversion of the specified sum of the numbers the words stand for. -/
theorem C71_native [F.OK] {isa : Isa} {T : Tune} (hT : T.OK F) (hu : T.Unit F isa false) {expand : Bool} {fold : Nat} (hf : 2 ≤ fold) {l : Loc} (hs : Sep fold l)
    {n : Nat} (hN : n ≤ F.capacity) {X incX Z incZ : Int} (jA jD : Nat → IRegs isa.bits F.width) {w : F.Words}
    (hX : ∀ i : Nat, i < n → ¬ l.In fold (X + i * incX)) :
    ((∀ i : Nat, i < n → F.Finite (F.dec (w (X + i * incX)))) →
      F.convertM fold l (F.decMem (F.rvecW isa T .sum expand fold l n X incX Z incZ jA jD (F.onWords (dmsetzeroM fold l) w)))
        = convert F fold (F.specSum fold ((List.range n).map (fun (i : Nat) => F.dec (w (X + i * incX)))))
      ∧ F.convertM fold l (F.decMem (F.rvecW isa T .asum expand fold l n X incX Z incZ jA jD (F.onWords (dmsetzeroM fold l) w)))
        = convert F fold (F.specSum fold ((List.range n).map (fun (i : Nat) => fabs (F.dec (w (X + i * incX)))))))
    ∧ ((∀ i : Nat, i < n → ¬ l.In fold (Z + i * incZ)) → (∀ i : Nat, i < n → F.Finite (F.mul (F.dec (w (X + i * incX))) (F.dec (w (Z + i * incZ))))) →
      F.convertM fold l (F.decMem (F.rvecW isa T .dot expand fold l n X incX Z incZ jA jD (F.onWords (dmsetzeroM fold l) w)))
        = convert F fold (F.specSum fold ((List.range n).map (fun (i : Nat) => F.mul (F.dec (w (X + i * incX))) (F.dec (w (Z + i * incZ))))))) := by
  have e := fun op hop => rloopW_dec hT expand fold hu op hop l incX incZ jA jD n n X Z 0 (F.onWords (dmsetzeroM fold l) w)
  simp only [dec_onWords (dmsetzeroM_keeps fold l)] at e
  have h := C64_native (expand := expand) hT hf hs hN (Z := Z) (incZ := incZ) (fun r => F.decRegs isa (jA r)) (fun r => F.decRegs isa (jD r)) (m := F.decMem w) hX
  refine ⟨fun hx => ⟨?_, ?_⟩, fun hZ hx => ?_⟩
  · exact (congrArg (F.convertM fold l) (e .sum (fun inv h => by cases h))).trans (h.1 hx).1
  · exact (congrArg (F.convertM fold l) (e .asum (fun inv h => by cases h))).trans (h.1 hx).2
  · exact (congrArg (F.convertM fold l) (e .dot (fun inv h => by cases h))).trans (h.2 hZ hx)

/-- **C71**, reproducibility to the last bit. Two machines, each with SSE or AVX, with tunings, register contents, memory layouts and
strides of their own, add a vector to an accumulator holding the same binned value. If the words of one vector are a
permutation of the words of the other, the words of the two accumulators are the same afterwards. -/
theorem C71_reproducible [F.OK] {isa isa' : Isa} {T T' : Tune} (hT : T.OK F) (hT' : T'.OK F) (hu : T.Unit F isa false) (hu' : T'.Unit F isa' false)
    {expand expand' : Bool} {fold : Nat} (hf : 2 ≤ fold) {l l' : Loc} (hs : Sep fold l) (hs' : Sep fold l') {n : Nat} {X X' incX incX' Z Z' incZ incZ' : Int}
    (jA jD : Nat → IRegs isa.bits F.width) (jA' jD' : Nat → IRegs isa'.bits F.width) {w w' : F.Words}
    (hX : ∀ i : Nat, i < n → ¬ l.In fold (X + i * incX)) (hX' : ∀ i : Nat, i < n → ¬ l'.In fold (X' + i * incX'))
    (hp : ((List.range n).map (fun (i : Nat) => w (X + i * incX))).Perm ((List.range n).map (fun (i : Nat) => w' (X' + i * incX'))))
    {h : Hist} (hl : h.Legal F) (hst : n = 0 → h.Settled) (hv : viewW F fold l w = h.eval F fold) (hv' : viewW F fold l' w' = h.eval F fold)
    (hx : ∀ i : Nat, i < n → F.Finite (F.dec (w (X + i * incX)))) (hN : n + h.nums.length ≤ F.capacity) :
    accW F fold l (F.rvecW isa T .sum expand fold l n X incX Z incZ jA jD w) = accW F fold l' (F.rvecW isa' T' .sum expand' fold l' n X' incX' Z' incZ' jA' jD' w') := by
  apply accW_of_view
  have e := rloopW_dec hT expand fold hu .sum (fun inv h => by cases h) l incX incZ jA jD n n X Z 0 w
  have e' := rloopW_dec hT' expand' fold hu' .sum (fun inv h => by cases h) l' incX' incZ' jA' jD' n n X' Z' 0 w'
  rw [viewW_eq] at hv hv'
  have hp' := hp.map F.dec
  rw [List.map_map, List.map_map] at hp'
  have := C64_reproducible (expand := expand) (expand' := expand') hT hT' hf hs hs' (Z := Z) (Z' := Z') (incZ := incZ) (incZ' := incZ') (fun r => F.decRegs isa (jA r)) (fun r => F.decRegs isa (jD r))
    (fun r => F.decRegs isa' (jA' r)) (fun r => F.decRegs isa' (jD' r)) (m := F.decMem w) (m' := F.decMem w') hX hX' hp' hl hst hv hv' hx hN
  rw [viewW_eq, viewW_eq]
  exact (congrArg (view fold l) e).trans (this.trans (congrArg (view fold l') e').symm)

/-- **C71**, the vector units and the scalar build. A machine with SSE or AVX and the code generated without vector instructions (`T'`,
which works on numbers) leave the same accumulator. -/
theorem C71_scalar [F.OK] {isa : Isa} {T T' : Tune} (hT : T.OK F) (hT' : T'.OK F) (hu : T.Unit F isa false)
    {expand expand' : Bool} {fold : Nat} (hf : 2 ≤ fold) {l l' : Loc} (hs : Sep fold l) (hs' : Sep fold l') {n : Nat} {X X' incX incX' Z Z' incZ incZ' : Int}
    (jA jD : Nat → IRegs isa.bits F.width) (jA' jD' : Nat → Regs) {w : F.Words} {m' : Mem}
    (hX : ∀ i : Nat, i < n → ¬ l.In fold (X + i * incX)) (hX' : ∀ i : Nat, i < n → ¬ l'.In fold (X' + i * incX'))
    (hp : ((List.range n).map (fun (i : Nat) => F.dec (w (X + i * incX)))).Perm ((List.range n).map (fun (i : Nat) => m' (X' + i * incX'))))
    {h : Hist} (hl : h.Legal F) (hst : n = 0 → h.Settled) (hv : viewW F fold l w = h.eval F fold) (hv' : view fold l' m' = h.eval F fold)
    (hx : ∀ i : Nat, i < n → F.Finite (F.dec (w (X + i * incX)))) (hN : n + h.nums.length ≤ F.capacity) :
    viewW F fold l (F.rvecW isa T .sum expand fold l n X incX Z incZ jA jD w) = view fold l' (F.rvecM T' .sum expand' fold l' n X' incX' Z' incZ' jA' jD' m') := by
  have e := rloopW_dec hT expand fold hu .sum (fun inv h => by cases h) l incX incZ jA jD n n X Z 0 w
  rw [viewW_eq] at hv
  have := C64_reproducible (expand := expand) (expand' := expand') hT hT' hf hs hs' (Z := Z) (Z' := Z') (incZ := incZ) (incZ' := incZ') (fun r => F.decRegs isa (jA r)) (fun r => F.decRegs isa (jD r))
    jA' jD' (m := F.decMem w) (m' := m') hX hX' hp hl hst hv hv' hx hN
  rw [viewW_eq]
  exact (congrArg (view fold l) e).trans this

/-- **C71**, end to end: `reproBLAS_rdnrm2` on a machine with SSE or AVX returns the norm. -/
theorem C71_norm [F.OK] {isa : Isa} {T : Tune} (hT : T.OK F) (hu : T.Unit F isa false) {expand : Bool} {fold : Nat} (hfold : 2 ≤ fold) (hJ : F.ssqHi + fold ≤ F.ssqJ + 1)
    {acc : Int} {n : Nat} (hN : n ≤ F.capacity) {X incX : Int} (jA jD : Nat → IRegs isa.bits F.width) {w : F.Words}
    (hX : ∀ i : Nat, i < n → ¬ (packed fold acc).In fold (X + i * incX)) (hx : ∀ i : Nat, i < n → F.Finite (F.dec (w (X + i * incX))))
    (hbig : ∃ i : Nat, i < n ∧ 2 ^ (F.p + 1) ≤ (F.toInt (F.dec (w (X + i * incX)))).natAbs) :
    let r := F.ssqVecW isa T expand fold (packed fold acc) n X incX zero jA jD (F.onWords (dmsetzeroM fold (packed fold acc)) w)
    IsNorm F fold ((List.range n).map (fun (i : Nat) => F.dec (w (X + i * incX)))) (normOfM F fold (packed fold acc) (r.1, F.decMem r.2)) := by
  intro r
  have e := ssqLoopW_dec hT expand fold hu (packed fold acc) incX jA jD n n X 0 zero (F.onWords (dmsetzeroM fold (packed fold acc)) w)
  rw [dec_onWords (dmsetzeroM_keeps _ _)] at e
  have h := (C64_norm (expand := expand) hT hfold hJ hN (fun r => F.decRegs isa (jA r)) (fun r => F.decRegs isa (jD r)) (m := F.decMem w) hX hx hbig).2
  exact (congrArg (normOfM F fold (packed fold acc)) e) ▸ h

/-! Concrete cases. -/

/-- `binned_dbsetzero` and `binnedBLAS_smssum` on the words of `1, -1, 3, -3, 5` in SSE registers full of garbage, tuning `sT`. -/
example : viewW f32 2 ⟨100, 1, 110, 1⟩ (f32.rvecW .sse sT .sum true 2 ⟨100, 1, 110, 1⟩ 5 0 1 0 1 (fun _ => sσ) (fun _ => sσ)
      (f32.onWords (dmsetzeroM 2 ⟨100, 1, 110, 1⟩) (sM 0)))
    = f32.specSum 2 ((List.range 5).map (fun (i : Nat) => f32.dec (sM 0 (0 + i * 1)))) := by decide +kernel

/-- Tunings for both units, and a layout that meets the hypotheses. -/
example : sT.OK f32 ∧ sT.Unit f32 .sse false ∧ (Tune.mk 8 8 8 1 8 true).Unit f32 .avx false ∧ (Tune.mk 4 4 4 1 4 true).Unit f64 .avx false
    ∧ Sep 2 ⟨100, 1, 110, 1⟩ ∧ ∀ i : Nat, i < 5 → ¬ (Loc.mk 100 1 110 1).In 2 (0 + i * 1) := by
  refine ⟨sT_ok, ⟨rfl, rfl⟩, ⟨rfl, rfl⟩, ⟨rfl, rfl⟩, ⟨?_, ?_, ?_⟩, ?_⟩
  · intro i hi j hj; simp only [Loc.P]; omega
  · intro i hi j hj; simp only [Loc.C]; omega
  · intro i hi j hj; simp only [Loc.P, Loc.C]; omega
  · rintro i hi ⟨j, hj, h | h⟩
    · simp only [Loc.P] at h; omega
    · simp only [Loc.C] at h; omega

end Repro
