import Verif.PropsSimdLoad
import Verif.PropsGenAmax
/-!
# C65: the generated kernels on 128 and 256 bit registers compute what the lane model says

`Gen.kernelI` executes the statements of a generated deposit kernel on bit vectors, `GenA.codeI` those of a maximum kernel.
The words they leave in the accumulator, read as numbers, are the words of `Gen.kernelCode`, `GenA.code`, whatever the
registers contained before.
-/

namespace Repro
open Fmt

variable {F : Fmt}

theorem memI_dec [F.OK] (G : Gen) (M : Nat → Int → BitVec F.width) (incX incZ : Int) (off : Nat) :
    (fun p a => F.dec (G.memAtI M incX incZ off p a)) = G.memAt (fun p a => F.dec (M p a)) incX incZ off := rfl

theorem zeroI_dec [F.OK] : (fun (_ : Nat) (_ : Int) => F.dec (0 : BitVec F.width)) = fun _ _ => Fmt.zero := by
  funext _ _
  exact dec_zero

section
variable [F.OK] {isa : Isa}

theorem run_sim0 (c : Code) {σI : IRegs isa.bits F.width} {σ : Regs} (hs : Sim F isa σI σ) (h : CodeOk F (isa.lanes F) c) :
    Sim F isa (F.runI isa (fun _ _ => 0) c σI) (F.run (fun _ _ => Fmt.zero) c σ) := by
  have := run_sim (fun _ _ => 0) c hs h
  rwa [zeroI_dec] at this

theorem fold_sim {α : Type} {f : IRegs isa.bits F.width → α → IRegs isa.bits F.width} {g : Regs → α → Regs}
    (h : ∀ a σI σ, Sim F isa σI σ → Sim F isa (f σI a) (g σ a)) : ∀ (l : List α) {σI : IRegs isa.bits F.width} {σ : Regs},
    Sim F isa σI σ → Sim F isa (l.foldl f σI) (l.foldl g σ)
  | [], _, _, hs => hs
  | a :: l, _, _, hs => fold_sim h l (h a _ _ hs)

/-- The generated deposit kernels: the two machines agree. -/
theorem Gen.kernelI_sim {G : Gen} (hG : G.T.simd = true) (hts : 1 ≤ G.T.ts) (hb : G.base = isa.lanes F)
    (hop : ∀ inv, G.op = .ssq inv → F.Bits inv) (M : Nat → Int → BitVec F.width) (incX incZ : Int) (expand : Bool) (fold n : Nat)
    {σI : IRegs isa.bits F.width} {σ : Regs} (hs : Sim F isa σI σ) :
    Sim F isa (G.kernelI F isa M incX incZ expand fold n σI) (G.kernelCode F (fun p a => F.dec (M p a)) incX incZ expand fold n σ) := by
  unfold Gen.kernelI Gen.kernelCode
  have h1 := run_sim0 ((List.range fold).flatMap (fun j => G.propagate j (G.accv expand j))) hs
    (CodeOk.flatMap (fun j _ => Gen.propagate_ok hG j (Gen.accv_ns expand j)))
  generalize F.runI isa (fun _ _ => 0) ((List.range fold).flatMap (fun j => G.propagate j (G.accv expand j))) σI = τI at *
  generalize F.run (fun _ _ => Fmt.zero) ((List.range fold).flatMap (fun j => G.propagate j (G.accv expand j))) σ = τ at *
  dsimp only
  rw [h1.2 (.y 0 0) rfl, h1.2 (.y 1 0) rfl]
  generalize F.dmindex0 (F.dec (τI.sc (.y 0 0))) = i0
  generalize (G.cplx && F.dmindex0 (F.dec (τI.sc (.y 1 0)))) = i1
  refine run_sim0 _ (fold_sim (fun c ρI ρ hρ => ?_) _ ?_) (CodeOk.flatMap (fun j _ => Gen.consolidate_ok hG hts (by omega) j (Gen.accv_ns expand j)))
  · rw [← memI_dec]
    exact run_sim _ _ hρ (Gen.body_ok hG hop _ _ _ _ _ _)
  · split
    · exact run_sim0 _ h1 (Gen.factors_ok hG _ _)
    · exact h1

end

namespace GenA
variable [F.OK] {A : GenA} {L : Nat}

theorem xv_ns : NS A.xv := map_ns (fun _ => rfl) _
theorem zv_ns : NS A.zv := map_ns (fun _ => rfl) _
theorem mv_ns : NS A.mv := map_ns (fun _ => rfl) _

omit [F.OK] in
theorem preprocess_ok (hG : A.T.simd = true) (incX incZ : Int) (c : Chunk) : CodeOk F L (A.preprocess incX incZ c) := by
  have hx := fun p inc => Gen.loadC_ok (F := F) (L := L) (G := A.gen) p inc c hG
  have abs := fun {l : List Ex} (h : VL F L l) => map_ok (f := .abs) (fun _ h => h) h
  unfold preprocess
  dsimp only
  refine CodeOk.ite (CodeOk.append (CodeOk.append (setEqual_ok xv_ns (hx _ _)) (setEqual_ok zv_ns (hx _ _))) (CodeOk.ite ?_ ?_)) ?_
  · exact CodeOk.append (setEqual_ok ((xv_ns.take _).drop _) (abs (vmul_ok (Gen.swapP_ok hG (ev_ok xv_ns)) (Gen.repO_ok hG (ev_ok zv_ns)))))
      (setEqual_ok (xv_ns.take _) (abs (vmul_ok (ev_ok xv_ns) (Gen.repE_ok hG (ev_ok zv_ns)))))
  · exact setEqual_ok xv_ns (abs (vmul_ok (ev_ok xv_ns) (ev_ok (zv_ns.take _))))
  · exact setEqual_ok xv_ns (abs (hx _ _))

omit [F.OK] in
theorem body_ok (hG : A.T.simd = true) (incX incZ : Int) (c : Chunk) : CodeOk F L (A.body incX incZ c) :=
  CodeOk.append (preprocess_ok hG incX incZ c) (setEqual_ok (cycle_ns mv_ns _) (vmax_ok (cycle_ok (ev_ok mv_ns) _) (ev_ok (xv_ns.take _))))

omit [F.OK] in
theorem maxInto_ok (hG : A.T.simd = true) (hL : A.gen.base ≤ L) : CodeOk F L A.maxInto := by
  unfold maxInto
  rw [if_pos hG]
  refine CodeOk.append (CodeOk.append ?_ ?_) ?_
  · intro s hs
    obtain ⟨i, hi, rfl⟩ := List.mem_map.mp hs
    have := List.mem_range.mp hi
    exact ok_sc rfl (show (if (Var.m 0).scalar then i = 0 else i < L) from by rw [if_neg (by decide)]; omega)
  · intro s hs
    obtain ⟨i, hi, rfl⟩ := List.mem_map.mp hs
    exact ok_sc rfl ⟨rfl, rfl⟩
  · intro s hs
    obtain ⟨i, hi, rfl⟩ := List.mem_map.mp hs
    exact ok_sc rfl rfl

/-- The generated maximum kernels: the two machines agree. -/
theorem codeI_sim {isa : Isa} (hG : A.T.simd = true) (hb : A.gen.base = isa.lanes F) (M : Nat → Int → BitVec F.width) (incX incZ : Int) (n : Nat)
    {σI : IRegs isa.bits F.width} {σ : Regs} (hs : Sim F isa σI σ) :
    Sim F isa (A.codeI F isa M incX incZ n σI) (A.code F (fun p a => F.dec (M p a)) incX incZ n σ) := by
  unfold GenA.codeI GenA.code
  refine run_sim0 _ (fold_sim (fun c ρI ρ hρ => ?_) _ (run_sim0 _ hs (setEqual_ok mv_ns ?_))) (maxInto_ok hG (by omega))
  · rw [← memI_dec]
    exact run_sim _ _ hρ (body_ok hG _ _ _)
  · intro e he
    rw [(List.mem_replicate.mp he).2]
    exact zero_bits _

end GenA

/-! ## The kernels of the library -/

/-- The numbers in an array of words. -/
def nums (F : Fmt) (M : Nat → Int → BitVec F.width) : Nat → Int → Flt := fun p a => F.dec (M p a)

/-- The primaries of part `k` of the accumulator in memory before a kernel. -/
def accI (F : Fmt) {isa : Isa} (fold : Nat) (σ : IRegs isa.bits F.width) (k : Nat) : List Flt := (List.range fold).map (fun j => F.dec (σ.sc (.y k j)))

/-- The tunings for a vector unit: as many real or complex numbers as a register holds. -/
def Tune.Unit (T : Tune) (F : Fmt) (isa : Isa) (cplx : Bool) : Prop := T.simd = true ∧ (if cplx then 2 else 1) * T.ts * F.width = isa.bits

theorem Tune.Unit.base [F.OK] {T : Tune} {isa : Isa} {cplx : Bool} (h : T.Unit F isa cplx) (op : DepOp) : (Gen.mk T cplx op).base = isa.lanes F := by
  rw [(Gen.simd_dims (G := Gen.mk T cplx op) h.1).2]
  have hw : 0 < F.width := by have := (width_pos (F := F)).1; omega
  exact Nat.eq_of_mul_eq_mul_right hw ((h.2.trans (bits_lanes isa)))

section
variable [F.OK] {isa : Isa} {T : Tune} {cplx : Bool} (hT : T.OK F) (hu : T.Unit F isa cplx) (M : Nat → Int → BitVec F.width) (incX incZ : Int) (fold n : Nat)
  (σ : IRegs isa.bits F.width)
include hT hu

/-- **C65.** A generated deposit kernel, executed with the vector instructions it is written in: for all contents of the
registers, of the accumulator and of memory, every word of the accumulator becomes the bits of the number the lane model
computes from the numbers in memory. -/
theorem C65_deposit (op : DepOp) (hop : ∀ inv, op = .ssq inv → F.Bits inv) (expand : Bool) (k j : Nat) :
    F.dec (((Gen.mk T cplx op).kernelI F isa M incX incZ expand fold n σ).sc (.y k j))
      = (Gen.mk T cplx op).kernelCode F (nums F M) incX incZ expand fold n (F.decRegs isa σ) (.y k j) 0 := by
  have hts : 1 ≤ T.ts := by
    obtain ⟨a, ha⟩ := hT.ts
    rw [ha]
    exact Nat.two_pow_pos a
  exact ((Gen.kernelI_sim hu.1 hts (hu.base op) hop M incX incZ expand fold n (sim_dec isa σ)).2 (.y k j) rfl).symm

omit hT in
/-- **C65.** A generated maximum kernel, executed with the vector instructions it is written in. -/
theorem C65_maximum (prod : Bool) (k : Nat) :
    F.dec (((GenA.mk T cplx prod).codeI F isa M incX incZ n σ).sc (.am k))
      = (GenA.mk T cplx prod).code F (nums F M) incX incZ n (F.decRegs isa σ) (.am k) 0 :=
  ((GenA.codeI_sim (A := GenA.mk T cplx prod) hu.1 (hu.base _) M incX incZ n (sim_dec isa σ)).2 (.am k) rfl).symm

end

section
variable [F.OK] {isa : Isa} {T : Tune} (hT : T.OK F) (M : Nat → Int → BitVec F.width) (incX incZ : Int) {expand : Bool} {fold n : Nat}
  (hf : 1 ≤ fold) (he : expand = true → 2 ≤ fold) (σ : IRegs isa.bits F.width)

omit [F.OK] in
theorem accI_eq (k : Nat) : priAt fold (F.decRegs isa σ) k = accI F fold σ k := rfl

section
variable (hu : T.Unit F isa false)
include hT hf he hu

/-- **C65.** Sums of real vectors in SSE and AVX code: the accumulator is that of the lane kernel, whatever the registers
contained. -/
theorem C65_sum {j : Nat} (hj : j < fold) :
    F.dec (((Gen.mk T false .sum).kernelI F isa M incX incZ expand fold n σ).sc (.y 0 j))
      = nth (F.kernel T (gather (nums F M 0) incX n) (accI F fold σ 0)) j := by
  rw [C65_deposit hT hu M incX incZ fold n σ .sum (fun _ h => nomatch h) expand 0 j, C62_sum hT _ incX incZ hf he _ hj 0]
  rfl

/-- **C65.** Sums of absolute values: the mask computed from `-1`, `1` and a comparison clears the signs. -/
theorem C65_asum {j : Nat} (hj : j < fold) :
    F.dec (((Gen.mk T false .asum).kernelI F isa M incX incZ expand fold n σ).sc (.y 0 j))
      = nth (F.kernel T ((gather (nums F M 0) incX n).map fabs) (accI F fold σ 0)) j := by
  rw [C65_deposit hT hu M incX incZ fold n σ .asum (fun _ h => nomatch h) expand 0 j, C62_asum hT _ incX incZ hf he _ hj 0]
  rfl

/-- **C65.** Sums of scaled squares. -/
theorem C65_ssq {scl : Flt} (hs : F.Finite (F.div F.one scl)) {j : Nat} (hj : j < fold) :
    F.dec (((Gen.mk T false (.ssq (F.div F.one scl))).kernelI F isa M incX incZ expand fold n σ).sc (.y 0 j))
      = nth (F.kernel T ((gather (nums F M 0) incX n).map (F.sq scl)) (accI F fold σ 0)) j := by
  rw [C65_deposit hT hu M incX incZ fold n σ _ (fun inv h => by cases h; exact div_bits _ _) expand 0 j, C62_ssq hT _ incX incZ hf he _ hs hj 0]
  rfl

/-- **C65.** Dot products of real vectors. -/
theorem C65_dot {j : Nat} (hj : j < fold) :
    F.dec (((Gen.mk T false .dot).kernelI F isa M incX incZ expand fold n σ).sc (.y 0 j))
      = nth (F.kernel T (products F n (nums F M 0) incX (nums F M 1) incZ) (accI F fold σ 0)) j := by
  rw [C65_deposit hT hu M incX incZ fold n σ .dot (fun _ h => nomatch h) expand 0 j, C62_dot hT _ incX incZ hf he _ hj 0]
  rfl

omit hf he in
/-- **C65.** The largest absolute value. -/
theorem C65_amax : F.dec (((GenA.mk T false false).codeI F isa M incX incZ n σ).sc (.am 0)) = F.damax T (gather (nums F M 0) incX n) := by
  rw [C65_maximum hu M incX incZ n σ false 0, C63_amax hT _ incX incZ n _ 0]

omit hf he in
/-- **C65.** The largest absolute product. -/
theorem C65_amaxm : F.dec (((GenA.mk T false true).codeI F isa M incX incZ n σ).sc (.am 0))
    = F.damaxm T (gather (nums F M 0) incX n) (gather (nums F M 1) incZ n) := by
  rw [C65_maximum hu M incX incZ n σ true 0, C63_amaxm hT _ incX incZ n _ 0]

end

section
variable (hu : T.Unit F isa true)
include hT hf he hu

/-- **C65.** Sums of complex vectors. -/
theorem C65_zsum {j : Nat} (hj : j < fold) :
    F.dec (((Gen.mk T true .sum).kernelI F isa M incX incZ expand fold n σ).sc (.y 0 j))
      = nth (F.kernelZ T (zmode (F.dmindex0 (nth (accI F fold σ 0) 0)) (F.dmindex0 (nth (accI F fold σ 1) 0))) 1 zsumOp.fR zsumOp.zfill
          (gatherZ (cwords (nums F M) 0) incX n) (accI F fold σ 0)) j
    ∧ F.dec (((Gen.mk T true .sum).kernelI F isa M incX incZ expand fold n σ).sc (.y 1 j))
      = nth (F.kernelZ T (zmode (F.dmindex0 (nth (accI F fold σ 1) 0)) (F.dmindex0 (nth (accI F fold σ 0) 0))) 1 zsumOp.fI zsumOp.zfill
          (gatherZ (cwords (nums F M) 0) incX n) (accI F fold σ 1)) j := by
  have h := C65_deposit hT hu M incX incZ fold n σ .sum (fun _ h => nomatch h) expand
  rw [h 0 j, h 1 j]
  exact C62_zsum hT _ incX incZ hf he _ hj 0

/-- **C65.** Sums of absolute values of the parts of complex vectors. -/
theorem C65_zasum {j : Nat} (hj : j < fold) :
    F.dec (((Gen.mk T true .asum).kernelI F isa M incX incZ expand fold n σ).sc (.y 0 j))
      = nth (F.kernelZ T (zmode (F.dmindex0 (nth (accI F fold σ 0) 0)) (F.dmindex0 (nth (accI F fold σ 1) 0))) 1 zasumOp.fR zasumOp.zfill
          (gatherZ (cwords (nums F M) 0) incX n) (accI F fold σ 0)) j
    ∧ F.dec (((Gen.mk T true .asum).kernelI F isa M incX incZ expand fold n σ).sc (.y 1 j))
      = nth (F.kernelZ T (zmode (F.dmindex0 (nth (accI F fold σ 1) 0)) (F.dmindex0 (nth (accI F fold σ 0) 0))) 1 zasumOp.fI zasumOp.zfill
          (gatherZ (cwords (nums F M) 0) incX n) (accI F fold σ 1)) j := by
  have h := C65_deposit hT hu M incX incZ fold n σ .asum (fun _ h => nomatch h) expand
  rw [h 0 j, h 1 j]
  exact C62_zasum hT _ incX incZ hf he _ hj 0

/-- **C65.** Sums of scaled squares of the parts of complex vectors. -/
theorem C65_zssq (scl : Flt) {j : Nat} (hj : j < fold) :
    F.dec (((Gen.mk T true (.ssq (F.div F.one scl))).kernelI F isa M incX incZ expand fold n σ).sc (.y 0 j))
      = nth (F.kernelZ T (zmode (F.dmindex0 (nth (accI F fold σ 0) 0)) (F.dmindex0 (nth (accI F fold σ 1) 0))) 1 (F.zssqOp scl).fR (F.zssqOp scl).zfill
          (gatherZ (cwords (nums F M) 0) incX n) (accI F fold σ 0)) j
    ∧ F.dec (((Gen.mk T true (.ssq (F.div F.one scl))).kernelI F isa M incX incZ expand fold n σ).sc (.y 1 j))
      = nth (F.kernelZ T (zmode (F.dmindex0 (nth (accI F fold σ 1) 0)) (F.dmindex0 (nth (accI F fold σ 0) 0))) 1 (F.zssqOp scl).fI (F.zssqOp scl).zfill
          (gatherZ (cwords (nums F M) 0) incX n) (accI F fold σ 1)) j := by
  have h := C65_deposit hT hu M incX incZ fold n σ (.ssq (F.div F.one scl)) (fun inv h => by cases h; exact div_bits _ _) expand
  rw [h 0 j, h 1 j]
  exact C62_zssq hT _ incX incZ hf he _ scl hj 0

/-- **C65.** Unconjugated dot products: shuffles, replications and the sign mask of `nconj`. -/
theorem C65_dotu {j : Nat} (hj : j < fold) :
    F.dec (((Gen.mk T true .dotu).kernelI F isa M incX incZ expand fold n σ).sc (.y 0 j))
      = nth (F.kernelZ T (zmode (F.dmindex0 (nth (accI F fold σ 0) 0)) (F.dmindex0 (nth (accI F fold σ 1) 0))) 2 (F.dotuOp T).fR (F.dotuOp T).zfill
          ((gatherZ (cwords (nums F M) 0) incX n).zip (gatherZ (cwords (nums F M) 1) incZ n)) (accI F fold σ 0)) j
    ∧ F.dec (((Gen.mk T true .dotu).kernelI F isa M incX incZ expand fold n σ).sc (.y 1 j))
      = nth (F.kernelZ T (zmode (F.dmindex0 (nth (accI F fold σ 1) 0)) (F.dmindex0 (nth (accI F fold σ 0) 0))) 2 (F.dotuOp T).fI (F.dotuOp T).zfill
          ((gatherZ (cwords (nums F M) 0) incX n).zip (gatherZ (cwords (nums F M) 1) incZ n)) (accI F fold σ 1)) j := by
  have h := C65_deposit hT hu M incX incZ fold n σ .dotu (fun _ h => nomatch h) expand
  rw [h 0 j, h 1 j]
  exact C62_dotu hT _ incX incZ hf he _ hj 0

/-- **C65.** Conjugated dot products. -/
theorem C65_dotc {j : Nat} (hj : j < fold) :
    F.dec (((Gen.mk T true .dotc).kernelI F isa M incX incZ expand fold n σ).sc (.y 0 j))
      = nth (F.kernelZ T (zmode (F.dmindex0 (nth (accI F fold σ 0) 0)) (F.dmindex0 (nth (accI F fold σ 1) 0))) 2 (F.dotcOp T).fR (F.dotcOp T).zfill
          ((gatherZ (cwords (nums F M) 0) incX n).zip (gatherZ (cwords (nums F M) 1) incZ n)) (accI F fold σ 0)) j
    ∧ F.dec (((Gen.mk T true .dotc).kernelI F isa M incX incZ expand fold n σ).sc (.y 1 j))
      = nth (F.kernelZ T (zmode (F.dmindex0 (nth (accI F fold σ 1) 0)) (F.dmindex0 (nth (accI F fold σ 0) 0))) 2 (F.dotcOp T).fI (F.dotcOp T).zfill
          ((gatherZ (cwords (nums F M) 0) incX n).zip (gatherZ (cwords (nums F M) 1) incZ n)) (accI F fold σ 1)) j := by
  have h := C65_deposit hT hu M incX incZ fold n σ .dotc (fun _ h => nomatch h) expand
  rw [h 0 j, h 1 j]
  exact C62_dotc hT _ incX incZ hf he _ hj 0

omit hf he in
/-- **C65.** The largest absolute values of the parts. -/
theorem C65_zamax :
    F.dec (((GenA.mk T true false).codeI F isa M incX incZ n σ).sc (.am 0)) = F.amaxZ T 1 zsumOp.fR zsumOp.zfill (gatherZ (cwords (nums F M) 0) incX n)
    ∧ F.dec (((GenA.mk T true false).codeI F isa M incX incZ n σ).sc (.am 1)) = F.amaxZ T 1 zsumOp.fI zsumOp.zfill (gatherZ (cwords (nums F M) 0) incX n) := by
  rw [C65_maximum hu M incX incZ n σ false 0, C65_maximum hu M incX incZ n σ false 1]
  exact C63_zamax hT _ incX incZ n _ 0

omit hf he in
/-- **C65.** The largest absolute values of the products that make up a complex dot product. -/
theorem C65_zamaxm :
    F.dec (((GenA.mk T true true).codeI F isa M incX incZ n σ).sc (.am 0))
      = F.amaxZ T 2 (F.dotuOp T).fR (F.dotuOp T).zfill ((gatherZ (cwords (nums F M) 0) incX n).zip (gatherZ (cwords (nums F M) 1) incZ n))
    ∧ F.dec (((GenA.mk T true true).codeI F isa M incX incZ n σ).sc (.am 1))
      = F.amaxZ T 2 (F.dotuOp T).fI (F.dotuOp T).zfill ((gatherZ (cwords (nums F M) 0) incX n).zip (gatherZ (cwords (nums F M) 1) incZ n)) := by
  rw [C65_maximum hu M incX incZ n σ true 0, C65_maximum hu M incX incZ n σ true 1]
  have h := C63_zamaxm hT (nums F M) incX incZ n (F.decRegs isa σ) 0
  exact ⟨h.1, h.2.2.1⟩

end

end

section
variable [F.OK] {isa : Isa} (M : Nat → Int → BitVec F.width) (σ : IRegs isa.bits F.width) (e : Ex)

/-- **C65.** The masks, on registers with any contents: `or` with `blp_mask_tmp` sets the last bit of every lane, `and` with
`abs_mask_tmp` clears the signs, `xor` with `conj_mask_tmp` changes those of the odd lanes and `xor` with `nconj_mask_tmp`
those of the even lanes. -/
theorem C65_masks (r : BitVec isa.bits) {t : Nat} (ht : t < isa.lanes F) :
    F.dec (lane F.width t (r ||| F.blpMask isa.bits)) = or1 (F.dec (lane F.width t r))
    ∧ F.dec (lane F.width t (r &&& F.absMask isa.bits)) = fabs (F.dec (lane F.width t r))
    ∧ F.dec (lane F.width t (r ^^^ F.conjMask isa.bits)) = (if t % 2 = 0 then F.dec (lane F.width t r) else fneg (F.dec (lane F.width t r)))
    ∧ F.dec (lane F.width t (r ^^^ F.nconjMask isa.bits)) = (if t % 2 = 0 then fneg (F.dec (lane F.width t r)) else F.dec (lane F.width t r)) := by
  refine ⟨?_, ?_, ?_, ?_⟩
  · rw [lane_or, lane_blp (lane_in ht), dec_or1]
  · rw [lane_and, lane_abs (lane_in ht), dec_abs]
  · rw [lane_xor, lane_conj ht]
    split
    · exact congrArg F.dec BitVec.xor_zero
    · rw [dec_neg]
  · rw [lane_xor, lane_nconj ht]
    split
    · rw [dec_neg]
    · exact congrArg F.dec BitVec.xor_zero

/-- **C65.** The shuffles, on registers with any contents: exchange the parts of every complex number, copy the real parts,
copy the imaginary parts. -/
theorem C65_shuffles (r : BitVec isa.bits) {t : Nat} (ht : 2 * t + 1 < isa.lanes F) :
    lane F.width (2 * t) (F.mmSwap isa r) = lane F.width (2 * t + 1) r ∧ lane F.width (2 * t + 1) (F.mmSwap isa r) = lane F.width (2 * t) r
    ∧ lane F.width (2 * t) (F.mmEvens isa r) = lane F.width (2 * t) r ∧ lane F.width (2 * t + 1) (F.mmEvens isa r) = lane F.width (2 * t) r
    ∧ lane F.width (2 * t) (F.mmOdds isa r) = lane F.width (2 * t + 1) r ∧ lane F.width (2 * t + 1) (F.mmOdds isa r) = lane F.width (2 * t + 1) r := by
  have h0 : 2 * t < isa.lanes F := by omega
  rw [lane_swap h0, lane_swap ht, lane_evens h0, lane_evens ht, lane_odds h0, lane_odds ht]
  rw [show (2 * t + 1) % 2 + 2 * (2 * t / 2) = 2 * t + 1 by omega, show (2 * t + 1 + 1) % 2 + 2 * ((2 * t + 1) / 2) = 2 * t by omega,
    show 2 * (2 * t / 2) = 2 * t by omega, show 2 * ((2 * t + 1) / 2) = 2 * t by omega]
  exact ⟨rfl, rfl, rfl, rfl, rfl, rfl⟩

end

/-! Concrete cases. -/

/-- AVX code for `double`, 4 numbers in a register. -/
example : exAVX.Unit f64 .avx false := by unfold Tune.Unit; decide +kernel

/-- SSE code for `float`, fold 2: registers full of ones, an accumulator updated for `2^3`, a vector of powers of two, a
partial register at the end. -/
def sT : Tune := ⟨4, 4, 4, 1, 4, true⟩
def sσ : IRegs 128 f32.width where
  vec := fun _ => BitVec.allOnes 128
  sc := fun v => match v with
    | .y _ j => f32.enc (nth (f32.dmdupdate 2 (f32.pow2 3) (dmsetzero 2)).pri j)
    | _ => BitVec.allOnes f32.width

def sM : Nat → Int → BitVec f32.width := fun _ a => f32.enc (f32.ofInt (if a % 2 = 0 then a + 1 else -a))

theorem sT_ok : sT.OK f32 := by constructor <;> first | decide | exact ⟨0, rfl⟩ | exact ⟨1, rfl⟩ | exact ⟨2, rfl⟩

example : sT.OK f32 ∧ sT.Unit f32 .sse false := ⟨sT_ok, by unfold Tune.Unit; decide +kernel⟩

example : (List.range 2).map (fun j => f32.dec (((Gen.mk sT false .asum).kernelI f32 .sse sM 1 1 true 2 3 sσ).sc (.y 0 j)))
    = f32.kernel sT [f32.ofInt 1, f32.ofInt 1, f32.ofInt 3] (accI f32 (isa := .sse) 2 sσ 0) := by decide +kernel

example : ((Gen.mk sT false .asum).kernelI f32 .sse sM 1 1 true 2 3 sσ).sc (.y 0 0) ≠ sσ.sc (.y 0 0) := by decide +kernel

example : f32.dec (((GenA.mk sT false false).codeI f32 .sse sM 1 1 3 sσ).sc (.am 0)) = f32.ofInt 3 := by decide +kernel

/-- SSE code for `float complex`, two numbers in a register. -/
def sTz : Tune := ⟨4, 2, 2, 1, 2, true⟩
theorem sTz_ok : sTz.OK f32 := by constructor <;> first | decide | exact ⟨0, rfl⟩ | exact ⟨1, rfl⟩
example : sTz.OK f32 ∧ sTz.Unit f32 .sse true := ⟨sTz_ok, by unfold Tune.Unit; decide +kernel⟩
example : ((Gen.mk sTz true .dotu).kernelI f32 .sse sM 1 1 true 2 1 sσ).sc (.y 1 0) ≠ sσ.sc (.y 1 0) := by decide +kernel

end Repro
