import Verif.ThreadsMatOk
import Verif.PropsThreadsVec
/-!
# C81: threads calling the matrix products

Any number of threads calling the matrix products of binnedBLAS and reproBLAS (and the routines of C68 and C73), at the granularity of single memory accesses, under every interleaving and on a machine with store buffers. Each
call is a program of memory accesses (`Verif/ThreadsMat.lean`); what it does alone is what the C statements do in flat memory (`C81_alone`, `Verif/MatMem.lean`).
-/

namespace Repro
open Fmt Prog
variable {F : Fmt}

/-- A call of the library, as a thread makes it. `T` is the tuning the dot product was compiled with, `b` are the block sizes the matrix product was compiled with, `bufX`, `bufS`, `bufA`, `bufB`, `YI`, `CI` the addresses
`malloc` returns. -/
inductive MCall where
  /-- an operation on binned values or a vector routine (C68, C73) -/
  | vec (c : VCall)
  /-- `binnedBLAS_dbdgemv` -/
  | dgemv (T : Tune) (b : GemvB) (Order TransA : Char) (M N : Nat) (alpha : Flt) (A lda X incX Y incY bufX bufA : Int)
  /-- `binnedBLAS_dbdgemm` -/
  | dgemm (T : Tune) (b : GemmB) (Order TransA TransB : Char) (M N K : Nat) (alpha : Flt) (A lda B ldb C ldc bufS bufA bufB : Int)
  /-- `reproBLAS_rdgemv` -/
  | rdgemv (T : Tune) (b : GemvB) (Order TransA : Char) (M N : Nat) (alpha : Flt) (A lda X incX : Int) (beta : Flt) (Y incY YI bufX bufA : Int)
  /-- `reproBLAS_rdgemm` -/
  | rdgemm (T : Tune) (b : GemmB) (Order TransA TransB : Char) (M N K : Nat) (alpha : Flt) (A lda B ldb : Int) (beta : Flt) (C ldc CI bufS bufA bufB : Int)
  /-- `binnedBLAS_zbzgemv` -/
  | zgemv (T : Tune) (b : GemvB) (Order TransA : Char) (M N : Nat) (alpha : Flt × Flt) (A lda X incX Y incY bufX bufA : Int)
  /-- `binnedBLAS_zbzgemm` -/
  | zgemm (T : Tune) (b : GemmB) (Order TransA TransB : Char) (M N K : Nat) (alpha : Flt × Flt) (A lda B ldb C ldc bufS bufA bufB : Int)
  /-- `reproBLAS_rzgemv` -/
  | rzgemv (T : Tune) (b : GemvB) (Order TransA : Char) (M N : Nat) (alpha : Flt × Flt) (A lda X incX : Int) (beta : Flt × Flt) (Y incY YI bufX bufA : Int)
  /-- `reproBLAS_rzgemm` -/
  | rzgemm (T : Tune) (b : GemmB) (Order TransA TransB : Char) (M N K : Nat) (alpha : Flt × Flt) (A lda B ldb : Int) (beta : Flt × Flt) (C ldc CI bufS bufA bufB : Int)

/-- The accesses of a call. -/
def MCall.prog (F : Fmt) (fold : Nat) : MCall → Prog Unit
  | vec c => c.prog F fold
  | dgemv T b Order TransA M N alpha A lda X incX Y incY bufX bufA => F.dgemvP T fold b Order TransA M N alpha A lda X incX Y incY bufX bufA
  | dgemm T b Order TransA TransB M N K alpha A lda B ldb C ldc bufS bufA bufB => F.dgemmP T fold b Order TransA TransB M N K alpha A lda B ldb C ldc bufS bufA bufB
  | rdgemv T b Order TransA M N alpha A lda X incX beta Y incY YI bufX bufA => F.rdgemvP T fold b Order TransA M N alpha A lda X incX beta Y incY YI bufX bufA
  | rdgemm T b Order TransA TransB M N K alpha A lda B ldb beta C ldc CI bufS bufA bufB => F.rdgemmP T fold b Order TransA TransB M N K alpha A lda B ldb beta C ldc CI bufS bufA bufB
  | zgemv T b Order TransA M N alpha A lda X incX Y incY bufX bufA => F.zgemvP T fold b Order TransA M N alpha A lda X incX Y incY bufX bufA
  | zgemm T b Order TransA TransB M N K alpha A lda B ldb C ldc bufS bufA bufB => F.zgemmP T fold b Order TransA TransB M N K alpha A lda B ldb C ldc bufS bufA bufB
  | rzgemv T b Order TransA M N alpha A lda X incX beta Y incY YI bufX bufA => F.rzgemvP T fold b Order TransA M N alpha A lda X incX beta Y incY YI bufX bufA
  | rzgemm T b Order TransA TransB M N K alpha A lda B ldb beta C ldc CI bufS bufA bufB => F.rzgemmP T fold b Order TransA TransB M N K alpha A lda B ldb beta C ldc CI bufS bufA bufB

/-- What the statements of the routine do to memory when nothing else happens (`Verif/MatMem.lean`). -/
def MCall.stmts (F : Fmt) (fold : Nat) (expand : Bool) (jA jD : Junk) (jA' jD' : Nat → Regs) : MCall → Mem → Mem
  | vec c, m => c.stmts F fold expand jA' jD' m
  | dgemv T b Order TransA M N alpha A lda X incX Y incY bufX bufA, m => F.dgemvM T expand fold jA jD b Order TransA M N alpha A lda X incX Y incY bufX bufA m
  | dgemm T b Order TransA TransB M N K alpha A lda B ldb C ldc bufS bufA bufB, m => F.dgemmM T expand fold jA jD b Order TransA TransB M N K alpha A lda B ldb C ldc bufS bufA bufB m
  | rdgemv T b Order TransA M N alpha A lda X incX beta Y incY YI bufX bufA, m => F.rdgemvM T expand fold jA jD b Order TransA M N alpha A lda X incX beta Y incY YI bufX bufA m
  | rdgemm T b Order TransA TransB M N K alpha A lda B ldb beta C ldc CI bufS bufA bufB, m => F.rdgemmM T expand fold jA jD b Order TransA TransB M N K alpha A lda B ldb beta C ldc CI bufS bufA bufB m
  | zgemv T b Order TransA M N alpha A lda X incX Y incY bufX bufA, m => F.zgemvM T expand fold jA jD b Order TransA M N alpha A lda X incX Y incY bufX bufA m
  | zgemm T b Order TransA TransB M N K alpha A lda B ldb C ldc bufS bufA bufB, m => F.zgemmM T expand fold jA jD b Order TransA TransB M N K alpha A lda B ldb C ldc bufS bufA bufB m
  | rzgemv T b Order TransA M N alpha A lda X incX beta Y incY YI bufX bufA, m => F.rzgemvM T expand fold jA jD b Order TransA M N alpha A lda X incX beta Y incY YI bufX bufA m
  | rzgemm T b Order TransA TransB M N K alpha A lda B ldb beta C ldc CI bufS bufA bufB, m => F.rzgemmM T expand fold jA jD b Order TransA TransB M N K alpha A lda B ldb beta C ldc CI bufS bufA bufB m

/-- The routine has been compiled with a valid tuning; for `binnedBLAS_dmdssq`, the operands are as in C73. -/
def MCall.Tuned (F : Fmt) (fold : Nat) (m : Mem) : MCall → Prop
  | vec c => c.Tuned F ∧ c.Sound F fold m
  | dgemv T .. | dgemm T .. | rdgemv T .. | rdgemm T .. | zgemv T .. | zgemm T .. | rzgemv T .. | rzgemm T .. => T.OK F

theorem eval_dgemv [F.OK] {T : Tune} (hT : T.OK F) (expand : Bool) {fold : Nat} (hf : 2 ≤ fold) (jA jD : Junk) (b : GemvB) (Order TransA : Char) (M N : Nat) (alpha : Flt) (A lda X incX Y incY bufX bufA : Int) (m : Mem) :
    (F.dgemvP T fold b Order TransA M N alpha A lda X incX Y incY bufX bufA).eval F m = ((), F.dgemvM T expand fold jA jD b Order TransA M N alpha A lda X incX Y incY bufX bufA m) :=
  eval_gemv (real_runs hT expand hf jA jD) _ _ _ _ _ _ _ _ _ _ _ _ _ _ _ _ _

theorem eval_dgemm [F.OK] {T : Tune} (hT : T.OK F) (expand : Bool) {fold : Nat} (hf : 2 ≤ fold) (jA jD : Junk) (b : GemmB) (Order TransA TransB : Char) (M N K : Nat) (alpha : Flt) (A lda B ldb C ldc bufS bufA bufB : Int) (m : Mem) :
    (F.dgemmP T fold b Order TransA TransB M N K alpha A lda B ldb C ldc bufS bufA bufB).eval F m = ((), F.dgemmM T expand fold jA jD b Order TransA TransB M N K alpha A lda B ldb C ldc bufS bufA bufB m) := by
  unfold dgemmP dgemmM
  by_cases h0 : M = 0 ∨ N = 0 ∨ K = 0 ∨ isZero alpha = true
  · rw [if_pos h0, if_pos h0]; rfl
  · rw [if_neg h0, if_neg h0]
    exact eval_gemm (real_runs hT expand hf jA jD) _ _ _ _ _ _ _ _ _ _ _ _ _ _ _ _ _ _ _ _ _

theorem eval_zgemv [F.OK] {T : Tune} (hT : T.OK F) (expand : Bool) {fold : Nat} (hf : 2 ≤ fold) (jA jD : Junk) (b : GemvB) (Order TransA : Char) (M N : Nat) (alpha : Flt × Flt) (A lda X incX Y incY bufX bufA : Int) (m : Mem) :
    (F.zgemvP T fold b Order TransA M N alpha A lda X incX Y incY bufX bufA).eval F m = ((), F.zgemvM T expand fold jA jD b Order TransA M N alpha A lda X incX Y incY bufX bufA m) := by
  have hr := fun conj => cplx_runs hT expand hf jA jD conj
  have hx := fun n => eval_scaleX (hr false) (F.zunit alpha) (F.zscl alpha) n X incX bufX m
  have hN : ∀ M N : Nat, ((scaleXP (cplxP F T fold false) (F.zunit alpha) (F.zscl alpha) N X incX bufX).bind fun s => gemvNP (cplxP F T fold false) b M N A lda s.1 s.2 Y incY).eval F m = _ := fun M N => by
    rw [eval_bind, hx, eval_gemvN (hr false)]
  have hTr : ∀ conj (M N : Nat), ((scaleXP (cplxP F T fold false) (F.zunit alpha) (F.zscl alpha) M X incX bufX).bind fun s => gemvTP (cplxP F T fold conj) b M N A lda s.1 s.2 Y incY bufA).eval F m = _ := fun conj M N => by
    rw [eval_bind, hx, eval_gemvT (hr conj)]
  have hC : ((scaleXP (cplxP F T fold false) (F.zunit alpha) (F.zscl alpha) M X incX bufX).bind fun s => zgemvCP (cplxP F T fold true) b M N A lda s.1 s.2 Y incY).eval F m = ((), zgemvCM (cplxOps F T expand fold jA jD true) b M N A lda
      (scaleXM (cplxOps F T expand fold jA jD false) (F.zunit alpha) (F.zscl alpha) M X incX bufX m).1 (scaleXM (cplxOps F T expand fold jA jD false) (F.zunit alpha) (F.zscl alpha) M X incX bufX m).2.1 Y incY
      (scaleXM (cplxOps F T expand fold jA jD false) (F.zunit alpha) (F.zscl alpha) M X incX bufX m).2.2) := by
    rw [eval_bind, hx]
    exact eval_forP (fun i m => eval_forP (fun j m => eval_forP (fun ii m => (hr true).dot _ _ _ _ _ _ m) m) m) _
  unfold zgemvP zgemvM
  by_cases h0 : M = 0 ∨ N = 0 ∨ zzero alpha = true
  · simp only [if_pos h0]; rfl
  have h0' : ¬ (N = 0 ∨ M = 0 ∨ zzero alpha = true) := by tauto
  simp only [if_neg h0, if_neg h0']
  cases isRow Order <;> cases trOf TransA <;> simp only [↓reduceIte, Bool.false_eq_true]
  · exact hTr false _ _
  · exact hN _ _
  · exact hC
  · exact hN _ _
  · exact hTr false _ _
  · exact hTr true _ _

theorem eval_zgemm [F.OK] {T : Tune} (hT : T.OK F) (expand : Bool) {fold : Nat} (hf : 2 ≤ fold) (jA jD : Junk) (b : GemmB) (Order TransA TransB : Char) (M N K : Nat) (alpha : Flt × Flt) (A lda B ldb C ldc bufS bufA bufB : Int) (m : Mem) :
    (F.zgemmP T fold b Order TransA TransB M N K alpha A lda B ldb C ldc bufS bufA bufB).eval F m = ((), F.zgemmM T expand fold jA jD b Order TransA TransB M N K alpha A lda B ldb C ldc bufS bufA bufB m) := by
  unfold zgemmP zgemmM
  by_cases h0 : M = 0 ∨ N = 0 ∨ K = 0 ∨ zzero alpha = true
  · rw [if_pos h0, if_pos h0]; rfl
  · rw [if_neg h0, if_neg h0]
    exact eval_gemm (cplx_runs hT expand hf jA jD _) _ _ _ _ _ _ _ _ _ _ _ _ _ _ _ _ _ _ _ _ _

theorem eval_rdgemv [F.OK] {T : Tune} (hT : T.OK F) (expand : Bool) {fold : Nat} (hf : 2 ≤ fold) (jA jD : Junk) (b : GemvB) (Order TransA : Char) (M N : Nat) (alpha : Flt) (A lda X incX : Int) (beta : Flt) (Y incY YI bufX bufA : Int) (m : Mem) :
    (F.rdgemvP T fold b Order TransA M N alpha A lda X incX beta Y incY YI bufX bufA).eval F m = ((), F.rdgemvM T expand fold jA jD b Order TransA M N alpha A lda X incX beta Y incY YI bufX bufA m) := by
  unfold rdgemvP rdgemvM
  exact eval_rgemv (real_runs hT expand hf jA jD) _ _ _ (fun y m => eval_dgemv hT expand hf jA jD b Order TransA M N alpha A lda X incX y 1 bufX bufA m) _ _ _ _ _ _ m

theorem eval_rdgemm [F.OK] {T : Tune} (hT : T.OK F) (expand : Bool) {fold : Nat} (hf : 2 ≤ fold) (jA jD : Junk) (b : GemmB) (Order TransA TransB : Char) (M N K : Nat) (alpha : Flt) (A lda B ldb : Int) (beta : Flt) (C ldc CI bufS bufA bufB : Int) (m : Mem) :
    (F.rdgemmP T fold b Order TransA TransB M N K alpha A lda B ldb beta C ldc CI bufS bufA bufB).eval F m = ((), F.rdgemmM T expand fold jA jD b Order TransA TransB M N K alpha A lda B ldb beta C ldc CI bufS bufA bufB m) := by
  unfold rdgemmP rdgemmM
  exact eval_rgemm (real_runs hT expand hf jA jD) _ _ _ (fun y l m => eval_dgemm hT expand hf jA jD b Order TransA TransB M N K alpha A lda B ldb y l bufS bufA bufB m) _ _ _ _ _ _ m

theorem eval_rzgemv [F.OK] {T : Tune} (hT : T.OK F) (expand : Bool) {fold : Nat} (hf : 2 ≤ fold) (jA jD : Junk) (b : GemvB) (Order TransA : Char) (M N : Nat) (alpha : Flt × Flt) (A lda X incX : Int) (beta : Flt × Flt) (Y incY YI bufX bufA : Int) (m : Mem) :
    (F.rzgemvP T fold b Order TransA M N alpha A lda X incX beta Y incY YI bufX bufA).eval F m = ((), F.rzgemvM T expand fold jA jD b Order TransA M N alpha A lda X incX beta Y incY YI bufX bufA m) := by
  unfold rzgemvP rzgemvM
  exact eval_rgemv (cplx_runs hT expand hf jA jD false) _ _ _ (fun y m => eval_zgemv hT expand hf jA jD b Order TransA M N alpha A lda X incX y 1 bufX bufA m) _ _ _ _ _ _ m

theorem eval_rzgemm [F.OK] {T : Tune} (hT : T.OK F) (expand : Bool) {fold : Nat} (hf : 2 ≤ fold) (jA jD : Junk) (b : GemmB) (Order TransA TransB : Char) (M N K : Nat) (alpha : Flt × Flt) (A lda B ldb : Int) (beta : Flt × Flt) (C ldc CI bufS bufA bufB : Int) (m : Mem) :
    (F.rzgemmP T fold b Order TransA TransB M N K alpha A lda B ldb beta C ldc CI bufS bufA bufB).eval F m = ((), F.rzgemmM T expand fold jA jD b Order TransA TransB M N K alpha A lda B ldb beta C ldc CI bufS bufA bufB m) := by
  unfold rzgemmP rzgemmM
  exact eval_rgemm (cplx_runs hT expand hf jA jD false) _ _ _ (fun y l m => eval_zgemm hT expand hf jA jD b Order TransA TransB M N K alpha A lda B ldb y l bufS bufA bufB m) _ _ _ _ _ _ m

/-- **C81.** The programs are the routines: run alone, the accesses of a call have exactly the effect of the statements of the C code, whatever the registers contain. -/
theorem C81_alone [F.OK] {fold : Nat} (hf : 2 ≤ fold) {expand : Bool} (jA jD : Junk) (jA' jD' : Nat → Regs) (c : MCall) (m : Mem) (hT : c.Tuned F fold m) :
    (c.prog F fold).eval F m = ((), c.stmts F fold expand jA jD jA' jD' m) := by
  cases c with
  | vec c => exact C73_alone hf jA' jD' c hT.1 m hT.2
  | dgemv => exact eval_dgemv hT expand hf jA jD _ _ _ _ _ _ _ _ _ _ _ _ _ _ m
  | dgemm => exact eval_dgemm hT expand hf jA jD _ _ _ _ _ _ _ _ _ _ _ _ _ _ _ _ _ m
  | rdgemv => exact eval_rdgemv hT expand hf jA jD _ _ _ _ _ _ _ _ _ _ _ _ _ _ _ _ m
  | rdgemm => exact eval_rdgemm hT expand hf jA jD _ _ _ _ _ _ _ _ _ _ _ _ _ _ _ _ _ _ _ m
  | zgemv => exact eval_zgemv hT expand hf jA jD _ _ _ _ _ _ _ _ _ _ _ _ _ _ m
  | zgemm => exact eval_zgemm hT expand hf jA jD _ _ _ _ _ _ _ _ _ _ _ _ _ _ _ _ _ m
  | rzgemv => exact eval_rzgemv hT expand hf jA jD _ _ _ _ _ _ _ _ _ _ _ _ _ _ _ _ m
  | rzgemm => exact eval_rzgemm hT expand hf jA jD _ _ _ _ _ _ _ _ _ _ _ _ _ _ _ _ _ _ _ m

/-! ## What a call uses -/

/-- The words of the matrix `op(A)` with elements of `w` words. -/
def MatWords (w : Nat) (row no : Bool) (A lda : Int) (rows cols : Nat) (a : Int) : Prop := ∃ r c : Nat, r < rows ∧ c < cols ∧ Span (A + w * opEl row no id lda r c) w a
/-- The words of a vector with elements of `w` words. -/
def VecWords (w : Nat) (X incX : Int) (n : Nat) (a : Int) : Prop := ∃ i : Nat, i < n ∧ Span (X + w * (i * incX)) w a

/-- The words a call may change: the result and what it has allocated. -/
def MCall.Writes (fold : Nat) : MCall → Int → Prop
  | vec c, a => c.Writes fold a
  | dgemv _ b _ TransA M N _ _ _ _ _ Y incY bufX bufA, a => GemvWork 1 (2 * fold) (if isNo TransA then M else N) (if isNo TransA then N else M) (b.xt * b.yt) Y incY bufX bufA a
  | dgemm _ b Order _ _ M N K _ _ _ _ _ C ldc bufS bufA bufB, a => GemmWork 1 (2 * fold) (isRow Order) M N K (b.xt * b.yt) C ldc bufS bufA bufB a
  | rdgemv _ b _ TransA M N _ _ _ _ _ _ Y incY YI bufX bufA, a => GemvWork 1 (2 * fold) (if isNo TransA then M else N) (if isNo TransA then N else M) (b.xt * b.yt) YI 1 bufX bufA a ∨ VecWords 1 Y incY (if isNo TransA then M else N) a
  | rdgemm _ b Order _ _ M N K _ _ _ _ _ _ C ldc CI bufS bufA bufB, a => GemmWork 1 (2 * fold) (isRow Order) M N K (b.xt * b.yt) CI (if isRow Order then N else M) bufS bufA bufB a ∨ MatWords 1 (isRow Order) true C ldc M N a
  | zgemv _ b _ TransA M N _ _ _ _ _ Y incY bufX bufA, a => GemvWork 2 (4 * fold) (if isNo TransA then M else N) (if isNo TransA then N else M) (b.xt * b.yt) Y incY bufX bufA a
  | zgemm _ b Order _ _ M N K _ _ _ _ _ C ldc bufS bufA bufB, a => GemmWork 2 (4 * fold) (isRow Order) M N K (b.xt * b.yt) C ldc bufS bufA bufB a
  | rzgemv _ b _ TransA M N _ _ _ _ _ _ Y incY YI bufX bufA, a => GemvWork 2 (4 * fold) (if isNo TransA then M else N) (if isNo TransA then N else M) (b.xt * b.yt) YI 1 bufX bufA a ∨ VecWords 2 Y incY (if isNo TransA then M else N) a
  | rzgemm _ b Order _ _ M N K _ _ _ _ _ _ C ldc CI bufS bufA bufB, a => GemmWork 2 (4 * fold) (isRow Order) M N K (b.xt * b.yt) CI (if isRow Order then N else M) bufS bufA bufB a ∨ MatWords 2 (isRow Order) true C ldc M N a

/-- The words a call may depend on, besides the ones it writes: the factors. -/
def MCall.Reads (fold : Nat) : MCall → Int → Prop
  | vec c, a => c.Reads fold a
  | dgemv _ _ Order TransA M N _ A lda X incX _ _ _ _, a | rdgemv _ _ Order TransA M N _ A lda X incX _ _ _ _ _ _, a =>
    MatWords 1 (isRow Order) (isNo TransA) A lda (if isNo TransA then M else N) (if isNo TransA then N else M) a ∨ VecWords 1 X incX (if isNo TransA then N else M) a
  | dgemm _ _ Order TransA TransB M N K _ A lda B ldb _ _ _ _ _, a | rdgemm _ _ Order TransA TransB M N K _ A lda B ldb _ _ _ _ _ _ _, a =>
    MatWords 1 (isRow Order) (isNo TransA) A lda M K a ∨ MatWords 1 (isRow Order) (isNo TransB) B ldb K N a
  | zgemv _ _ Order TransA M N _ A lda X incX _ _ _ _, a | rzgemv _ _ Order TransA M N _ A lda X incX _ _ _ _ _ _, a =>
    MatWords 2 (isRow Order) (isNo TransA) A lda (if isNo TransA then M else N) (if isNo TransA then N else M) a ∨ VecWords 2 X incX (if isNo TransA then N else M) a
  | zgemm _ _ Order TransA TransB M N K _ A lda B ldb _ _ _ _ _, a | rzgemm _ _ Order TransA TransB M N K _ A lda B ldb _ _ _ _ _ _ _, a =>
    MatWords 2 (isRow Order) (isNo TransA) A lda M K a ∨ MatWords 2 (isRow Order) (isNo TransB) B ldb K N a

/-- The block sizes are valid, and the call is not the column-major conjugate transposed one with more columns than rows, in which the code itself reads beyond its operands (C45). -/
def MCall.InRange : MCall → Prop
  | vec _ => True
  | dgemv _ b .. | rdgemv _ b .. => b.OK
  | dgemm _ b .. | rdgemm _ b .. | zgemm _ b .. | rzgemm _ b .. => b.OK
  | zgemv _ b Order TransA M N .. | rzgemv _ b Order TransA M N .. => b.OK ∧ (isRow Order = true ∨ trOf TransA ≠ .cj ∨ N ≤ M)

section
variable (hF : F = f64 ∨ F = f32) {fold : Nat} (hf : 2 ≤ fold) (hm : fold ≤ F.maxFold) {W R : Int → Prop} {s : Nat → Prop} (hWR : ∀ a, W a → R a)
include hF hf hm hWR

theorem Ok.dgemv (T : Tune) {b : GemvB} (hb : b.OK) (Order TransA : Char) {M N : Nat} (alpha : Flt) {A lda X incX Y incY bufX bufA : Int}
    (hW : ∀ x, GemvWork 1 (2 * fold) (if isNo TransA then M else N) (if isNo TransA then N else M) (b.xt * b.yt) Y incY bufX bufA x → W x)
    (hR : ∀ x, MatWords 1 (isRow Order) (isNo TransA) A lda (if isNo TransA then M else N) (if isNo TransA then N else M) x ∨ VecWords 1 X incX (if isNo TransA then N else M) x → R x) :
    Ok F W R s (F.dgemvP T fold b Order TransA M N alpha A lda X incX Y incY bufX bufA) :=
  Ok.gemv (real_stays hF T hf hm) _ _ _ hb Order TransA rfl rfl (fun x h => ⟨hW x h, hWR x (hW x h)⟩) (fun r c hr hc x h => hR x (Or.inl ⟨r, c, hr, hc, h⟩)) (fun c hc x h => hR x (Or.inr ⟨c, hc, h⟩))

theorem Ok.dgemm (T : Tune) {b : GemmB} (hb : b.OK) (Order TransA TransB : Char) {M N K : Nat} (alpha : Flt) {A lda B ldb C ldc bufS bufA bufB : Int}
    (hW : ∀ x, GemmWork 1 (2 * fold) (isRow Order) M N K (b.xt * b.yt) C ldc bufS bufA bufB x → W x)
    (hR : ∀ x, MatWords 1 (isRow Order) (isNo TransA) A lda M K x ∨ MatWords 1 (isRow Order) (isNo TransB) B ldb K N x → R x) :
    Ok F W R s (F.dgemmP T fold b Order TransA TransB M N K alpha A lda B ldb C ldc bufS bufA bufB) :=
  Ok.ite (fun _ => Ok.ret _) fun _ => Ok.gemm (real_stays hF T hf hm) hb _ _ _ _ _ _ _ (fun x h => ⟨hW x h, hWR x (hW x h)⟩)
    (fun r t hr ht x h => hR x (Or.inl ⟨r, t, hr, ht, by rw [← idxA_eq]; exact h⟩)) (fun t c ht hc x h => hR x (Or.inr ⟨t, c, ht, hc, by rw [← idxB_eq]; exact h⟩))

theorem Ok.zgemm (T : Tune) {b : GemmB} (hb : b.OK) (Order TransA TransB : Char) {M N K : Nat} (alpha : Flt × Flt) {A lda B ldb C ldc bufS bufA bufB : Int}
    (hW : ∀ x, GemmWork 2 (4 * fold) (isRow Order) M N K (b.xt * b.yt) C ldc bufS bufA bufB x → W x)
    (hR : ∀ x, MatWords 2 (isRow Order) (isNo TransA) A lda M K x ∨ MatWords 2 (isRow Order) (isNo TransB) B ldb K N x → R x) :
    Ok F W R s (F.zgemmP T fold b Order TransA TransB M N K alpha A lda B ldb C ldc bufS bufA bufB) :=
  Ok.ite (fun _ => Ok.ret _) fun _ => Ok.gemm (cplx_stays hF T hf hm _) hb _ _ _ _ _ _ _ (fun x h => ⟨hW x h, hWR x (hW x h)⟩)
    (fun r t hr ht x h => hR x (Or.inl ⟨r, t, hr, ht, by rw [← idxA_eq]; exact h⟩)) (fun t c ht hc x h => hR x (Or.inr ⟨t, c, ht, hc, by rw [← idxB_eq]; exact h⟩))

theorem Ok.zgemv (T : Tune) {b : GemvB} (hb : b.OK) (Order TransA : Char) {M N : Nat} (hMN : isRow Order = true ∨ trOf TransA ≠ .cj ∨ N ≤ M) (alpha : Flt × Flt) {A lda X incX Y incY bufX bufA : Int}
    (hW : ∀ x, GemvWork 2 (4 * fold) (if isNo TransA then M else N) (if isNo TransA then N else M) (b.xt * b.yt) Y incY bufX bufA x → W x)
    (hR : ∀ x, MatWords 2 (isRow Order) (isNo TransA) A lda (if isNo TransA then M else N) (if isNo TransA then N else M) x ∨ VecWords 2 X incX (if isNo TransA then N else M) x → R x) :
    Ok F W R s (F.zgemvP T fold b Order TransA M N alpha A lda X incX Y incY bufX bufA) := by
  have hP := fun conj => cplx_stays hF T hf hm conj
  obtain ⟨rows, hr⟩ : ∃ rows, rows = if isNo TransA then M else N := ⟨_, rfl⟩
  obtain ⟨cols, hc⟩ : ∃ cols, cols = if isNo TransA then N else M := ⟨_, rfl⟩
  rw [← hr, ← hc] at hW hR
  have hX : ∀ c : Nat, c < cols → ∀ x, Span (X + (2 : Nat) * (c * incX)) 2 x → R x := fun c h x hx => hR x (Or.inr ⟨c, h, hx⟩)
  have hY : ∀ r : Nat, r < rows → ∀ x, Span (Y + (4 * fold : Nat) * (r * incY)) (4 * fold) x → W x ∧ R x := fun r h x hx => ⟨hW x (Or.inl ⟨r, h, hx⟩), hWR x (hW x (Or.inl ⟨r, h, hx⟩))⟩
  have hbX : ∀ x, Span bufX (2 * cols) x → W x ∧ R x := fun x h => ⟨hW x (Or.inr (Or.inl h)), hWR x (hW x (Or.inr (Or.inl h)))⟩
  have hbA : ∀ x, Span bufA (2 * (b.xt * b.yt)) x → W x ∧ R x := fun x h => ⟨hW x (Or.inr (Or.inr h)), hWR x (hW x (Or.inr (Or.inr h)))⟩
  have hA : ∀ r c : Nat, r < rows → c < cols → ∀ x, Span (A + (2 : Nat) * opEl (isRow Order) (isNo TransA) id lda r c) 2 x → R x := fun r c h h' x hx => hR x (Or.inl ⟨r, c, h, h', hx⟩)
  have hN : (∀ r c : Nat, r < rows → c < cols → ∀ x, Span (A + (2 : Nat) * (r * lda + c)) 2 x → R x) → Ok F W R s ((scaleXP (cplxP F T fold false) (F.zunit alpha) (F.zscl alpha) cols X incX bufX).bind fun v =>
      gemvNP (cplxP F T fold false) b rows cols A lda v.1 v.2 Y incY) := fun hA => Ok.scaleX (hP false) _ _ cols hX hbX fun Z iZ hZ => Ok.gemvN (hP false) hb hA hZ hY
  have hT : ∀ conj, (∀ c r : Nat, c < cols → r < rows → ∀ x, Span (A + (2 : Nat) * (c * lda + r)) 2 x → R x) → Ok F W R s ((scaleXP (cplxP F T fold false) (F.zunit alpha) (F.zscl alpha) cols X incX bufX).bind fun v =>
      gemvTP (cplxP F T fold conj) b cols rows A lda v.1 v.2 Y incY bufA) := fun conj hA => Ok.scaleX (hP false) _ _ cols hX hbX fun Z iZ hZ => Ok.gemvT (hP conj) hb hA hZ hbA hY
  have hC : rows ≤ cols → (∀ r c : Nat, r < rows → c < cols → ∀ x, Span (A + (2 : Nat) * (r * lda + c)) 2 x → R x) → Ok F W R s ((scaleXP (cplxP F T fold false) (F.zunit alpha) (F.zscl alpha) cols X incX bufX).bind fun v =>
      zgemvCP (cplxP F T fold true) b cols rows A lda v.1 v.2 Y incY) := fun hle hA => Ok.scaleX (hP false) _ _ cols hX hbX fun Z iZ hZ => Ok.zgemvC hb hle (hP true) hA hZ hY
  have hi := fun {p q : Prog Unit} {c : Prop} [Decidable c] (h : Ok F W R s q) => Ok.ite (c := c) (p := Prog.ret ()) (fun _ => Ok.ret ()) (fun _ => h)
  unfold zgemvP
  unfold opEl at hA
  cases hO : isRow Order <;> cases ht : trOf TransA <;> have hn := isNo_trOf TransA <;> rw [ht] at hn <;>
    simp only [hO, ht, hn, reduceCtorEq, decide_false, decide_true, ↓reduceIte, Bool.false_eq_true, beq_self_eq_true, id, ne_eq, not_true_eq_false, false_or] at hr hc hA hMN ⊢ <;> subst hr hc
  · exact Ok.ite (fun _ => Ok.ret _) (fun _ => Ok.ite (fun _ => Ok.ret _) (fun _ => hT false (fun c r h1 h2 => hA r c h2 h1)))
  · exact Ok.ite (fun _ => Ok.ret _) (fun _ => Ok.ite (fun _ => Ok.ret _) (fun _ => hN hA))
  · exact Ok.ite (fun _ => Ok.ret _) (fun _ => hC hMN hA)
  · exact Ok.ite (fun _ => Ok.ret _) (fun _ => Ok.ite (fun _ => Ok.ret _) (fun _ => hN hA))
  · exact Ok.ite (fun _ => Ok.ret _) (fun _ => Ok.ite (fun _ => Ok.ret _) (fun _ => hT false (fun c r h1 h2 => hA r c h2 h1)))
  · exact Ok.ite (fun _ => Ok.ret _) (fun _ => Ok.ite (fun _ => Ok.ret _) (fun _ => hT true (fun c r h1 h2 => hA r c h2 h1)))

theorem MCall.ok {c : MCall} (hc : c.InRange) (hw : ∀ a, c.Writes fold a → W a) (hr : ∀ a, c.Reads fold a → R a) : Ok F W R s (c.prog F fold) := by
  have hwr : ∀ a, c.Writes fold a → R a := fun a h => hWR a (hw a h)
  cases c with
  | vec c => exact VCall.ok hF hf hm hWR hw hr
  | dgemv T b => exact Ok.dgemv hF hf hm hWR T hc _ _ _ hw hr
  | dgemm T b => exact Ok.dgemm hF hf hm hWR T hc _ _ _ _ hw hr
  | zgemv T b => exact Ok.zgemv hF hf hm hWR T hc.1 _ _ hc.2 _ hw hr
  | zgemm T b => exact Ok.zgemm hF hf hm hWR T hc _ _ _ _ hw hr
  | rdgemv T b Order TransA M N alpha A lda X incX beta Y incY YI bufX bufA =>
    exact Ok.rgemv (real_stays hF T hf hm) _ _ _ (prod := fun YI => F.dgemvP T fold b Order TransA M N alpha A lda X incX YI 1 bufX bufA) (isNo TransA)
      (Ok.dgemv hF hf hm hWR T hc _ _ _ (fun x h => hw x (Or.inl h)) hr) (fun r hr x h => ⟨hw x (Or.inr ⟨r, hr, h⟩), hwr x (Or.inr ⟨r, hr, h⟩)⟩)
      (fun r hr x h => ⟨hw x (Or.inl (Or.inl ⟨r, hr, by rw [Int.mul_one]; exact h⟩)), hwr x (Or.inl (Or.inl ⟨r, hr, by rw [Int.mul_one]; exact h⟩))⟩)
  | rzgemv T b Order TransA M N alpha A lda X incX beta Y incY YI bufX bufA =>
    exact Ok.rgemv (cplx_stays hF T hf hm false) _ _ _ (prod := fun YI => F.zgemvP T fold b Order TransA M N alpha A lda X incX YI 1 bufX bufA) (isNo TransA)
      (Ok.zgemv hF hf hm hWR T hc.1 _ _ hc.2 _ (fun x h => hw x (Or.inl h)) hr) (fun r hr x h => ⟨hw x (Or.inr ⟨r, hr, h⟩), hwr x (Or.inr ⟨r, hr, h⟩)⟩)
      (fun r hr x h => ⟨hw x (Or.inl (Or.inl ⟨r, hr, by rw [Int.mul_one]; exact h⟩)), hwr x (Or.inl (Or.inl ⟨r, hr, by rw [Int.mul_one]; exact h⟩))⟩)
  | rdgemm T b Order TransA TransB M N K alpha A lda B ldb beta C ldc CI bufS bufA bufB =>
    exact Ok.rgemm (real_stays hF T hf hm) _ _ _ (prod := fun CI ld => F.dgemmP T fold b Order TransA TransB M N K alpha A lda B ldb CI ld bufS bufA bufB) (isRow Order)
      (Ok.dgemm hF hf hm hWR T hc _ _ _ _ (fun x h => hw x (Or.inl h)) hr) (fun r c hr hc x h => ⟨hw x (Or.inr ⟨r, c, hr, hc, h⟩), hwr x (Or.inr ⟨r, c, hr, hc, h⟩)⟩)
      (fun r c hr hc x h => ⟨hw x (Or.inl (Or.inl ⟨r, c, hr, hc, h⟩)), hwr x (Or.inl (Or.inl ⟨r, c, hr, hc, h⟩))⟩)
  | rzgemm T b Order TransA TransB M N K alpha A lda B ldb beta C ldc CI bufS bufA bufB =>
    exact Ok.rgemm (cplx_stays hF T hf hm false) _ _ _ (prod := fun CI ld => F.zgemmP T fold b Order TransA TransB M N K alpha A lda B ldb CI ld bufS bufA bufB) (isRow Order)
      (Ok.zgemm hF hf hm hWR T hc _ _ _ _ (fun x h => hw x (Or.inl h)) hr) (fun r c hr hc x h => ⟨hw x (Or.inr ⟨r, c, hr, hc, h⟩), hwr x (Or.inr ⟨r, c, hr, hc, h⟩)⟩)
      (fun r c hr hc x h => ⟨hw x (Or.inl (Or.inl ⟨r, c, hr, hc, h⟩)), hwr x (Or.inl (Or.inl ⟨r, c, hr, hc, h⟩))⟩)

end

/-- A thread: its calls, one after the other. -/
def mthreadP (F : Fmt) (fold : Nat) : List MCall → Prog Unit
  | [] => ret ()
  | c :: cs => (c.prog F fold).bind (fun _ => mthreadP F fold cs)

/-- What a call does to memory alone. -/
def MCall.alone (F : Fmt) (fold : Nat) (c : MCall) (m : Mem) : Mem := ((c.prog F fold).eval F m).2

theorem eval_mthread {fold : Nat} (cs : List MCall) (m : Mem) : (mthreadP F fold cs).eval F m = ((), cs.foldl (fun m c => c.alone F fold m) m) := by
  induction cs generalizing m with
  | nil => rfl
  | cons c cs ih => unfold mthreadP; rw [eval_bind]; exact ih _

theorem mthread_ok (hF : F = f64 ∨ F = f32) {fold : Nat} (hf : 2 ≤ fold) (hm : fold ≤ F.maxFold) {W R : Int → Prop} {s : Nat → Prop} (hWR : ∀ a, W a → R a) {cs : List MCall} (hc : ∀ c ∈ cs, c.InRange)
    (h : ∀ c ∈ cs, (∀ a, c.Writes fold a → W a) ∧ ∀ a, c.Reads fold a → R a) : Ok F W R s (mthreadP F fold cs) := by
  induction cs with
  | nil => exact Ok.ret ()
  | cons c cs ih => exact Ok.bind (MCall.ok hF hf hm hWR (hc c (by simp)) (h c (by simp)).1 (h c (by simp)).2) (fun _ => ih (fun c' hc' => hc c' (by simp [hc'])) (fun c' hc => h c' (by simp [hc])))

/-- The words a thread may change. -/
def MWrites (fold : Nat) (cs : List MCall) (a : Int) : Prop := ∃ c ∈ cs, c.Writes fold a
/-- The words a thread uses. -/
def MUses (fold : Nat) (cs : List MCall) (a : Int) : Prop := ∃ c ∈ cs, c.Writes fold a ∨ c.Reads fold a

/-- **C81.** Any number of threads, each making its own sequence of calls of the library - matrix products, vector routines, operations on binned values -, no thread writing words another thread uses; the table of bins not filled
yet. In every interleaving of the individual memory accesses of all threads: a thread that is done has left in all words it uses exactly what its calls leave there alone, from the initial memory; each thread is done after a number
of own accesses that does not depend on the schedule; and words no thread writes are unchanged. Nothing is assumed about the numbers in the operands. -/
theorem C81_threads (hF : F = f64 ∨ F = f32) {fold : Nat} (hf : 2 ≤ fold) (hm : fold ≤ F.maxFold) {ι : Type} [DecidableEq ι] (calls : ι → List MCall) (hc : ∀ t, ∀ c ∈ calls t, c.InRange)
    (hd : ∀ t u, t ≠ u → ∀ a, MWrites fold (calls t) a → ¬ MUses fold (calls u) a) (m : Mem) (junk : Nat → Flt) :
    let start : System ι Unit := ⟨fun t => mthreadP F fold (calls t), ⟨m, false, junk⟩⟩
    (∀ sched : List ι, ∀ t, (start.run sched).prog t = .ret () → ∀ a, MUses fold (calls t) a → (start.run sched).shared.mem a = (calls t).foldl (fun m c => c.alone F fold m) m a) ∧
    (∀ t, ∃ n, ∀ sched : List ι, n ≤ sched.count t → (start.run sched).prog t = .ret ()) ∧
    (∀ sched : List ι, ∀ a, (∀ t, ¬ MWrites fold (calls t) a) → (start.run sched).shared.mem a = m a) := by
  intro start
  have hWR : ∀ t a, MWrites fold (calls t) a → MUses fold (calls t) a := fun t a ⟨c, hc, h⟩ => ⟨c, hc, Or.inl h⟩
  have hp : ∀ t, Within F (MWrites fold (calls t)) (MUses fold (calls t)) (mthreadP F fold (calls t)) := fun t =>
    (mthread_ok hF hf hm (hWR t) (hc t) (fun c hc => ⟨fun a h => ⟨c, hc, h⟩, fun a h => ⟨c, hc, Or.inr h⟩⟩)).within
  have h := fun sched => interleave (F := F) hWR hd hp m junk sched
  refine ⟨fun sched t hv a ha => ?_, fun t => ⟨_, fun sched hn => ((h sched).2.1 t hn).elim (fun v hv => hv)⟩, fun sched => (h sched).2.2⟩
  rw [((h sched).1 t () hv).2 a ha, eval_mthread]

/-- **C81.** The same on a machine with store buffers: a thread that is done and whose writes have reached memory has left what its calls leave alone; each thread is done, and its writes have reached memory, after numbers of own
accesses and flushes that do not depend on the schedule. -/
theorem C81_tso (hF : F = f64 ∨ F = f32) {fold : Nat} (hf : 2 ≤ fold) (hm : fold ≤ F.maxFold) {ι : Type} [DecidableEq ι] (calls : ι → List MCall) (hc : ∀ t, ∀ c ∈ calls t, c.InRange)
    (hd : ∀ t u, t ≠ u → ∀ a, MWrites fold (calls t) a → ¬ MUses fold (calls u) a) (m : Mem) (junk : Nat → Flt) :
    let start := tsoStart (fun t => mthreadP F fold (calls t)) m junk
    (∀ sched t, (start.run sched).prog t = .ret () → (start.run sched).queue t = [] →
      ∀ a, MUses fold (calls t) a → (start.run sched).shared.mem a = (calls t).foldl (fun m c => c.alone F fold m) m a) ∧
    (∀ t, ∃ n, ∀ s1 s2 : List (TsoEvent ι), n ≤ s1.count (.access t) →
      (start.run s1).prog t = .ret () ∧ (n ≤ s2.count (.flush t) → (start.run (s1 ++ s2)).prog t = .ret () ∧ (start.run (s1 ++ s2)).queue t = [])) ∧
    (∀ sched a, (∀ t, ¬ MWrites fold (calls t) a) → (start.run sched).shared.mem a = m a) := by
  intro start
  have hWR : ∀ t a, MWrites fold (calls t) a → MUses fold (calls t) a := fun t a ⟨c, hc, h⟩ => ⟨c, hc, Or.inl h⟩
  have hp : ∀ t, Within F (MWrites fold (calls t)) (MUses fold (calls t)) (mthreadP F fold (calls t)) := fun t =>
    (mthread_ok hF hf hm (hWR t) (hc t) (fun c hc => ⟨fun a h => ⟨c, hc, h⟩, fun a h => ⟨c, hc, Or.inr h⟩⟩)).within
  obtain ⟨h1, h2, h3, h4⟩ := interleaveTso (F := F) hWR hd hp m junk
  refine ⟨fun sched t hv hq a ha => ?_, fun t => ⟨_, fun s1 s2 hn => ⟨(h2 t s1 hn).elim (fun v hv => hv), fun hk => ⟨?_, h3 t s1 s2 hn hk⟩⟩⟩, h4⟩
  · exact ((h1 sched t () hv).2 hq a ha).trans (by rw [eval_mthread])
  · obtain ⟨v, hv⟩ := h2 t s1 hn
    have := (TsoSystem.run_done s2 hv).1
    unfold TsoSystem.run
    rw [List.foldl_append]
    exact this

/-! ## The parallel matrix product -/

theorem opEl_rows (row no : Bool) (f : Int → Flt) (A lda : Int) (r0 r t : Nat) : opEl row no (fun a => f (A + opEl row no id lda r0 0 + a)) lda r t = opEl row no (fun a => f (A + a)) lda (r0 + r) t := by
  unfold opEl
  cases row == no <;> simp only [Bool.false_eq_true, if_true, if_false, id] <;> (congr 1; push_cast; ring)

theorem opEl_cols (row no : Bool) (f : Int → Flt) (A lda : Int) (c0 t c : Nat) : opEl row no (fun a => f (A + opEl row no id lda 0 c0 + a)) lda t c = opEl row no (fun a => f (A + a)) lda t (c0 + c) := by
  unfold opEl
  cases row == no <;> simp only [Bool.false_eq_true, if_true, if_false, id] <;> (congr 1; push_cast; ring)

theorem entry_shift (row : Bool) (C : Int) (ldc r0 c0 r c : Nat) : C + entryAt row ldc r0 c0 + entryAt row ldc r c = C + entryAt row ldc (r0 + r) (c0 + c) := by
  unfold entryAt
  cases row <;> simp only [Bool.false_eq_true, if_true, if_false] <;> push_cast <;> ring

section
variable [F.OK] (hF : F = f64 ∨ F = f32) {fold : Nat} (hf : 2 ≤ fold) (hm : fold ≤ F.maxFold) {ι : Type} [DecidableEq ι] (T : ι → Tune) (hT : ∀ t, (T t).OK F) (b : ι → GemmB) (hb : ∀ t, (b t).OK)
  (Order TransA TransB : Char) {K : Nat} (alpha beta : Flt) {A lda B ldb C : Int} {ldc : Nat} (r0 rows c0 cols : ι → Nat) {At Bt Ct CI bufS bufA bufB : ι → Int}
  (hA : ∀ t, At t = A + opEl (isRow Order) (isNo TransA) id lda (r0 t) 0) (hB : ∀ t, Bt t = B + opEl (isRow Order) (isNo TransB) id ldb 0 (c0 t)) (hC : ∀ t, Ct t = C + entryAt (isRow Order) ldc (r0 t) (c0 t))
  {calls : ι → List MCall} (hcalls : ∀ t, calls t = [.rdgemm (T t) (b t) Order TransA TransB (rows t) (cols t) K alpha (At t) lda (Bt t) ldb beta (Ct t) ldc (CI t) (bufS t) (bufA t) (bufB t)])
  (hs : ∀ t, GemmSep 1 (2 * fold) (isRow Order) (rows t) (cols t) K ((b t).xt * (b t).yt) (opEl (isRow Order) (isNo TransA) id lda) (opEl (isRow Order) (isNo TransB) id ldb) (At t) (Bt t) (CI t)
    (if isRow Order then cols t else rows t) (bufS t) (bufA t) (bufB t))
  (hY : ∀ t, ∀ r c : Nat, r < rows t → c < cols t → ¬ GemmWork 1 (2 * fold) (isRow Order) (rows t) (cols t) K ((b t).xt * (b t).yt) (CI t) (if isRow Order then cols t else rows t) (bufS t) (bufA t) (bufB t)
    (Ct t + entryAt (isRow Order) ldc r c))
  (hld : ∀ t, (if isRow Order then cols t else rows t) ≤ ldc) (hcap : K + 1 ≤ F.capacity)
  (hd : ∀ t u, t ≠ u → ∀ a, MWrites fold (calls t) a → ¬ MUses fold (calls u) a) (m : Mem) (junk : Nat → Flt)
include hF hf hm hT hb hA hB hC hcalls hs hY hld hcap hd

/-- **C81.** The parallel matrix product: threads run `reproBLAS_rdgemm`, thread `t` on the block of `rows t` rows from `r0 t` and `cols t` columns from `c0 t` of the shared matrix `C`, with the corresponding rows of `op(A)` and columns of
`op(B)`, possibly with different tunings and block sizes; no thread writes words another one uses. When the thread responsible for an entry is done (and, with store buffers, its writes have reached memory), the entry is the
conversion of the reproducible sum of `C_rc * beta` and of the products - an expression in which neither the partition, nor the number of threads, nor the schedule occurs. -/
theorem C81_parallel_gemm {t : ι} {r c : Nat} (hr : r0 t ≤ r ∧ r < r0 t + rows t) (hc : c0 t ≤ c ∧ c < c0 t + cols t)
    (hy : isZero beta = false → F.Finite (m (C + entryAt (isRow Order) ldc r c)) ∧ F.Finite (F.mul (m (C + entryAt (isRow Order) ldc r c)) beta))
    (hx : isZero alpha = false → (∀ k : Nat, k < K → F.Finite (opEl (isRow Order) (isNo TransA) (fun a => m (A + a)) lda r k)) ∧
      ∀ x ∈ gemmTerms F (isRow Order) (isNo TransA) (isNo TransB) K alpha (fun a => m (A + a)) lda (fun a => m (B + a)) ldb r c, F.Finite x) :
    let result := convert F fold (F.specSum fold (betaTerm F beta (m (C + entryAt (isRow Order) ldc r c)) ++
      (if isZero alpha then [] else gemmTerms F (isRow Order) (isNo TransA) (isNo TransB) K alpha (fun a => m (A + a)) lda (fun a => m (B + a)) ldb r c)))
    (∀ sched : List ι, let σ := (System.mk (fun t => mthreadP F fold (calls t)) ⟨m, false, junk⟩).run sched
      σ.prog t = .ret () → σ.shared.mem (C + entryAt (isRow Order) ldc r c) = result) ∧
    (∀ sched : List (TsoEvent ι), let σ := (tsoStart (fun t => mthreadP F fold (calls t)) m junk).run sched
      σ.prog t = .ret () → σ.queue t = [] → σ.shared.mem (C + entryAt (isRow Order) ldc r c) = result) := by
  intro result
  obtain ⟨r', rfl⟩ : ∃ r', r = r0 t + r' := ⟨r - r0 t, by omega⟩
  obtain ⟨c', rfl⟩ : ∃ c', c = c0 t + c' := ⟨c - c0 t, by omega⟩
  have hr' : r' < rows t := by omega
  have hc' : c' < cols t := by omega
  have hat : C + entryAt (isRow Order) ldc (r0 t + r') (c0 t + c') = Ct t + entryAt (isRow Order) ldc r' c' := by rw [hC, entry_shift]
  have hin : ∀ t, ∀ c ∈ calls t, c.InRange := fun t c hc => by rw [hcalls, List.mem_singleton] at hc; subst hc; exact hb t
  have hel : ∀ k, opEl (isRow Order) (isNo TransA) (fun a => m (At t + a)) lda r' k = opEl (isRow Order) (isNo TransA) (fun a => m (A + a)) lda (r0 t + r') k := fun k => by rw [hA t]; exact opEl_rows _ _ m A lda _ _ _
  have hel' : ∀ k, opEl (isRow Order) (isNo TransB) (fun a => m (Bt t + a)) ldb k c' = opEl (isRow Order) (isNo TransB) (fun a => m (B + a)) ldb k (c0 t + c') := fun k => by rw [hB t]; exact opEl_cols _ _ m B ldb _ _ _
  have hterms : gemmTerms F (isRow Order) (isNo TransA) (isNo TransB) K alpha (fun a => m (At t + a)) lda (fun a => m (Bt t + a)) ldb r' c'
      = gemmTerms F (isRow Order) (isNo TransA) (isNo TransB) K alpha (fun a => m (A + a)) lda (fun a => m (B + a)) ldb (r0 t + r') (c0 t + c') := by
    unfold gemmTerms
    exact List.map_congr_left fun k _ => by rw [hel, hel']
  have hmain : (calls t).foldl (fun m c => c.alone F fold m) m (C + entryAt (isRow Order) ldc (r0 t + r') (c0 t + c')) = result := by
    have ha : (calls t).foldl (fun m c => c.alone F fold m) m = F.rdgemmM (T t) false fold (fun _ _ _ _ _ _ _ => zero) (fun _ _ _ _ _ _ _ => zero) (b t) Order TransA TransB (rows t) (cols t) K alpha (At t) lda (Bt t) ldb beta
        (Ct t) ldc (CI t) (bufS t) (bufA t) (bufB t) m := by
      rw [hcalls, List.foldl_cons, List.foldl_nil]
      unfold MCall.alone
      exact congrArg Prod.snd (C81_alone hf (expand := false) (fun _ _ _ _ _ _ _ => zero) (fun _ _ _ _ _ _ _ => zero) (fun _ _ _ => zero) (fun _ _ _ => zero) (.rdgemm (T t) (b t) Order TransA TransB (rows t) (cols t) K alpha (At t)
        lda (Bt t) ldb beta (Ct t) ldc (CI t) (bufS t) (bufA t) (bufB t)) m (hT t))
    rw [ha, hat]
    have h := (C66_rdgemm (hT t) false hf (fun _ _ _ _ _ _ _ => zero) (fun _ _ _ _ _ _ _ => zero) (hb t) Order TransA TransB alpha beta m (hs t) (hY t) (hld t) hcap).1 r' c' hr' hc' (by show isZero beta = false → F.Finite (m (Ct t + entryAt (isRow Order) ldc r' c')) ∧ F.Finite (F.mul (m (Ct t + entryAt (isRow Order) ldc r' c')) beta); rw [← hat]; exact hy)
      (fun h0 => ⟨fun k hk => by rw [hel]; exact (hx h0).1 k hk, by rw [hterms]; exact (hx h0).2⟩)
    rw [h, hterms]
    show convert F fold (F.specSum fold (F.betaTerm beta (m (Ct t + entryAt (isRow Order) ldc r' c')) ++ _)) = _
    rw [← hat]
  have huse : MUses fold (calls t) (C + entryAt (isRow Order) ldc (r0 t + r') (c0 t + c')) := by
    rw [hcalls]
    refine ⟨_, List.mem_singleton.2 rfl, Or.inl (Or.inr ⟨r', c', hr', hc', ?_⟩)⟩
    rw [span_one, one_mul', entryAt_eq, hat]
  exact ⟨fun sched hdone => ((C81_threads hF hf hm calls hin hd m junk).1 sched t hdone _ huse).trans hmain,
    fun sched hdone hq => ((C81_tso hF hf hm calls hin hd m junk).1 sched t hdone hq _ huse).trans hmain⟩

/-- **C81.** The parallel matrix product leaves in every entry exactly what one call of `reproBLAS_rdgemm` by a single thread leaves there - with whatever tuning, vector unit, block sizes and buffers. -/
theorem C81_same_as_single {T' : Tune} (hT' : T'.OK F) (expand : Bool) (jA jD : Junk) {b' : GemmB} (hb' : b'.OK) {M N : Nat} {CI' bufS' bufA' bufB' : Int}
    (hs' : GemmSep 1 (2 * fold) (isRow Order) M N K (b'.xt * b'.yt) (opEl (isRow Order) (isNo TransA) id lda) (opEl (isRow Order) (isNo TransB) id ldb) A B CI' (if isRow Order then N else M) bufS' bufA' bufB')
    (hY' : ∀ r c : Nat, r < M → c < N → ¬ GemmWork 1 (2 * fold) (isRow Order) M N K (b'.xt * b'.yt) CI' (if isRow Order then N else M) bufS' bufA' bufB' (C + entryAt (isRow Order) ldc r c))
    (hld' : (if isRow Order then N else M) ≤ ldc) {t : ι} {r c : Nat} (hr : r0 t ≤ r ∧ r < r0 t + rows t) (hc : c0 t ≤ c ∧ c < c0 t + cols t) (hrM : r < M) (hcN : c < N)
    (hy : isZero beta = false → F.Finite (m (C + entryAt (isRow Order) ldc r c)) ∧ F.Finite (F.mul (m (C + entryAt (isRow Order) ldc r c)) beta))
    (hx : isZero alpha = false → (∀ k : Nat, k < K → F.Finite (opEl (isRow Order) (isNo TransA) (fun a => m (A + a)) lda r k)) ∧
      ∀ x ∈ gemmTerms F (isRow Order) (isNo TransA) (isNo TransB) K alpha (fun a => m (A + a)) lda (fun a => m (B + a)) ldb r c, F.Finite x) :
    let single := F.rdgemmM T' expand fold jA jD b' Order TransA TransB M N K alpha A lda B ldb beta C ldc CI' bufS' bufA' bufB' m
    (∀ sched : List ι, let σ := (System.mk (fun t => mthreadP F fold (calls t)) ⟨m, false, junk⟩).run sched
      σ.prog t = .ret () → σ.shared.mem (C + entryAt (isRow Order) ldc r c) = single (C + entryAt (isRow Order) ldc r c)) ∧
    (∀ sched : List (TsoEvent ι), let σ := (tsoStart (fun t => mthreadP F fold (calls t)) m junk).run sched
      σ.prog t = .ret () → σ.queue t = [] → σ.shared.mem (C + entryAt (isRow Order) ldc r c) = single (C + entryAt (isRow Order) ldc r c)) := by
  intro single
  have h := C81_parallel_gemm hF hf hm T hT b hb Order TransA TransB alpha beta r0 rows c0 cols hA hB hC hcalls hs hY hld hcap hd m junk hr hc hy hx
  have h1 : single (C + entryAt (isRow Order) ldc r c) = _ := (C66_rdgemm hT' expand hf jA jD hb' Order TransA TransB alpha beta m hs' hY' hld' hcap).1 r c hrM hcN hy hx
  rw [h1]
  exact h

end

/-! Concrete cases. -/

/-- Two threads, one row of a 2 by 2 product each: `A` at 0, `B` at 10, `C` at 20, the binned values and buffers of thread `t` from `1000 * t + 100` on. -/
def pairCalls (t : Bool) : List MCall :=
  let o : Int := if t then 1000 else 0
  [.rdgemm ⟨2, 1, 2, 1, 1, false⟩ ⟨2, 2, 2, 2⟩ 'r' 'n' 'n' 1 2 2 f32.one (if t then 2 else 0) 2 10 2 f32.one (if t then 22 else 20) 2 (100 + o) (200 + o) (300 + o) (400 + o)]

/-- The hypotheses of `C81_parallel_gemm` are met. -/
example : (∀ t : Bool, GemmSep 1 (2 * 2) (isRow 'r') 1 2 2 (GemmB.xt ⟨2, 2, 2, 2⟩ * GemmB.yt ⟨2, 2, 2, 2⟩) (opEl (isRow 'r') (isNo 'n') id 2) (opEl (isRow 'r') (isNo 'n') id 2) (if t then 2 else 0) 10 (100 + if t then 1000 else 0) 2
      (200 + if t then 1000 else 0) (300 + if t then 1000 else 0) (400 + if t then 1000 else 0)) ∧
    (∀ t : Bool, ∀ r c : Nat, r < 1 → c < 2 → ¬ GemmWork 1 (2 * 2) (isRow 'r') 1 2 2 (GemmB.xt ⟨2, 2, 2, 2⟩ * GemmB.yt ⟨2, 2, 2, 2⟩) (100 + if t then 1000 else 0) 2 (200 + if t then 1000 else 0) (300 + if t then 1000 else 0)
      (400 + if t then 1000 else 0) ((if t then 22 else 20) + entryAt (isRow 'r') 2 r c)) ∧
    (∀ t u : Bool, t ≠ u → ∀ a, MWrites 2 (pairCalls t) a → ¬ MUses 2 (pairCalls u) a) ∧
    (∀ t : Bool, (if t then 2 else 0 : Int) = 0 + opEl (isRow 'r') (isNo 'n') id 2 (if t then 1 else 0) 0 ∧ (if t then 22 else 20 : Int) = 20 + entryAt (isRow 'r') 2 (if t then 1 else 0) 0) := by
  have e : GemmB.xt ⟨2, 2, 2, 2⟩ * GemmB.yt ⟨2, 2, 2, 2⟩ = 2 := by decide
  have w : ∀ (o x : Int), GemmWork 1 (2 * 2) (isRow 'r') 1 2 2 2 (100 + o) 2 (200 + o) (300 + o) (400 + o) x → 100 + o ≤ x ∧ x < 500 + o := by
    rintro o x (⟨r, c, hr, hc, h⟩ | h | h | h) <;> simp only [Span, opEl, isRow, id, Bool.or_self, Bool.or_true, Bool.true_or, beq_self_eq_true, if_true, Char.reduceBEq] at h <;> omega
  have g : ∀ (A o : Int), 0 ≤ A → A ≤ 2 → 0 ≤ o → GemmSep 1 (2 * 2) (isRow 'r') 1 2 2 2 (opEl (isRow 'r') (isNo 'n') id 2) (opEl (isRow 'r') (isNo 'n') id 2) A 10 (100 + o) 2 (200 + o) (300 + o) (400 + o) := by
    intro A o h0 h2 ho
    constructor
    · decide
    · intro r t hr ht x hx h
      have := w o x h
      simp only [Span, opEl, isRow, isNo, id, Bool.or_true, Bool.true_or, Bool.or_self, Bool.or_false, beq_self_eq_true, Bool.true_beq, Char.reduceBEq, if_true] at hx; omega
    · intro t c ht hc x hx h
      have := w o x h
      simp only [Span, opEl, isRow, isNo, id, Bool.or_true, Bool.true_or, Bool.or_self, Bool.or_false, beq_self_eq_true, Bool.true_beq, Char.reduceBEq, if_true] at hx; omega
    · intro r c hr hc x hx
      simp only [Span, opEl, isRow, id, Bool.or_self, Bool.or_true, Bool.true_or, beq_self_eq_true, if_true, Char.reduceBEq] at hx ⊢; omega
    · intro x; simp only [Span]; omega
    · intro x; simp only [Span]; omega
    · intro x; simp only [Span]; omega
  rw [e]
  refine ⟨fun t => ?_, fun t r c hr hc h => ?_, fun t u htu a => ?_, fun t => ?_⟩
  · cases t <;> exact g _ _ (by decide) (by decide) (by decide)
  · have := w _ _ h
    cases t <;> simp only [entryAt, isRow, Bool.or_self, Bool.or_true, Bool.true_or, beq_self_eq_true, if_true, if_false, Bool.false_eq_true, Char.reduceBEq] at this <;> omega
  · rintro ⟨c, hc, h⟩ ⟨c', hc', h'⟩
    simp only [pairCalls, List.mem_singleton] at hc hc'
    subst hc; subst hc'
    have hw : (100 + (if t then 1000 else 0) ≤ a ∧ a < 500 + (if t then 1000 else 0)) ∨ (if t then 22 else 20) ≤ a ∧ a < (if t then 22 else 20) + 2 := by
      rcases h with h | ⟨r, c, h1, h2, h⟩
      · exact Or.inl (w (if t then 1000 else 0) a (e ▸ h))
      · refine Or.inr ?_
        simp only [Span, opEl, isRow, id, Bool.or_self, Bool.or_true, Bool.true_or, beq_self_eq_true, if_true, Char.reduceBEq] at h
        cases t <;> simp only [Bool.false_eq_true, if_true, if_false] at h ⊢ <;> omega
    have hu : (100 + (if u then 1000 else 0) ≤ a ∧ a < 500 + (if u then 1000 else 0)) ∨ ((if u then 22 else 20) ≤ a ∧ a < (if u then 22 else 20) + 2) ∨ 0 ≤ a ∧ a < 14 := by
      rcases h' with (h | ⟨r, c, h1, h2, h⟩) | ⟨r, c, h1, h2, h⟩ | ⟨r, c, h1, h2, h⟩
      · exact Or.inl (w (if u then 1000 else 0) a (e ▸ h))
      · refine Or.inr (Or.inl ?_)
        simp only [Span, opEl, isRow, id, Bool.or_self, Bool.or_true, Bool.true_or, beq_self_eq_true, if_true, Char.reduceBEq] at h
        cases u <;> simp only [Bool.false_eq_true, if_true, if_false] at h ⊢ <;> omega
      all_goals
        refine Or.inr (Or.inr ?_)
        simp only [Span, opEl, isRow, isNo, id, Bool.or_self, Bool.or_true, Bool.true_or, Bool.or_false, beq_self_eq_true, if_true, Char.reduceBEq] at h
        cases u <;> (try simp only [Bool.false_eq_true, if_true, if_false] at h) <;> omega
    cases t <;> cases u <;> simp only [Bool.false_eq_true, if_true, if_false, ne_eq, not_true_eq_false] at htu hw hu <;> omega
  · cases t <;> decide

/-- Row by row by two threads, alternating: `[[0, 1], [2, 3]]` times `[[10, 11], [12, 13]]`, plus `[[20, 21], [22, 23]]`. -/
example : let σ := (System.mk (fun t : Bool => mthreadP f32 2 (pairCalls t)) ⟨fun a => f32.ofInt a, false, fun _ => zero⟩).run ((List.replicate 1000 [false, true]).flatten)
    (σ.prog false).result? = some () ∧ (σ.prog true).result? = some () ∧ (List.range 4).map (fun k : Nat => σ.shared.mem (20 + k)) = [f32.ofInt 32, f32.ofInt 34, f32.ofInt 78, f32.ofInt 84] := by decide +kernel

end Repro
