import Verif.ThreadsVecZ
import Verif.MatMemLaws
/-!
# The matrix products as programs of single memory accesses

The routines of `Verif/MatMem.lean` again, as trees of accesses, so that several threads calling them can be interleaved: the loops that copy, scale and pack read one element and write it to the
buffer, and so on; the dot product calls are the programs of `Verif/ThreadsVec.lean` and `Verif/ThreadsVecZ.lean`. The buffers obtained from `malloc` are parameters.
-/

namespace Repro
open Prog

/-- What the matrix routines use of an element type and its binned type, as programs; compare `MOps`. -/
structure POps (α : Type) where
  /-- words per element -/
  w : Nat
  /-- words per binned value -/
  bw : Nat
  /-- read an element -/
  get : Int → Prog α
  /-- write an element -/
  put : Int → α → Prog Unit
  /-- `dot n X incX Z incZ y`: the dot product call -/
  dot : Nat → Int → Int → Int → Int → Int → Prog Unit
  /-- `binned_dbdconv(fold, x, y)` -/
  conv : α → Int → Prog Unit
  /-- `memset(y, 0, ...)` of one binned value -/
  clear : Int → Prog Unit
  /-- `binned_ddbconv(fold, y)` -/
  unconv : Int → Prog α

/-- `for(i = lo; i < hi; i += step) body` -/
def forP (lo hi step : Nat) (body : Nat → Prog Unit) : Prog Unit := Prog.loop body (steps lo hi step)

/-- `binned_dmdconv` (`src/binned/dmdconv.c:19-20`). -/
def Fmt.dmdconvP (F : Fmt) (fold : Nat) (x : Flt) (y : Loc) : Prog Unit := (Fmt.dmsetzeroP fold y).bind fun _ => F.dmdaddP fold x y

/-- Real elements; compare `realOps`. -/
def realP (F : Fmt) (T : Tune) (fold : Nat) : POps Flt where
  w := 1
  bw := 2 * fold
  get a := rd a
  put a v := wr a v
  dot n X incX Z incZ y := F.rvecP T .dot fold (packed fold y) n X incX Z incZ
  conv v y := F.dmdconvP fold v (packed fold y)
  clear y := Fmt.dmsetzeroP fold (packed fold y)
  unconv y := convertP F fold (packed fold y)

/-- Complex elements; compare `cplxOps`. (`binned_zzmconv_sub` passes the strides `2 * incpri`, `inccar + 1`, `src/binned/zzmconv_sub.c:23-24`.) -/
def cplxP (F : Fmt) (T : Tune) (fold : Nat) (conj : Bool) : POps (Flt × Flt) where
  w := 2
  bw := 4 * fold
  get a := pairP a
  put a v := (wr a v.1).bind fun _ => wr (a + 1) v.2
  dot n X incX Z incZ y :=
    if conj then F.zloopP T .dotc (F.dotcOp T) Prod.mk fold (zpacked fold y) incX incZ n n X Z 0
    else F.zloopP T .dotu (F.dotuOp T) Prod.mk fold (zpacked fold y) incX incZ n n X Z 0
  conv v y := (F.dmdconvP fold v.1 (zpacked fold y).re).bind fun _ => F.dmdconvP fold v.2 (zpacked fold y).im
  clear y := Fmt.zmsetzeroP fold (zpacked fold y)
  unconv y := let l := zpacked fold y
    (convertP F fold ⟨l.pri, l.incpri * 2, l.car, l.inccar + 1⟩).bind fun a =>
      (convertP F fold ⟨l.pri + 1, l.incpri * 2, l.car + 1, l.inccar + 1⟩).bind fun b => ret (a, b)

section
variable {α : Type} (P : POps α)

/-- The scaled copy of `X`: pointer and stride (`src/binnedBLAS/dbdgemv.ccog:86-95, 110-119`, `zbzgemv.ccog:86-97`). -/
def scaleXP (unit : Bool) (scl : α → α) (n : Nat) (X incX bufX : Int) : Prog (Int × Int) :=
  if unit then ret (X, incX)
  else (forP 0 n 1 fun j => (P.get (X + P.w * (j * incX))).bind fun v => P.put (bufX + P.w * j) (scl v)).bind fun _ => ret (bufX, 1)

/-- Row-major, not transposed (`src/binnedBLAS/dbdgemv.ccog:96-102`, `zbzgemv.ccog:98-104`). -/
def gemvNP (b : GemvB) (M N : Nat) (A lda bufX incbufX Y incY : Int) : Prog Unit :=
  forP 0 M b.y fun i => forP 0 N b.x fun j => forP i (min M (i + b.y)) 1 fun ii =>
    P.dot (min b.x (N - j)) (A + P.w * (ii * lda + j)) 1 (bufX + P.w * (j * incbufX)) incbufX (Y + P.bw * (ii * incY))

/-- The tile-wise transposition into `bufA` (`src/binnedBLAS/dbdgemv.ccog:123-131`). -/
def packTP (b : GemvB) (M N i j : Nat) (A lda bufA : Int) : Prog Unit :=
  forP j (min M (j + b.xt)) b.t fun jj => forP i (min N (i + b.yt)) b.t fun ii =>
    forP jj (min M (jj + min b.t b.xt)) 1 fun jjj => forP ii (min N (ii + min b.t b.yt)) 1 fun iii =>
      (P.get (A + P.w * (jjj * lda + iii))).bind fun v => P.put (bufA + P.w * ((iii - i : Nat) * (b.xt : Int) + (jjj - j : Nat))) v

/-- Row-major, transposed (`src/binnedBLAS/dbdgemv.ccog:120-137`, `zbzgemv.ccog:123-141, 160-178`). -/
def gemvTP (b : GemvB) (M N : Nat) (A lda bufX incbufX Y incY bufA : Int) : Prog Unit :=
  forP 0 N b.yt fun i => forP 0 M b.xt fun j => (packTP P b M N i j A lda bufA).bind fun _ =>
    forP i (min N (i + b.yt)) 1 fun ii =>
      P.dot (min b.xt (M - j)) (bufA + P.w * ((ii - i : Nat) * (b.xt : Int))) 1 (bufX + P.w * (j * incbufX)) incbufX (Y + P.bw * (ii * incY))

/-- `binnedBLAS_dbdgemv` (`src/binnedBLAS/dbdgemv.ccog:57-162`), `binnedBLAS_sbsgemv`; compare `gemvM`. -/
def gemvP (zero unit : Bool) (scl : α → α) (b : GemvB) (Order TransA : Char) (M N : Nat) (A lda X incX Y incY bufX bufA : Int) : Prog Unit :=
  let row := fun (noTrans : Bool) (M N : Nat) =>
    if M = 0 ∨ N = 0 ∨ zero then ret ()
    else if noTrans then (scaleXP P unit scl N X incX bufX).bind fun s => gemvNP P b M N A lda s.1 s.2 Y incY
    else (scaleXP P unit scl M X incX bufX).bind fun s => gemvTP P b M N A lda s.1 s.2 Y incY bufA
  if M = 0 ∨ N = 0 ∨ zero then ret ()
  else if isRow Order then row (isNo TransA) M N
  else if isNo TransA then row false N M
  else row true N M

/-- Pack a tile, transposing it (`src/binnedBLAS/dbdgemm.ccog:113-117, 163-172, 185-194`, ...); compare `packM`. -/
def packP (xt yt : Nat) (f : α → α) (K M k i : Nat) (A lda buf : Int) : Prog Unit :=
  forP k (min K (k + xt)) 1 fun kk => forP i (min M (i + yt)) 1 fun ii =>
    (P.get (A + P.w * (kk * lda + ii))).bind fun v => P.put (buf + P.w * ((ii - i : Nat) * (xt : Int) + (kk - k : Nat))) (f v)

/-- The scaled copy of `A`: pointer and leading dimension (`src/binnedBLAS/dbdgemm.ccog:92-103, 361-372`). -/
def scaleAP (unit : Bool) (f : α → α) (M K : Nat) (A lda buf : Int) : Prog (Int × Int) :=
  if unit then ret (A, lda)
  else (forP 0 M 1 fun i => forP 0 K 1 fun k =>
    (P.get (A + P.w * (i * lda + k))).bind fun v => P.put (buf + P.w * (i * (K : Int) + k)) (f v)).bind fun _ => ret (buf, (K : Int))

/-- The loops over tiles and entries; compare `tilesM`. -/
def tilesP (bi bj bk M N K : Nat) (jFirst : Bool) (pk : Nat → Nat → Nat → Prog Unit) (call : Nat → Nat → Nat → Nat → Nat → Prog Unit) : Prog Unit :=
  forP 0 M bi fun i => forP 0 N bj fun j => forP 0 K bk fun k => (pk i j k).bind fun _ =>
    if jFirst then forP j (min N (j + bj)) 1 fun jj => forP i (min M (i + bi)) 1 fun ii => call i j k ii jj
    else forP i (min M (i + bi)) 1 fun ii => forP j (min N (j + bj)) 1 fun jj => call i j k ii jj

/-- The scheme of all branches of `src/binnedBLAS/dbdgemm.ccog:61-420` and `zbzgemm.ccog:61-879`; compare `gemmM`. -/
def gemmP (b : GemmB) (row aPack bPack swap unit : Bool) (fA fB : α → α) (M N K : Nat) (A lda B ldb C ldc bufS bufA bufB : Int) : Prog Unit :=
  (if aPack then ret (A, lda) else scaleAP P unit fA M K A lda bufS).bind fun s =>
  let bk := if aPack || bPack then b.xt else b.x
  tilesP (if aPack then b.yt else b.y) (if bPack then b.yt else b.y) bk M N K (!row)
    (fun i j k => (if aPack then packP P b.xt b.yt fA K M k i A lda bufA else ret ()).bind fun _ =>
      if bPack then packP P b.xt b.yt fB K N k j B ldb bufB else ret ())
    (fun i j k ii jj =>
      let a := if aPack then bufA + P.w * ((ii - i : Nat) * (b.xt : Int)) else s.1 + P.w * (ii * s.2 + k)
      let bb := if bPack then bufB + P.w * ((jj - j : Nat) * (b.xt : Int)) else B + P.w * (jj * ldb + k)
      let c := C + P.bw * (if row then ii * ldc + jj else jj * ldc + ii)
      if swap then P.dot (min bk (K - k)) bb 1 a 1 c else P.dot (min bk (K - k)) a 1 bb 1 c)

/-- The initial binned value of an entry in the wrappers; compare `initM`. -/
def initP (zero unit : Bool) (scl : α → α) (yi y : Int) : Prog Unit :=
  if zero then P.clear yi else if unit then (P.get y).bind fun v => P.conv v yi else (P.get y).bind fun v => P.conv (scl v) yi

/-- `reproBLAS_rdgemv` (`src/reproBLAS/rdgemv.c:35-87`), `rsgemv`, `rzgemv`, `rcgemv`; compare `rgemvM`. -/
def rgemvP (zero unit : Bool) (scl : α → α) (prod : Int → Prog Unit) (noTrans : Bool) (M N : Nat) (Y incY YI : Int) : Prog Unit :=
  if N = 0 ∨ M = 0 then ret ()
  else
    let n := if noTrans then M else N
    (forP 0 n 1 fun i => initP P zero unit scl (YI + P.bw * i) (Y + P.w * (i * incY))).bind fun _ => (prod YI).bind fun _ =>
      forP 0 n 1 fun i => (P.unconv (YI + P.bw * i)).bind fun v => P.put (Y + P.w * (i * incY)) v

/-- `reproBLAS_rdgemm` (`src/reproBLAS/rdgemm.c:41-105`), `rsgemm`, `rzgemm`, `rcgemm`; compare `rgemmM`. -/
def rgemmP (zero unit : Bool) (scl : α → α) (prod : Int → Int → Prog Unit) (row : Bool) (M N : Nat) (C ldc CI : Int) : Prog Unit :=
  if M = 0 ∨ N = 0 then ret ()
  else if row then
    (forP 0 M 1 fun i => forP 0 N 1 fun j => initP P zero unit scl (CI + P.bw * (i * (N : Int) + j)) (C + P.w * (i * ldc + j))).bind fun _ => (prod CI N).bind fun _ =>
      forP 0 M 1 fun i => forP 0 N 1 fun j => (P.unconv (CI + P.bw * (i * (N : Int) + j))).bind fun v => P.put (C + P.w * (i * ldc + j)) v
  else
    (forP 0 N 1 fun j => forP 0 M 1 fun i => initP P zero unit scl (CI + P.bw * (j * (M : Int) + i)) (C + P.w * (j * ldc + i))).bind fun _ => (prod CI M).bind fun _ =>
      forP 0 N 1 fun j => forP 0 M 1 fun i => (P.unconv (CI + P.bw * (j * (M : Int) + i))).bind fun v => P.put (C + P.w * (j * ldc + i)) v

end

namespace Fmt
variable (F : Fmt)

/-- `binnedBLAS_dbdgemv`, `binnedBLAS_sbsgemv`. -/
def dgemvP (T : Tune) (fold : Nat) (b : GemvB) (Order TransA : Char) (M N : Nat) (alpha : Flt) (A lda X incX Y incY bufX bufA : Int) : Prog Unit :=
  gemvP (realP F T fold) (isZero alpha) (F.feq alpha (F.pow2 0)) (fun x => F.mul x alpha) b Order TransA M N A lda X incX Y incY bufX bufA

/-- `binnedBLAS_dbdgemm`, `binnedBLAS_sbsgemm`. -/
def dgemmP (T : Tune) (fold : Nat) (b : GemmB) (Order TransA TransB : Char) (M N K : Nat) (alpha : Flt) (A lda B ldb C ldc bufS bufA bufB : Int) : Prog Unit :=
  if M = 0 ∨ N = 0 ∨ K = 0 ∨ isZero alpha then ret ()
  else
    let row := isRow Order
    let u := F.feq alpha (F.pow2 0)
    gemmP (realP F T fold) b row (row != isNo TransA) (row == isNo TransB) false u (if u then id else fun x => F.mul x alpha) id M N K A lda B ldb C ldc bufS bufA bufB

/-- `reproBLAS_rdgemv`, `reproBLAS_rsgemv`. -/
def rdgemvP (T : Tune) (fold : Nat) (b : GemvB) (Order TransA : Char) (M N : Nat) (alpha : Flt) (A lda X incX : Int) (beta : Flt) (Y incY YI bufX bufA : Int) : Prog Unit :=
  rgemvP (realP F T fold) (isZero beta) (F.feq beta (F.pow2 0)) (fun y => F.mul y beta) (fun YI => F.dgemvP T fold b Order TransA M N alpha A lda X incX YI 1 bufX bufA) (isNo TransA) M N Y incY YI

/-- `reproBLAS_rdgemm`, `reproBLAS_rsgemm`. -/
def rdgemmP (T : Tune) (fold : Nat) (b : GemmB) (Order TransA TransB : Char) (M N K : Nat) (alpha : Flt) (A lda B ldb : Int) (beta : Flt) (C ldc CI bufS bufA bufB : Int) : Prog Unit :=
  rgemmP (realP F T fold) (isZero beta) (F.feq beta (F.pow2 0)) (fun y => F.mul y beta) (fun CI ld => F.dgemmP T fold b Order TransA TransB M N K alpha A lda B ldb CI ld bufS bufA bufB) (isRow Order) M N C ldc CI

/-- The column-major conjugate transposed case of `zbzgemv` (`src/binnedBLAS/zbzgemv.ccog:215-221`); compare `zgemvCM`. -/
def zgemvCP (P : POps (Flt × Flt)) (b : GemvB) (M N : Nat) (A lda bufX incbufX Y incY : Int) : Prog Unit :=
  forP 0 N b.y fun i => forP 0 M b.x fun j => forP i (min N (i + b.y)) 1 fun ii =>
    P.dot (min b.x (N - j)) (A + P.w * (ii * lda + j)) 1 (bufX + P.w * (j * incbufX)) incbufX (Y + P.bw * (ii * incY))

/-- `binnedBLAS_zbzgemv` (`src/binnedBLAS/zbzgemv.ccog:57-229`), `binnedBLAS_cbcgemv`; compare `zgemvM`. -/
def zgemvP (T : Tune) (fold : Nat) (b : GemvB) (Order TransA : Char) (M N : Nat) (alpha : Flt × Flt) (A lda X incX Y incY bufX bufA : Int) : Prog Unit :=
  let P := cplxP F T fold
  let sx := fun n => scaleXP (P false) (F.zunit alpha) (F.zscl alpha) n X incX bufX
  let row := fun (t : Tr) (M N : Nat) =>
    if M = 0 ∨ N = 0 ∨ zzero alpha then ret ()
    else match t with
      | .no => (sx N).bind fun s => gemvNP (P false) b M N A lda s.1 s.2 Y incY -- lines 83-107
      | .tr => (sx M).bind fun s => gemvTP (P false) b M N A lda s.1 s.2 Y incY bufA -- lines 109-145
      | .cj => (sx M).bind fun s => gemvTP (P true) b M N A lda s.1 s.2 Y incY bufA -- lines 147-183
  if M = 0 ∨ N = 0 ∨ zzero alpha then ret ()
  else if isRow Order then row (trOf TransA) M N
  else match trOf TransA with
    | .no => row .tr N M -- line 193
    | .tr => row .no N M -- line 199
    | .cj => (sx M).bind fun s => zgemvCP (P true) b M N A lda s.1 s.2 Y incY -- lines 202-226

/-- `binnedBLAS_zbzgemm` (`src/binnedBLAS/zbzgemm.ccog:61-879`), `binnedBLAS_cbcgemm`; compare `zgemmM`. -/
def zgemmP (T : Tune) (fold : Nat) (b : GemmB) (Order TransA TransB : Char) (M N K : Nat) (alpha : Flt × Flt) (A lda B ldb C ldc bufS bufA bufB : Int) : Prog Unit :=
  if M = 0 ∨ N = 0 ∨ K = 0 ∨ zzero alpha then ret ()
  else
    let row := isRow Order
    let br := F.zbranch row (trOf TransA) (trOf TransB) alpha
    gemmP (cplxP F T fold br.conj) b row (row != isNo TransA) (row == isNo TransB) br.swap (F.zunit alpha) br.fA br.fB M N K A lda B ldb C ldc bufS bufA bufB

/-- `reproBLAS_rzgemv`, `reproBLAS_rcgemv`. -/
def rzgemvP (T : Tune) (fold : Nat) (b : GemvB) (Order TransA : Char) (M N : Nat) (alpha : Flt × Flt) (A lda X incX : Int) (beta : Flt × Flt) (Y incY YI bufX bufA : Int) : Prog Unit :=
  rgemvP (cplxP F T fold false) (zzero beta) (F.zunit beta) (F.zscl beta) (fun YI => F.zgemvP T fold b Order TransA M N alpha A lda X incX YI 1 bufX bufA) (isNo TransA) M N Y incY YI

/-- `reproBLAS_rzgemm`, `reproBLAS_rcgemm`. -/
def rzgemmP (T : Tune) (fold : Nat) (b : GemmB) (Order TransA TransB : Char) (M N K : Nat) (alpha : Flt × Flt) (A lda B ldb : Int) (beta : Flt × Flt) (C ldc CI bufS bufA bufB : Int) : Prog Unit :=
  rgemmP (cplxP F T fold false) (zzero beta) (F.zunit beta) (F.zscl beta) (fun CI ld => F.zgemmP T fold b Order TransA TransB M N K alpha A lda B ldb CI ld bufS bufA bufB) (isRow Order) M N C ldc CI

end Fmt

/-! ## Run alone -/

/-- The programs `P` have the effect of `O`. -/
structure POps.Runs {α : Type} (F : Fmt) (P : POps α) (O : MOps α) : Prop where
  w : P.w = O.w
  bw : P.bw = O.bw
  get : ∀ a m, (P.get a).eval F m = (O.get m a, m)
  put : ∀ a v m, (P.put a v).eval F m = ((), O.put m a v)
  dot : ∀ n X iX Z iZ y m, (P.dot n X iX Z iZ y).eval F m = ((), O.dot n X iX Z iZ y m)
  conv : ∀ v y m, (P.conv v y).eval F m = ((), O.conv v y m)
  clear : ∀ y m, (P.clear y).eval F m = ((), O.clear y m)
  unconv : ∀ y m, (P.unconv y).eval F m = (O.unconv y m, m)

section
variable {α : Type} {F : Fmt} {P : POps α} {O : MOps α}

theorem eval_forP {lo hi st : Nat} {body : Nat → Prog Unit} {g : Nat → Mem → Mem} (h : ∀ i m, (body i).eval F m = ((), g i m)) (m : Mem) :
    (forP lo hi st body).eval F m = ((), forS lo hi st g m) := Prog.eval_loop h _ m

theorem eval_bindU {p : Prog Unit} {f : Unit → Prog α} {m m' : Mem} (h : p.eval F m = ((), m')) : (p.bind f).eval F m = (f ()).eval F m' := by
  rw [eval_bind, h]

variable (hP : P.Runs F O)
include hP

theorem eval_copy (src dst : Int) (f : α → α) (m : Mem) : ((P.get src).bind fun v => P.put dst (f v)).eval F m = ((), O.put m dst (f (O.get m src))) := by
  rw [eval_bind, hP.get, hP.put]

theorem eval_scaleX (unit : Bool) (scl : α → α) (n : Nat) (X incX bufX : Int) (m : Mem) :
    (scaleXP P unit scl n X incX bufX).eval F m = (((scaleXM O unit scl n X incX bufX m).1, (scaleXM O unit scl n X incX bufX m).2.1), (scaleXM O unit scl n X incX bufX m).2.2) := by
  unfold scaleXP scaleXM
  simp only [hP.w]
  cases unit
  · exact eval_bindU (eval_forP (fun j m => eval_copy hP _ _ scl m) m)
  · rfl

theorem eval_gemvN (b : GemvB) (M N : Nat) (A lda bufX incbufX Y incY : Int) (m : Mem) :
    (gemvNP P b M N A lda bufX incbufX Y incY).eval F m = ((), gemvNM O b M N A lda bufX incbufX Y incY m) := by
  unfold gemvNP gemvNM
  simp only [hP.w, hP.bw]
  exact eval_forP (fun i m => eval_forP (fun j m => eval_forP (fun ii m => hP.dot _ _ _ _ _ _ m) m) m) m

theorem eval_packT (b : GemvB) (M N i j : Nat) (A lda bufA : Int) (m : Mem) : (packTP P b M N i j A lda bufA).eval F m = ((), packTM O b M N i j A lda bufA m) := by
  unfold packTP packTM
  simp only [hP.w]
  exact eval_forP (fun _ m => eval_forP (fun _ m => eval_forP (fun _ m => eval_forP (fun _ m => eval_copy hP _ _ id m) m) m) m) m

theorem eval_gemvT (b : GemvB) (M N : Nat) (A lda bufX incbufX Y incY bufA : Int) (m : Mem) :
    (gemvTP P b M N A lda bufX incbufX Y incY bufA).eval F m = ((), gemvTM O b M N A lda bufX incbufX Y incY bufA m) := by
  unfold gemvTP gemvTM
  simp only [hP.w, hP.bw]
  exact eval_forP (fun i m => eval_forP (fun j m => (eval_bindU (eval_packT hP b M N i j A lda bufA m)).trans (eval_forP (fun ii m => hP.dot _ _ _ _ _ _ m) _)) m) m

theorem eval_gemv (zero unit : Bool) (scl : α → α) (b : GemvB) (Order TransA : Char) (M N : Nat) (A lda X incX Y incY bufX bufA : Int) (m : Mem) :
    (gemvP P zero unit scl b Order TransA M N A lda X incX Y incY bufX bufA).eval F m = ((), gemvM O zero unit scl b Order TransA M N A lda X incX Y incY bufX bufA m) := by
  have hN : ∀ M N : Nat, ((scaleXP P unit scl N X incX bufX).bind fun s => gemvNP P b M N A lda s.1 s.2 Y incY).eval F m =
      ((), gemvNM O b M N A lda (scaleXM O unit scl N X incX bufX m).1 (scaleXM O unit scl N X incX bufX m).2.1 Y incY (scaleXM O unit scl N X incX bufX m).2.2) := fun M N => by
    rw [eval_bind, eval_scaleX hP, eval_gemvN hP]
  have hT : ∀ M N : Nat, ((scaleXP P unit scl M X incX bufX).bind fun s => gemvTP P b M N A lda s.1 s.2 Y incY bufA).eval F m =
      ((), gemvTM O b M N A lda (scaleXM O unit scl M X incX bufX m).1 (scaleXM O unit scl M X incX bufX m).2.1 Y incY bufA (scaleXM O unit scl M X incX bufX m).2.2) := fun M N => by
    rw [eval_bind, eval_scaleX hP, eval_gemvT hP]
  unfold gemvP gemvM
  by_cases h0 : M = 0 ∨ N = 0 ∨ zero = true
  · simp only [if_pos h0]; rfl
  have h0' : ¬ (N = 0 ∨ M = 0 ∨ zero = true) := by tauto
  simp only [if_neg h0, if_neg h0']
  cases isRow Order <;> cases isNo TransA <;> simp only [↓reduceIte, Bool.false_eq_true]
  · exact hN _ _
  · exact hT _ _
  · exact hT _ _
  · exact hN _ _

theorem eval_pack (xt yt : Nat) (f : α → α) (K M k i : Nat) (A lda buf : Int) (m : Mem) : (packP P xt yt f K M k i A lda buf).eval F m = ((), packM O xt yt f K M k i A lda buf m) := by
  unfold packP packM
  simp only [hP.w]
  exact eval_forP (fun _ m => eval_forP (fun _ m => eval_copy hP _ _ f m) m) m

theorem eval_scaleA (unit : Bool) (f : α → α) (M K : Nat) (A lda buf : Int) (m : Mem) :
    (scaleAP P unit f M K A lda buf).eval F m = (((scaleAM O unit f M K A lda buf m).1, (scaleAM O unit f M K A lda buf m).2.1), (scaleAM O unit f M K A lda buf m).2.2) := by
  unfold scaleAP scaleAM
  simp only [hP.w]
  cases unit
  · exact eval_bindU (eval_forP (fun j m => eval_forP (fun k m => eval_copy hP _ _ f m) m) m)
  · rfl

omit hP in
theorem eval_tiles {pk : Nat → Nat → Nat → Prog Unit} {pk' : Nat → Nat → Nat → Mem → Mem} {call : Nat → Nat → Nat → Nat → Nat → Prog Unit} {call' : Nat → Nat → Nat → Nat → Nat → Mem → Mem}
    (h1 : ∀ i j k m, (pk i j k).eval F m = ((), pk' i j k m)) (h2 : ∀ i j k ii jj m, (call i j k ii jj).eval F m = ((), call' i j k ii jj m)) (bi bj bk M N K : Nat) (jFirst : Bool) (m : Mem) :
    (tilesP bi bj bk M N K jFirst pk call).eval F m = ((), tilesM bi bj bk M N K jFirst pk' call' m) := by
  unfold tilesP tilesM
  refine eval_forP (fun i m => eval_forP (fun j m => eval_forP (fun k m => (eval_bindU (h1 i j k m)).trans ?_) m) m) m
  cases jFirst
  · exact eval_forP (fun _ m => eval_forP (fun _ m => h2 _ _ _ _ _ m) m) _
  · exact eval_forP (fun _ m => eval_forP (fun _ m => h2 _ _ _ _ _ m) m) _

theorem eval_gemm (b : GemmB) (row aPack bPack swap unit : Bool) (fA fB : α → α) (M N K : Nat) (A lda B ldb C ldc bufS bufA bufB : Int) (m : Mem) :
    (gemmP P b row aPack bPack swap unit fA fB M N K A lda B ldb C ldc bufS bufA bufB).eval F m = ((), gemmM O b row aPack bPack swap unit fA fB M N K A lda B ldb C ldc bufS bufA bufB m) := by
  unfold gemmP gemmM
  have hs : ((if aPack then ret (A, lda) else scaleAP P unit fA M K A lda bufS) : Prog (Int × Int)).eval F m =
      (((if aPack then (A, lda, m) else scaleAM O unit fA M K A lda bufS m).1, (if aPack then (A, lda, m) else scaleAM O unit fA M K A lda bufS m).2.1), (if aPack then (A, lda, m) else scaleAM O unit fA M K A lda bufS m).2.2) := by
    cases aPack
    · exact eval_scaleA hP unit fA M K A lda bufS m
    · rfl
  rw [eval_bind, hs]
  simp only [hP.w, hP.bw]
  refine eval_tiles (fun i j k m => ?_) (fun i j k ii jj m => ?_) _ _ _ _ _ _ _ _
  · refine (eval_bindU (m' := if aPack then packM O b.xt b.yt fA K M k i A lda bufA m else m) ?_).trans ?_
    · cases aPack
      · rfl
      · exact eval_pack hP _ _ _ _ _ _ _ _ _ _ m
    · cases bPack
      · rfl
      · exact eval_pack hP _ _ _ _ _ _ _ _ _ _ _
  · cases swap
    · exact hP.dot _ _ _ _ _ _ m
    · exact hP.dot _ _ _ _ _ _ m

theorem eval_init (zero unit : Bool) (scl : α → α) (yi y : Int) (m : Mem) : (initP P zero unit scl yi y).eval F m = ((), initM O zero unit scl yi y m) := by
  unfold initP initM
  cases zero <;> cases unit <;> simp only [↓reduceIte, Bool.false_eq_true]
  · rw [eval_bind, hP.get, hP.conv]
  · rw [eval_bind, hP.get, hP.conv]
  · exact hP.clear _ _
  · exact hP.clear _ _

theorem eval_rgemv (zero unit : Bool) (scl : α → α) {prod : Int → Prog Unit} {prod' : Int → Mem → Mem} (hp : ∀ y m, (prod y).eval F m = ((), prod' y m)) (noTrans : Bool) (M N : Nat) (Y incY YI : Int) (m : Mem) :
    (rgemvP P zero unit scl prod noTrans M N Y incY YI).eval F m = ((), rgemvM O zero unit scl prod' noTrans M N Y incY YI m) := by
  unfold rgemvP rgemvM
  simp only [hP.w, hP.bw]
  by_cases h0 : N = 0 ∨ M = 0
  · simp only [if_pos h0]; rfl
  · simp only [if_neg h0]
    refine (eval_bindU (eval_forP (fun i m => eval_init hP _ _ _ _ _ m) m)).trans ((eval_bindU (hp _ _)).trans ?_)
    exact eval_forP (fun i m => by rw [eval_bind, hP.unconv, hP.put]) _

theorem eval_rgemm (zero unit : Bool) (scl : α → α) {prod : Int → Int → Prog Unit} {prod' : Int → Int → Mem → Mem} (hp : ∀ y l m, (prod y l).eval F m = ((), prod' y l m)) (row : Bool) (M N : Nat) (C ldc CI : Int) (m : Mem) :
    (rgemmP P zero unit scl prod row M N C ldc CI).eval F m = ((), rgemmM O zero unit scl prod' row M N C ldc CI m) := by
  unfold rgemmP rgemmM
  simp only [hP.w, hP.bw]
  by_cases h0 : M = 0 ∨ N = 0
  · simp only [if_pos h0]; rfl
  · simp only [if_neg h0]
    cases row
    · exact (eval_bindU (eval_forP (fun i m => eval_forP (fun j m => eval_init hP _ _ _ _ _ m) m) m)).trans ((eval_bindU (hp _ _ _)).trans
        (eval_forP (fun i m => eval_forP (fun j m => by rw [eval_bind, hP.unconv, hP.put]) m) _))
    · exact (eval_bindU (eval_forP (fun i m => eval_forP (fun j m => eval_init hP _ _ _ _ _ m) m) m)).trans ((eval_bindU (hp _ _ _)).trans
        (eval_forP (fun i m => eval_forP (fun j m => by rw [eval_bind, hP.unconv, hP.put]) m) _))

end

end Repro
