import Verif.GenRun
import Verif.ZGemm
/-!
# The matrix products executed in one flat memory

`Verif/Gemm.lean` and `Verif/ZGemm.lean` treat operands, buffers and results as separate functions, and take the contents
of the buffers before a tile is packed as arbitrary. Here the same routines are modelled as the C code executes them: everything, the operands,
the results, the buffers obtained from `malloc` and the array of binned values of the wrappers, lies in one memory and is reached
through pointers; the dot product calls are the routines of `Verif/GenRun.lean`, with the statements emitted by the code
generator inside. Pointers count words; an element has `w` words (1 for real, 2 for complex numbers), so `A[i]` of the C code is
the element at `A + w * i`.

`malloc` returns some address: a parameter here. `free` does nothing.
-/

namespace Repro

/-- What the matrix routines use of an element type and its binned type. -/
structure MOps (α : Type) where
  /-- words per element -/
  w : Nat
  /-- read an element -/
  get : Mem → Int → α
  /-- write an element -/
  put : Mem → Int → α → Mem
  /-- words per binned value: `binned_dbnum(fold)`, `binned_zbnum(fold)` -/
  bw : Nat
  /-- `dot n X incX Z incZ y`: the dot product call -/
  dot : Nat → Int → Int → Int → Int → Int → Mem → Mem
  /-- `binned_dbdconv(fold, x, y)` -/
  conv : α → Int → Mem → Mem
  /-- the effect of `memset(..., 0, ...)` on a binned value -/
  clear : Int → Mem → Mem
  /-- `binned_ddbconv(fold, y)` -/
  unconv : Int → Mem → α

/-- Register contents at the start of the kernels: arbitrary, possibly different in every call. -/
abbrev Junk := Mem → Int → Int → Int → Nat → Regs

/-- Real elements: `binnedBLAS_dbddot` (`src/binnedBLAS/dbddot.c:19-21`), `binned_dbdconv` (`src/binned/dbdconv.c:16-18`),
`binned_ddbconv` (`src/binned/ddbconv.c`), and the single precision versions. -/
def realOps (F : Fmt) (T : Tune) (expand : Bool) (fold : Nat) (jA jD : Junk) : MOps Flt where
  w := 1
  get m a := m a
  put m a x := m.set a x
  bw := 2 * fold
  dot n X incX Z incZ y m := F.rvecM T .dot expand fold (packed fold y) n X incX Z incZ (jA m X Z y) (jD m X Z y) m
  conv x y m := F.dmdconvM fold x (packed fold y) m
  clear y m := Fmt.dmsetzeroM fold (packed fold y) m
  unconv y m := F.convertM fold (packed fold y) m

/-- Complex elements: `binnedBLAS_zbzdotc` (if `conj`) or `binnedBLAS_zbzdotu`, `binned_zbzconv` (`src/binned/zbzconv.c`),
`binned_zzbconv_sub` (`src/binned/zzbconv_sub.c`), and the single precision versions. (Where the C code computes and stores the two parts of a
complex number one after the other, both are computed first here; the places written never overlap the places read.) -/
def cplxOps (F : Fmt) (T : Tune) (expand : Bool) (fold : Nat) (jA jD : Junk) (conj : Bool) : MOps (Flt × Flt) where
  w := 2
  get m a := m.pair a
  put m a x := (m.set a x.1).set (a + 1) x.2
  bw := 4 * fold
  dot n X incX Z incZ y m :=
    F.zvecM T (if conj then .dotc else .dotu) expand fold (zpacked fold y) n X incX Z incZ (jA m X Z y) (jD m X Z y) m
  conv x y m := F.zmzconvM fold x.1 x.2 (zpacked fold y) m
  clear y m := Fmt.zmsetzeroM fold (zpacked fold y) m
  unconv y m := F.zzmconvM fold (zpacked fold y) m

section
variable {α : Type} (O : MOps α)

/-- The scaled copy of `X`: pointer, stride and memory after it (`src/binnedBLAS/dbdgemv.ccog:86-95, 110-119`, `zbzgemv.ccog:86-97`). -/
def scaleXM (unit : Bool) (scl : α → α) (n : Nat) (X incX bufX : Int) (m : Mem) : Int × Int × Mem :=
  if unit then (X, incX, m)
  else (bufX, 1, forS 0 n 1 (fun j m => O.put m (bufX + O.w * j) (scl (O.get m (X + O.w * (j * incX))))) m)

/-- Row-major, not transposed (`src/binnedBLAS/dbdgemv.ccog:96-102`, `zbzgemv.ccog:98-104`). -/
def gemvNM (b : GemvB) (M N : Nat) (A lda bufX incbufX Y incY : Int) (m : Mem) : Mem :=
  forS 0 M b.y (fun i => forS 0 N b.x (fun j => forS i (min M (i + b.y)) 1 (fun ii m =>
    O.dot (min b.x (N - j)) (A + O.w * (ii * lda + j)) 1 (bufX + O.w * (j * incbufX)) incbufX (Y + O.bw * (ii * incY)) m))) m

/-- The tile-wise transposition into `bufA` (`src/binnedBLAS/dbdgemv.ccog:123-131`). -/
def packTM (b : GemvB) (M N i j : Nat) (A lda bufA : Int) (m : Mem) : Mem :=
  forS j (min M (j + b.xt)) b.t (fun jj => forS i (min N (i + b.yt)) b.t (fun ii =>
    forS jj (min M (jj + min b.t b.xt)) 1 (fun jjj => forS ii (min N (ii + min b.t b.yt)) 1 (fun iii m =>
      O.put m (bufA + O.w * ((iii - i : Nat) * (b.xt : Int) + (jjj - j : Nat))) (O.get m (A + O.w * (jjj * lda + iii))))))) m

/-- Row-major, transposed (`src/binnedBLAS/dbdgemv.ccog:120-137`, `zbzgemv.ccog:123-141, 160-178`). -/
def gemvTM (b : GemvB) (M N : Nat) (A lda bufX incbufX Y incY bufA : Int) (m : Mem) : Mem :=
  forS 0 N b.yt (fun i => forS 0 M b.xt (fun j m =>
    forS i (min N (i + b.yt)) 1 (fun ii m =>
      O.dot (min b.xt (M - j)) (bufA + O.w * ((ii - i : Nat) * (b.xt : Int))) 1 (bufX + O.w * (j * incbufX)) incbufX (Y + O.bw * (ii * incY)) m)
      (packTM O b M N i j A lda bufA m))) m

/-- `binnedBLAS_dbdgemv` (`src/binnedBLAS/dbdgemv.ccog:57-162`), `binnedBLAS_sbsgemv`; compare `gemv`. -/
def gemvM (zero unit : Bool) (scl : α → α) (b : GemvB) (Order TransA : Char) (M N : Nat) (A lda X incX Y incY bufX bufA : Int) (m : Mem) : Mem :=
  let row := fun (noTrans : Bool) (M N : Nat) =>
    if M = 0 ∨ N = 0 ∨ zero then m
    else if noTrans then
      let s := scaleXM O unit scl N X incX bufX m
      gemvNM O b M N A lda s.1 s.2.1 Y incY s.2.2
    else
      let s := scaleXM O unit scl M X incX bufX m
      gemvTM O b M N A lda s.1 s.2.1 Y incY bufA s.2.2
  if M = 0 ∨ N = 0 ∨ zero then m
  else if isRow Order then row (isNo TransA) M N
  else if isNo TransA then row false N M
  else row true N M

/-- Pack a tile, transposing it (`src/binnedBLAS/dbdgemm.ccog:113-117, 163-172, 185-194`, ...); compare `pack`. -/
def packM (xt yt : Nat) (f : α → α) (K M k i : Nat) (A lda buf : Int) (m : Mem) : Mem :=
  forS k (min K (k + xt)) 1 (fun kk => forS i (min M (i + yt)) 1 (fun ii m =>
    O.put m (buf + O.w * ((ii - i : Nat) * (xt : Int) + (kk - k : Nat))) (f (O.get m (A + O.w * (kk * lda + ii)))))) m

/-- The scaled copy of `A`: pointer, leading dimension and memory after it (`src/binnedBLAS/dbdgemm.ccog:92-103, 361-372`). -/
def scaleAM (unit : Bool) (f : α → α) (M K : Nat) (A lda buf : Int) (m : Mem) : Int × Int × Mem :=
  if unit then (A, lda, m)
  else (buf, (K : Int), forS 0 M 1 (fun i => forS 0 K 1 (fun k m =>
    O.put m (buf + O.w * (i * (K : Int) + k)) (f (O.get m (A + O.w * (i * lda + k)))))) m)

/-- The loops over tiles and entries: `pk i j k` packs, `call i j k ii jj` is the dot product call. -/
def tilesM (bi bj bk M N K : Nat) (jFirst : Bool) (pk : Nat → Nat → Nat → Mem → Mem) (call : Nat → Nat → Nat → Nat → Nat → Mem → Mem) (m : Mem) : Mem :=
  forS 0 M bi (fun i => forS 0 N bj (fun j => forS 0 K bk (fun k m =>
    if jFirst then forS j (min N (j + bj)) 1 (fun jj => forS i (min M (i + bi)) 1 (fun ii => call i j k ii jj)) (pk i j k m)
    else forS i (min M (i + bi)) 1 (fun ii => forS j (min N (j + bj)) 1 (fun jj => call i j k ii jj)) (pk i j k m)))) m

/-- The scheme all branches of `src/binnedBLAS/dbdgemm.ccog:61-420` and `zbzgemm.ccog:61-879` follow (see the comment of `zgemm`): `aPack`, `bPack` say whether
A and B are packed tile by tile (A first, e.g. `dbdgemm.ccog:163-172`), `fA`, `fB` what is done to the elements when they are copied, `swap` whether B is the first operand of the
dot product. `bufS` is the buffer for the scaled copy of A, used if A is not packed. -/
def gemmM (b : GemmB) (row aPack bPack swap unit : Bool) (fA fB : α → α) (M N K : Nat) (A lda B ldb C ldc bufS bufA bufB : Int) (m : Mem) : Mem :=
  let s := if aPack then (A, lda, m) else scaleAM O unit fA M K A lda bufS m
  let bk := if aPack || bPack then b.xt else b.x
  tilesM (if aPack then b.yt else b.y) (if bPack then b.yt else b.y) bk M N K (!row)
    (fun i j k m =>
      let m := if aPack then packM O b.xt b.yt fA K M k i A lda bufA m else m
      if bPack then packM O b.xt b.yt fB K N k j B ldb bufB m else m)
    (fun i j k ii jj m =>
      let a := if aPack then bufA + O.w * ((ii - i : Nat) * (b.xt : Int)) else s.1 + O.w * (ii * s.2.1 + k)
      let bb := if bPack then bufB + O.w * ((jj - j : Nat) * (b.xt : Int)) else B + O.w * (jj * ldb + k)
      let c := C + O.bw * (if row then ii * ldc + jj else jj * ldc + ii)
      if swap then O.dot (min bk (K - k)) bb 1 a 1 c m else O.dot (min bk (K - k)) a 1 bb 1 c m) s.2.2

/-- The initial binned values of the wrappers, for one entry `y` to be stored at `yi`: `memset`, `binned_dbdconv` of the entry, or of its product with `beta`
(`src/reproBLAS/rdgemv.c:51-61`, `rdgemm.c:58-72`, `rzgemv.c:51-64`, `rzgemm.c:59-75`). (`memset` clears all values in one call; here one by one.) -/
def initM (zero unit : Bool) (scl : α → α) (yi y : Int) (m : Mem) : Mem :=
  if zero then O.clear yi m else if unit then O.conv (O.get m y) yi m else O.conv (scl (O.get m y)) yi m

/-- `reproBLAS_rdgemv` (`src/reproBLAS/rdgemv.c:35-87`), `rsgemv`, `rzgemv`, `rcgemv`: `prod YI` is the binned product, the array of binned values being at `YI`. -/
def rgemvM (zero unit : Bool) (scl : α → α) (prod : Int → Mem → Mem) (noTrans : Bool) (M N : Nat) (Y incY YI : Int) (m : Mem) : Mem :=
  if N = 0 ∨ M = 0 then m
  else
    let n := if noTrans then M else N
    let m := forS 0 n 1 (fun i => initM O zero unit scl (YI + O.bw * i) (Y + O.w * (i * incY))) m
    let m := prod YI m
    forS 0 n 1 (fun i m => O.put m (Y + O.w * (i * incY)) (O.unconv (YI + O.bw * i) m)) m

/-- `reproBLAS_rdgemm` (`src/reproBLAS/rdgemm.c:41-105`), `rsgemm`, `rzgemm`, `rcgemm`: `prod CI ld` is the binned product with result at `CI`, leading dimension `ld`. -/
def rgemmM (zero unit : Bool) (scl : α → α) (prod : Int → Int → Mem → Mem) (row : Bool) (M N : Nat) (C ldc CI : Int) (m : Mem) : Mem :=
  if M = 0 ∨ N = 0 then m
  else if row then
    let m := forS 0 M 1 (fun i => forS 0 N 1 (fun j => initM O zero unit scl (CI + O.bw * (i * (N : Int) + j)) (C + O.w * (i * ldc + j)))) m
    let m := prod CI N m
    forS 0 M 1 (fun i => forS 0 N 1 (fun j m => O.put m (C + O.w * (i * ldc + j)) (O.unconv (CI + O.bw * (i * (N : Int) + j)) m))) m
  else
    let m := forS 0 N 1 (fun j => forS 0 M 1 (fun i => initM O zero unit scl (CI + O.bw * (j * (M : Int) + i)) (C + O.w * (j * ldc + i)))) m
    let m := prod CI M m
    forS 0 N 1 (fun j => forS 0 M 1 (fun i m => O.put m (C + O.w * (j * ldc + i)) (O.unconv (CI + O.bw * (j * (M : Int) + i)) m))) m

end

namespace Fmt
variable (F : Fmt)

/-- `binnedBLAS_dbdgemv`, `binnedBLAS_sbsgemv`. -/
def dgemvM (T : Tune) (expand : Bool) (fold : Nat) (jA jD : Junk) (b : GemvB) (Order TransA : Char) (M N : Nat) (alpha : Flt)
    (A lda X incX Y incY bufX bufA : Int) (m : Mem) : Mem :=
  gemvM (realOps F T expand fold jA jD) (isZero alpha) (F.feq alpha (F.pow2 0)) (fun x => F.mul x alpha) b Order TransA M N A lda X incX Y incY bufX bufA m

/-- `binnedBLAS_dbdgemm`, `binnedBLAS_sbsgemm`. -/
def dgemmM (T : Tune) (expand : Bool) (fold : Nat) (jA jD : Junk) (b : GemmB) (Order TransA TransB : Char) (M N K : Nat) (alpha : Flt)
    (A lda B ldb C ldc bufS bufA bufB : Int) (m : Mem) : Mem :=
  if M = 0 ∨ N = 0 ∨ K = 0 ∨ isZero alpha then m
  else
    let row := isRow Order
    let u := F.feq alpha (F.pow2 0)
    gemmM (realOps F T expand fold jA jD) b row (row != isNo TransA) (row == isNo TransB) false u (if u then id else fun x => F.mul x alpha) id
      M N K A lda B ldb C ldc bufS bufA bufB m

/-- `reproBLAS_rdgemv` (`src/reproBLAS/rdgemv.c:35-87`), `reproBLAS_rsgemv`. -/
def rdgemvM (T : Tune) (expand : Bool) (fold : Nat) (jA jD : Junk) (b : GemvB) (Order TransA : Char) (M N : Nat) (alpha : Flt)
    (A lda X incX : Int) (beta : Flt) (Y incY YI bufX bufA : Int) (m : Mem) : Mem :=
  rgemvM (realOps F T expand fold jA jD) (isZero beta) (F.feq beta (F.pow2 0)) (fun y => F.mul y beta)
    (fun YI => F.dgemvM T expand fold jA jD b Order TransA M N alpha A lda X incX YI 1 bufX bufA) (isNo TransA) M N Y incY YI m

/-- `reproBLAS_rdgemm` (`src/reproBLAS/rdgemm.c:41-105`), `reproBLAS_rsgemm`. -/
def rdgemmM (T : Tune) (expand : Bool) (fold : Nat) (jA jD : Junk) (b : GemmB) (Order TransA TransB : Char) (M N K : Nat) (alpha : Flt)
    (A lda B ldb : Int) (beta : Flt) (C ldc CI bufS bufA bufB : Int) (m : Mem) : Mem :=
  rgemmM (realOps F T expand fold jA jD) (isZero beta) (F.feq beta (F.pow2 0)) (fun y => F.mul y beta)
    (fun CI ld => F.dgemmM T expand fold jA jD b Order TransA TransB M N K alpha A lda B ldb CI ld bufS bufA bufB) (isRow Order) M N C ldc CI m

/-- The column-major conjugate transposed case of `zbzgemv` (`src/binnedBLAS/zbzgemv.ccog:215-221`); compare `zgemvC`. -/
def zgemvCM (O : MOps (Flt × Flt)) (b : GemvB) (M N : Nat) (A lda bufX incbufX Y incY : Int) (m : Mem) : Mem :=
  forS 0 N b.y (fun i => forS 0 M b.x (fun j => forS i (min N (i + b.y)) 1 (fun ii m =>
    O.dot (min b.x (N - j)) (A + O.w * (ii * lda + j)) 1 (bufX + O.w * (j * incbufX)) incbufX (Y + O.bw * (ii * incY)) m))) m

/-- `binnedBLAS_zbzgemv` (`src/binnedBLAS/zbzgemv.ccog:57-229`), `binnedBLAS_cbcgemv`; compare `zgemv`. -/
def zgemvM (T : Tune) (expand : Bool) (fold : Nat) (jA jD : Junk) (b : GemvB) (Order TransA : Char) (M N : Nat) (alpha : Flt × Flt)
    (A lda X incX Y incY bufX bufA : Int) (m : Mem) : Mem :=
  let O := cplxOps F T expand fold jA jD
  let sx := fun n => scaleXM (O false) (F.zunit alpha) (F.zscl alpha) n X incX bufX m
  let row := fun (t : Tr) (M N : Nat) =>
    if M = 0 ∨ N = 0 ∨ zzero alpha then m
    else match t with
      | .no => gemvNM (O false) b M N A lda (sx N).1 (sx N).2.1 Y incY (sx N).2.2 -- lines 83-107
      | .tr => gemvTM (O false) b M N A lda (sx M).1 (sx M).2.1 Y incY bufA (sx M).2.2 -- lines 109-145
      | .cj => gemvTM (O true) b M N A lda (sx M).1 (sx M).2.1 Y incY bufA (sx M).2.2 -- lines 147-183
  if M = 0 ∨ N = 0 ∨ zzero alpha then m
  else if isRow Order then row (trOf TransA) M N
  else match trOf TransA with
    | .no => row .tr N M -- line 193
    | .tr => row .no N M -- line 199
    | .cj => zgemvCM (O true) b M N A lda (sx M).1 (sx M).2.1 Y incY (sx M).2.2 -- lines 202-226

/-- `binnedBLAS_zbzgemm` (`src/binnedBLAS/zbzgemm.ccog:61-879`), `binnedBLAS_cbcgemm`; the branches are those of `zbranch`. -/
def zgemmM (T : Tune) (expand : Bool) (fold : Nat) (jA jD : Junk) (b : GemmB) (Order TransA TransB : Char) (M N K : Nat) (alpha : Flt × Flt)
    (A lda B ldb C ldc bufS bufA bufB : Int) (m : Mem) : Mem :=
  if M = 0 ∨ N = 0 ∨ K = 0 ∨ zzero alpha then m
  else
    let row := isRow Order
    let br := F.zbranch row (trOf TransA) (trOf TransB) alpha
    gemmM (cplxOps F T expand fold jA jD br.conj) b row (row != isNo TransA) (row == isNo TransB) br.swap (F.zunit alpha) br.fA br.fB
      M N K A lda B ldb C ldc bufS bufA bufB m

/-- `reproBLAS_rzgemv` (`src/reproBLAS/rzgemv.c:35-93`), `reproBLAS_rcgemv`. -/
def rzgemvM (T : Tune) (expand : Bool) (fold : Nat) (jA jD : Junk) (b : GemvB) (Order TransA : Char) (M N : Nat) (alpha : Flt × Flt)
    (A lda X incX : Int) (beta : Flt × Flt) (Y incY YI bufX bufA : Int) (m : Mem) : Mem :=
  rgemvM (cplxOps F T expand fold jA jD false) (zzero beta) (F.zunit beta) (F.zscl beta)
    (fun YI => F.zgemvM T expand fold jA jD b Order TransA M N alpha A lda X incX YI 1 bufX bufA) (isNo TransA) M N Y incY YI m

/-- `reproBLAS_rzgemm` (`src/reproBLAS/rzgemm.c:41-110`), `reproBLAS_rcgemm`. -/
def rzgemmM (T : Tune) (expand : Bool) (fold : Nat) (jA jD : Junk) (b : GemmB) (Order TransA TransB : Char) (M N K : Nat) (alpha : Flt × Flt)
    (A lda B ldb : Int) (beta : Flt × Flt) (C ldc CI bufS bufA bufB : Int) (m : Mem) : Mem :=
  rgemmM (cplxOps F T expand fold jA jD false) (zzero beta) (F.zunit beta) (F.zscl beta)
    (fun CI ld => F.zgemmM T expand fold jA jD b Order TransA TransB M N K alpha A lda B ldb CI ld bufS bufA bufB) (isRow Order) M N C ldc CI m

end Fmt
end Repro
