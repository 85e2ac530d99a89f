import Verif.Gemm
import Verif.Complex
/-!
# Model of the complex matrix products (`zbzgemv.ccog`, `zbzgemm.ccog`, their single precision copies) and wrappers

Elements are pairs of floating point numbers, binned values are pairs of binned values. The loops over tiles and the packing of
buffers are those of `Verif/Gemm.lean`; what is new are the conjugated cases and the complex scaling.
-/

namespace Repro

/-- The three cases of `switch(TransA)`: `'n'`, `'N'` / `'t'`, `'T'` / default (conjugate transposed). -/
inductive Tr where
  | no
  | tr
  | cj
deriving DecidableEq, Repr

/-- The case a flag character selects (`src/binnedBLAS/zbzgemv.ccog:81-148`, `zbzgemm.ccog:87-148`). -/
def trOf (c : Char) : Tr := if isNo c then .no else if c == 't' || c == 'T' then .tr else .cj

namespace Fmt
variable (F : Fmt)

/-- `((double*)alpha)[0] == 0.0 && ((double*)alpha)[1] == 0.0` (`src/binnedBLAS/zbzgemv.ccog:72`, `zbzgemm.ccog:78`). -/
def zzero (a : Flt × Flt) : Bool := isZero a.1 && isZero a.2

/-- `((double*)alpha)[0] == 1.0 && ((double*)alpha)[1] == 0.0` (`src/binnedBLAS/zbzgemv.ccog:86`). -/
def zunit (a : Flt × Flt) : Bool := F.feq a.1 (F.pow2 0) && isZero a.2

/-- The product of an element with `alpha` (`src/binnedBLAS/zbzgemv.ccog:92-93`, `zbzgemm.ccog:99-100, 208-209`, ...; `betaY` in
`src/reproBLAS/rzgemv.c:60-61`). -/
def zscl (alpha x : Flt × Flt) : Flt × Flt :=
  (F.sub (F.mul x.1 alpha.1) (F.mul x.2 alpha.2), F.add (F.mul x.1 alpha.2) (F.mul x.2 alpha.1))

/-- The product of the conjugate of an element with `alpha`, row-major (`src/binnedBLAS/zbzgemm.ccog:360-361, 411-412, 454-455`). -/
def zsclC (alpha x : Flt × Flt) : Flt × Flt :=
  (F.add (F.mul x.1 alpha.1) (F.mul x.2 alpha.2), F.sub (F.mul x.1 alpha.2) (F.mul x.2 alpha.1))

/-- What the column-major transposed case computes instead of the product with `alpha` (`src/binnedBLAS/zbzgemm.ccog:654-655`): the
second factor of the imaginary part is `alpha[1]`, not `alpha[0]`. -/
def zsclColT (alpha x : Flt × Flt) : Flt × Flt :=
  (F.sub (F.mul x.1 alpha.1) (F.mul x.2 alpha.2), F.add (F.mul x.1 alpha.2) (F.mul x.2 alpha.2))

/-- What the column-major conjugate transposed case computes (`src/binnedBLAS/zbzgemm.ccog:753-754, 798-799, 849-850`): again `alpha[1]` for `alpha[0]`. -/
def zsclColC (alpha x : Flt × Flt) : Flt × Flt :=
  (F.add (F.mul x.1 alpha.1) (F.mul x.2 alpha.2), F.sub (F.mul x.1 alpha.2) (F.mul x.2 alpha.2))

/-- The copy with the negated imaginary part (`src/binnedBLAS/zbzgemm.ccog:437, 834`). -/
def zconj (x : Flt × Flt) : Flt × Flt := (x.1, fneg x.2)

/-- The call of `binnedBLAS_zbzdotc` (if `conj`) or `binnedBLAS_zbzdotu` on a packed value, see `zmzdotc`, `zmzdotu`. -/
def dotZ (T : Tune) (fold : Nat) (conj : Bool) (prs : List ((Flt × Flt) × (Flt × Flt))) (z : Binned × Binned) : Binned × Binned :=
  if conj then F.zvecSum T fold (F.dotcOp T) prs z else F.zvecSum T fold (F.dotuOp T) prs z

/-- The column-major conjugate transposed case (`src/binnedBLAS/zbzgemv.ccog:215-221`). The length of a dot product call is
`MIN(X_BLOCK, N - j)`, where `M - j` is meant: the loop over `j` runs to `M`. A negative length is an empty loop in `zmzdotc`. -/
def zgemvC (dot : List ((Flt × Flt) × (Flt × Flt)) → Binned × Binned → Binned × Binned) (b : GemvB) (M N : Nat) (A : Int → Flt × Flt) (lda : Int)
    (bufX : Int → Flt × Flt) (incbufX : Int) (incY : Int) (Y : Int → Binned × Binned) : Int → Binned × Binned :=
  forS 0 N b.y (fun i => forS 0 M b.x (fun j => forS i (min N (i + b.y)) 1 (fun ii Y =>
    store Y (ii * incY) (dot (pairs (min b.x (N - j)) (ptr A (ii * lda + j)) 1 (ptr bufX (j * incbufX)) incbufX) (Y (ii * incY)))))) Y

/-- `binnedBLAS_zbzgemv` (`src/binnedBLAS/zbzgemv.ccog:57-229`), `binnedBLAS_cbcgemv`. -/
def zgemv (T : Tune) (fold : Nat) (b : GemvB) (gx : Int → Flt × Flt) (g : Nat → Nat → Int → Flt × Flt) (Order TransA : Char) (M N : Nat)
    (alpha : Flt × Flt) (A : Int → Flt × Flt) (lda : Int) (X : Int → Flt × Flt) (incX : Int) (Y : Int → Binned × Binned) (incY : Int) :
    Int → Binned × Binned :=
  let sx := fun n => scaleX (F.zunit alpha) (F.zscl alpha) n X incX gx
  let row := fun (t : Tr) (M N : Nat) =>
    if M = 0 ∨ N = 0 ∨ zzero alpha then Y
    else match t with
      | .no => gemvN (F.dotZ T fold false) b M N A lda (sx N).1 (sx N).2 incY Y -- lines 83-107
      | .tr => gemvT (F.dotZ T fold false) b M N A lda (sx M).1 (sx M).2 incY g Y -- lines 109-145
      | .cj => gemvT (F.dotZ T fold true) b M N A lda (sx M).1 (sx M).2 incY g Y -- lines 147-183
  if M = 0 ∨ N = 0 ∨ zzero alpha then Y
  else if isRow Order then row (trOf TransA) M N
  else match trOf TransA with
    | .no => row .tr N M -- line 193
    | .tr => row .no N M -- line 199
    | .cj => zgemvC (F.dotZ T fold true) b M N A lda (sx M).1 (sx M).2 incY Y -- lines 202-226

/-- What a branch of the matrix-matrix product does with the elements: the maps applied when A and B are copied, whether the dot product
is the conjugated one, and whether B is its first operand. -/
structure ZBranch where
  fA : Flt × Flt → Flt × Flt
  fB : Flt × Flt → Flt × Flt
  conj : Bool
  swap : Bool

/-- The branches of `binnedBLAS_zbzgemm`. -/
def zbranch (row : Bool) (ta tb : Tr) (alpha : Flt × Flt) : ZBranch :=
  let u := F.zunit alpha
  let f := if u then id else F.zscl alpha
  match row, ta, tb with
  | true, .no, .no => ⟨f, id, false, false⟩ -- lines 107-129
  | true, .no, .tr => ⟨f, id, false, false⟩ -- lines 131-145
  | true, .no, .cj => ⟨f, id, true, true⟩ -- lines 147-160
  | true, .tr, .no => ⟨f, id, false, false⟩ -- lines 173-229
  | true, .tr, .tr => ⟨f, id, false, false⟩ -- lines 231-273
  | true, .tr, .cj => ⟨f, id, true, true⟩ -- lines 275-316
  | true, .cj, .no => if u then ⟨id, id, true, false⟩ else ⟨F.zsclC alpha, id, false, false⟩ -- lines 325-381
  | true, .cj, .tr => if u then ⟨id, id, true, false⟩ else ⟨F.zsclC alpha, id, false, false⟩ -- lines 383-425
  | true, .cj, .cj => if u then ⟨zconj, id, true, true⟩ else ⟨F.zsclC alpha, id, true, true⟩ -- lines 427-468
  | false, .no, .no => ⟨f, id, false, false⟩ -- lines 483-525
  | false, .no, .tr => ⟨f, id, false, false⟩ -- lines 527-583
  | false, .no, .cj => ⟨f, id, true, true⟩ -- lines 585-641
  | false, .tr, .no => ⟨if u then id else F.zsclColT alpha, id, false, false⟩ -- lines 648-676
  | false, .tr, .tr => ⟨if u then id else F.zsclColT alpha, id, false, false⟩ -- lines 648-700
  | false, .tr, .cj => ⟨if u then id else F.zsclColT alpha, id, true, true⟩ -- lines 648-722
  | false, .cj, .no => if u then ⟨id, id, true, false⟩ else ⟨F.zsclColC alpha, id, false, false⟩ -- lines 734-770
  | false, .cj, .tr => if u then ⟨id, id, true, false⟩ else ⟨F.zsclColC alpha, id, false, false⟩ -- lines 772-822
  | false, .cj, .cj => if u then ⟨id, zconj, true, false⟩ else ⟨F.zsclColC alpha, id, true, true⟩ -- lines 824-873

/-- `binnedBLAS_zbzgemm` (`src/binnedBLAS/zbzgemm.ccog:61-879`), `binnedBLAS_cbcgemm`. An operand whose rows (for A; columns for B) of op are not
contiguous is packed tile by tile, with block sizes `YT_BLOCK`, `XT_BLOCK`; the other operand is used in place (A after a scaled copy unless `alpha == 1`).
The block size along K is `X_BLOCK` if nothing is packed. All 18 branches (36 with `alpha == 1` apart) follow this scheme. -/
def zgemm (T : Tune) (fold : Nat) (b : GemmB) (g : Int → Flt × Flt) (ga gb : Nat → Nat → Nat → Int → Flt × Flt) (Order TransA TransB : Char) (M N K : Nat)
    (alpha : Flt × Flt) (A : Int → Flt × Flt) (lda : Int) (B : Int → Flt × Flt) (ldb : Int) (C : Int → Binned × Binned) (ldc : Int) : Int → Binned × Binned :=
  let row := isRow Order
  let br := F.zbranch row (trOf TransA) (trOf TransB) alpha
  let aPack := row != isNo TransA
  let bPack := row == isNo TransB
  let bufA := scaleA (F.zunit alpha) br.fA M K A lda g
  let pA := fun i j k => pack b.xt b.yt br.fA K M k i A lda (ga i j k)
  let pB := fun i j k => pack b.xt b.yt br.fB K N k j B ldb (gb i j k)
  let bk := if aPack || bPack then b.xt else b.x
  let loc := fun (ii jj : Nat) => if row then (ii : Int) * ldc + jj else (jj : Int) * ldc + ii
  if M = 0 ∨ N = 0 ∨ K = 0 ∨ zzero alpha then C
  else
    tiles (F.dotZ T fold br.conj) (if aPack then b.yt else b.y) (if bPack then b.yt else b.y) bk M N K (!row) loc (fun i j k ii jj =>
      let a := if aPack then ptr (pA i j k) ((ii - i : Nat) * (b.xt : Int)) else ptr bufA.1 (ii * bufA.2 + k)
      let bb := if bPack then ptr (pB i j k) ((jj - j : Nat) * (b.xt : Int)) else ptr B (jj * ldb + k)
      if br.swap then pairs (min bk (K - k)) bb 1 a 1 else pairs (min bk (K - k)) a 1 bb 1) C

/-- The initial binned values of the wrappers (`src/reproBLAS/rzgemv.c:51-64`, `rzgemm.c:59-75`), for one entry. -/
def zbeta0 (fold : Nat) (beta y : Flt × Flt) : Binned × Binned :=
  if zzero beta then (dmsetzero fold, dmsetzero fold)
  else if F.zunit beta then (F.dmdconv fold y.1, F.dmdconv fold y.2)
  else (F.dmdconv fold (F.zscl beta y).1, F.dmdconv fold (F.zscl beta y).2)

/-- `binned_zzbconv_sub`, see `Verif/Conv.lean`. -/
def zconvert (fold : Nat) (y : Binned × Binned) : Flt × Flt := (convert F fold y.1, convert F fold y.2)

/-- `reproBLAS_rzgemv` (`src/reproBLAS/rzgemv.c:35-93`), `reproBLAS_rcgemv`. -/
def rzgemv (T : Tune) (fold : Nat) (b : GemvB) (gx : Int → Flt × Flt) (g : Nat → Nat → Int → Flt × Flt) (yi : Int → Binned × Binned) (Order TransA : Char)
    (M N : Nat) (alpha : Flt × Flt) (A : Int → Flt × Flt) (lda : Int) (X : Int → Flt × Flt) (incX : Int) (beta : Flt × Flt) (Y : Int → Flt × Flt) (incY : Int) :
    Int → Flt × Flt :=
  if N = 0 ∨ M = 0 then Y
  else
    let n := if isNo TransA then M else N
    let YI := forS 0 n 1 (fun i YI => store YI i (F.zbeta0 fold beta (Y (i * incY)))) yi
    let YI := F.zgemv T fold b gx g Order TransA M N alpha A lda X incX YI 1
    forS 0 n 1 (fun i Y => store Y (i * incY) (F.zconvert fold (YI i))) Y

/-- `reproBLAS_rzgemm` (`src/reproBLAS/rzgemm.c:41-110`), `reproBLAS_rcgemm`. -/
def rzgemm (T : Tune) (fold : Nat) (b : GemmB) (g : Int → Flt × Flt) (ga gb : Nat → Nat → Nat → Int → Flt × Flt) (ci : Int → Binned × Binned)
    (Order TransA TransB : Char) (M N K : Nat) (alpha : Flt × Flt) (A : Int → Flt × Flt) (lda : Int) (B : Int → Flt × Flt) (ldb : Int)
    (beta : Flt × Flt) (C : Int → Flt × Flt) (ldc : Int) : Int → Flt × Flt :=
  if M = 0 ∨ N = 0 then C
  else if isRow Order then
    let CI := forS 0 M 1 (fun i => forS 0 N 1 (fun j CI => store CI (i * (N : Int) + j) (F.zbeta0 fold beta (C (i * ldc + j))))) ci
    let CI := F.zgemm T fold b g ga gb Order TransA TransB M N K alpha A lda B ldb CI N
    forS 0 M 1 (fun i => forS 0 N 1 (fun j C => store C (i * ldc + j) (F.zconvert fold (CI (i * (N : Int) + j))))) C
  else
    let CI := forS 0 N 1 (fun j => forS 0 M 1 (fun i CI => store CI (j * (M : Int) + i) (F.zbeta0 fold beta (C (j * ldc + i))))) ci
    let CI := F.zgemm T fold b g ga gb Order TransA TransB M N K alpha A lda B ldb CI M
    forS 0 N 1 (fun j => forS 0 M 1 (fun i C => store C (j * ldc + i) (F.zconvert fold (CI (j * (M : Int) + i))))) C

end Fmt
end Repro
