import Verif.Vec
/-!
# Model of the tiled matrix products (`src/binnedBLAS/*gemv.ccog`, `*gemm.ccog`) and of the wrappers of `src/reproBLAS`

The tiling code is the same text for all types. It is modelled once, for an element type `α` and a type
`β` of binned values, with `dot prs z` standing for the call of the binned dot product on the pairs `prs` of
elements with accumulator `z`.  Arrays of elements are functions on addresses (in elements); an array of binned values
is a function on element numbers (the sources multiply by `binned_dbnum(fold)`).
-/

namespace Repro

/-- The values of `i` in `for(i = lo; i < hi; i += step)`. -/
def steps (lo hi step : Nat) : List Nat := (List.range ((hi - lo + step - 1) / step)).map (fun t => lo + t * step)

/-- `for(i = lo; i < hi; i += step) body` -/
def forS {σ : Type} (lo hi step : Nat) (body : Nat → σ → σ) (s : σ) : σ := (steps lo hi step).foldl (fun s i => body i s) s

/-- `Y[l] = v` -/
def store {γ : Type} (Y : Int → γ) (l : Int) (v : γ) : Int → γ := fun x => if x = l then v else Y x

/-- The pairs read by a dot product call `dot(n, X, incX, Y, incY)`. -/
def pairs {α : Type} (n : Nat) (X : Int → α) (incX : Int) (Y : Int → α) (incY : Int) : List (α × α) :=
  (List.range n).map (fun (t : Nat) => (X (t * incX), Y (t * incY)))

/-- `A + off` -/
def ptr {α : Type} (A : Int → α) (off : Int) : Int → α := fun t => A (off + t)

/-- Block sizes of a matrix-vector product (`src/binnedBLAS/dbdgemv.ccog:23-30`): `Y_BLOCK`, `XY_BLOCK`, `YT_BLOCK`,
`XYT_BLOCK`, `T_BLOCK`. -/
structure GemvB where
  y : Nat
  xy : Nat
  yt : Nat
  xyt : Nat
  t : Nat

/-- `X_BLOCK` -/
def GemvB.x (b : GemvB) : Nat := b.xy / b.y
/-- `XT_BLOCK` -/
def GemvB.xt (b : GemvB) : Nat := b.xyt / b.yt

section
variable {α β : Type}

/-- The copy of `X` scaled by `alpha` (`src/binnedBLAS/dbdgemv.ccog:86-95, 110-119`), in a buffer with contents `g`;
`scl` is the multiplication by `alpha`, `unit` is `alpha == 1`. -/
def scaleX (unit : Bool) (scl : α → α) (n : Nat) (X : Int → α) (incX : Int) (g : Int → α) : (Int → α) × Int :=
  if unit then (X, incX)
  else (forS 0 n 1 (fun j buf => store buf j (scl (X (j * incX)))) g, 1)

/-- Row-major, not transposed (`src/binnedBLAS/dbdgemv.ccog:96-102`). -/
def gemvN (dot : List (α × α) → β → β) (b : GemvB) (M N : Nat) (A : Int → α) (lda : Int) (bufX : Int → α) (incbufX : Int)
    (incY : Int) (Y : Int → β) : Int → β :=
  forS 0 M b.y (fun i => forS 0 N b.x (fun j => forS i (min M (i + b.y)) 1 (fun ii Y =>
    store Y (ii * incY) (dot (pairs (min b.x (N - j)) (ptr A (ii * lda + j)) 1 (ptr bufX (j * incbufX)) incbufX) (Y (ii * incY)))))) Y

/-- The tile-wise transposition into `bufA` (`src/binnedBLAS/dbdgemv.ccog:123-131`). -/
def packT (b : GemvB) (M N i j : Nat) (A : Int → α) (lda : Int) (g : Int → α) : Int → α :=
  forS j (min M (j + b.xt)) b.t (fun jj => forS i (min N (i + b.yt)) b.t (fun ii =>
    forS jj (min M (jj + min b.t b.xt)) 1 (fun jjj => forS ii (min N (ii + min b.t b.yt)) 1 (fun iii buf =>
      store buf ((iii - i : Nat) * (b.xt : Int) + (jjj - j : Nat)) (A (jjj * lda + iii)))))) g

/-- Row-major, transposed (`src/binnedBLAS/dbdgemv.ccog:120-137`). `g i j` is what the buffer `bufA` holds before tile
`(i, j)` is packed: uninitialised memory or an earlier tile. (In the code it is determined by the earlier tiles; here it
is arbitrary.) -/
def gemvT (dot : List (α × α) → β → β) (b : GemvB) (M N : Nat) (A : Int → α) (lda : Int) (bufX : Int → α) (incbufX : Int)
    (incY : Int) (g : Nat → Nat → Int → α) (Y : Int → β) : Int → β :=
  forS 0 N b.yt (fun i => forS 0 M b.xt (fun j Y =>
    let bufA := packT b M N i j A lda (g i j)
    forS i (min N (i + b.yt)) 1 (fun ii Y =>
      store Y (ii * incY) (dot (pairs (min b.xt (M - j)) (ptr bufA ((ii - i : Nat) * (b.xt : Int))) 1 (ptr bufX (j * incbufX)) incbufX) (Y (ii * incY)))) Y)) Y

/-- `case 'r': case 'R':` -/
def isRow (c : Char) : Bool := c == 'r' || c == 'R'
/-- `case 'n': case 'N':` -/
def isNo (c : Char) : Bool := c == 'n' || c == 'N'

/-- `binnedBLAS_dbdgemv` (`src/binnedBLAS/dbdgemv.ccog:57-162`), `binnedBLAS_sbsgemv`. The column-major cases call the
row-major ones with swapped dimensions. `gx`, `g` are the contents of the allocated buffers. -/
def gemv (dot : List (α × α) → β → β) (zero unit : Bool) (scl : α → α) (b : GemvB) (gx : Int → α) (g : Nat → Nat → Int → α)
    (Order TransA : Char) (M N : Nat) (A : Int → α) (lda : Int) (X : Int → α) (incX : Int) (Y : Int → β) (incY : Int) : Int → β :=
  let row := fun (noTrans : Bool) (M N : Nat) =>
    if M = 0 ∨ N = 0 ∨ zero then Y
    else if noTrans then
      let bx := scaleX unit scl N X incX gx
      gemvN dot b M N A lda bx.1 bx.2 incY Y
    else
      let bx := scaleX unit scl M X incX gx
      gemvT dot b M N A lda bx.1 bx.2 incY g Y
  if M = 0 ∨ N = 0 ∨ zero then Y
  else if isRow Order then row (isNo TransA) M N
  else if isNo TransA then row false N M
  else row true N M

/-- Block sizes of a matrix-matrix product (`src/binnedBLAS/dbdgemm.ccog:22-28`). -/
structure GemmB where
  y : Nat
  xy : Nat
  yt : Nat
  xyt : Nat

/-- `X_BLOCK` -/
def GemmB.x (b : GemmB) : Nat := b.xy / b.y
/-- `XT_BLOCK` -/
def GemmB.xt (b : GemmB) : Nat := b.xyt / b.yt

/-- Pack a tile, transposing it: `for(kk = k; kk < K && kk < k + XT_BLOCK; kk++) for(ii = i; ii < M && ii < i + YT_BLOCK; ii++)
bufA[(ii - i) * XT_BLOCK + (kk - k)] = A[kk * lda + ii] * alpha;` (`src/binnedBLAS/dbdgemm.ccog:113-117, 163-172, 185-194`, ...);
`f` is the multiplication by `alpha` or nothing. -/
def pack (xt yt : Nat) (f : α → α) (K M k i : Nat) (A : Int → α) (lda : Int) (g : Int → α) : Int → α :=
  forS k (min K (k + xt)) 1 (fun kk => forS i (min M (i + yt)) 1 (fun ii buf =>
    store buf ((ii - i : Nat) * (xt : Int) + (kk - k : Nat)) (f (A (kk * lda + ii))))) g

/-- The copy of `A` scaled by `alpha` and its leading dimension (`src/binnedBLAS/dbdgemm.ccog:92-103, 361-372`). -/
def scaleA (unit : Bool) (f : α → α) (M K : Nat) (A : Int → α) (lda : Int) (g : Int → α) : (Int → α) × Int :=
  if unit then (A, lda)
  else (forS 0 M 1 (fun i => forS 0 K 1 (fun k buf => store buf (i * (K : Int) + k) (f (A (i * lda + k))))) g, (K : Int))

/-- The loops over tiles and entries, common to all branches of the matrix-matrix product, e.g.
`src/binnedBLAS/dbdgemm.ccog:110-125`. `prs i j k ii jj` are the pairs of elements read by the dot product call; `jFirst` says that the
loop over `jj` is outside the loop over `ii`; `loc ii jj` is the entry of C. -/
def tiles (dot : List (α × α) → β → β) (bi bj bk M N K : Nat) (jFirst : Bool) (loc : Nat → Nat → Int)
    (prs : Nat → Nat → Nat → Nat → Nat → List (α × α)) (C : Int → β) : Int → β :=
  forS 0 M bi (fun i => forS 0 N bj (fun j => forS 0 K bk (fun k C =>
    if jFirst then
      forS j (min N (j + bj)) 1 (fun jj => forS i (min M (i + bi)) 1 (fun ii C => store C (loc ii jj) (dot (prs i j k ii jj) (C (loc ii jj))))) C
    else
      forS i (min M (i + bi)) 1 (fun ii => forS j (min N (j + bj)) 1 (fun jj C => store C (loc ii jj) (dot (prs i j k ii jj) (C (loc ii jj))))) C))) C

/-- `binnedBLAS_dbdgemm` (`src/binnedBLAS/dbdgemm.ccog:61-420`), `binnedBLAS_sbsgemm`. `ga`, `gb` are the contents of the buffers
before tile `(i, j, k)` is packed, `g` those of the buffer for the scaled copy of A (arbitrary, as for `gemvT`). The pairs
of branches for `alpha == 1.0` and `alpha != 1.0` (for instance lines 159-180 and 181-203) differ in the
multiplication only, and are modelled by the function `f`. -/
def gemm (dot : List (α × α) → β → β) (zero unit : Bool) (scl : α → α) (b : GemmB) (g : Int → α) (ga gb : Nat → Nat → Nat → Int → α)
    (Order TransA TransB : Char) (M N K : Nat) (A : Int → α) (lda : Int) (B : Int → α) (ldb : Int) (C : Int → β) (ldc : Int) : Int → β :=
  let f := if unit then id else scl
  let rowC := fun (ii jj : Nat) => (ii : Int) * ldc + jj
  let colC := fun (ii jj : Nat) => (jj : Int) * ldc + ii
  let bufA := scaleA unit scl M K A lda g
  let pA := fun i j k => pack b.xt b.yt f K M k i A lda (ga i j k)
  let pB := fun i j k => pack b.xt b.yt id K N k j B ldb (gb i j k)
  if M = 0 ∨ N = 0 ∨ K = 0 ∨ zero then C
  else if isRow Order then
    if isNo TransA then
      if isNo TransB then -- lines 106-127
        tiles dot b.y b.yt b.xt M N K false rowC (fun i j k ii jj =>
          pairs (min b.xt (K - k)) (ptr bufA.1 (ii * bufA.2 + k)) 1 (ptr (pB i j k) ((jj - j : Nat) * (b.xt : Int))) 1) C
      else -- lines 129-142
        tiles dot b.y b.y b.x M N K false rowC (fun _ _ k ii jj =>
          pairs (min b.x (K - k)) (ptr bufA.1 (ii * bufA.2 + k)) 1 (ptr B (jj * ldb + k)) 1) C
    else
      if isNo TransB then -- lines 154-206
        tiles dot b.yt b.yt b.xt M N K false rowC (fun i j k ii jj =>
          pairs (min b.xt (K - k)) (ptr (pA i j k) ((ii - i : Nat) * (b.xt : Int))) 1 (ptr (pB i j k) ((jj - j : Nat) * (b.xt : Int))) 1) C
      else -- lines 208-247
        tiles dot b.yt b.y b.xt M N K false rowC (fun i j k ii jj =>
          pairs (min b.xt (K - k)) (ptr (pA i j k) ((ii - i : Nat) * (b.xt : Int))) 1 (ptr B (jj * ldb + k)) 1) C
  else
    if isNo TransA then
      if isNo TransB then -- lines 262-302
        tiles dot b.yt b.y b.xt M N K true colC (fun i j k ii jj =>
          pairs (min b.xt (K - k)) (ptr (pA i j k) ((ii - i : Nat) * (b.xt : Int))) 1 (ptr B (jj * ldb + k)) 1) C
      else -- lines 304-356
        tiles dot b.yt b.yt b.xt M N K true colC (fun i j k ii jj =>
          pairs (min b.xt (K - k)) (ptr (pA i j k) ((ii - i : Nat) * (b.xt : Int))) 1 (ptr (pB i j k) ((jj - j : Nat) * (b.xt : Int))) 1) C
    else
      if isNo TransB then -- lines 375-389
        tiles dot b.y b.y b.x M N K true colC (fun _ _ k ii jj =>
          pairs (min b.x (K - k)) (ptr bufA.1 (ii * bufA.2 + k)) 1 (ptr B (jj * ldb + k)) 1) C
      else -- lines 391-411
        tiles dot b.y b.yt b.xt M N K true colC (fun i j k ii jj =>
          pairs (min b.xt (K - k)) (ptr bufA.1 (ii * bufA.2 + k)) 1 (ptr (pB i j k) ((jj - j : Nat) * (b.xt : Int))) 1) C

end

namespace Fmt
variable (F : Fmt)

/-- The call of `binnedBLAS_dbddot` (`src/binnedBLAS/dbddot.c:19-21`): `dmddot` on a packed value, see `dmddot`. -/
def dotR (T : Tune) (fold : Nat) (prs : List (Flt × Flt)) (z : Binned) : Binned :=
  F.vecSum T fold (prs.map (fun p => F.mul p.1 p.2)) z

/-- `binnedBLAS_dbdgemv`, `binnedBLAS_sbsgemv` -/
def dgemv (T : Tune) (fold : Nat) (b : GemvB) (gx : Int → Flt) (g : Nat → Nat → Int → Flt) (Order TransA : Char) (M N : Nat)
    (alpha : Flt) (A : Int → Flt) (lda : Int) (X : Int → Flt) (incX : Int) (Y : Int → Binned) (incY : Int) : Int → Binned :=
  gemv (F.dotR T fold) (isZero alpha) (F.feq alpha (F.pow2 0)) (fun x => F.mul x alpha) b gx g Order TransA M N A lda X incX Y incY

/-- `binnedBLAS_dbdgemm`, `binnedBLAS_sbsgemm` -/
def dgemm (T : Tune) (fold : Nat) (b : GemmB) (g : Int → Flt) (ga gb : Nat → Nat → Nat → Int → Flt) (Order TransA TransB : Char)
    (M N K : Nat) (alpha : Flt) (A : Int → Flt) (lda : Int) (B : Int → Flt) (ldb : Int) (C : Int → Binned) (ldc : Int) : Int → Binned :=
  gemm (F.dotR T fold) (isZero alpha) (F.feq alpha (F.pow2 0)) (fun x => F.mul x alpha) b g ga gb Order TransA TransB M N K A lda B ldb C ldc

/-- The initial binned values of the wrappers (`src/reproBLAS/rdgemv.c:51-61`, `rdgemm.c:58-72`), for one entry `y`. -/
def beta0 (fold : Nat) (beta y : Flt) : Binned :=
  if isZero beta then dmsetzero fold
  else if F.feq beta (F.pow2 0) then F.dmdconv fold y
  else F.dmdconv fold (F.mul y beta)

/-- `reproBLAS_rdgemv` (`src/reproBLAS/rdgemv.c:35-87`), `reproBLAS_rsgemv`. The array `YI` is filled before and read after
the product; `yi` are its contents beyond the filled part. -/
def rdgemv (T : Tune) (fold : Nat) (b : GemvB) (gx : Int → Flt) (g : Nat → Nat → Int → Flt) (yi : Int → Binned) (Order TransA : Char)
    (M N : Nat) (alpha : Flt) (A : Int → Flt) (lda : Int) (X : Int → Flt) (incX : Int) (beta : Flt) (Y : Int → Flt) (incY : Int) : Int → Flt :=
  if N = 0 ∨ M = 0 then Y
  else
    let n := if isNo TransA then M else N
    let YI := forS 0 n 1 (fun i YI => store YI i (F.beta0 fold beta (Y (i * incY)))) yi
    let YI := F.dgemv T fold b gx g Order TransA M N alpha A lda X incX YI 1
    forS 0 n 1 (fun i Y => store Y (i * incY) (convert F fold (YI i))) Y

/-- `reproBLAS_rdgemm` (`src/reproBLAS/rdgemm.c:41-105`), `reproBLAS_rsgemm`. -/
def rdgemm (T : Tune) (fold : Nat) (b : GemmB) (g : Int → Flt) (ga gb : Nat → Nat → Nat → Int → Flt) (ci : Int → Binned)
    (Order TransA TransB : Char) (M N K : Nat) (alpha : Flt) (A : Int → Flt) (lda : Int) (B : Int → Flt) (ldb : Int)
    (beta : Flt) (C : Int → Flt) (ldc : Int) : Int → Flt :=
  if M = 0 ∨ N = 0 then C
  else if isRow Order then
    let CI := forS 0 M 1 (fun i => forS 0 N 1 (fun j CI => store CI (i * (N : Int) + j) (F.beta0 fold beta (C (i * ldc + j))))) ci
    let CI := F.dgemm T fold b g ga gb Order TransA TransB M N K alpha A lda B ldb CI N
    forS 0 M 1 (fun i => forS 0 N 1 (fun j C => store C (i * ldc + j) (convert F fold (CI (i * (N : Int) + j))))) C
  else
    let CI := forS 0 N 1 (fun j => forS 0 M 1 (fun i CI => store CI (j * (M : Int) + i) (F.beta0 fold beta (C (j * ldc + i))))) ci
    let CI := F.dgemm T fold b g ga gb Order TransA TransB M N K alpha A lda B ldb CI M
    forS 0 N 1 (fun j => forS 0 M 1 (fun i C => store C (j * ldc + i) (convert F fold (CI (j * (M : Int) + i))))) C

end Fmt
end Repro
