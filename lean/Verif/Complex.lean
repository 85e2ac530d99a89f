import Verif.Vec
import Verif.Scale
/-!
# Model of the blocked vector routines on complex data

`src/binnedBLAS/zmzsum.ccog`, `zmzdotu.ccog`, `zmzdotc.ccog`, `dmzasum.ccog` and their single precision
copies `cmcsum`, `cmcdotu`, `cmcdotc`, `smcasum`. A complex number is a pair; an array of complex numbers
is a function from indices to pairs (in C: `x[2*i]`, `x[2*i+1]`). The accumulator is the pair of its real
and imaginary binned parts (`priY[2*i*incpriY]`, `priY[2*i*incpriY + 1]`; that the library routines act on
the two parts separately is proved from the memory model in `Verif/PropsMem.lean`, C22).

For complex data `Tune.ts` is the number of complex numbers in a vector register. For scalar code
`type_size` is 0 (`src/gen/vectorizations.py:136`); the generator then uses `max(type_size, 1)` for the
width and never emits a partial load, exactly as for `ts = 1`.
-/

namespace Repro

/-- What a generated kernel computes from one element before depositing (`preprocess`): `e` numbers for
the real part (`fR a 0, ..., fR a (e-1)`) and as many for the imaginary part. `zfill` is the element a
partial load puts behind the data. `tR`, `tI` are the terms the exceptional loops add. -/
structure ZOp (α : Type) where
  e : Nat
  fR : α → Nat → Flt
  fI : α → Nat → Flt
  tR : α → Flt
  tI : α → Flt
  zfill : α

/-- The numbers one body (chunk) loads for one part, in the order of the load registers: all the
numbers `f a 0` of the elements, then all the numbers `f a 1` (`load_vars[0][:reg_width//2]` and
`load_vars[0][reg_width//2:]`, `src/binnedBLAS/depositDotU.py:23-24`). -/
def loadZ {α : Type} (ts e : Nat) (f : α → Nat → Flt) (zfill : α) (es : List α) (c : Chunk) : List Flt :=
  let load := if c.part then (List.range ts).map (fun l => if l < c.count then es.getD (c.off + l) zfill else zfill)
    else (List.range c.count).map (fun i => es.getD (c.off + i) zfill)
  (List.range e).flatMap (fun h => load.map (fun a => f a h))

/-- The numbers of a body dealt over the lanes of one part (`write_core`, `src/binned/deposit.py:187-212`):
`e * min(count, pipe)` lanes at a time. -/
def Tune.dealZ {α : Type} (T : Tune) (e : Nat) (f : α → Nat → Flt) (zfill : α) (es : List α) (c : Chunk) : List (Nat × Flt) :=
  let vs := loadZ T.ts e f zfill es c
  let w := e * (if c.part then T.ts else min c.count T.pipe)
  let groups := if c.part then 1 else max (c.count / T.pipe) 1
  (List.range groups).flatMap (fun g => (List.range w).map (fun l => (l, nth vs (g * w + l))))

/-- All deposits into the lanes of one part. -/
def Tune.traceZ {α : Type} (T : Tune) (e : Nat) (f : α → Nat → Flt) (zfill : α) (es : List α) : List (Nat × Flt) :=
  (runUnrolled T.ts (T.pipe * T.unroll) es.length).done.flatMap (T.dealZ e f zfill es)

/-- How a lane of a complex kernel deposits (`src/binned/deposit.py:214-240`): `plain` if neither part is
in bin 0; otherwise `process0` with compression factors chosen for each part: `comp` for a part in
bin 0, `unit` (factors 1.0, 1.0, 0.0) for the other part. -/
inductive Mode where
  | plain
  | unit
  | comp
deriving DecidableEq, Repr

namespace Fmt
variable (F : Fmt)

/-- One number deposited into one lane (`process`, `process0` for complex types,
`src/binned/deposit.py:267-326`). -/
def zstep : Mode → Flt → List Flt → List Flt
  | .plain, x, pri => F.kloop x pri
  | .unit, _, [] => []
  | .unit, x, m :: ms =>
    let s := F.add m (or1 (F.mul x F.one))
    let q := F.sub m s
    s :: F.kloop (F.add (F.add x (F.mul q F.one)) (F.mul q zero)) ms
  | .comp, _, [] => []
  | .comp, x, m :: ms =>
    let s := F.add m (or1 (F.mul x F.compression))
    let q := F.sub m s
    s :: F.kloop (F.add (F.add x (F.mul q F.halfExpansion)) (F.mul q F.halfExpansion)) ms

/-- The factors for one part, given whether it and the other part are in bin 0 (`src/binned/deposit.py:214-240`). -/
def zmode (own other : Bool) : Mode := if own then .comp else if other then .unit else .plain

/-- Run the deposits on `n` lanes that start from `pri`. -/
def lanesZ (mode : Mode) (n : Nat) (tr : List (Nat × Flt)) (pri : List Flt) : List (List Flt) :=
  tr.foldl (fun s d => s.set d.1 (F.zstep mode d.2 (s.getD d.1 pri))) (List.replicate n pri)

/-- `consolidate_into` for one part (`src/gen/vectorizations.py:143-166, 385-407, 647-671`). A register that
holds one complex number (SSE, double precision) is consolidated like a scalar. -/
def consolidateZ (T : Tune) (n : Nat) (s : List (List Flt)) (pri : List Flt) : List Flt :=
  (List.range pri.length).map (fun j =>
    if T.simd && T.ts != 1 then F.consSIMD T.ts n (fun l => nth (s.getD l pri) j) (nth pri j)
    else F.consSISD n (fun l => nth (s.getD l pri) j) (nth pri j))

/-- A complex kernel acting on one part. -/
def kernelZ {α : Type} (T : Tune) (mode : Mode) (e : Nat) (f : α → Nat → Flt) (zfill : α) (es : List α) (pri : List Flt) : List Flt :=
  F.consolidateZ T (e * T.pipe) (F.lanesZ mode (e * T.pipe) (T.traceZ e f zfill es) pri) pri

/-- `zamax_sub`, `zamaxm_sub` for one part (`src/binnedBLAS/amax.py:44-98`, `amaxm.py:33-45`): `ts` running
maxima over the absolute values of the numbers of the part. -/
def amaxZ {α : Type} (T : Tune) (e : Nat) (f : α → Nat → Flt) (zfill : α) (es : List α) : Flt :=
  let tr := (runUnrolled T.ts T.aunroll es.length).done.flatMap (fun c =>
    ((loadZ T.ts e f zfill es c).map fabs).zipIdx.map (fun d => (d.2 % T.ts, d.1)))
  let m := tr.foldl (fun m d => m.set d.1 (F.fmax (nth m d.1) d.2)) (List.replicate T.ts zero)
  (List.range' 1 (T.ts - 1)).foldl (fun a i => F.fmax a (nth m i)) (nth m 0)

/-- `priY[0] = v`. -/
def setHead (v : Flt) (y : Binned) : Binned :=
  ⟨match y.pri with
    | [] => []
    | _ :: ms => v :: ms, y.car⟩

/-- The block loop of `binnedBLAS_zmzsum` (`src/binnedBLAS/zmzsum.ccog:63-7039`), `binnedBLAS_zmzdotu`,
`binnedBLAS_zmzdotc` (`src/binnedBLAS/zmzdotu.ccog:68-…`, `zmzdotc.ccog:68-…`) on the remaining elements.
The renormalisation test is against `binned_DBENDURANCE` for the sum (`e = 1`) and against
`binned_DBENDURANCE/2` for the products (`e = 2`). The first argument bounds the number of rounds. -/
def zvecLoop {α : Type} (T : Tune) (fold : Nat) (O : ZOp α) : Nat → List α → Nat → Binned × Binned → Binned × Binned
  | 0, _, _, y => (F.dmrenorm y.1, F.dmrenorm y.2)
  | fuel + 1, es, deposits, y =>
    if es.isEmpty then (F.dmrenorm y.1, F.dmrenorm y.2)
    else
      let b := es.take T.nb
      let a0 := F.amaxZ T O.e O.fR O.zfill b
      let a1 := F.amaxZ T O.e O.fI O.zfill b
      let y0 := if F.isInf a0 || F.isInf (nth y.1.pri 0) then F.accum0 (b.map O.tR) y.1 else y.1
      let y1 := if F.isInf a1 || F.isInf (nth y.2.pri 0) then F.accum0 (b.map O.tI) y.2 else y.2
      if F.isNaN (nth y0.pri 0) && F.isNaN (nth y1.pri 0) then (y0, y1)
      else if F.isInf (nth y0.pri 0) && F.isInf (nth y1.pri 0) then zvecLoop T fold O fuel (es.drop T.nb) deposits (y0, y1)
      else
        let a0 := if F.isNaNInf (nth y0.pri 0) then nth y0.pri 0 else a0
        let a1 := if F.isNaNInf (nth y1.pri 0) then nth y1.pri 0 else a1
        let over := deposits + b.length > F.endurance / O.e
        let y0 := if over then F.dmrenorm y0 else y0
        let y1 := if over then F.dmrenorm y1 else y1
        let deposits := if over then 0 else deposits
        let y0 := F.dmdupdate fold a0 y0
        let y1 := F.dmdupdate fold a1 y1
        let z0 := F.dmindex0 (nth y0.pri 0)
        let z1 := F.dmindex0 (nth y1.pri 0)
        let w0 : Binned := ⟨F.kernelZ T (zmode z0 z1) O.e O.fR O.zfill b y0.pri, y0.car⟩
        let w1 : Binned := ⟨F.kernelZ T (zmode z1 z0) O.e O.fI O.zfill b y1.pri, y1.car⟩
        zvecLoop T fold O fuel (es.drop T.nb) (deposits + b.length)
          (if F.isInf a0 then setHead a0 w0 else w0, if F.isInf a1 then setHead a1 w1 else w1)

/-- The routine on the list of its elements. -/
def zvecSum {α : Type} (T : Tune) (fold : Nat) (O : ZOp α) (es : List α) (y : Binned × Binned) : Binned × Binned :=
  F.zvecLoop T fold O es.length es 0 y

/-- What `zmzsum` deposits: the parts of the element. -/
def zsumOp : ZOp (Flt × Flt) where
  e := 1
  fR a _ := a.1
  fI a _ := a.2
  tR a := a.1
  tI a := a.2
  zfill := (zero, zero)

/-- The sign change in `conj`, `nconj`: a product with `-1` in scalar code
(`src/gen/vectorizations.py:258-268`), an exclusive or with the sign bit in vector code. -/
def flip (T : Tune) (x : Flt) : Flt := if T.simd then fneg x else F.mul x (fneg F.one)

/-- What `zmzdotu` deposits (`src/binnedBLAS/depositDotU.py:15-24`) for the pair of elements `a = (x, y)`;
the terms of the exceptional loops (`src/binnedBLAS/zmzdotu.ccog:73-82`). -/
def dotuOp (T : Tune) : ZOp ((Flt × Flt) × (Flt × Flt)) where
  e := 2
  fR a h := if h = 0 then F.mul a.1.1 a.2.1 else F.flip T (F.mul a.1.2 a.2.2)
  fI a h := if h = 0 then F.mul a.1.2 a.2.1 else F.mul a.1.1 a.2.2
  tR a := F.sub (F.mul a.1.1 a.2.1) (F.mul a.1.2 a.2.2)
  tI a := F.add (F.mul a.1.1 a.2.2) (F.mul a.1.2 a.2.1)
  zfill := ((zero, zero), (zero, zero))

/-- What `zmzdotc` deposits (`src/binnedBLAS/depositDotC.py:15-24`, `src/binnedBLAS/zmzdotc.ccog:73-82`). -/
def dotcOp (T : Tune) : ZOp ((Flt × Flt) × (Flt × Flt)) where
  e := 2
  fR a h := if h = 0 then F.mul a.1.1 a.2.1 else F.mul a.1.2 a.2.2
  fI a h := if h = 0 then F.flip T (F.mul a.1.2 a.2.1) else F.mul a.1.1 a.2.2
  tR a := F.add (F.mul a.1.1 a.2.1) (F.mul a.1.2 a.2.2)
  tI a := F.sub (F.mul a.1.1 a.2.2) (F.mul a.1.2 a.2.1)
  zfill := ((zero, zero), (zero, zero))

end Fmt

/-- The elements `X[0], X[inc], ...` of an array of complex numbers. -/
def gatherZ (X : Int → Flt × Flt) (inc : Int) (n : Nat) : List (Flt × Flt) := (List.range n).map (fun (i : Nat) => X ((i : Int) * inc))

namespace Fmt
variable (F : Fmt)

/-- `binnedBLAS_zmzsum` (`src/binnedBLAS/zmzsum.ccog:57`), `binnedBLAS_cmcsum`. -/
def zmzsum (T : Tune) (fold n : Nat) (X : Int → Flt × Flt) (incX : Int) (y : Binned × Binned) : Binned × Binned :=
  F.zvecSum T fold zsumOp (gatherZ X incX n) y

/-- `binnedBLAS_zmzdotu` (`src/binnedBLAS/zmzdotu.ccog:59`), `binnedBLAS_cmcdotu`. -/
def zmzdotu (T : Tune) (fold n : Nat) (X : Int → Flt × Flt) (incX : Int) (Y : Int → Flt × Flt) (incY : Int) (z : Binned × Binned) : Binned × Binned :=
  F.zvecSum T fold (F.dotuOp T) ((gatherZ X incX n).zip (gatherZ Y incY n)) z

/-- `binnedBLAS_zmzdotc` (`src/binnedBLAS/zmzdotc.ccog:59`), `binnedBLAS_cmcdotc`. -/
def zmzdotc (T : Tune) (fold n : Nat) (X : Int → Flt × Flt) (incX : Int) (Y : Int → Flt × Flt) (incY : Int) (z : Binned × Binned) : Binned × Binned :=
  F.zvecSum T fold (F.dotcOp T) ((gatherZ X incX n).zip (gatherZ Y incY n)) z

/-- What `dmzasum` deposits: the absolute values of the parts (`src/binnedBLAS/depositASum.py:16-20`). -/
def zasumOp : ZOp (Flt × Flt) where
  e := 1
  fR a _ := fabs a.1
  fI a _ := fabs a.2
  tR a := fabs a.1
  tI a := fabs a.2
  zfill := (zero, zero)

/-- The block loop of `binnedBLAS_dmzasum` (`src/binnedBLAS/dmzasum.ccog:68-…`): `s` is the complex
temporary `asum`, `y` the real result. -/
def zasumLoop (T : Tune) (fold : Nat) : Nat → List (Flt × Flt) → Nat → Binned × Binned → Binned → Binned
  | 0, _, _, s, y => F.dmdmadd fold (F.dmrenorm s.2) (F.dmdmadd fold (F.dmrenorm s.1) y)
  | fuel + 1, es, deposits, s, y =>
    if es.isEmpty then F.dmdmadd fold (F.dmrenorm s.2) (F.dmdmadd fold (F.dmrenorm s.1) y)
    else
      let b := es.take T.nb
      let a0 := F.amaxZ T 1 zasumOp.fR zasumOp.zfill b
      let a1 := F.amaxZ T 1 zasumOp.fI zasumOp.zfill b
      let amax := F.fmax a0 a1
      let y := if F.isInf amax || F.isInf (nth y.pri 0) then F.accum0 (b.flatMap (fun a => [fabs a.1, fabs a.2])) y else y
      if F.isNaN (nth y.pri 0) || F.isNaN (nth s.1.pri 0) || F.isNaN (nth s.2.pri 0) then
        F.accum0 [F.add (nth s.1.pri 0) (nth s.2.pri 0)] y
      else if F.isInf (nth y.pri 0) then zasumLoop T fold fuel (es.drop T.nb) deposits s y
      else
        let over := deposits + b.length > F.endurance
        let s0 := if over then F.dmrenorm s.1 else s.1
        let s1 := if over then F.dmrenorm s.2 else s.2
        let deposits := if over then 0 else deposits
        let s0 := F.dmdupdate fold amax s0
        let s1 := F.dmdupdate fold amax s1
        let z0 := F.dmindex0 (nth s0.pri 0)
        let z1 := F.dmindex0 (nth s1.pri 0)
        zasumLoop T fold fuel (es.drop T.nb) (deposits + b.length)
          (⟨F.kernelZ T (zmode z0 z1) 1 zasumOp.fR zasumOp.zfill b s0.pri, s0.car⟩,
           ⟨F.kernelZ T (zmode z1 z0) 1 zasumOp.fI zasumOp.zfill b s1.pri, s1.car⟩) y

/-- `binnedBLAS_dmzasum` (`src/binnedBLAS/dmzasum.ccog:57`), `binnedBLAS_smcasum`. `MAX(a, b)` is
`((a) > (b) ? (a) : (b))` (`src/common/common.h`). -/
def dmzasum (T : Tune) (fold n : Nat) (X : Int → Flt × Flt) (incX : Int) (y : Binned) : Binned :=
  F.zasumLoop T fold n (gatherZ X incX n) 0 (dmsetzero fold, dmsetzero fold) y

/-- `reproBLAS_rzsum_sub` (`src/reproBLAS/rzsum_sub.c:20-30`), `reproBLAS_rzdotu_sub`, `reproBLAS_rzdotc_sub`,
`reproBLAS_rdzasum`. The conversion is that of the packed layout (`binned_zzbconv_sub`). -/
def rzsum (T : Tune) (fold n : Nat) (X : Int → Flt × Flt) (incX : Int) : Flt × Flt :=
  let y := F.zmzsum T fold n X incX (dmsetzero fold, dmsetzero fold)
  (convert F fold y.1, convert F fold y.2)
def rzdotu (T : Tune) (fold n : Nat) (X : Int → Flt × Flt) (incX : Int) (Y : Int → Flt × Flt) (incY : Int) : Flt × Flt :=
  let y := F.zmzdotu T fold n X incX Y incY (dmsetzero fold, dmsetzero fold)
  (convert F fold y.1, convert F fold y.2)
def rzdotc (T : Tune) (fold n : Nat) (X : Int → Flt × Flt) (incX : Int) (Y : Int → Flt × Flt) (incY : Int) : Flt × Flt :=
  let y := F.zmzdotc T fold n X incX Y incY (dmsetzero fold, dmsetzero fold)
  (convert F fold y.1, convert F fold y.2)
def rdzasum (T : Tune) (fold n : Nat) (X : Int → Flt × Flt) (incX : Int) : Flt :=
  convert F fold (F.dmzasum T fold n X incX (dmsetzero fold))

end Fmt
end Repro
