import Verif.ZSsq
import Verif.Ssq
import Verif.Hist
/-!
# The routines compiled with contraction into fused multiply-add

The C standard lets a compiler evaluate `a * b + c` with one rounding (`FP_CONTRACT`); `config.mk:22, 54` and
`mk/config.mk:114-116` (`-std=c99 -O3 -march=native`) switch it off for gcc, but clang 14 and later contract by default, and
so does gcc with any `-std=gnu..`. This file repeats every function of the model that contains a product as an operand of an
addition, with a free choice at every execution of such an addition: a choice may depend on the place and on the time, so it
covers every contraction the C standard permits (within one expression), and also those across statements of the products
the deposits compute (`q = (s - q) * expansion; x = (x + q) + q`). Products whose bits are changed before the addition (`q.l |= 1`, `_mm_or_pd`) cannot
be contracted. Not covered: a product of two elements (or a square) is assigned to a variable, which is deposited and used a second time in the remainder `x = x + q`; a compiler that ignores
the rounding of an assignment (`-ffp-contract=fast`) could fuse that second use. `kstepFast` models it, and `C72_fast_violated` shows that the result changes.
-/

namespace Repro
namespace Fmt
variable (F : Fmt)

/-- IEEE fused multiply-add: `x * y + z` with one rounding. -/
def fma (x y z : Flt) : Flt :=
  if F.isNaN x || F.isNaN y || F.isNaN z then F.nan
  else if F.isInf x || F.isInf y then
    (if x.mag = 0 ∨ y.mag = 0 then F.nan else F.add z ⟨x.neg != y.neg, F.infMag⟩)
  else if F.isInf z then z
  else
    let s := F.toInt x * F.toInt y + F.toInt z * 2 ^ F.eta
    if s = 0 then ⟨(x.neg != y.neg) && z.neg, 0⟩
    else ⟨decide (s < 0), F.roundMag s.natAbs F.eta⟩

/-- `z + x * y`, contracted if `c`. -/
def mac (c : Bool) (x y z : Flt) : Flt := if c then F.fma x y z else F.add z (F.mul x y)

end Fmt

/-- The choices of a compiler (or of the weather) for the additions of one kernel run: for each deposit, whether the first and
the second addition of the expanded remainder are contracted. -/
abbrev Picks := Nat → Bool × Bool

namespace Fmt
variable (F : Fmt)

/-- `binned_dmddeposit` (`src/binned/dmddeposit.c:24-71`) with `x += M * (EXPANSION * 0.5)` contracted (lines 47-50: the product and
the two additions are separate statements, which gcc contracts too). -/
def dmddepositC (c : Bool × Bool) (x : Flt) (pri : List Flt) : List Flt :=
  if F.isNaNInf x || F.isNaNInf (nth pri 0) then
    match pri with
    | [] => []
    | m :: ms => F.add m x :: ms
  else if F.dmindex0 (nth pri 0) then
    match pri with
    | [] => []
    | m :: ms =>
      let q := F.add (or1 (F.mul x F.compression)) m
      let M := F.sub m q
      q :: F.depositLoop (F.mac c.2 M F.halfExpansion (F.mac c.1 M F.halfExpansion x)) ms
  else F.depositLoop x pri

/-- `kstep` (`src/binned/deposit.py:267-326`, real types) with contraction. -/
def kstepC (c : Bool × Bool) (idx0 : Bool) (x : Flt) (pri : List Flt) : List Flt :=
  if idx0 then
    match pri with
    | [] => []
    | m :: ms =>
      let s := F.add m (or1 (F.mul x F.compression))
      let q := F.sub m s
      s :: F.kloop (F.mac c.2 q F.halfExpansion (F.mac c.1 q F.halfExpansion x)) ms
  else F.kloop x pri

/-- The first level of `process` (`src/binned/deposit.py:281-285`) for an element of a dot product (`X_0 = X_0 * Y_0` in
`src/binnedBLAS/depositDot.py`), when the product of the earlier statement is fused into the remainder `X_0 = X_0 + q_0`. -/
def kstepFast (a b : Flt) : List Flt → List Flt
  | [] => []
  | [m] => [F.add m (or1 (F.mul a b))]
  | m :: ms =>
    let s := F.add m (or1 (F.mul a b))
    s :: F.kloop (F.fma a b (F.sub m s)) ms

/-- `zstep` (`src/binned/deposit.py:267-326`, complex types) with contraction. -/
def zstepC (c : Bool × Bool) : Mode → Flt → List Flt → List Flt
  | .plain, x, pri => F.kloop x pri
  | .unit, _, [] => []
  | .unit, x, m :: ms =>
    let s := F.add m (or1 (F.mul x F.one))
    let q := F.sub m s
    s :: F.kloop (F.mac c.2 q zero (F.mac c.1 q F.one x)) ms
  | .comp, _, [] => []
  | .comp, x, m :: ms =>
    let s := F.add m (or1 (F.mul x F.compression))
    let q := F.sub m s
    s :: F.kloop (F.mac c.2 q F.halfExpansion (F.mac c.1 q F.halfExpansion x)) ms

/-- `lanes` with contraction. -/
def lanesC (ch : Picks) (idx0 : Bool) (n : Nat) (tr : List (Nat × Flt)) (pri : List Flt) : List (List Flt) :=
  tr.zipIdx.foldl (fun s d => s.set d.1.1 (F.kstepC (ch d.2) idx0 d.1.2 (s.getD d.1.1 pri))) (List.replicate n pri)

/-- `lanesZ` with contraction. -/
def lanesZC (ch : Picks) (mode : Mode) (n : Nat) (tr : List (Nat × Flt)) (pri : List Flt) : List (List Flt) :=
  tr.zipIdx.foldl (fun s d => s.set d.1.1 (F.zstepC (ch d.2) mode d.1.2 (s.getD d.1.1 pri))) (List.replicate n pri)

/-- `kernel` (`src/binned/deposit.py:110-174`) with contraction; consolidation has no products. -/
def kernelC (ch : Picks) (T : Tune) (vs : List Flt) (pri : List Flt) : List Flt :=
  F.consolidate T (F.lanesC ch (F.dmindex0 (nth pri 0)) T.pipe (T.trace vs) pri) pri

/-- `kernelZ` with contraction. -/
def kernelZC {α : Type} (ch : Picks) (T : Tune) (mode : Mode) (e : Nat) (f : α → Nat → Flt) (zfill : α) (es : List α) (pri : List Flt) : List Flt :=
  F.consolidateZ T (e * T.pipe) (F.lanesZC ch mode (e * T.pipe) (T.traceZ e f zfill es) pri) pri

/-! ### real routines -/

/-- `priY[0] += X[j * incX] * Y[j * incY]` in the exceptional loop of `dmddot` (`src/binnedBLAS/dmddot.ccog:70-74`), each addition
contracted or not. `ps` are the pairs of factors. -/
def accum0C (ch : Nat → Bool) (ps : List (Flt × Flt)) (y : Binned) : Binned :=
  ⟨match y.pri with
    | [] => []
    | m :: ms => ps.zipIdx.foldl (fun a p => F.mac (ch p.2) p.1.1 p.1.2 a) m :: ms, y.car⟩

/-- The block loop of `dmdsum`, `dmdasum` (`src/binnedBLAS/dmdsum.ccog:57-6203`, `dmdasum.ccog`) with contraction. The choices
may differ from round to round. -/
def vecLoopC (ch : Nat → Picks) (T : Tune) (fold : Nat) : Nat → List Flt → Nat → Binned → Binned
  | 0, _, _, y => F.dmrenorm y
  | fuel + 1, vs, deposits, y =>
    if vs = [] then F.dmrenorm y
    else
      let b := vs.take T.nb
      let amax := F.amaxK T (b.map fabs)
      let y := if F.isInf amax || F.isInf (nth y.pri 0) then F.accum0 b y else y
      if F.isNaN (nth y.pri 0) then y
      else if F.isInf (nth y.pri 0) then vecLoopC ch T fold fuel (vs.drop T.nb) deposits y
      else
        let over := deposits + b.length > F.endurance
        let y := if over then F.dmrenorm y else y
        let deposits := if over then 0 else deposits
        let y := F.dmdupdate fold amax y
        vecLoopC ch T fold fuel (vs.drop T.nb) (deposits + b.length) ⟨F.kernelC (ch fuel) T b y.pri, y.car⟩

/-- The block loop of `dmddot` (`src/binnedBLAS/dmddot.ccog:59-…`) with contraction: `ps` are the remaining pairs of factors, the
deposited products are rounded (their last bit is set before the addition). -/
def dotLoopC (ch : Nat → Picks) (cx : Nat → Nat → Bool) (T : Tune) (fold : Nat) : Nat → List (Flt × Flt) → Nat → Binned → Binned
  | 0, _, _, y => F.dmrenorm y
  | fuel + 1, ps, deposits, y =>
    if ps = [] then F.dmrenorm y
    else
      let b := ps.take T.nb
      let vs := b.map (fun p => F.mul p.1 p.2)
      let amax := F.amaxK T (vs.map fabs)
      let y := if F.isInf amax || F.isInf (nth y.pri 0) then F.accum0C (cx fuel) b y else y
      if F.isNaN (nth y.pri 0) then y
      else if F.isInf (nth y.pri 0) then dotLoopC ch cx T fold fuel (ps.drop T.nb) deposits y
      else
        let over := deposits + b.length > F.endurance
        let y := if over then F.dmrenorm y else y
        let deposits := if over then 0 else deposits
        let y := F.dmdupdate fold amax y
        dotLoopC ch cx T fold fuel (ps.drop T.nb) (deposits + b.length) ⟨F.kernelC (ch fuel) T vs y.pri, y.car⟩

/-- The block loop of `dmdssq` (`src/binnedBLAS/dmdssq.ccog:68-4960`) with contraction. -/
def ssqLoopC (ch : Nat → Picks) (T : Tune) (fold : Nat) : Nat → List Flt → Nat → Flt → Binned → Flt × Binned
  | 0, _, _, scl, y => F.ssqEnd scl y
  | fuel + 1, xs, deposits, scl, y =>
    if xs = [] then F.ssqEnd scl y
    else
      let b := xs.take T.nb
      let amax := F.amaxK T (b.map fabs)
      let y := if F.isInf amax || F.isInf (nth y.pri 0) then F.accum0 (b.map fabs) y else y
      if F.isNaN (nth y.pri 0) then (F.dscale F.one, y)
      else if F.isInf (nth y.pri 0) then ssqLoopC ch T fold fuel (xs.drop T.nb) deposits scl y
      else
        let over := deposits + b.length > F.endurance
        let y := if over then F.dmrenorm y else y
        let deposits := if over then 0 else deposits
        let new := F.dscale amax
        let y := if F.lt scl new && F.lt zero scl then F.dmdrescale new scl y else y
        let scl := if F.lt scl new then new else scl
        let a := F.div amax scl
        let y := F.dmdupdate fold (F.mul a a) y
        ssqLoopC ch T fold fuel (xs.drop T.nb) (deposits + b.length) scl ⟨F.kernelC (ch fuel) T (b.map (F.sq scl)) y.pri, y.car⟩

/-- `binnedBLAS_dmdsum` (`src/binnedBLAS/dmdsum.ccog:57`) with contraction. -/
def dmdsumC (ch : Nat → Picks) (T : Tune) (fold n : Nat) (X : Int → Flt) (incX : Int) (y : Binned) : Binned :=
  F.vecLoopC ch T fold n (gather X incX n) 0 y

/-- `binnedBLAS_dmdasum` (`src/binnedBLAS/dmdasum.ccog:57`) with contraction. -/
def dmdasumC (ch : Nat → Picks) (T : Tune) (fold n : Nat) (X : Int → Flt) (incX : Int) (y : Binned) : Binned :=
  F.vecLoopC ch T fold n ((gather X incX n).map fabs) 0 y

/-- `binnedBLAS_dmddot` (`src/binnedBLAS/dmddot.ccog:59`) with contraction. -/
def dmddotC (ch : Nat → Picks) (cx : Nat → Nat → Bool) (T : Tune) (fold n : Nat) (X : Int → Flt) (incX : Int) (Y : Int → Flt) (incY : Int) (z : Binned) : Binned :=
  F.dotLoopC ch cx T fold n ((gather X incX n).zip (gather Y incY n)) 0 z

/-- `binnedBLAS_dmdssq` (`src/binnedBLAS/dmdssq.ccog:60`) with contraction. -/
def dmdssqC (ch : Nat → Picks) (T : Tune) (fold n : Nat) (X : Int → Flt) (incX : Int) (scl : Flt) (y : Binned) : Flt × Binned :=
  F.ssqLoopC ch T fold n (gather X incX n) 0 scl y

/-! ### complex routines -/

/-- The expression `a * b + c * d` in an exceptional loop: not contracted, or with the first or the second product inside the
fused operation. -/
def mul2C (c : Option Bool) (a b d e : Flt) : Flt :=
  match c with
  | none => F.add (F.mul a b) (F.mul d e)
  | some false => F.fma a b (F.mul d e)
  | some true => F.fma d e (F.mul a b)

/-- The term of an exceptional loop of a complex dot product, contracted in some way
(`src/binnedBLAS/zmzdotu.ccog:73-82`, `zmzdotc.ccog:73-82`); a subtracted product has one factor negated. -/
def dotTermC (conj im : Bool) (c : Option Bool) (a : (Flt × Flt) × (Flt × Flt)) : Flt :=
  if im then F.mul2C c a.1.1 a.2.2 (if conj then fneg a.1.2 else a.1.2) a.2.1
  else F.mul2C c a.1.1 a.2.1 (if conj then a.1.2 else fneg a.1.2) a.2.2

/-- The block loop of the complex sum and dot products (`zvecLoop`) with contraction: `chR`, `chI` for the kernels of the two
parts, `tR`, `tI` the terms of the exceptional loops, which may be computed differently at each place. -/
def zvecLoopC {α : Type} (chR chI : Nat → Picks) (tR tI : Nat → Nat → α → Flt) (T : Tune) (fold : Nat) (O : ZOp α) : Nat → List α → Nat → Binned × Binned → Binned × Binned
  | 0, _, _, y => (F.dmrenorm y.1, F.dmrenorm y.2)
  | fuel + 1, es, deposits, y =>
    if es.isEmpty then (F.dmrenorm y.1, F.dmrenorm y.2)
    else
      let b := es.take T.nb
      let a0 := F.amaxZ T O.e O.fR O.zfill b
      let a1 := F.amaxZ T O.e O.fI O.zfill b
      let y0 := if F.isInf a0 || F.isInf (nth y.1.pri 0) then F.accum0 (b.zipIdx.map (fun a => tR fuel a.2 a.1)) y.1 else y.1
      let y1 := if F.isInf a1 || F.isInf (nth y.2.pri 0) then F.accum0 (b.zipIdx.map (fun a => tI fuel a.2 a.1)) y.2 else y.2
      if F.isNaN (nth y0.pri 0) && F.isNaN (nth y1.pri 0) then (y0, y1)
      else if F.isInf (nth y0.pri 0) && F.isInf (nth y1.pri 0) then zvecLoopC chR chI tR tI T fold O fuel (es.drop T.nb) deposits (y0, y1)
      else
        let a0 := if F.isNaNInf (nth y0.pri 0) then nth y0.pri 0 else a0
        let a1 := if F.isNaNInf (nth y1.pri 0) then nth y1.pri 0 else a1
        let over := deposits + b.length > F.endurance / O.e
        let y0 := if over then F.dmrenorm y0 else y0
        let y1 := if over then F.dmrenorm y1 else y1
        let deposits := if over then 0 else deposits
        let y0 := F.dmdupdate fold a0 y0
        let y1 := F.dmdupdate fold a1 y1
        let z0 := F.dmindex0 (nth y0.pri 0)
        let z1 := F.dmindex0 (nth y1.pri 0)
        let w0 : Binned := ⟨F.kernelZC (chR fuel) T (zmode z0 z1) O.e O.fR O.zfill b y0.pri, y0.car⟩
        let w1 : Binned := ⟨F.kernelZC (chI fuel) T (zmode z1 z0) O.e O.fI O.zfill b y1.pri, y1.car⟩
        zvecLoopC chR chI tR tI T fold O fuel (es.drop T.nb) (deposits + b.length)
          (if F.isInf a0 then setHead a0 w0 else w0, if F.isInf a1 then setHead a1 w1 else w1)

/-- `binnedBLAS_zmzsum` (`src/binnedBLAS/zmzsum.ccog:57`) with contraction; the terms are the numbers themselves. -/
def zmzsumC (chR chI : Nat → Picks) (T : Tune) (fold n : Nat) (X : Int → Flt × Flt) (incX : Int) (y : Binned × Binned) : Binned × Binned :=
  F.zvecLoopC chR chI (fun _ _ a => a.1) (fun _ _ a => a.2) T fold zsumOp n (gatherZ X incX n) 0 y

/-- `binnedBLAS_zmzdotu`, `binnedBLAS_zmzdotc` (`src/binnedBLAS/zmzdotu.ccog:59`, `zmzdotc.ccog:59`) with contraction. -/
def zdotC (conj : Bool) (chR chI : Nat → Picks) (cR cI : Nat → Nat → Option Bool) (T : Tune) (fold n : Nat) (X : Int → Flt × Flt) (incX : Int) (Y : Int → Flt × Flt) (incY : Int)
    (z : Binned × Binned) : Binned × Binned :=
  F.zvecLoopC chR chI (fun r i => F.dotTermC conj false (cR r i)) (fun r i => F.dotTermC conj true (cI r i)) T fold
    (if conj then F.dotcOp T else F.dotuOp T) n ((gatherZ X incX n).zip (gatherZ Y incY n)) 0 z

/-- The block loop of `dmzasum` (`src/binnedBLAS/dmzasum.ccog:68-…`) with contraction. -/
def zasumLoopC (chR chI : Nat → Picks) (T : Tune) (fold : Nat) : Nat → List (Flt × Flt) → Nat → Binned × Binned → Binned → Binned
  | 0, _, _, s, y => F.dmdmadd fold (F.dmrenorm s.2) (F.dmdmadd fold (F.dmrenorm s.1) y)
  | fuel + 1, es, deposits, s, y =>
    if es.isEmpty then F.dmdmadd fold (F.dmrenorm s.2) (F.dmdmadd fold (F.dmrenorm s.1) y)
    else
      let b := es.take T.nb
      let a0 := F.amaxZ T 1 zasumOp.fR zasumOp.zfill b
      let a1 := F.amaxZ T 1 zasumOp.fI zasumOp.zfill b
      let amax := F.fmax a0 a1
      let y := if F.isInf amax || F.isInf (nth y.pri 0) then F.accum0 (b.flatMap (fun a => [fabs a.1, fabs a.2])) y else y
      if F.isNaN (nth y.pri 0) || F.isNaN (nth s.1.pri 0) || F.isNaN (nth s.2.pri 0) then
        F.accum0 [F.add (nth s.1.pri 0) (nth s.2.pri 0)] y
      else if F.isInf (nth y.pri 0) then zasumLoopC chR chI T fold fuel (es.drop T.nb) deposits s y
      else
        let over := deposits + b.length > F.endurance
        let s0 := if over then F.dmrenorm s.1 else s.1
        let s1 := if over then F.dmrenorm s.2 else s.2
        let deposits := if over then 0 else deposits
        let s0 := F.dmdupdate fold amax s0
        let s1 := F.dmdupdate fold amax s1
        let z0 := F.dmindex0 (nth s0.pri 0)
        let z1 := F.dmindex0 (nth s1.pri 0)
        zasumLoopC chR chI T fold fuel (es.drop T.nb) (deposits + b.length)
          (⟨F.kernelZC (chR fuel) T (zmode z0 z1) 1 zasumOp.fR zasumOp.zfill b s0.pri, s0.car⟩,
           ⟨F.kernelZC (chI fuel) T (zmode z1 z0) 1 zasumOp.fI zasumOp.zfill b s1.pri, s1.car⟩) y

/-- `binnedBLAS_dmzasum` (`src/binnedBLAS/dmzasum.ccog:57`) with contraction. -/
def dmzasumC (chR chI : Nat → Picks) (T : Tune) (fold n : Nat) (X : Int → Flt × Flt) (incX : Int) (y : Binned) : Binned :=
  F.zasumLoopC chR chI T fold n (gatherZ X incX n) 0 (dmsetzero fold, dmsetzero fold) y

/-- The block loop of `dmzssq` (`src/binnedBLAS/dmzssq.ccog:72-5179`) with contraction. -/
def zssqLoopC (chR chI : Nat → Picks) (T : Tune) (fold : Nat) (scaleY : Flt) : Nat → List (Flt × Flt) → Nat → Flt → Binned × Binned → Binned → Flt × Binned
  | 0, _, _, scl, s, y => F.zssqEnd fold scl s scaleY y
  | fuel + 1, es, deposits, scl, s, y =>
    if es = [] then F.zssqEnd fold scl s scaleY y
    else
      let b := es.take T.nb
      let a0 := F.amaxZ T 1 zasumOp.fR zasumOp.zfill b
      let a1 := F.amaxZ T 1 zasumOp.fI zasumOp.zfill b
      let amax := F.fmax a0 a1
      let y := if F.isInf amax || F.isInf (nth y.pri 0) then F.accum0 (b.flatMap (fun a => [fabs a.1, fabs a.2])) y else y
      if F.isNaN (nth y.pri 0) || F.isNaN (nth s.1.pri 0) || F.isNaN (nth s.2.pri 0) then
        (F.dscale F.one, F.accum0 [F.add (nth s.1.pri 0) (nth s.2.pri 0)] y)
      else if F.isInf (nth y.pri 0) then zssqLoopC chR chI T fold scaleY fuel (es.drop T.nb) deposits scl s y
      else
        let over := deposits + b.length > F.endurance
        let s := if over then (F.dmrenorm s.1, F.dmrenorm s.2) else s
        let deposits := if over then 0 else deposits
        let new := F.dscale amax
        let s := if F.lt scl new && F.lt zero scl then F.zmdrescale fold new scl s else s
        let scl := if F.lt scl new then new else scl
        let a := F.div amax scl
        let s0 := F.dmdupdate fold (F.mul a a) s.1
        let s1 := F.dmdupdate fold (F.mul a a) s.2
        let z0 := F.dmindex0 (nth s0.pri 0)
        let z1 := F.dmindex0 (nth s1.pri 0)
        let O := F.zssqOp scl
        zssqLoopC chR chI T fold scaleY fuel (es.drop T.nb) (deposits + b.length) scl
          (⟨F.kernelZC (chR fuel) T (zmode z0 z1) 1 O.fR O.zfill b s0.pri, s0.car⟩,
           ⟨F.kernelZC (chI fuel) T (zmode z1 z0) 1 O.fI O.zfill b s1.pri, s1.car⟩) y

/-- `binnedBLAS_dmzssq` (`src/binnedBLAS/dmzssq.ccog:59`) with contraction. -/
def dmzssqC (chR chI : Nat → Picks) (T : Tune) (fold n : Nat) (X : Int → Flt × Flt) (incX : Int) (scaleY : Flt) (y : Binned) : Flt × Binned :=
  F.zssqLoopC chR chI T fold scaleY n (gatherZ X incX n) 0 zero (dmsetzero fold, dmsetzero fold) y

/-! ### conversion -/

/-- One iteration of the scaled loop (`src/binned/ddmconv.c:56-59`) with contraction. -/
def convStepSC (v : Nat → Bool × Bool) (y : Binned) (k : Nat) (Y : Flt) (i : Nat) : Flt :=
  let Y := F.mac (v i).1 (nth y.car i) (F.mul (F.div (F.bins (k + i)) F.six) F.convDown) Y
  F.mac (v i).2 (F.sub (nth y.pri (i - 1)) (F.bins (k + (i - 1)))) F.convDown Y

/-- One iteration of the unscaled loop (`src/binned/ddmconv.c:68-71, 75-78`) with contraction. -/
def convStepC (v : Nat → Bool × Bool) (y : Binned) (k : Nat) (Y : Flt) (i : Nat) : Flt :=
  let Y := F.mac (v i).1 (nth y.car i) (F.div (F.bins (k + i)) F.six) Y
  F.add Y (F.sub (nth y.pri (i - 1)) (F.bins (k + (i - 1))))

/-- `binned_ddmconv` (`src/binned/ddmconv.c:23-81`) with contraction; `v i` are the choices at bin `i`. -/
def ddmconvC (v : Nat → Bool × Bool) (fold : Nat) (y : Binned) : Flt :=
  if F.isNaNInf (nth y.pri 0) then nth y.pri 0
  else if isZero (nth y.pri 0) then zero
  else
    let k := F.dmindex (nth y.pri 0)
    let last := F.sub (nth y.pri (fold - 1)) (F.bins (k + (fold - 1)))
    if k ≤ 3 * F.p / F.W then
      let scaled := min fold (3 * F.p / F.W - k)
      let start : Flt × Nat :=
        if k = 0 then
          let Y := F.mac (v 0).1 (nth y.car 0) (F.mul (F.mul (F.div (F.bins 0) F.six) F.convDown) F.expansion) zero
          let Y := F.mac (v 1).1 (nth y.car 1) (F.mul (F.div (F.bins 1) F.six) F.convDown) Y
          (F.mac (v 1).2 (F.mul (F.sub (nth y.pri 0) (F.bins 0)) F.convDown) F.expansion Y, 2)
        else
          (F.mac (v 0).1 (nth y.car 0) (F.mul (F.div (F.bins k) F.six) F.convDown) zero, 1)
      let Y := (List.range' start.2 (scaled - start.2)).foldl (F.convStepSC v y k) start.1
      let i := max start.2 scaled
      if i = fold then F.mul (F.mac (v fold).1 last F.convDown Y) F.convUp
      else if F.isInf (F.mul Y F.convUp) then F.mul Y F.convUp
      else
        let Y := F.mul Y F.convUp
        let Y := (List.range' i (fold - i)).foldl (F.convStepC v y k) Y
        F.add Y last
    else
      let Y := F.mac (v 0).1 (nth y.car 0) (F.div (F.bins k) F.six) zero
      let Y := (List.range' 1 (fold - 1)).foldl (F.convStepC v y k) Y
      F.add Y last

end Fmt

open Fmt

/-- One iteration of the loop of `binned_ssmconv` (`src/binned/ssmconv.c:50-53`) with contraction. -/
def sconvStepC (v : Nat → Bool × Bool) (y : Binned) (k : Nat) (Y : Flt) (i : Nat) : Flt :=
  let Y := f64.mac (v i).1 (widen (nth y.car i)) (sbin6 (k + i)) Y
  f64.add Y (widen (f32.sub (nth y.pri (i - 1)) (f32.bins (k + (i - 1)))))

/-- `binned_ssmconv` (`src/binned/ssmconv.c:22-57`) with contraction. -/
def ssmconvC (v : Nat → Bool × Bool) (fold : Nat) (y : Binned) : Flt :=
  if f32.isNaNInf (nth y.pri 0) then nth y.pri 0
  else if isZero (nth y.pri 0) then zero
  else
    let k := f32.dmindex (nth y.pri 0)
    let start : Flt × Nat :=
      if k = 0 then
        let Y := f64.mac (v 0).1 (f64.mul (widen (nth y.car 0)) (sbin6 0)) (widen f32.expansion) zero
        let Y := f64.mac (v 1).1 (widen (nth y.car 1)) (sbin6 1) Y
        (f64.mac (v 1).2 (widen (f32.sub (nth y.pri 0) (f32.bins 0))) (widen f32.expansion) Y, 2)
      else (f64.mac (v 0).1 (widen (nth y.car 0)) (sbin6 k) zero, 1)
    let Y := (List.range' start.2 (fold - start.2)).foldl (sconvStepC v y k) start.1
    narrow (f64.add Y (widen (f32.sub (nth y.pri (fold - 1)) (f32.bins (k + (fold - 1))))))

/-- Conversion of either format with contraction. -/
def convertC (v : Nat → Bool × Bool) (F : Fmt) (fold : Nat) (y : Binned) : Flt :=
  if F = f32 then ssmconvC v fold y else F.ddmconvC v fold y

/-- Deposits in a loop (`deposits`), with contraction. -/
def Fmt.depositsC (F : Fmt) (ch : Picks) (xs : List Flt) (y : Binned) : Binned :=
  xs.zipIdx.foldl (fun y x => ⟨F.dmddepositC (ch x.2) x.1 y.pri, y.car⟩) y

/-- A history of operations (`Hist.eval`) in a program compiled with contraction: the deposits are the only operations with
products. `ch` gives the choices at each node of the history (named by the path to it). -/
def Hist.evalC (F : Fmt) (fold : Nat) : (ch : List Bool → Picks) → Hist → Binned
  | _, .zero => Fmt.dmsetzero fold
  | ch, .add x h =>
    let y := F.dmdupdate fold x (h.evalC F fold (fun p => ch (false :: p)))
    F.dmrenorm ⟨F.dmddepositC (ch [] 0) x y.pri, y.car⟩
  | ch, .update x h => F.dmdupdate fold x (h.evalC F fold (fun p => ch (false :: p)))
  | ch, .batch b xs h => F.dmrenorm (F.depositsC (ch []) xs (F.dmdupdate fold b (h.evalC F fold (fun p => ch (false :: p)))))
  | ch, .merge h₁ h₂ => F.dmdmadd fold (h₁.evalC F fold (fun p => ch (false :: p))) (h₂.evalC F fold (fun p => ch (true :: p)))
  | ch, .negate h => F.dmnegate fold (h.evalC F fold (fun p => ch (false :: p)))
  | ch, .renorm h => F.dmrenorm (h.evalC F fold (fun p => ch (false :: p)))

end Repro
