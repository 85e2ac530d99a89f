import Verif.Ssq
import Verif.Complex
/-!
# Model of the scaled sums of squares of complex vectors

`src/binnedBLAS/dmzssq.ccog`, `src/binnedBLAS/smcssq.ccog`, `src/binned/zmdrescale.c`, `src/reproBLAS/rdznrm2.c` and
their single precision copies. The complex temporary is the pair of its parts, as in `Verif/Complex.lean`.
-/

namespace Repro
namespace Fmt
variable (F : Fmt)

/-- `binned_zmdupdate` (`src/binned/zmdupdate.c:20-23`) called for `y + i`, `fold - i` with the number `0.0`, seen from
one part: the entries before `i` stay. -/
def tailUpdate (i : Nat) (y : Binned) : Binned :=
  let t := F.dmdupdate (y.pri.length - i) zero ⟨y.pri.drop i, y.car.drop i⟩
  ⟨y.pri.take i ++ t.pri, y.car.take i ++ t.car⟩

/-- The loop of `binned_zmdrescale` (`src/binned/zmdrescale.c:29-36`), `binned_cmsrescale`
(`src/binned/cmsrescale.c:29-36`), `n` rounds from round `i` on. The element `priY[i * incpriY]` that is
compared with zero is not one of the two that were just divided: in the array of complex numbers it is
the real (`i` even) or imaginary (`i` odd) part of entry `i / 2`. -/
def zrescaleLoop (r : Flt) : Nat → Nat → Binned × Binned → Binned × Binned
  | 0, _, y => y
  | n + 1, i, y =>
    let p0 := y.1.pri.set i (F.div (nth y.1.pri i) r)
    let p1 := y.2.pri.set i (F.div (nth y.2.pri i) r)
    let probe := if i % 2 = 0 then nth p0 (i / 2) else nth p1 (i / 2)
    if isZero probe then (F.tailUpdate i ⟨p0, y.1.car⟩, F.tailUpdate i ⟨p1, y.2.car⟩)
    else zrescaleLoop r n (i + 1) (⟨p0, y.1.car⟩, ⟨p1, y.2.car⟩)

/-- `binned_zmdrescale` (`src/binned/zmdrescale.c:20-38`), `binned_cmsrescale` (`src/binned/cmsrescale.c:20-38`). -/
def zmdrescale (fold : Nat) (X scaleY : Flt) (y : Binned × Binned) : Binned × Binned :=
  if F.feq X scaleY || isZero X || isZero scaleY then y
  else
    let r := F.div X scaleY
    let r := F.mul r r
    F.zrescaleLoop r fold 0 y

/-- What the complex kernel deposits (`src/binnedBLAS/depositSSq.py:18-28`): the squares of the scaled parts. -/
def zssqOp (scl : Flt) : ZOp (Flt × Flt) where
  e := 1
  fR a _ := F.sq scl a.1
  fI a _ := F.sq scl a.2
  tR a := fabs a.1
  tI a := fabs a.2
  zfill := (zero, zero)

/-- The end of `binnedBLAS_dmzssq` (`src/binnedBLAS/dmzssq.ccog:5181-5192`): the two parts of the temporary are merged into Y. -/
def zssqEnd (fold : Nat) (scl : Flt) (s : Binned × Binned) (scaleY : Flt) (y : Binned) : Flt × Binned :=
  let u := F.dmdmaddsq fold scl (F.dmrenorm s.1) scaleY y
  let v := F.dmdmaddsq fold scl (F.dmrenorm s.2) u.1 u.2
  (if F.isNaNInf (nth v.2.pri 0) then F.dscale F.one else v.1, v.2)

/-- The block loop of `binnedBLAS_dmzssq` (`src/binnedBLAS/dmzssq.ccog:72-5179`), `binnedBLAS_smcssq` (`src/binnedBLAS/smcssq.ccog:75-5786`) on the remaining
elements: `s` is the complex temporary `ssq`, `scl` its scale, `y` the result with the scale `scaleY` the caller gave. -/
def zssqLoop (T : Tune) (fold : Nat) (scaleY : Flt) : Nat → List (Flt × Flt) → Nat → Flt → Binned × Binned → Binned → Flt × Binned
  | 0, _, _, scl, s, y => F.zssqEnd fold scl s scaleY y
  | fuel + 1, es, deposits, scl, s, y =>
    if es = [] then F.zssqEnd fold scl s scaleY y
    else
      let b := es.take T.nb
      let a0 := F.amaxZ T 1 zasumOp.fR zasumOp.zfill b
      let a1 := F.amaxZ T 1 zasumOp.fI zasumOp.zfill b
      let amax := F.fmax a0 a1
      let y := if F.isInf amax || F.isInf (nth y.pri 0) then F.accum0 (b.flatMap (fun a => [fabs a.1, fabs a.2])) y else y
      if F.isNaN (nth y.pri 0) || F.isNaN (nth s.1.pri 0) || F.isNaN (nth s.2.pri 0) then
        (F.dscale F.one, F.accum0 [F.add (nth s.1.pri 0) (nth s.2.pri 0)] y)
      else if F.isInf (nth y.pri 0) then zssqLoop T fold scaleY fuel (es.drop T.nb) deposits scl s y
      else
        let over := deposits + b.length > F.endurance
        let s := if over then (F.dmrenorm s.1, F.dmrenorm s.2) else s
        let deposits := if over then 0 else deposits
        let new := F.dscale amax
        let s := if F.lt scl new && F.lt zero scl then F.zmdrescale fold new scl s else s
        let scl := if F.lt scl new then new else scl
        let a := F.div amax scl
        let s0 := F.dmdupdate fold (F.mul a a) s.1
        let s1 := F.dmdupdate fold (F.mul a a) s.2
        let z0 := F.dmindex0 (nth s0.pri 0)
        let z1 := F.dmindex0 (nth s1.pri 0)
        let O := F.zssqOp scl
        zssqLoop T fold scaleY fuel (es.drop T.nb) (deposits + b.length) scl
          (⟨F.kernelZ T (zmode z0 z1) 1 O.fR O.zfill b s0.pri, s0.car⟩,
           ⟨F.kernelZ T (zmode z1 z0) 1 O.fI O.zfill b s1.pri, s1.car⟩) y

/-- `binnedBLAS_dmzssq` (`src/binnedBLAS/dmzssq.ccog:59`) on the list of elements it reads. -/
def zssqList (T : Tune) (fold : Nat) (es : List (Flt × Flt)) (scaleY : Flt) (y : Binned) : Flt × Binned :=
  F.zssqLoop T fold scaleY es.length es 0 zero (dmsetzero fold, dmsetzero fold) y

/-- `binnedBLAS_dmzssq` (`src/binnedBLAS/dmzssq.ccog:59`), `binnedBLAS_smcssq` (`src/binnedBLAS/smcssq.ccog:59`);
`binnedBLAS_dbzssq` (`src/binnedBLAS/dbzssq.c:19-21`) calls it with unit strides. -/
def dmzssq (T : Tune) (fold n : Nat) (X : Int → Flt × Flt) (incX : Int) (scaleY : Flt) (y : Binned) : Flt × Binned :=
  F.zssqList T fold (gatherZ X incX n) scaleY y

end Fmt
open Fmt

/-- `reproBLAS_rdznrm2` (`src/reproBLAS/rdznrm2.c:22-34`), `reproBLAS_rscnrm2`. -/
def rdznrm2 (F : Fmt) (T : Tune) (fold n : Nat) (X : Int → Flt × Flt) (incX : Int) : Flt :=
  normOf F fold (F.dmzssq T fold n X incX zero (dmsetzero fold))

/-- `reproBLAS_dznrm2` (`src/reproBLAS/dznrm2.c:20-22`), `reproBLAS_scnrm2`. -/
def dznrm2 (F : Fmt) (T : Tune) (n : Nat) (X : Int → Flt × Flt) (incX : Int) : Flt := rdznrm2 F T defaultFold n X incX

end Repro
