import Verif.Scale
import Verif.Vec
import Verif.Bound
/-!
# Model of the scaled sums of squares of `src/binnedBLAS` and of the 2-norms of `src/reproBLAS`

A scaled sum of squares is a pair `(scale, Y)`: `Y` is a binned number holding the sum of the squares of `x / scale`.
-/

namespace Repro
namespace Fmt
variable (F : Fmt)

/-- What the kernel deposits for `x` (`src/binnedBLAS/depositSSq.py:18-28`): `x * (1.0 / scale)`, squared; both products
are rounded. -/
def sq (scl x : Flt) : Flt :=
  let t := F.mul x (F.div F.one scl)
  F.mul t t

/-- The end of `binnedBLAS_dmdssq` (`src/binnedBLAS/dmdssq.ccog:4962-4969`). -/
def ssqEnd (scl : Flt) (y : Binned) : Flt × Binned :=
  let y := F.dmrenorm y
  (if F.isNaNInf (nth y.pri 0) then F.dscale F.one else scl, y)

/-- The block loop of `binnedBLAS_dmdssq` (`src/binnedBLAS/dmdssq.ccog:68-4960`), `binnedBLAS_smsssq`
(`src/binnedBLAS/smsssq.ccog:67-6894`), on the remaining elements `xs`, with the counter `deposits`, the scale and the
accumulator. The first argument bounds the number of rounds (every round consumes at least one element). The result is
the returned scale and the accumulator. -/
def ssqLoop (T : Tune) (fold : Nat) : Nat → List Flt → Nat → Flt → Binned → Flt × Binned
  | 0, _, _, scl, y => F.ssqEnd scl y
  | fuel + 1, xs, deposits, scl, y =>
    if xs = [] then F.ssqEnd scl y
    else
      let b := xs.take T.nb
      let amax := F.amaxK T (b.map fabs)
      let y := if F.isInf amax || F.isInf (nth y.pri 0) then F.accum0 (b.map fabs) y else y
      if F.isNaN (nth y.pri 0) then (F.dscale F.one, y)
      else if F.isInf (nth y.pri 0) then ssqLoop T fold fuel (xs.drop T.nb) deposits scl y
      else
        let over := deposits + b.length > F.endurance
        let y := if over then F.dmrenorm y else y
        let deposits := if over then 0 else deposits
        let new := F.dscale amax
        let y := if F.lt scl new && F.lt zero scl then F.dmdrescale new scl y else y
        let scl := if F.lt scl new then new else scl
        let a := F.div amax scl
        let y := F.dmdupdate fold (F.mul a a) y
        ssqLoop T fold fuel (xs.drop T.nb) (deposits + b.length) scl ⟨F.kernel T (b.map (F.sq scl)) y.pri, y.car⟩

/-- `binnedBLAS_dmdssq` (`src/binnedBLAS/dmdssq.ccog:60`) on the list of elements it reads. -/
def ssqList (T : Tune) (fold : Nat) (xs : List Flt) (scl : Flt) (y : Binned) : Flt × Binned :=
  F.ssqLoop T fold xs.length xs 0 scl y

/-- `binnedBLAS_dmdssq` (`src/binnedBLAS/dmdssq.ccog:60`), `binnedBLAS_smsssq` (`src/binnedBLAS/smsssq.ccog:59`);
`binnedBLAS_dbdssq` (`src/binnedBLAS/dbdssq.c:19-21`) calls it with unit strides. -/
def dmdssq (T : Tune) (fold n : Nat) (X : Int → Flt) (incX : Int) (scl : Flt) (y : Binned) : Flt × Binned :=
  F.ssqList T fold (gather X incX n) scl y

end Fmt
open Fmt

/-- `scl * sqrt(binned_ddbconv(fold, ssq))` (`src/reproBLAS/rdnrm2.c:31`); in the float version
(`src/reproBLAS/rsnrm2.c:31`) `sqrt` is the double function, so root and product are computed in double and converted
to float. -/
def normOf (F : Fmt) (fold : Nat) (s : Flt × Binned) : Flt :=
  if F = f32 then narrow (f64.mul (widen s.1) (f64.sqrt (widen (convert f32 fold s.2))))
  else f64.mul s.1 (f64.sqrt (convert f64 fold s.2))

/-- `reproBLAS_rdnrm2` (`src/reproBLAS/rdnrm2.c:22-34`), `reproBLAS_rsnrm2` (`src/reproBLAS/rsnrm2.c:22-34`). -/
def rdnrm2 (F : Fmt) (T : Tune) (fold n : Nat) (X : Int → Flt) (incX : Int) : Flt :=
  normOf F fold (F.dmdssq T fold n X incX zero (dmsetzero fold))

/-- `reproBLAS_dnrm2` (`src/reproBLAS/dnrm2.c:20-22`), `reproBLAS_snrm2`. -/
def dnrm2 (F : Fmt) (T : Tune) (n : Nat) (X : Int → Flt) (incX : Int) : Flt := rdnrm2 F T defaultFold n X incX

end Repro
