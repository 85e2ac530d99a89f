import Verif.Ftz
import Verif.Conv
/-!
# The conversions in flush-to-zero mode

`binned_ddmconv` and `binned_ssmconv` repeated with the arithmetic of `Verif/Ftz.lean`.
-/

namespace Repro
namespace Fmt
variable (F : Fmt)

/-- `x / y` in DAZ/FTZ mode -/
def divZ (x y : Flt) : Flt := F.flush (F.div (F.flush x) (F.flush y))

/-- One iteration of the scaled loop (`src/binned/ddmconv.c:56-59`) in DAZ/FTZ mode. -/
def convStepSZ (y : Binned) (k : Nat) (Y : Flt) (i : Nat) : Flt :=
  let Y := F.addZ Y (F.mulZ (nth y.car i) (F.mulZ (F.divZ (F.bins (k + i)) F.six) F.convDown))
  F.addZ Y (F.mulZ (F.subZ (nth y.pri (i - 1)) (F.bins (k + (i - 1)))) F.convDown)

/-- One iteration of the unscaled loop (`src/binned/ddmconv.c:68-71, 75-78`) in DAZ/FTZ mode. -/
def convStepZ (y : Binned) (k : Nat) (Y : Flt) (i : Nat) : Flt :=
  let Y := F.addZ Y (F.mulZ (nth y.car i) (F.divZ (F.bins (k + i)) F.six))
  F.addZ Y (F.subZ (nth y.pri (i - 1)) (F.bins (k + (i - 1))))

/-- `binned_ddmconv` (`src/binned/ddmconv.c:23-81`) in DAZ/FTZ mode: `ddmconv` with `addZ`, `subZ`, `mulZ`, `divZ` and `isZeroZ`. -/
def ddmconvZ (fold : Nat) (y : Binned) : Flt :=
  if F.isNaNInf (nth y.pri 0) then nth y.pri 0
  else if F.isZeroZ (nth y.pri 0) then zero
  else
    let k := F.dmindex (nth y.pri 0)
    let last := F.subZ (nth y.pri (fold - 1)) (F.bins (k + (fold - 1)))
    if k ≤ 3 * F.p / F.W then
      let scaled := min fold (3 * F.p / F.W - k)
      let start : Flt × Nat :=
        if k = 0 then
          let Y := F.addZ zero (F.mulZ (nth y.car 0) (F.mulZ (F.mulZ (F.divZ (F.bins 0) F.six) F.convDown) F.expansion))
          let Y := F.addZ Y (F.mulZ (nth y.car 1) (F.mulZ (F.divZ (F.bins 1) F.six) F.convDown))
          (F.addZ Y (F.mulZ (F.mulZ (F.subZ (nth y.pri 0) (F.bins 0)) F.convDown) F.expansion), 2)
        else
          (F.addZ zero (F.mulZ (nth y.car 0) (F.mulZ (F.divZ (F.bins k) F.six) F.convDown)), 1)
      let Y := (List.range' start.2 (scaled - start.2)).foldl (F.convStepSZ y k) start.1
      let i := max start.2 scaled
      if i = fold then F.mulZ (F.addZ Y (F.mulZ last F.convDown)) F.convUp
      else if F.isInf (F.mulZ Y F.convUp) then F.mulZ Y F.convUp
      else
        let Y := F.mulZ Y F.convUp
        let Y := (List.range' i (fold - i)).foldl (F.convStepZ y k) Y
        F.addZ Y last
    else
      let Y := F.addZ zero (F.mulZ (nth y.car 0) (F.divZ (F.bins k) F.six))
      let Y := (List.range' 1 (fold - 1)).foldl (F.convStepZ y k) Y
      F.addZ Y last

end Fmt

/-- `(double)x` of a `float` in DAZ/FTZ mode: a subnormal `float` is read as zero. -/
def widenZ (x : Flt) : Flt := f64.flush (widen (f32.flush x))

/-- `(float)x` of a `double` in DAZ/FTZ mode: a subnormal `double` is read as zero, a subnormal result is replaced by zero. -/
def narrowZ (x : Flt) : Flt := f32.flush (narrow (f64.flush x))

open Fmt in
/-- `(double)(bins[i]/6.0)` in DAZ/FTZ mode. -/
def sbin6Z (i : Nat) : Flt := f64.divZ (widenZ (f32.bins i)) f64.six

/-- One iteration of the loop of `binned_ssmconv` (`src/binned/ssmconv.c:50-53`) in DAZ/FTZ mode. -/
def sconvStepZ (y : Binned) (k : Nat) (Y : Flt) (i : Nat) : Flt :=
  let Y := f64.addZ Y (f64.mulZ (widenZ (nth y.car i)) (sbin6Z (k + i)))
  f64.addZ Y (widenZ (f32.subZ (nth y.pri (i - 1)) (f32.bins (k + (i - 1)))))

open Fmt in
/-- `binned_ssmconv` (`src/binned/ssmconv.c:22-57`) in DAZ/FTZ mode. -/
def ssmconvZ (fold : Nat) (y : Binned) : Flt :=
  if f32.isNaNInf (nth y.pri 0) then nth y.pri 0
  else if f32.isZeroZ (nth y.pri 0) then zero
  else
    let k := f32.dmindex (nth y.pri 0)
    let start : Flt × Nat :=
      if k = 0 then
        let Y := f64.addZ zero (f64.mulZ (f64.mulZ (widenZ (nth y.car 0)) (sbin6Z 0)) (widenZ f32.expansion))
        let Y := f64.addZ Y (f64.mulZ (widenZ (nth y.car 1)) (sbin6Z 1))
        (f64.addZ Y (f64.mulZ (widenZ (f32.subZ (nth y.pri 0) (f32.bins 0))) (widenZ f32.expansion)), 2)
      else (f64.addZ zero (f64.mulZ (widenZ (nth y.car 0)) (sbin6Z k)), 1)
    let Y := (List.range' start.2 (fold - start.2)).foldl (sconvStepZ y k) start.1
    narrowZ (f64.addZ Y (widenZ (f32.subZ (nth y.pri (fold - 1)) (f32.bins (k + (fold - 1))))))

open Fmt in
/-- Conversion of a binned value of either format in DAZ/FTZ mode. -/
def convertZ (F : Fmt) (fold : Nat) (y : Binned) : Flt :=
  if F = f32 then ssmconvZ fold y else F.ddmconvZ fold y

end Repro
