import Verif.Binned
/-!
# Model of the conversions back to native floating point and of the error bound function
-/

namespace Repro
namespace Fmt
variable (F : Fmt)

/-- The literal `6.0`. -/
def six : Flt := F.ofInt 6

/-- `scale_down = ldexp(0.5, 1 - (2 * DBL_MANT_DIG - DBWIDTH))` (`src/binned/ddmconv.c:44`). -/
def convDown : Flt := F.pow2 (-(2 * (F.p : Int) - F.W))

/-- `scale_up = ldexp(0.5, 1 + (2 * DBL_MANT_DIG - DBWIDTH))` (`src/binned/ddmconv.c:45`). -/
def convUp : Flt := F.pow2 (2 * (F.p : Int) - F.W)

/-- One iteration of the scaled loop (`src/binned/ddmconv.c:56-59`); `k` is the index of the value. -/
def convStepS (y : Binned) (k : Nat) (Y : Flt) (i : Nat) : Flt :=
  let Y := F.add Y (F.mul (nth y.car i) (F.mul (F.div (F.bins (k + i)) F.six) F.convDown))
  F.add Y (F.mul (F.sub (nth y.pri (i - 1)) (F.bins (k + (i - 1)))) F.convDown)

/-- One iteration of the unscaled loop (`src/binned/ddmconv.c:68-71, 75-78`). -/
def convStep (y : Binned) (k : Nat) (Y : Flt) (i : Nat) : Flt :=
  let Y := F.add Y (F.mul (nth y.car i) (F.div (F.bins (k + i)) F.six))
  F.add Y (F.sub (nth y.pri (i - 1)) (F.bins (k + (i - 1))))

/-- `binned_ddmconv` (`src/binned/ddmconv.c:23-81`). The code is only compiled for `double`
(`F = f64`); `for(; i < n; i++)` started at `i0` is a fold over `i0, ..., n-1` and leaves
`i = max i0 n`. -/
def ddmconv (fold : Nat) (y : Binned) : Flt :=
  if F.isNaNInf (nth y.pri 0) then nth y.pri 0
  else if isZero (nth y.pri 0) then zero
  else
    let k := F.dmindex (nth y.pri 0)
    let last := F.sub (nth y.pri (fold - 1)) (F.bins (k + (fold - 1)))
    if k ≤ 3 * F.p / F.W then
      let scaled := min fold (3 * F.p / F.W - k)
      let start : Flt × Nat :=
        if k = 0 then
          let Y := F.add zero (F.mul (nth y.car 0) (F.mul (F.mul (F.div (F.bins 0) F.six) F.convDown) F.expansion))
          let Y := F.add Y (F.mul (nth y.car 1) (F.mul (F.div (F.bins 1) F.six) F.convDown))
          (F.add Y (F.mul (F.mul (F.sub (nth y.pri 0) (F.bins 0)) F.convDown) F.expansion), 2)
        else
          (F.add zero (F.mul (nth y.car 0) (F.mul (F.div (F.bins k) F.six) F.convDown)), 1)
      let Y := (List.range' start.2 (scaled - start.2)).foldl (F.convStepS y k) start.1
      let i := max start.2 scaled
      if i = fold then F.mul (F.add Y (F.mul last F.convDown)) F.convUp
      else if F.isInf (F.mul Y F.convUp) then F.mul Y F.convUp
      else
        let Y := F.mul Y F.convUp
        let Y := (List.range' i (fold - i)).foldl (F.convStep y k) Y
        F.add Y last
    else
      let Y := F.add zero (F.mul (nth y.car 0) (F.div (F.bins k) F.six))
      let Y := (List.range' 1 (fold - 1)).foldl (F.convStep y k) Y
      F.add Y last

end Fmt

/-- C conversion `(double)x` of a `float`: exact. -/
def widen (x : Flt) : Flt :=
  if f32.isNaN x then f64.nan
  else if f32.isInf x then ⟨x.neg, f64.infMag⟩
  else ⟨x.neg, f64.roundMag (f32.val x.mag * 2 ^ (f64.eta - f32.eta)) 0⟩

/-- C conversion `(float)x` of a `double`: round to nearest even. -/
def narrow (x : Flt) : Flt :=
  if f64.isNaN x then f32.nan
  else if f64.isInf x then ⟨x.neg, f32.infMag⟩
  else ⟨x.neg, f32.roundMag (f64.val x.mag) (f64.eta - f32.eta)⟩

open Fmt in
/-- `(double)(bins[i]/6.0)`: the float is promoted, the division is in double. -/
def sbin6 (i : Nat) : Flt := f64.div (widen (f32.bins i)) f64.six

/-- One iteration of the loop of `binned_ssmconv` (`src/binned/ssmconv.c:50-53`). -/
def sconvStep (y : Binned) (k : Nat) (Y : Flt) (i : Nat) : Flt :=
  let Y := f64.add Y (f64.mul (widen (nth y.car i)) (sbin6 (k + i)))
  f64.add Y (widen (f32.sub (nth y.pri (i - 1)) (f32.bins (k + (i - 1)))))

open Fmt in
/-- `binned_ssmconv` (`src/binned/ssmconv.c:22-57`): accumulates in `double`. -/
def ssmconv (fold : Nat) (y : Binned) : Flt :=
  if f32.isNaNInf (nth y.pri 0) then nth y.pri 0
  else if isZero (nth y.pri 0) then zero
  else
    let k := f32.dmindex (nth y.pri 0)
    let start : Flt × Nat :=
      if k = 0 then
        let Y := f64.add zero (f64.mul (f64.mul (widen (nth y.car 0)) (sbin6 0)) (widen f32.expansion))
        let Y := f64.add Y (f64.mul (widen (nth y.car 1)) (sbin6 1))
        (f64.add Y (f64.mul (widen (f32.sub (nth y.pri 0) (f32.bins 0))) (widen f32.expansion)), 2)
      else (f64.add zero (f64.mul (widen (nth y.car 0)) (sbin6 k)), 1)
    let Y := (List.range' start.2 (fold - start.2)).foldl (sconvStep y k) start.1
    narrow (f64.add Y (widen (f32.sub (nth y.pri (fold - 1)) (f32.bins (k + (fold - 1))))))

open Fmt in
/-- Conversion of a binned value of either format: `binned_ddmconv` for double, `binned_ssmconv` for
float. -/
def convert (F : Fmt) (fold : Nat) (y : Binned) : Flt :=
  if F = f32 then ssmconv fold y else F.ddmconv fold y

end Repro
