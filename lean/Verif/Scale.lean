import Verif.Conv
/-!
# Scales, the unit in the first place, and scaled sums of squares
-/

namespace Repro
namespace Fmt
variable (F : Fmt)

/-- `1.0` -/
def one : Flt := F.pow2 0

/-- `binned_dscale` (`src/binned/dscale.c:25-31`), `binned_sscale` (`src/binned/sscale.c:25-31`). `%` is the C
remainder, whose sign is that of the dividend. `ldexp(0.5, e)` is `2^(e-1)`. -/
def dscale (x : Flt) : Flt :=
  let e : Int := if F.expo x < F.W then F.W else F.expo x
  let e := e - Int.tmod (e - F.bias - 1) F.W
  let e := e - F.bias
  F.pow2 (e - 1)

/-- `UFPF` (`src/common/common.h:35-40`), `binned_ufpf` (`src/binned/ufpf.c:20-30`): keep the exponent field only. -/
def ufpBits (x : Flt) : Flt := ⟨false, F.expo x * 2 ^ (F.p - 1)⟩

end Fmt

/-- `binned_ufpf`. -/
def ufpf (x : Flt) : Flt := f32.ufpBits x

/-- `binned_ufp` (`src/binned/ufp.c:20-30`). The helper `UFP` (`src/common/common.h:28-33`) returns `float`, so the
power of two is rounded to single precision and widened again. -/
def ufp (x : Flt) : Flt := widen (narrow (f64.ufpBits x))

namespace Fmt
variable (F : Fmt)

/-- The loop of `binned_dmdrescale` (`src/binned/dmdrescale.c:30-36`) from some position on: `pri`, `car` are the
elements from there to the end. -/
def rescaleLoop (r : Flt) : List Flt → List Flt → Binned
  | [], car => ⟨[], car⟩
  | p :: pri, car =>
    let q := F.div p r
    if isZero q then F.dmdupdate (pri.length + 1) zero ⟨q :: pri, car⟩
    else
      let y := rescaleLoop r pri car.tail
      ⟨q :: y.pri, car.headD zero :: y.car⟩

/-- `binned_dmdrescale` (`src/binned/dmdrescale.c:20-37`), `binned_smsrescale` (`src/binned/smsrescale.c:20-37`). -/
def dmdrescale (X scaleY : Flt) (y : Binned) : Binned :=
  if F.feq X scaleY || isZero X || isZero scaleY then y
  else
    let r := F.div X scaleY
    let r := F.mul r r
    F.rescaleLoop r y.pri y.car

/-- `binned_dmdmaddsq` (`src/binned/dmdmaddsq.c:26-41`): returns the scale and the new value of Y. -/
def dmdmaddsq (fold : Nat) (scaleX : Flt) (x : Binned) (scaleY : Flt) (y : Binned) : Flt × Binned :=
  if F.lt scaleY scaleX then (scaleX, F.dmdmadd fold x (F.dmdrescale scaleX scaleY y))
  else if F.feq scaleX scaleY then (scaleX, F.dmdmadd fold x y)
  else (scaleY, F.dmdmadd fold (F.dmdrescale scaleY scaleX x) y)

end Fmt
end Repro
