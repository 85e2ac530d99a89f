import Verif.Conv
/-!
# Square root and the error bound functions
-/

namespace Repro

/-- Integer square root, two bits at a time (`n` = number of bit pairs). -/
def isqrt : Nat → Nat → Nat
  | 0, _ => 0
  | n + 1, m => let r := 2 * isqrt n (m / 4); if (r + 1) * (r + 1) ≤ m then r + 1 else r

namespace Fmt
variable (F : Fmt)

/-- IEEE square root: correctly rounded, as `sqrt` of `<math.h>` is on IEEE systems. The root is computed to two extra
bits and a sticky bit, which decides every rounding correctly. -/
def sqrt (x : Flt) : Flt :=
  if F.isNaN x then F.nan
  else if x.mag = 0 then x
  else if x.neg then F.nan
  else if F.isInf x then x
  else
    let m := 4 * (F.val x.mag * 2 ^ F.eta)
    let r := isqrt (Nat.log2 m / 2 + 1) m
    ⟨false, F.roundMag (2 * r + (if r * r = m then 0 else 1)) 2⟩

/-- `ldexp(0.5, e + 1)` = `2^e`, including the underflow to zero. -/
def ldexp1 (e : Int) : Flt := if 0 ≤ (F.eta : Int) + e then F.pow2 e else zero

/-- `MAX` (`src/common/common.h:11-13`). -/
def cmax (a b : Flt) : Flt := if F.lt b a then a else b

end Fmt
open Fmt

/-- The constant `(7 eps) / (1 - 6 sqrt(eps) - 7 eps)` of `src/binned/dbbound.c:22`, `src/binned/sbbound.c:25`, in double;
`eps` is `DBL_EPSILON` / `FLT_EPSILON` = `2^(1-p)`. -/
def boundC (G : Fmt) : Flt :=
  let eps := f64.pow2 (1 - (G.p : Int))
  f64.div (f64.mul (f64.ofInt 7) eps)
    (f64.sub (f64.sub (f64.pow2 0) (f64.mul (f64.ofInt 6) (f64.sqrt eps))) (f64.mul (f64.ofInt 7) eps))

/-- The expression of `src/binned/dbbound.c:22` and `src/binned/sbbound.c:25`, evaluated in double. `X`, `S` are doubles;
`ldexp(0.5, DBL_MIN_EXP - 1)` is `2^(1 - MAX_EXP)`. -/
def boundIn64 (G : Fmt) (fold N : Nat) (X S : Flt) : Flt :=
  f64.add
    (f64.mul (f64.mul (f64.cmax (fabs X) (f64.ldexp1 (1 - (G.maxExp : Int)))) (f64.ldexp1 ((1 - (fold : Int)) * G.W))) (f64.ofInt N))
    (f64.mul (boundC G) (fabs S))

/-- `binned_dbbound` (`src/binned/dbbound.c:21-23`). -/
def dbbound (fold N : Nat) (X S : Flt) : Flt := boundIn64 f64 fold N X S

/-- `binned_sbbound` (`src/binned/sbbound.c:25-27`). -/
def sbbound (fold N : Nat) (X S : Flt) : Flt := narrow (boundIn64 f32 fold N (widen X) (widen S))

/-- The bound function of either format. -/
def bound (F : Fmt) (fold N : Nat) (X S : Flt) : Flt := if F = f32 then sbbound fold N X S else dbbound fold N X S

end Repro
