/-!
# IEEE-754 binary floating point as bit patterns

Model of the C `double` / `float` arithmetic used by ReproBLAS.  A number is its bit pattern,
with the sign bit kept apart from the other bits (exponent field and mantissa, read as one
natural number, as the unions `long_double` / `int_float` of `src/common/common.h:18-26` do).
-/

namespace Repro

/-- Format constants: `p = DBL_MANT_DIG`, `maxExp = DBL_MAX_EXP` (`<float.h>`), and the bin width
`W = DBWIDTH` (`include/binned.h:84`) / `SBWIDTH` (`include/binned.h:95`). -/
structure Fmt where
  p : Nat
  maxExp : Nat
  W : Nat
deriving DecidableEq, Repr

/-- `double`: `DBL_MANT_DIG = 53`, `DBL_MAX_EXP = 1024`, `DBWIDTH = 40` (`include/binned.h:84`). -/
def f64 : Fmt := ⟨53, 1024, 40⟩

/-- `float`: `FLT_MANT_DIG = 24`, `FLT_MAX_EXP = 128`, `SBWIDTH = 13` (`include/binned.h:95`). -/
def f32 : Fmt := ⟨24, 128, 13⟩

/-- The two formats the library is compiled for. -/
class Fmt.OK (F : Fmt) : Prop where
  isDoubleOrFloat : F = f64 ∨ F = f32

instance : Fmt.OK f64 := ⟨Or.inl rfl⟩
instance : Fmt.OK f32 := ⟨Or.inr rfl⟩

/-- A bit pattern: sign bit and the remaining bits. -/
structure Flt where
  neg : Bool
  mag : Nat
deriving DecidableEq, Repr

namespace Fmt
variable (F : Fmt)

/-- All-ones exponent field, `2 * DBL_MAX_EXP - 1` (`src/common/common.h:45`). -/
def emax : Nat := 2 * F.maxExp - 1

/-- Magnitude bits of infinity (all-ones exponent, zero mantissa). -/
def infMag : Nat := F.emax * 2 ^ (F.p - 1)

/-- `EXP_BIAS = DBL_MAX_EXP - 2` (`src/common/common.h:48`). -/
def bias : Nat := F.maxExp - 2

/-- `2 ^ -eta` is the least positive (subnormal) number: 1074 for double, 149 for float. -/
def eta : Nat := F.bias + F.p - 1

/-- Magnitude denoted by the bits `m`, in units of the least subnormal. -/
def val (m : Nat) : Nat :=
  if m < 2 ^ (F.p - 1) then m
  else (2 ^ (F.p - 1) + m % 2 ^ (F.p - 1)) * 2 ^ (m / 2 ^ (F.p - 1) - 1)

/-- Exact value of a finite number in units of the least subnormal. -/
def toInt (x : Flt) : Int := if x.neg then -(F.val x.mag : Int) else (F.val x.mag : Int)

/-- finite number (not Inf, not NaN) -/
def Finite (x : Flt) : Prop := x.mag < F.infMag

instance (x : Flt) : Decidable (F.Finite x) := inferInstanceAs (Decidable (_ < _))

/-- round `n / 2^t` to the nearest integer, ties to even -/
def rne (n t : Nat) : Nat :=
  let q := n / 2 ^ t
  let r := n % 2 ^ t
  if 2 * r > 2 ^ t ∨ (2 * r = 2 ^ t ∧ q % 2 = 1) then q + 1 else q

/-- Bits of `n * 2^-s` (units of the least subnormal) rounded to nearest even, overflowing to
infinity. `k` is the exponent offset; the addition lets a mantissa carry run into the exponent. -/
def roundMag (n s : Nat) : Nat :=
  let k := Nat.log2 n - (s + (F.p - 1))
  min (k * 2 ^ (F.p - 1) + rne n (s + k)) F.infMag

/-- The NaN produced by invalid operations (payloads are not modelled). -/
def nan : Flt := ⟨false, F.infMag + 2 ^ (F.p - 2)⟩

def inf (neg : Bool) : Flt := ⟨neg, F.infMag⟩

/-- `isnan` -/
def isNaN (x : Flt) : Bool := decide (F.infMag < x.mag)

/-- `isinf` -/
def isInf (x : Flt) : Bool := x.mag == F.infMag

/-- IEEE addition, round to nearest even. -/
def add (x y : Flt) : Flt :=
  if F.isNaN x || F.isNaN y then F.nan
  else if F.isInf x then (if F.isInf y && x.neg != y.neg then F.nan else x)
  else if F.isInf y then y
  else
    let s := F.toInt x + F.toInt y
    if s = 0 then ⟨x.neg && y.neg, 0⟩
    else ⟨decide (s < 0), F.roundMag s.natAbs 0⟩

/-- Sign change. -/
def fneg (x : Flt) : Flt := ⟨!x.neg, x.mag⟩

/-- IEEE subtraction. -/
def sub (x y : Flt) : Flt := F.add x (fneg y)

/-- IEEE multiplication. -/
def mul (x y : Flt) : Flt :=
  if F.isNaN x || F.isNaN y then F.nan
  else if F.isInf x || F.isInf y then
    (if x.mag = 0 ∨ y.mag = 0 then F.nan else ⟨x.neg != y.neg, F.infMag⟩)
  else ⟨x.neg != y.neg, F.roundMag (F.val x.mag * F.val y.mag) F.eta⟩

/-- IEEE division. The quotient is computed to two extra bits plus a sticky bit, which decides
every rounding correctly. -/
def div (x y : Flt) : Flt :=
  if F.isNaN x || F.isNaN y then F.nan
  else if F.isInf x then (if F.isInf y then F.nan else ⟨x.neg != y.neg, F.infMag⟩)
  else if F.isInf y then ⟨x.neg != y.neg, 0⟩
  else if y.mag = 0 then (if x.mag = 0 then F.nan else ⟨x.neg != y.neg, F.infMag⟩)
  else
    let n := F.val x.mag * 2 ^ F.eta
    let d := F.val y.mag
    ⟨x.neg != y.neg, F.roundMag (2 * (2 * n / d) + (if 2 * n % d = 0 then 0 else 1)) 2⟩

/-- Positive zero `0.0`. -/
def zero : Flt := ⟨false, 0⟩

/-- C conversion of an integer to floating point (also used for the literals of the sources). -/
def ofInt (c : Int) : Flt := ⟨decide (c < 0), F.roundMag (c.natAbs * 2 ^ F.eta) 0⟩

/-- `2.0^e` (`ldexp(0.5, e+1)`, which is how the sources build powers of two). -/
def pow2 (e : Int) : Flt := ⟨false, F.roundMag (2 ^ (F.eta + e).toNat) 0⟩

/-- `fabs` -/
def fabs (x : Flt) : Flt := ⟨false, x.mag⟩

/-- C comparison `x == 0.0`. -/
def isZero (x : Flt) : Bool := x.mag == 0

/-- Order key of a non-NaN pattern. -/
def key (x : Flt) : Int := if x.neg then -(x.mag : Int) else x.mag

/-- C comparison `x < y` (false if either is NaN). -/
def lt (x y : Flt) : Bool := !(F.isNaN x) && !(F.isNaN y) && decide (key x < key y)

/-- C comparison `x == y` (false if either is NaN; `0.0 == -0.0`). -/
def feq (x y : Flt) : Bool := !(F.isNaN x) && !(F.isNaN y) && decide (key x = key y)

/-- `EXP(X)` (`src/common/common.h:42-46`): the exponent field. The sign bit, which the C code
removes with the mask, is stored apart. -/
def expo (x : Flt) : Nat := x.mag / 2 ^ (F.p - 1)

/-- `ISNANINF(X)` (`src/common/common.h:58-62`): exponent field all ones. -/
def isNaNInf (x : Flt) : Bool := decide (F.infMag ≤ x.mag)

/-- `q.l |= 1` (`src/binned/dmddeposit.c:43`): set the last mantissa bit. -/
def or1 (x : Flt) : Flt := ⟨x.neg, x.mag ||| 1⟩

end Fmt
end Repro
