import Verif.Float
/-!
# Model of `src/binned`: the real binned types

The `dm*` sources (double) and the `sm*` sources (float) are the same text up to the constants of
`Fmt`; each definition cites the `dm*` file, the `sm*` twin is the file of the same name with `s`.
A binned value is its primary vector and its carry vector, lists of length `fold`
(strides and the packed layout are the subject of `Verif/Memory.lean`).
-/

namespace Repro

/-- A (manually specified) binned value: `priX[0..fold)`, `carX[0..fold)`. -/
structure Binned where
  pri : List Flt
  car : List Flt
deriving DecidableEq, Repr

/-- C array read `a[i]` (reads are within `fold` wherever the theorems apply). -/
def nth (a : List Flt) (i : Nat) : Flt := a.getD i Fmt.zero

namespace Fmt
variable (F : Fmt)

/-- `binned_DBMAXINDEX` (`include/binned.h:105`); `DBL_MIN_EXP = 3 - DBL_MAX_EXP`. -/
def maxIndex : Nat := ((F.maxExp + (F.maxExp - 3) + F.p - 1) / F.W) - 1

/-- `binned_DBMAXFOLD` (`include/binned.h:123`). -/
def maxFold : Nat := F.maxIndex + 1

/-- `binned_DBENDURANCE` (`include/binned.h:142`). -/
def endurance : Nat := 2 ^ (F.p - F.W - 2)

/-- `binned_DBCAPACITY` (`include/binned.h:163`); `1.0/DBL_EPSILON = 2^(DBL_MANT_DIG-1)`. -/
def capacity : Nat := F.endurance * (2 ^ (F.p - 1) - 1)

/-- `binned_DMCOMPRESSION` (`include/binned.h:184`). -/
def compression : Flt := F.pow2 (-((F.p : Int) - F.W + 1))

/-- `binned_DMEXPANSION` (`include/binned.h:206`). -/
def expansion : Flt := F.pow2 ((F.p : Int) - F.W + 1)

/-- `binned_DMEXPANSION * 0.5` -/
def halfExpansion : Flt := F.mul F.expansion (F.pow2 (-1))

/-- `binned_dindex` (`src/binned/dindex.c:19-41`). `frexp` of a subnormal `n * 2^-eta` yields
`exp = log2 n + 1 - eta`. For Inf/NaN the C numerator is `-1`, and `-1 / W = 0`, as here. -/
def dindex (x : Flt) : Nat :=
  if F.expo x = 0 then
    if isZero x then F.maxIndex
    else min ((F.maxExp + F.eta - (Nat.log2 x.mag + 1)) / F.W) F.maxIndex
  else ((F.maxExp + F.bias) - F.expo x) / F.W

/-- `binned_dmindex` (`src/binned/dmindex.c:22-38`), on `priX[0]`. -/
def dmindex (m : Flt) : Nat := ((F.maxExp + F.p - F.W + 1 + F.bias) - F.expo m) / F.W

/-- `binned_dmindex0` (`src/binned/dmindex0.c:19-31`), on `priX[0]`. -/
def dmindex0 (m : Flt) : Bool := F.expo m == F.maxExp + F.bias

/-- `ldexp(0.75, e)` -/
def ldexp75 (e : Int) : Flt := ⟨false, F.roundMag (3 * 2 ^ (F.eta + e - 2).toNat) 0⟩

/-- The table of `binned_dmbins` (`src/binned/dmbins.c:23-39`): entry `i`. The double version
computes entry 0 as `2.0 * ldexp(0.75, DBL_MAX_EXP - 1)`, the float version as
`ldexpf(0.75, FLT_MAX_EXP)`; both are `0.75 * 2^MAX_EXP`. Entries after `maxIndex` repeat the last
one; the C array has `maxIndex + maxFold` entries. -/
def bins (i : Nat) : Flt :=
  if i = 0 then F.ldexp75 F.maxExp
  else F.ldexp75 ((F.maxExp : Int) + F.p - F.W + 1 - (min i F.maxIndex : Nat) * F.W)

/-- `binned_dmsetzero` (`src/binned/dmsetzero.c:19-25`). -/
def dmsetzero (fold : Nat) : Binned := ⟨List.replicate fold zero, List.replicate fold zero⟩

/-- `binned_dmdupdate` (`src/binned/dmdupdate.c:24-56`). The in-place loops (upper entries are
moved from high to low index, then the lower ones are filled) are written as the array they leave. -/
def dmdupdate (fold : Nat) (x : Flt) (y : Binned) : Binned :=
  if F.isNaNInf (nth y.pri 0) then y
  else
    let xi := F.dindex x
    if isZero (nth y.pri 0) then
      ⟨(List.range fold).map (fun i => F.bins (xi + i)), List.replicate fold zero⟩
    else
      let shift := F.dmindex (nth y.pri 0) - xi
      if F.dmindex (nth y.pri 0) > xi then
        ⟨(List.range fold).map (fun i => if i < shift then F.bins (xi + i) else nth y.pri (i - shift)),
         (List.range fold).map (fun i => if i < shift then zero else nth y.car (i - shift))⟩
      else y

/-- The slicing loop of `binned_dmddeposit` (`src/binned/dmddeposit.c:52-63, 66-77` of the two
branches): all primaries but the last take a slice of `x` and pass on the remainder; the last one
absorbs what is left. -/
def depositLoop (x : Flt) : List Flt → List Flt
  | [] => []
  | [m] => [F.add m (or1 x)]
  | m :: ms =>
    let q := F.add (or1 x) m
    q :: depositLoop (F.add x (F.sub m q)) ms

/-- `binned_dmddeposit` (`src/binned/dmddeposit.c:24-71`). -/
def dmddeposit (x : Flt) (pri : List Flt) : List Flt :=
  if F.isNaNInf x || F.isNaNInf (nth pri 0) then
    match pri with
    | [] => []
    | m :: ms => F.add m x :: ms
  else if F.dmindex0 (nth pri 0) then
    match pri with
    | [] => []
    | m :: ms =>
      let q := F.add (or1 (F.mul x F.compression)) m
      let M := F.mul (F.sub m q) F.halfExpansion
      q :: depositLoop F (F.add (F.add x M) M) ms
  else depositLoop F x pri

/-- Bits cleared and set by `binned_dmrenorm` (`src/binned/dmrenorm.c:77-84`):
clear bit `p-3`, set bit `p-2`. -/
def renormPri (m : Flt) : Flt :=
  ⟨m.neg, (m.mag ^^^ (m.mag &&& 2 ^ (F.p - 3))) ||| 2 ^ (F.p - 2)⟩

/-- `carX[0] += (int)((tmp_renorm.l >> (DBL_MANT_DIG - 3)) & 3) - 2` (`src/binned/dmrenorm.c:80`). -/
def renormCar (m c : Flt) : Flt :=
  F.add c (F.ofInt ((((m.mag >>> (F.p - 3)) &&& 3 : Nat) : Int) - 2))

/-- `binned_dmrenorm` (`src/binned/dmrenorm.c:68-86`). -/
def dmrenorm (y : Binned) : Binned :=
  if isZero (nth y.pri 0) || F.isNaNInf (nth y.pri 0) then y
  else ⟨y.pri.map F.renormPri, List.zipWith F.renormCar y.pri y.car⟩

/-- `binned_dmdadd` (`src/binned/dmdadd.c:20-24`). -/
def dmdadd (fold : Nat) (x : Flt) (y : Binned) : Binned :=
  let y := F.dmdupdate fold x y
  F.dmrenorm ⟨F.dmddeposit x y.pri, y.car⟩

/-- `binned_dmdconv` (`src/binned/dmdconv.c:18-21`). -/
def dmdconv (fold : Nat) (x : Flt) : Binned := F.dmdadd fold x (dmsetzero fold)

/-- `binned_dmnegate` (`src/binned/dmnegate.c:19-29`). -/
def dmnegate (fold : Nat) (y : Binned) : Binned :=
  if isZero (nth y.pri 0) then y
  else
    let k := F.dmindex (nth y.pri 0)
    ⟨(List.range fold).map (fun i =>
        F.sub (F.bins (k + i)) (F.sub (nth y.pri i) (F.bins (k + i)))),
     (List.range fold).map (fun i => fneg (nth y.car i))⟩

/-- `binned_dmdmadd` (`src/binned/dmdmadd.c:27-74`), `Y += X`. The two in-place loops are written
as the array they leave. -/
def dmdmadd (fold : Nat) (x y : Binned) : Binned :=
  if isZero (nth x.pri 0) then y
  else if isZero (nth y.pri 0) then x
  else if F.isNaNInf (nth x.pri 0) || F.isNaNInf (nth y.pri 0) then
    ⟨match y.pri with
      | [] => []
      | m :: ms => F.add m (nth x.pri 0) :: ms, y.car⟩
  else
    let xi := F.dmindex (nth x.pri 0)
    let yi := F.dmindex (nth y.pri 0)
    if yi > xi then
      let shift := yi - xi
      F.dmrenorm
       ⟨(List.range fold).map (fun i =>
          if i < shift then nth x.pri i
          else F.add (nth x.pri i) (F.sub (nth y.pri (i - shift)) (F.bins (yi + (i - shift))))),
        (List.range fold).map (fun i =>
          if i < shift then nth x.car i else F.add (nth x.car i) (nth y.car (i - shift)))⟩
    else
      let shift := xi - yi
      F.dmrenorm
       ⟨(List.range fold).map (fun i =>
          if i < shift then nth y.pri i
          else F.add (nth y.pri i) (F.sub (nth x.pri (i - shift)) (F.bins (xi + (i - shift))))),
        (List.range fold).map (fun i =>
          if i < shift then nth y.car i else F.add (nth y.car i) (nth x.car (i - shift)))⟩

end Fmt
end Repro
