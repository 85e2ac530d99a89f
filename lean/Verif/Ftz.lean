import Verif.Hist
/-!
# The denormal check, and the operations in flush-to-zero mode

`binned_dmdenorm` is the library's test for "calculations involving X cannot be performed with
*denormals are zero*" (`src/binned/dmdenorm.c:11`). To say what that means, this file repeats the
operations of `Verif/Binned.lean` with the arithmetic of a processor in "denormals are zero" and
"flush to zero" mode: a subnormal operand is read as a zero of its sign, a subnormal result is
replaced by a zero of its sign. Bit operations and copies are unaffected.

The protocol is the one of the kernel generator: check the accumulator, and only if the check returns
0 switch the mode on (`src/binned/deposit.py:328-333`; the call at `src/binned/deposit.py:80` is
commented out in the pinned commit, so the shipped kernels never switch the mode on).
-/

namespace Repro
namespace Fmt
variable (F : Fmt)

/-- `binned_dmdenorm` (`src/binned/dmdenorm.c:20-22`, `src/binned/smdenorm.c:20-22`), on `priX[0]`;
`DBL_MIN_EXP = 3 - DBL_MAX_EXP`. -/
def dmdenorm (fold : Nat) (m : Flt) : Bool :=
  decide ((F.expo m : Int) - F.W * fold < 3 - (F.maxExp : Int) + F.p + F.bias + F.W)

/-- `binned_zmdenorm` (`src/binned/zmdenorm.c:20-22`, `src/binned/cmdenorm.c:20-22`), on `priX[0]` and
`priX[1]`. -/
def zmdenorm (fold : Nat) (re im : Flt) : Bool := F.dmdenorm fold re || F.dmdenorm fold im

/-- The effect of DAZ on an operand and of FTZ on a result. (For a product, tininess is judged after
rounding to the subnormal grid; processors that judge it on the unbounded exponent range differ only
in whether a product that rounds up to the smallest normal number is flushed.) -/
def flush (x : Flt) : Flt := if F.expo x = 0 then ⟨x.neg, 0⟩ else x

/-- `x + y` in DAZ/FTZ mode -/
def addZ (x y : Flt) : Flt := F.flush (F.add (F.flush x) (F.flush y))
/-- `x - y` in DAZ/FTZ mode -/
def subZ (x y : Flt) : Flt := F.flush (F.sub (F.flush x) (F.flush y))
/-- `x * y` in DAZ/FTZ mode -/
def mulZ (x y : Flt) : Flt := F.flush (F.mul (F.flush x) (F.flush y))
/-- `x == 0.0` in DAZ/FTZ mode -/
def isZeroZ (x : Flt) : Bool := isZero (F.flush x)

/-- `binned_dindex` (`src/binned/dindex.c:19-41`) in DAZ/FTZ mode: a subnormal `X` compares equal to
`0.0` at line 34. -/
def dindexZ (x : Flt) : Nat :=
  if F.expo x = 0 then F.maxIndex else ((F.maxExp + F.bias) - F.expo x) / F.W

/-- `binned_dmdupdate` (`src/binned/dmdupdate.c:24-56`) in DAZ/FTZ mode: `dmdupdate` with `dindexZ`
and `isZeroZ`. -/
def dmdupdateZ (fold : Nat) (x : Flt) (y : Binned) : Binned :=
  if F.isNaNInf (nth y.pri 0) then y
  else
    let xi := F.dindexZ x
    if F.isZeroZ (nth y.pri 0) then
      ⟨(List.range fold).map (fun i => F.bins (xi + i)), List.replicate fold zero⟩
    else
      let shift := F.dmindex (nth y.pri 0) - xi
      if F.dmindex (nth y.pri 0) > xi then
        ⟨(List.range fold).map (fun i => if i < shift then F.bins (xi + i) else nth y.pri (i - shift)),
         (List.range fold).map (fun i => if i < shift then zero else nth y.car (i - shift))⟩
      else y

/-- The slicing loop of `binned_dmddeposit` (`src/binned/dmddeposit.c:52-63, 66-77`) in DAZ/FTZ
mode: `depositLoop` with `addZ`, `subZ`. -/
def depositLoopZ (x : Flt) : List Flt → List Flt
  | [] => []
  | [m] => [F.addZ m (or1 x)]
  | m :: ms =>
    let q := F.addZ (or1 x) m
    q :: depositLoopZ (F.addZ x (F.subZ m q)) ms

/-- `binned_dmddeposit` (`src/binned/dmddeposit.c:24-71`) in DAZ/FTZ mode. -/
def dmddepositZ (x : Flt) (pri : List Flt) : List Flt :=
  if F.isNaNInf x || F.isNaNInf (nth pri 0) then
    match pri with
    | [] => []
    | m :: ms => F.addZ m x :: ms
  else if F.dmindex0 (nth pri 0) then
    match pri with
    | [] => []
    | m :: ms =>
      let q := F.addZ (or1 (F.mulZ x F.compression)) m
      let M := F.mulZ (F.subZ m q) F.halfExpansion
      q :: depositLoopZ F (F.addZ (F.addZ x M) M) ms
  else depositLoopZ F x pri

/-- `carX[0] += ...` (`src/binned/dmrenorm.c:80`) in DAZ/FTZ mode. -/
def renormCarZ (m c : Flt) : Flt :=
  F.addZ c (F.ofInt ((((m.mag >>> (F.p - 3)) &&& 3 : Nat) : Int) - 2))

/-- `binned_dmrenorm` (`src/binned/dmrenorm.c:68-86`) in DAZ/FTZ mode. -/
def dmrenormZ (y : Binned) : Binned :=
  if F.isZeroZ (nth y.pri 0) || F.isNaNInf (nth y.pri 0) then y
  else ⟨y.pri.map F.renormPri, List.zipWith F.renormCarZ y.pri y.car⟩

/-- `binned_dmdadd` (`src/binned/dmdadd.c:20-24`) in DAZ/FTZ mode. -/
def dmdaddZ (fold : Nat) (x : Flt) (y : Binned) : Binned :=
  let y := F.dmdupdateZ fold x y
  F.dmrenormZ ⟨F.dmddepositZ x y.pri, y.car⟩

/-- Deposits in a loop, in DAZ/FTZ mode. -/
def depositsZ (xs : List Flt) (y : Binned) : Binned :=
  xs.foldl (fun y x => ⟨F.dmddepositZ x y.pri, y.car⟩) y

/-- `binned_dmnegate` (`src/binned/dmnegate.c:19-29`) in DAZ/FTZ mode; the sign change of the carries
is a bit operation. -/
def dmnegateZ (fold : Nat) (y : Binned) : Binned :=
  if F.isZeroZ (nth y.pri 0) then y
  else
    let k := F.dmindex (nth y.pri 0)
    ⟨(List.range fold).map (fun i =>
        F.subZ (F.bins (k + i)) (F.subZ (nth y.pri i) (F.bins (k + i)))),
     (List.range fold).map (fun i => fneg (nth y.car i))⟩

/-- `binned_dmdmadd` (`src/binned/dmdmadd.c:27-74`) in DAZ/FTZ mode. -/
def dmdmaddZ (fold : Nat) (x y : Binned) : Binned :=
  if F.isZeroZ (nth x.pri 0) then y
  else if F.isZeroZ (nth y.pri 0) then x
  else if F.isNaNInf (nth x.pri 0) || F.isNaNInf (nth y.pri 0) then
    ⟨match y.pri with
      | [] => []
      | m :: ms => F.addZ m (nth x.pri 0) :: ms, y.car⟩
  else
    let xi := F.dmindex (nth x.pri 0)
    let yi := F.dmindex (nth y.pri 0)
    if yi > xi then
      let shift := yi - xi
      F.dmrenormZ
       ⟨(List.range fold).map (fun i =>
          if i < shift then nth x.pri i
          else F.addZ (nth x.pri i) (F.subZ (nth y.pri (i - shift)) (F.bins (yi + (i - shift))))),
        (List.range fold).map (fun i =>
          if i < shift then nth x.car i else F.addZ (nth x.car i) (nth y.car (i - shift)))⟩
    else
      let shift := xi - yi
      F.dmrenormZ
       ⟨(List.range fold).map (fun i =>
          if i < shift then nth y.pri i
          else F.addZ (nth y.pri i) (F.subZ (nth x.pri (i - shift)) (F.bins (xi + (i - shift))))),
        (List.range fold).map (fun i =>
          if i < shift then nth y.car i else F.addZ (nth y.car i) (nth x.car (i - shift)))⟩

end Fmt

namespace Hist

/-- Run a history under the protocol of `src/binned/deposit.py:328-333`: before each operation the
accumulators it works on are checked with `binned_dmdenorm`, and if the check returns 0 the whole
operation runs in DAZ/FTZ mode. A batch checks after its update, as the generated kernels do (there
the update has been done by the caller). -/
def evalGuarded (F : Fmt) (fold : Nat) : Hist → Binned
  | zero => Fmt.dmsetzero fold
  | add x h =>
    let y := h.evalGuarded F fold
    if F.dmdenorm fold (nth y.pri 0) then F.dmdadd fold x y else F.dmdaddZ fold x y
  | update x h =>
    let y := h.evalGuarded F fold
    if F.dmdenorm fold (nth y.pri 0) then F.dmdupdate fold x y else F.dmdupdateZ fold x y
  | batch b xs h =>
    let y := F.dmdupdate fold b (h.evalGuarded F fold)
    if F.dmdenorm fold (nth y.pri 0) then F.dmrenorm (F.deposits xs y) else F.dmrenormZ (F.depositsZ xs y)
  | merge h₁ h₂ =>
    let x := h₁.evalGuarded F fold
    let y := h₂.evalGuarded F fold
    if F.dmdenorm fold (nth x.pri 0) || F.dmdenorm fold (nth y.pri 0) then F.dmdmadd fold x y
    else F.dmdmaddZ fold x y
  | negate h =>
    let y := h.evalGuarded F fold
    if F.dmdenorm fold (nth y.pri 0) then F.dmnegate fold y else F.dmnegateZ fold y
  | renorm h =>
    let y := h.evalGuarded F fold
    if F.dmdenorm fold (nth y.pri 0) then F.dmrenorm y else F.dmrenormZ y

end Hist
end Repro
