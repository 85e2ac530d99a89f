import Verif.Int32
import Verif.ScaleMem
/-!
# The operations on one binned value with C's `int` arithmetic

The routines of `src/binned` as in `Verif/Memory.lean`, with every `int` expression checked as in `Verif/Int32.lean`: counters, subscripts (with their subexpressions), doubled strides, differences
of indices.
-/

namespace Repro

/-- A loop over the values `is` of its counter: `es i` are the `int` expressions of the round `i`, the change of the counter included. -/
def roundsC (is : List Nat) (es : Nat → List Int) (body : Mem → Nat → Mem) (m : Mem) : Option Mem :=
  is.foldl (fun o i => o.bind fun m => chk (es i) (some (body m i))) (some m)

/-- `i * incpriY`, `i * inccarY` -/
def Loc.subs (l : Loc) (i : Nat) : List Int := [(i : Int) * l.incpri, (i : Int) * l.inccar]

namespace Fmt
variable (F : Fmt)

/-- `binned_dmsetzero` (`src/binned/dmsetzero.c:19-25`). -/
def dmsetzeroC (fold : Nat) (l : Loc) (m : Mem) : Option Mem :=
  roundsC (List.range fold) (fun i => l.subs i ++ [(i : Int) + 1]) (fun m i => (m.set (l.P i) zero).set (l.C i) zero) m

/-- `binned_dmdmset` (`src/binned/dmdmset.c:23-29`). -/
def dmdmsetC (fold : Nat) (x y : Loc) (m : Mem) : Option Mem :=
  roundsC (List.range fold) (fun i => x.subs i ++ y.subs i ++ [(i : Int) + 1]) (fun m i =>
    let m := m.set (y.P i) (m (x.P i))
    m.set (y.C i) (m (x.C i))) m

/-- `binned_dmdupdate` (`src/binned/dmdupdate.c:24-56`): `shift` and `fold - 1` before the first loop, `i - shift` and `i--` in it, `i + 1` in the condition of the second. -/
def dmdupdateC (fold : Nat) (x : Flt) (y : Loc) (m : Mem) : Option Mem :=
  if F.isNaNInf (m y.pri) then some m
  else
    let xi := F.dindex x
    if isZero (m y.pri) then
      roundsC (List.range fold) (fun i => y.subs i ++ [(i : Int) + 1]) (fun m i => (m.set (y.P i) (F.bins (xi + i))).set (y.C i) zero) m
    else
      let shift := F.dmindex (m y.pri) - xi
      chk [(F.dmindex (m y.pri) : Int) - xi] <|
      if F.dmindex (m y.pri) > xi then
        chk [(fold : Int) - 1] <|
        (roundsC (downTo fold shift) (fun i => y.subs i ++ [(i : Int) - shift] ++ y.subs (i - shift) ++ [(i : Int) - 1]) (fun m i =>
          let m := m.set (y.P i) (m (y.P (i - shift)))
          m.set (y.C i) (m (y.C (i - shift)))) m).bind fun m =>
        chk [((min fold shift : Nat) : Int)] <|
        roundsC (List.range (min fold shift)) (fun j => y.subs j ++ [(j : Int) + 1]) (fun m j =>
          (m.set (y.P j) (F.bins (xi + j))).set (y.C j) zero) m
      else some m

/-- The loop of `binned_dmddeposit` (`src/binned/dmddeposit.c:48-70`), as `depositLoopM`: `fold - 1` in each test, `i * incpriY`, `i++`. -/
def depositLoopC (fold : Nat) (y : Loc) : Nat → Nat → Flt → Mem → Option Mem
  | 0, i, x, m => chk [(fold : Int) - 1, (i : Int) * y.incpri] (some (m.set (y.P i) (F.add (m (y.P i)) (or1 x))))
  | n + 1, i, x, m =>
    chk [(fold : Int) - 1, (i : Int) * y.incpri, (i : Int) + 1] <|
    let M := m (y.P i)
    let q := F.add (or1 x) M
    depositLoopC fold y n (i + 1) (F.add x (F.sub M q)) (m.set (y.P i) q)

/-- `binned_dmddeposit` (`src/binned/dmddeposit.c:24-71`). -/
def dmddepositK (fold : Nat) (x : Flt) (y : Loc) (m : Mem) : Option Mem :=
  if F.isNaNInf x || F.isNaNInf (m y.pri) then some (m.set y.pri (F.add (m y.pri) x))
  else if F.dmindex0 (m y.pri) then
    let M := m y.pri
    let q := F.add (or1 (F.mul x F.compression)) M
    let m := m.set y.pri q
    let M := F.mul (F.sub M q) F.halfExpansion
    F.depositLoopC fold y (fold - 1 - 1) 1 (F.add (F.add x M) M) m
  else F.depositLoopC fold y (fold - 1) 0 x m

/-- `binned_dmrenorm` (`src/binned/dmrenorm.c:68-86`): no subscripts, the pointers advance by the strides. -/
def dmrenormC (fold : Nat) (y : Loc) (m : Mem) : Option Mem :=
  if isZero (m y.pri) || F.isNaNInf (m y.pri) then some m
  else roundsC (List.range fold) (fun i => [(i : Int) + 1]) (fun m i =>
    let t := m (y.P i)
    let m := m.set (y.C i) (F.renormCar t (m (y.C i)))
    m.set (y.P i) (F.renormPri t)) m

/-- `binned_dmdadd` (`src/binned/dmdadd.c:20-24`). -/
def dmdaddC (fold : Nat) (x : Flt) (y : Loc) (m : Mem) : Option Mem :=
  (F.dmdupdateC fold x y m).bind fun m => (F.dmddepositK fold x y m).bind fun m => F.dmrenormC fold y m

/-- `binned_dmdconv` (`src/binned/dmdconv.c:18-21`). -/
def dmdconvC (fold : Nat) (x : Flt) (y : Loc) (m : Mem) : Option Mem := (dmsetzeroC fold y m).bind fun m => F.dmdaddC fold x y m

/-- `binned_dmnegate` (`src/binned/dmnegate.c:19-29`). -/
def dmnegateC (fold : Nat) (y : Loc) (m : Mem) : Option Mem :=
  if isZero (m y.pri) then some m
  else
    let k := F.dmindex (m y.pri)
    roundsC (List.range fold) (fun i => y.subs i ++ [(i : Int) + 1]) (fun m i =>
      let m := m.set (y.P i) (F.sub (F.bins (k + i)) (F.sub (m (y.P i)) (F.bins (k + i))))
      m.set (y.C i) (fneg (m (y.C i)))) m

/-- `binned_dmdmadd` (`src/binned/dmdmadd.c:27-74`). In the last branch C's `shift` is not positive: `0 - shift`, `i + shift`. -/
def dmdmaddC (fold : Nat) (x y : Loc) (m : Mem) : Option Mem :=
  if isZero (m x.pri) then some m
  else if isZero (m y.pri) then dmdmsetC fold x y m
  else if F.isNaNInf (m x.pri) || F.isNaNInf (m y.pri) then some (m.set y.pri (F.add (m y.pri) (m x.pri)))
  else
    let xi := F.dmindex (m x.pri)
    let yi := F.dmindex (m y.pri)
    chk [(yi : Int) - xi] <|
    if yi > xi then
      let shift := yi - xi
      chk [(fold : Int) - 1] <|
      (roundsC (downTo fold shift) (fun i => y.subs i ++ x.subs i ++ [(i : Int) - shift] ++ y.subs (i - shift) ++ [(i : Int) - 1]) (fun m i =>
        let m := m.set (y.P i) (F.add (m (x.P i)) (F.sub (m (y.P (i - shift))) (F.bins (yi + (i - shift)))))
        m.set (y.C i) (F.add (m (x.C i)) (m (y.C (i - shift))))) m).bind fun m =>
      (roundsC (List.range (min shift fold)) (fun i => y.subs i ++ x.subs i ++ [(i : Int) + 1]) (fun m i =>
        let m := m.set (y.P i) (m (x.P i))
        m.set (y.C i) (m (x.C i))) m).bind fun m =>
      F.dmrenormC fold y m
    else
      let shift := xi - yi
      chk [0 - ((yi : Int) - xi)] <|
      (roundsC (List.range' shift (fold - shift)) (fun i => y.subs i ++ [(i : Int) + ((yi : Int) - xi)] ++ x.subs (i - shift) ++ [(i : Int) + 1]) (fun m i =>
        let m := m.set (y.P i) (F.add (m (y.P i)) (F.sub (m (x.P (i - shift))) (F.bins (xi + (i - shift)))))
        m.set (y.C i) (F.add (m (y.C i)) (m (x.C (i - shift))))) m).bind fun m =>
      F.dmrenormC fold y m

/-- `binned_ddmconv` / `binned_ssmconv` (`src/binned/ddmconv.c:23-81`, `src/binned/ssmconv.c:23-57`): the subscripts `i * inccarX`, `(i - 1) * incpriX`, `(fold - 1) * incpriX` of all loops
together; some are evaluated only for certain indices. -/
def convertK (fold : Nat) (l : Loc) (m : Mem) : Option Flt :=
  if F.isNaNInf (m l.pri) || isZero (m l.pri) then some (F.convertM fold l m)
  else chk ((List.range' 1 (fold - 1)).flatMap (fun (i : Nat) => [(i : Int) * l.inccar, (i : Int) - 1, ((i : Int) - 1) * l.incpri, (i : Int) + 1]) ++ [(fold : Int) - 1, ((fold : Int) - 1) * l.incpri])
    (some (F.convertM fold l m))

/-- The loop of `binned_dmdrescale` (`src/binned/dmdrescale.c:30-36`) from round `i` on: `i * incpriY`, `i * inccarY`, `fold - i`, `i++`. -/
def rescaleLoopK (r : Flt) (fold : Nat) : Nat → Nat → Loc → Mem → Option Mem
  | 0, _, _, m => some m
  | n + 1, i, l, m =>
    chk (l.subs i ++ [(fold : Int) - i, (i : Int) + 1]) <|
    let m := m.set l.pri (F.div (m l.pri) r)
    if isZero (m l.pri) then F.dmdupdateC (n + 1) zero l m else rescaleLoopK r fold n (i + 1) l.next m

/-- `binned_dmdrescale` (`src/binned/dmdrescale.c:20-37`). -/
def dmdrescaleC (fold : Nat) (X scaleY : Flt) (l : Loc) (m : Mem) : Option Mem :=
  if F.feq X scaleY || isZero X || isZero scaleY then some m
  else
    let r := F.div X scaleY
    let r := F.mul r r
    F.rescaleLoopK r fold fold 0 l m

/-- `binned_dmdmaddsq` (`src/binned/dmdmaddsq.c:26-41`). -/
def dmdmaddsqC (fold : Nat) (tmp : Int) (scaleX : Flt) (x : Loc) (scaleY : Flt) (y : Loc) (m : Mem) : Option (Flt × Mem) :=
  if F.lt scaleY scaleX then ((F.dmdrescaleC fold scaleX scaleY y m).bind fun m => F.dmdmaddC fold x y m).map fun m => (scaleX, m)
  else if F.feq scaleX scaleY then (F.dmdmaddC fold x y m).map fun m => (scaleX, m)
  else
    let t := packed fold tmp
    ((dmdmsetC fold x t m).bind fun m => (F.dmdrescaleC fold scaleY scaleX t m).bind fun m => F.dmdmaddC fold t y m).map fun m => (scaleY, m)

/-- `binned_dbdbaddv` (`src/binned/dbdbaddv.c:18-23`): `binned_dbnum(fold)` is `2 * fold`. -/
def dbdbaddvC (fold n : Nat) (X incX Y incY : Int) (m : Mem) : Option Mem :=
  (List.range n).foldl (fun o (i : Nat) => o.bind fun m =>
    (F.dmdmaddC fold (packed fold (X + i * (incX * dbnum fold))) (packed fold (Y + i * (incY * dbnum fold))) m).bind fun m =>
    chk [(i : Int) + 1, dbnum fold, incX * dbnum fold, incY * dbnum fold] (some m)) (some m)

/-! ### complex -/

/-- `2 * incpriY`, `2 * inccarY` -/
def dbl (l : Loc) : List Int := [2 * l.incpri, 2 * l.inccar]

/-- A complex routine: the same real routine for the real and the imaginary parts, each with doubled strides. -/
def zmC (f : Loc → Mem → Option Mem) (y : Loc) (m : Mem) : Option Mem :=
  chk (dbl y) ((f y.re m).bind fun m => chk (dbl y) (f y.im m))

/-- `binned_zmsetzero` (`src/binned/zmsetzero.c:19-22`). -/
def zmsetzeroC (fold : Nat) (y : Loc) (m : Mem) : Option Mem := zmC (dmsetzeroC fold) y m

/-- `binned_zmzmset` (`src/binned/zmzmset.c:23-26`). -/
def zmzmsetC (fold : Nat) (x y : Loc) (m : Mem) : Option Mem :=
  chk (dbl x ++ dbl y) ((dmdmsetC fold x.re y.re m).bind fun m => dmdmsetC fold x.im y.im m)

/-- `binned_zmdmset` (`src/binned/zmdmset.c:23-26`). -/
def zmdmsetC (fold : Nat) (x y : Loc) (m : Mem) : Option Mem :=
  chk (dbl y) ((dmdmsetC fold x y.re m).bind fun m => dmsetzeroC fold y.im m)

/-- `binned_zmzupdate` (`src/binned/zmzupdate.c:20-23`). -/
def zmzupdateC (fold : Nat) (xr xi : Flt) (y : Loc) (m : Mem) : Option Mem :=
  chk (dbl y) ((F.dmdupdateC fold xr y.re m).bind fun m => F.dmdupdateC fold xi y.im m)

/-- `binned_zmdupdate` (`src/binned/zmdupdate.c:20-23`). -/
def zmdupdateC (fold : Nat) (x : Flt) (y : Loc) (m : Mem) : Option Mem := zmC (F.dmdupdateC fold x) y m

/-- The subscripts of the loop of `binned_zmzdeposit`: `i * 2`, `i * 2 * incpriY`, `i * 2 * incpriY + 1`. -/
def zdsubs (y : Loc) (i : Nat) : List Int := [(i : Int) * 2, (i : Int) * 2 * y.incpri, (i : Int) * 2 * y.incpri + 1]

/-- The loop of `binned_zmzdeposit` (`src/binned/zmzdeposit.c:48-69`). -/
def zdepositLoopK (fold : Nat) (y : Loc) : Nat → Nat → Flt → Flt → Mem → Option Mem
  | 0, i, xR, xI, m =>
    chk ([(fold : Int) - 1] ++ zdsubs y i) <|
    let m := m.set (y.re.P i) (F.add (m (y.re.P i)) (or1 xR))
    some (m.set (y.im.P i) (F.add (m (y.im.P i)) (or1 xI)))
  | n + 1, i, xR, xI, m =>
    chk ([(fold : Int) - 1] ++ zdsubs y i ++ [(i : Int) + 1]) <|
    let MR := m (y.re.P i)
    let MI := m (y.im.P i)
    let qR := F.add (or1 xR) MR
    let qI := F.add (or1 xI) MI
    let m := (m.set (y.re.P i) qR).set (y.im.P i) qI
    zdepositLoopK fold y n (i + 1) (F.add xR (F.sub MR qR)) (F.add xI (F.sub MI qI)) m

/-- `binned_zmzdeposit` (`src/binned/zmzdeposit.c:24-70`). -/
def zmzdepositC (fold : Nat) (xR xI : Flt) (y : Loc) (m : Mem) : Option Mem :=
  if F.isNaNInf xR || F.isNaNInf (m y.pri) then
    chk [2 * y.incpri] (F.dmddepositK fold xI y.im (m.set y.pri (F.add (m y.pri) xR)))
  else if F.isNaNInf xI || F.isNaNInf (m (y.pri + 1)) then
    chk [2 * y.incpri] (F.dmddepositK fold xR y.re (m.set (y.pri + 1) (F.add (m (y.pri + 1)) xI)))
  else if F.dmindex0 (m y.pri) || F.dmindex0 (m (y.pri + 1)) then
    chk [2 * y.incpri] ((F.dmddepositK fold xR y.re m).bind fun m => F.dmddepositK fold xI y.im m)
  else F.zdepositLoopK fold y (fold - 1) 0 xR xI m

/-- `binned_zmrenorm` (`src/binned/zmrenorm.c:19-22`). -/
def zmrenormC (fold : Nat) (y : Loc) (m : Mem) : Option Mem := zmC (F.dmrenormC fold) y m

/-- `binned_zmzadd` (`src/binned/zmzadd.c:20-24`). -/
def zmzaddC (fold : Nat) (xR xI : Flt) (y : Loc) (m : Mem) : Option Mem :=
  (F.zmzupdateC fold xR xI y m).bind fun m => (F.zmzdepositC fold xR xI y m).bind fun m => F.zmrenormC fold y m

/-- `binned_zmzconv` (`src/binned/zmzconv.c:18-21`). -/
def zmzconvC (fold : Nat) (xR xI : Flt) (y : Loc) (m : Mem) : Option Mem :=
  chk (dbl y) ((F.dmdconvC fold xR y.re m).bind fun m => F.dmdconvC fold xI y.im m)

/-- `binned_zmnegate` (`src/binned/zmnegate.c:19-22`). -/
def zmnegateC (fold : Nat) (y : Loc) (m : Mem) : Option Mem := zmC (F.dmnegateC fold) y m

/-- `binned_zmzmadd` (`src/binned/zmzmadd.c:23-26`). -/
def zmzmaddC (fold : Nat) (x y : Loc) (m : Mem) : Option Mem :=
  chk (dbl x ++ dbl y) ((F.dmdmaddC fold x.re y.re m).bind fun m => F.dmdmaddC fold x.im y.im m)

/-- `binned_zzmconv_sub` (`src/binned/zzmconv_sub.c:18-21`): `incpriX * 2`, `inccarX + 1`. -/
def zzmconvC (fold : Nat) (l : Loc) (m : Mem) : Option (Flt × Flt) :=
  chk [l.incpri * 2, l.inccar + 1] <|
  (F.convertK fold ⟨l.pri, l.incpri * 2, l.car, l.inccar + 1⟩ m).bind fun a =>
  (F.convertK fold ⟨l.pri + 1, l.incpri * 2, l.car + 1, l.inccar + 1⟩ m).map fun b => (a, b)

/-- The loop of `binned_zmdrescale` (`src/binned/zmdrescale.c:29-36`): `i * 2`, `i * 2 * incpriY`, `i * 2 * incpriY + 1`, `i * incpriY`, `fold - i`, `i * 2 * inccarY`, `i++`. -/
def zrescaleLoopK (r : Flt) (fold : Nat) (l : Loc) : Nat → Nat → Mem → Option Mem
  | 0, _, m => some m
  | n + 1, i, m =>
    chk (zdsubs l i ++ [(i : Int) * l.incpri, (fold : Int) - i, (i : Int) * 2 * l.inccar, (i : Int) + 1]) <|
    let a := l.pri + i * 2 * l.incpri
    let m := m.set a (F.div (m a) r)
    let m := m.set (a + 1) (F.div (m (a + 1)) r)
    if isZero (m (l.pri + i * l.incpri)) then
      F.zmdupdateC (fold - i) zero ⟨a, l.incpri, l.car + i * 2 * l.inccar, l.inccar⟩ m
    else zrescaleLoopK r fold l n (i + 1) m

/-- `binned_zmdrescale` (`src/binned/zmdrescale.c:20-38`). -/
def zmdrescaleC (fold : Nat) (X scaleY : Flt) (l : Loc) (m : Mem) : Option Mem :=
  if F.feq X scaleY || isZero X || isZero scaleY then some m
  else
    let r := F.div X scaleY
    let r := F.mul r r
    F.zrescaleLoopK r fold l fold 0 m

/-- `binned_zbzbaddv` (`src/binned/zbzbaddv.c:18-23`): `binned_zbnum(fold)` is `4 * fold`, `X + 2 * fold`. -/
def zbzbaddvC (fold n : Nat) (X incX Y incY : Int) (m : Mem) : Option Mem :=
  (List.range n).foldl (fun o (i : Nat) => o.bind fun m =>
    chk [2 * (fold : Int)] <|
    (F.zmzmaddC fold (zpacked fold (X + i * (incX * zbnum fold))) (zpacked fold (Y + i * (incY * zbnum fold))) m).bind fun m =>
    chk [(i : Int) + 1, zbnum fold, incX * zbnum fold, incY * zbnum fold] (some m)) (some m)

/-- The `int` expressions of `binned_dmbins` (`src/binned/dmbins.c:23-39`, `src/binned/smbins.c:23-39`): the exponents of the entries `1 .. MAXINDEX` with their subexpressions, in C's association
(`MAX_EXP + MANT_DIG - WIDTH + 1 - index * WIDTH`), the limits of the two loops and `index++` in both, and the entries before (`index - 1`). The index 0 has `MAX_EXP - 1` (double). -/
def dmbinsInts : List Int :=
  [(F.maxExp : Int) - 1, (F.maxIndex : Int) + F.maxFold] ++
  (List.range' 1 F.maxIndex).flatMap (fun (i : Nat) => [(F.maxExp : Int) + F.p, (F.maxExp : Int) + F.p - F.W, (F.maxExp : Int) + F.p - F.W + 1, (i : Int) * F.W,
    (F.maxExp : Int) + F.p - F.W + 1 - i * F.W, (i : Int) + 1]) ++
  (List.range' (F.maxIndex + 1) (F.maxFold - 1)).flatMap (fun (i : Nat) => [(i : Int) - 1, (i : Int) + 1])

/-- The functions `binnedMPI_dbdbadd_{fold}` (`src/binnedMPI/DBDBADD.ccog:9-17`, `SBSBADD.ccog:9-17`) with checked `int` arithmetic. -/
def mpiAddC (fold len : Nat) (invec inoutvec : Int) (m : Mem) : Option Mem := F.dbdbaddvC fold len invec 1 inoutvec 1 m

/-- The functions `binnedMPI_cbcbadd_{fold}` (`src/binnedMPI/CBCBADD.ccog:8-16`) with checked `int` arithmetic. -/
def mpiCAddC (fold len : Nat) (invec inoutvec : Int) (m : Mem) : Option Mem := F.zbzbaddvC fold len invec 1 inoutvec 1 m

end Fmt
end Repro
