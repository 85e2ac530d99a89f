import Verif.Conv
/-!
# The real binned operations on memory, with strides

`Verif/Binned.lean` treats a binned value as two lists. Here the same functions are modelled as the C
code executes them: loops of single writes into a flat memory of floating point words, through a pointer
and a stride for the primary vector and another pointer and stride for the carry vector. Pointers and
strides count words (C pointer arithmetic on `double *` / `float *`).
-/

namespace Repro

/-- Memory: a word at every address. -/
abbrev Mem := Int → Flt

/-- A store. -/
def Mem.set (m : Mem) (a : Int) (v : Flt) : Mem := fun b => if b = a then v else m b

/-- The four arguments `double *priY, int incpriY, double *carY, int inccarY` that denote a binned value. -/
structure Loc where
  pri : Int
  incpri : Int
  car : Int
  inccar : Int
deriving DecidableEq, Repr

/-- `&priY[i * incpriY]` -/
def Loc.P (l : Loc) (i : Nat) : Int := l.pri + i * l.incpri
/-- `&carY[i * inccarY]` -/
def Loc.C (l : Loc) (i : Nat) : Int := l.car + i * l.inccar

/-- A packed binned value at `X`: the arguments `X, 1, X + fold, 1` of the `db*` wrappers
(e.g. `src/binned/dbdadd.c`, `src/binned/dbdbadd.c`). -/
def packed (fold : Nat) (X : Int) : Loc := ⟨X, 1, X + fold, 1⟩

/-- `binned_dbnum` (`src/binned/dbnum.c:12-14`): words of a packed value; `binned_dbsize`
(`src/binned/dbsize.c:13-15`) is this number times the size of a word. -/
def dbnum (fold : Nat) : Int := 2 * fold

/-- `binned_zbnum` (`src/binned/zbnum.c:12-14`). -/
def zbnum (fold : Nat) : Int := 4 * fold

/-- The binned value found in memory. -/
def view (fold : Nat) (l : Loc) (m : Mem) : Binned :=
  ⟨(List.range fold).map (fun i => m (l.P i)), (List.range fold).map (fun i => m (l.C i))⟩

/-- `for(i = fold - 1; i >= lo; i--)` -/
def downTo (fold lo : Nat) : List Nat := (List.range' lo (fold - lo)).reverse

namespace Fmt
variable (F : Fmt)

/-- `binned_dmsetzero` (`src/binned/dmsetzero.c:19-25`). -/
def dmsetzeroM (fold : Nat) (l : Loc) (m : Mem) : Mem :=
  (List.range fold).foldl (fun m i => (m.set (l.P i) zero).set (l.C i) zero) m

/-- `binned_dmdmset` (`src/binned/dmdmset.c:23-29`). -/
def dmdmsetM (fold : Nat) (x y : Loc) (m : Mem) : Mem :=
  (List.range fold).foldl (fun m i =>
    let m := m.set (y.P i) (m (x.P i))
    m.set (y.C i) (m (x.C i))) m

/-- `binned_dmdupdate` (`src/binned/dmdupdate.c:24-56`). After the first loop of the shifting branch
`i + 1` is the smaller of `fold` and `shift`. -/
def dmdupdateM (fold : Nat) (x : Flt) (y : Loc) (m : Mem) : Mem :=
  if F.isNaNInf (m y.pri) then m
  else
    let xi := F.dindex x
    if isZero (m y.pri) then
      (List.range fold).foldl (fun m i => (m.set (y.P i) (F.bins (xi + i))).set (y.C i) zero) m
    else
      let shift := F.dmindex (m y.pri) - xi
      if F.dmindex (m y.pri) > xi then
        let m := (downTo fold shift).foldl (fun m i =>
          let m := m.set (y.P i) (m (y.P (i - shift)))
          m.set (y.C i) (m (y.C (i - shift)))) m
        (List.range (min fold shift)).foldl (fun m j =>
          (m.set (y.P j) (F.bins (xi + j))).set (y.C j) zero) m
      else m

/-- `for (; i < fold - 1; i++)` of `binned_dmddeposit` (`src/binned/dmddeposit.c:48-56, 60-68`) for `n` rounds,
followed by the final addition into the primary at the `i` the loop has left. -/
def depositLoopM (y : Loc) : Nat → Nat → Flt → Mem → Mem
  | 0, i, x, m => m.set (y.P i) (F.add (m (y.P i)) (or1 x))
  | n + 1, i, x, m =>
    let M := m (y.P i)
    let q := F.add (or1 x) M
    depositLoopM y n (i + 1) (F.add x (F.sub M q)) (m.set (y.P i) q)

/-- `binned_dmddeposit` (`src/binned/dmddeposit.c:24-71`). -/
def dmddepositM (fold : Nat) (x : Flt) (y : Loc) (m : Mem) : Mem :=
  if F.isNaNInf x || F.isNaNInf (m y.pri) then m.set y.pri (F.add (m y.pri) x)
  else if F.dmindex0 (m y.pri) then
    let M := m y.pri
    let q := F.add (or1 (F.mul x F.compression)) M
    let m := m.set y.pri q
    let M := F.mul (F.sub M q) F.halfExpansion
    depositLoopM F y (fold - 1 - 1) 1 (F.add (F.add x M) M) m
  else depositLoopM F y (fold - 1) 0 x m

/-- `binned_dmrenorm` (`src/binned/dmrenorm.c:68-86`). -/
def dmrenormM (fold : Nat) (y : Loc) (m : Mem) : Mem :=
  if isZero (m y.pri) || F.isNaNInf (m y.pri) then m
  else (List.range fold).foldl (fun m i =>
    let t := m (y.P i)
    let m := m.set (y.C i) (F.renormCar t (m (y.C i)))
    m.set (y.P i) (F.renormPri t)) m

/-- `binned_dmdadd` (`src/binned/dmdadd.c:20-24`). -/
def dmdaddM (fold : Nat) (x : Flt) (y : Loc) (m : Mem) : Mem :=
  F.dmrenormM fold y (F.dmddepositM fold x y (F.dmdupdateM fold x y m))

/-- `binned_dmdconv` (`src/binned/dmdconv.c:18-21`). -/
def dmdconvM (fold : Nat) (x : Flt) (y : Loc) (m : Mem) : Mem := F.dmdaddM fold x y (dmsetzeroM fold y m)

/-- `binned_dmnegate` (`src/binned/dmnegate.c:19-29`). -/
def dmnegateM (fold : Nat) (y : Loc) (m : Mem) : Mem :=
  if isZero (m y.pri) then m
  else
    let k := F.dmindex (m y.pri)
    (List.range fold).foldl (fun m i =>
      let m := m.set (y.P i) (F.sub (F.bins (k + i)) (F.sub (m (y.P i)) (F.bins (k + i))))
      m.set (y.C i) (fneg (m (y.C i)))) m

/-- `binned_dmdmadd` (`src/binned/dmdmadd.c:27-74`). -/
def dmdmaddM (fold : Nat) (x y : Loc) (m : Mem) : Mem :=
  if isZero (m x.pri) then m
  else if isZero (m y.pri) then dmdmsetM fold x y m
  else if F.isNaNInf (m x.pri) || F.isNaNInf (m y.pri) then m.set y.pri (F.add (m y.pri) (m x.pri))
  else
    let xi := F.dmindex (m x.pri)
    let yi := F.dmindex (m y.pri)
    if yi > xi then
      let shift := yi - xi
      let m := (downTo fold shift).foldl (fun m i =>
        let m := m.set (y.P i) (F.add (m (x.P i)) (F.sub (m (y.P (i - shift))) (F.bins (yi + (i - shift)))))
        m.set (y.C i) (F.add (m (x.C i)) (m (y.C (i - shift))))) m
      let m := (List.range (min shift fold)).foldl (fun m i =>
        let m := m.set (y.P i) (m (x.P i))
        m.set (y.C i) (m (x.C i))) m
      F.dmrenormM fold y m
    else
      let shift := xi - yi
      let m := (List.range' shift (fold - shift)).foldl (fun m i =>
        let m := m.set (y.P i) (F.add (m (y.P i)) (F.sub (m (x.P (i - shift))) (F.bins (xi + (i - shift)))))
        m.set (y.C i) (F.add (m (y.C i)) (m (x.C (i - shift))))) m
      F.dmrenormM fold y m

/-- `binned_ddmconv` / `binned_ssmconv` on memory (`src/binned/ddmconv.c:23-81`, `src/binned/ssmconv.c:23-57`).
For index 0 the code reads `carX[inccarX]` even if `fold = 1`, so entries `0 .. max fold 2 - 1` may be read. -/
def convertM (fold : Nat) (l : Loc) (m : Mem) : Flt := convert F fold (view (max fold 2) l m)

/-- `binned_dbdbaddv` (`src/binned/dbdbaddv.c:18-23`). -/
def dbdbaddvM (fold n : Nat) (X incX Y incY : Int) (m : Mem) : Mem :=
  (List.range n).foldl (fun m (i : Nat) =>
    F.dmdmaddM fold (packed fold (X + i * (incX * dbnum fold))) (packed fold (Y + i * (incY * dbnum fold))) m) m

end Fmt

/-! ## Complex values: interleaved real and imaginary parts -/

/-- Arguments of the real routine for the real part: `priY, 2 * incpriY, carY, 2 * inccarY`. -/
def Loc.re (l : Loc) : Loc := ⟨l.pri, 2 * l.incpri, l.car, 2 * l.inccar⟩
/-- ... and for the imaginary part: `priY + 1, 2 * incpriY, carY + 1, 2 * inccarY`. -/
def Loc.im (l : Loc) : Loc := ⟨l.pri + 1, 2 * l.incpri, l.car + 1, 2 * l.inccar⟩

/-- A packed complex value: `X, 1, X + 2 * fold, 1` (e.g. `src/binned/zbzbadd.c`). -/
def zpacked (fold : Nat) (X : Int) : Loc := ⟨X, 1, X + 2 * fold, 1⟩

namespace Fmt
variable (F : Fmt)

/-- `binned_zmsetzero` (`src/binned/zmsetzero.c:19-22`). -/
def zmsetzeroM (fold : Nat) (y : Loc) (m : Mem) : Mem := dmsetzeroM fold y.im (dmsetzeroM fold y.re m)

/-- `binned_zmzmset` (`src/binned/zmzmset.c:23-26`). -/
def zmzmsetM (fold : Nat) (x y : Loc) (m : Mem) : Mem := dmdmsetM fold x.im y.im (dmdmsetM fold x.re y.re m)

/-- `binned_zmdmset` (`src/binned/zmdmset.c:23-26`): set a complex value to a real one. -/
def zmdmsetM (fold : Nat) (x y : Loc) (m : Mem) : Mem := dmsetzeroM fold y.im (dmdmsetM fold x y.re m)

/-- `binned_zmzupdate` (`src/binned/zmzupdate.c:20-23`). -/
def zmzupdateM (fold : Nat) (xr xi : Flt) (y : Loc) (m : Mem) : Mem :=
  F.dmdupdateM fold xi y.im (F.dmdupdateM fold xr y.re m)

/-- `binned_zmdupdate` (`src/binned/zmdupdate.c:20-23`). -/
def zmdupdateM (fold : Nat) (x : Flt) (y : Loc) (m : Mem) : Mem :=
  F.dmdupdateM fold x y.im (F.dmdupdateM fold x y.re m)

/-- The loop of `binned_zmzdeposit` (`src/binned/zmzdeposit.c:48-69`) for `n` rounds from `i`, and the two
final additions. -/
def zdepositLoopM (y : Loc) : Nat → Nat → Flt → Flt → Mem → Mem
  | 0, i, xR, xI, m =>
    let m := m.set (y.re.P i) (F.add (m (y.re.P i)) (or1 xR))
    m.set (y.im.P i) (F.add (m (y.im.P i)) (or1 xI))
  | n + 1, i, xR, xI, m =>
    let MR := m (y.re.P i)
    let MI := m (y.im.P i)
    let qR := F.add (or1 xR) MR
    let qI := F.add (or1 xI) MI
    let m := (m.set (y.re.P i) qR).set (y.im.P i) qI
    zdepositLoopM y n (i + 1) (F.add xR (F.sub MR qR)) (F.add xI (F.sub MI qI)) m

/-- `binned_zmzdeposit` (`src/binned/zmzdeposit.c:24-70`). -/
def zmzdepositM (fold : Nat) (xR xI : Flt) (y : Loc) (m : Mem) : Mem :=
  if F.isNaNInf xR || F.isNaNInf (m y.pri) then
    F.dmddepositM fold xI y.im (m.set y.pri (F.add (m y.pri) xR))
  else if F.isNaNInf xI || F.isNaNInf (m (y.pri + 1)) then
    F.dmddepositM fold xR y.re (m.set (y.pri + 1) (F.add (m (y.pri + 1)) xI))
  else if F.dmindex0 (m y.pri) || F.dmindex0 (m (y.pri + 1)) then
    F.dmddepositM fold xI y.im (F.dmddepositM fold xR y.re m)
  else F.zdepositLoopM y (fold - 1) 0 xR xI m

/-- `binned_zmrenorm` (`src/binned/zmrenorm.c:19-22`). -/
def zmrenormM (fold : Nat) (y : Loc) (m : Mem) : Mem := F.dmrenormM fold y.im (F.dmrenormM fold y.re m)

/-- `binned_zmzadd` (`src/binned/zmzadd.c:20-24`). -/
def zmzaddM (fold : Nat) (xR xI : Flt) (y : Loc) (m : Mem) : Mem :=
  F.zmrenormM fold y (F.zmzdepositM fold xR xI y (F.zmzupdateM fold xR xI y m))

/-- `binned_zmzconv` (`src/binned/zmzconv.c:18-21`). -/
def zmzconvM (fold : Nat) (xR xI : Flt) (y : Loc) (m : Mem) : Mem :=
  F.dmdconvM fold xI y.im (F.dmdconvM fold xR y.re m)

/-- `binned_zmnegate` (`src/binned/zmnegate.c:19-22`). -/
def zmnegateM (fold : Nat) (y : Loc) (m : Mem) : Mem := F.dmnegateM fold y.im (F.dmnegateM fold y.re m)

/-- `binned_zmzmadd` (`src/binned/zmzmadd.c:23-26`). -/
def zmzmaddM (fold : Nat) (x y : Loc) (m : Mem) : Mem := F.dmdmaddM fold x.im y.im (F.dmdmaddM fold x.re y.re m)

/-- `binned_zzmconv_sub` (`src/binned/zzmconv_sub.c:18-21`), `binned_ccmconv_sub` (`src/binned/ccmconv_sub.c:18-21`).
The stride handed on for the carry vector is `inccarX + 1`, as in the code. -/
def zzmconvM (fold : Nat) (l : Loc) (m : Mem) : Flt × Flt :=
  (F.convertM fold ⟨l.pri, l.incpri * 2, l.car, l.inccar + 1⟩ m,
   F.convertM fold ⟨l.pri + 1, l.incpri * 2, l.car + 1, l.inccar + 1⟩ m)

/-- `binned_zbzbaddv` (`src/binned/zbzbaddv.c:18-23`). -/
def zbzbaddvM (fold n : Nat) (X incX Y incY : Int) (m : Mem) : Mem :=
  (List.range n).foldl (fun m (i : Nat) =>
    F.zmzmaddM fold (zpacked fold (X + i * (incX * zbnum fold))) (zpacked fold (Y + i * (incY * zbnum fold))) m) m

end Fmt
end Repro
