import Verif.Memory
/-!
# Threads

The functions of `src/binned` as programs made of single memory accesses, so that the accesses of several threads
can be interleaved. The only variables shared by threads that work on different data are those of `src/binned/dmbins.c:7-8` (and `smbins.c`): the table
`bins` and the variable `bins_initialized`; the first call of `binned_dmbins` fills the table, and nothing stops two threads
from doing so at the same time.

Each access takes place at once and is seen by all threads in the same order (sequential consistency). An expression the C code
reads twice in a row (`priX[0]`) is loaded once here.
-/

namespace Repro

/-- A program that returns an `α`: a tree of memory accesses. -/
inductive Prog (α : Type) where
  | ret (v : α)
  /-- read a word -/
  | load (a : Int) (k : Flt → Prog α)
  /-- write a word -/
  | store (a : Int) (v : Flt) (k : Prog α)
  /-- read `bins_initialized` -/
  | getFlag (k : Bool → Prog α)
  /-- `bins_initialized = 1` -/
  | setFlag (k : Prog α)
  /-- read `bins[i]` -/
  | getBin (i : Nat) (k : Flt → Prog α)
  /-- write `bins[i]` -/
  | setBin (i : Nat) (v : Flt) (k : Prog α)

namespace Prog
variable {α β : Type}

/-- One program after the other. -/
def bind : Prog α → (α → Prog β) → Prog β
  | ret v, f => f v
  | load a k, f => load a (fun v => (k v).bind f)
  | store a v k, f => store a v (k.bind f)
  | getFlag k, f => getFlag (fun b => (k b).bind f)
  | setFlag k, f => setFlag (k.bind f)
  | getBin i k, f => getBin i (fun v => (k v).bind f)
  | setBin i v k, f => setBin i v (k.bind f)

instance : Monad Prog where
  pure := ret
  bind := bind

/-- `x[a]` -/
def rd (a : Int) : Prog Flt := load a ret
/-- `x[a] = v` -/
def wr (a : Int) (v : Flt) : Prog Unit := store a v (ret ())
/-- `bins[i]` -/
def bin (i : Nat) : Prog Flt := getBin i ret
/-- `bins[i] = v` -/
def wrBin (i : Nat) (v : Flt) : Prog Unit := setBin i v (ret ())

/-- A loop without a value. -/
def loop (body : Nat → Prog Unit) : List Nat → Prog Unit
  | [] => ret ()
  | i :: is => (body i).bind (fun _ => loop body is)

/-- A loop that updates a local variable. -/
def loopV (body : Flt → Nat → Prog Flt) : List Nat → Flt → Prog Flt
  | [], Y => ret Y
  | i :: is, Y => (body Y i).bind (loopV body is)

end Prog
open Prog

/-- What threads share. -/
structure Shared where
  /-- the words of all other objects -/
  mem : Mem
  /-- `bins_initialized` -/
  flag : Bool
  /-- `bins` -/
  tab : Nat → Flt

/-- The next access of a program. -/
def Prog.step {α : Type} : Prog α → Shared → Prog α × Shared
  | ret v, s => (ret v, s)
  | load a k, s => (k (s.mem a), s)
  | store a v k, s => (k, { s with mem := s.mem.set a v })
  | getFlag k, s => (k s.flag, s)
  | setFlag k, s => (k, { s with flag := true })
  | getBin i k, s => (k (s.tab i), s)
  | setBin i v k, s => (k, { s with tab := fun j => if j = i then v else s.tab j })

/-- Threads, one for every element of `ι`, and what they share. -/
structure System (ι α : Type) where
  prog : ι → Prog α
  shared : Shared

/-- Thread `t` performs its next access. -/
def System.step {ι α : Type} [DecidableEq ι] (σ : System ι α) (t : ι) : System ι α :=
  let r := (σ.prog t).step σ.shared
  ⟨fun u => if u = t then r.1 else σ.prog u, r.2⟩

/-- A schedule: which thread performs the next access, again and again. -/
def System.run {ι α : Type} [DecidableEq ι] (σ : System ι α) (sched : List ι) : System ι α := sched.foldl System.step σ

namespace Fmt
variable (F : Fmt)

/-- The number of entries of `bins` (`src/binned/dmbins.c:7`). -/
def binsSize : Nat := F.maxIndex + F.maxFold

/-- The first entry: `2.0 * ldexp(0.75, DBL_MAX_EXP - 1)` (`src/binned/dmbins.c:27`), `ldexpf(0.75, FLT_MAX_EXP)` (`src/binned/smbins.c:27`). -/
def firstBin : Flt := if F = f32 then F.ldexp75 F.maxExp else F.mul (F.ofInt 2) (F.ldexp75 ((F.maxExp : Int) - 1))

/-- `binned_dmbins` (`src/binned/dmbins.c:23-39`), `binned_smbins` (`src/binned/smbins.c:23-39`). The pointer it returns is used as `bins[X + i]`. -/
def dmbinsP : Prog Unit :=
  getFlag (fun b => if b then ret () else do
    wrBin 0 F.firstBin
    loop (fun i => wrBin i (F.ldexp75 ((F.maxExp : Int) + F.p - F.W + 1 - i * F.W))) (List.range' 1 F.maxIndex)
    loop (fun i => do let v ← bin (i - 1); wrBin i v) (List.range' (F.maxIndex + 1) (F.maxFold - 1))
    setFlag (ret ()))

/-- `binned_dmsetzero` (`src/binned/dmsetzero.c:19-25`). -/
def dmsetzeroP (fold : Nat) (l : Loc) : Prog Unit :=
  loop (fun i => do wr (l.P i) zero; wr (l.C i) zero) (List.range fold)

/-- `binned_dmdmset` (`src/binned/dmdmset.c:23-29`). -/
def dmdmsetP (fold : Nat) (x y : Loc) : Prog Unit :=
  loop (fun i => do
    let v ← rd (x.P i); wr (y.P i) v
    let v ← rd (x.C i); wr (y.C i) v) (List.range fold)

/-- `binned_dmdupdate` (`src/binned/dmdupdate.c:24-56`). -/
def dmdupdateP (fold : Nat) (x : Flt) (y : Loc) : Prog Unit := do
  let y0 ← rd y.pri
  if F.isNaNInf y0 then ret ()
  else if isZero y0 then do
    F.dmbinsP
    loop (fun i => do
      let v ← bin (F.dindex x + i)
      wr (y.P i) v
      wr (y.C i) zero) (List.range fold)
  else if F.dmindex y0 > F.dindex x then do
    loop (fun i => do
      let v ← rd (y.P (i - (F.dmindex y0 - F.dindex x))); wr (y.P i) v
      let v ← rd (y.C (i - (F.dmindex y0 - F.dindex x))); wr (y.C i) v) (downTo fold (F.dmindex y0 - F.dindex x))
    F.dmbinsP
    loop (fun j => do
      let v ← bin (F.dindex x + j)
      wr (y.P j) v
      wr (y.C j) zero) (List.range (min fold (F.dmindex y0 - F.dindex x)))
  else ret ()

/-- The loop and the final addition of `binned_dmddeposit` (`src/binned/dmddeposit.c:48-57, 60-69`). -/
def depositLoopP (y : Loc) : Nat → Nat → Flt → Prog Unit
  | 0, i, x => do
    let M ← rd (y.P i)
    wr (y.P i) (F.add M (or1 x))
  | n + 1, i, x => do
    let M ← rd (y.P i)
    wr (y.P i) (F.add (or1 x) M)
    depositLoopP y n (i + 1) (F.add x (F.sub M (F.add (or1 x) M)))

/-- `binned_dmddeposit` (`src/binned/dmddeposit.c:24-71`). -/
def dmddepositP (fold : Nat) (x : Flt) (y : Loc) : Prog Unit := do
  let M ← rd y.pri
  if F.isNaNInf x || F.isNaNInf M then wr y.pri (F.add M x)
  else if F.dmindex0 M then do
    wr y.pri (F.add (or1 (F.mul x F.compression)) M)
    let M := F.mul (F.sub M (F.add (or1 (F.mul x F.compression)) M)) F.halfExpansion
    F.depositLoopP y (fold - 1 - 1) 1 (F.add (F.add x M) M)
  else F.depositLoopP y (fold - 1) 0 x

/-- `binned_dmrenorm` (`src/binned/dmrenorm.c:68-86`). -/
def dmrenormP (fold : Nat) (y : Loc) : Prog Unit := do
  let y0 ← rd y.pri
  if isZero y0 || F.isNaNInf y0 then ret ()
  else loop (fun i => do
    let t ← rd (y.P i)
    let c ← rd (y.C i)
    wr (y.C i) (F.renormCar t c)
    wr (y.P i) (F.renormPri t)) (List.range fold)

/-- `binned_dmdadd` (`src/binned/dmdadd.c:20-24`). -/
def dmdaddP (fold : Nat) (x : Flt) (y : Loc) : Prog Unit := do
  F.dmdupdateP fold x y
  F.dmddepositP fold x y
  F.dmrenormP fold y

/-- `binned_dmnegate` (`src/binned/dmnegate.c:19-29`). -/
def dmnegateP (fold : Nat) (y : Loc) : Prog Unit := do
  let y0 ← rd y.pri
  if isZero y0 then ret ()
  else do
    F.dmbinsP
    loop (fun i => do
      let b ← bin (F.dmindex y0 + i)
      let v ← rd (y.P i)
      wr (y.P i) (F.sub b (F.sub v b))
      let c ← rd (y.C i)
      wr (y.C i) (fneg c)) (List.range fold)

/-- `binned_dmdmadd` (`src/binned/dmdmadd.c:27-74`). -/
def dmdmaddP (fold : Nat) (x y : Loc) : Prog Unit := do
  let x0 ← rd x.pri
  if isZero x0 then ret ()
  else do
    let y0 ← rd y.pri
    if isZero y0 then dmdmsetP fold x y
    else if F.isNaNInf x0 || F.isNaNInf y0 then wr y.pri (F.add y0 x0)
    else if F.dmindex y0 > F.dmindex x0 then do
      F.dmbinsP
      loop (fun i => do
        let xv ← rd (x.P i)
        let yv ← rd (y.P (i - (F.dmindex y0 - F.dmindex x0)))
        let b ← bin (F.dmindex y0 + (i - (F.dmindex y0 - F.dmindex x0)))
        wr (y.P i) (F.add xv (F.sub yv b))
        let xc ← rd (x.C i)
        let yc ← rd (y.C (i - (F.dmindex y0 - F.dmindex x0)))
        wr (y.C i) (F.add xc yc)) (downTo fold (F.dmindex y0 - F.dmindex x0))
      loop (fun i => do
        let v ← rd (x.P i); wr (y.P i) v
        let v ← rd (x.C i); wr (y.C i) v) (List.range (min (F.dmindex y0 - F.dmindex x0) fold))
      F.dmrenormP fold y
    else do
      F.dmbinsP
      loop (fun i => do
        let yv ← rd (y.P i)
        let xv ← rd (x.P (i - (F.dmindex x0 - F.dmindex y0)))
        let b ← bin (F.dmindex x0 + (i - (F.dmindex x0 - F.dmindex y0)))
        wr (y.P i) (F.add yv (F.sub xv b))
        let yc ← rd (y.C i)
        let xc ← rd (x.C (i - (F.dmindex x0 - F.dmindex y0)))
        wr (y.C i) (F.add yc xc)) (List.range' (F.dmindex x0 - F.dmindex y0) (fold - (F.dmindex x0 - F.dmindex y0)))
      F.dmrenormP fold y

/-- The scaled loop of `binned_ddmconv` (`src/binned/ddmconv.c:56-59`). -/
def convStepSP (l : Loc) (k : Nat) (Y : Flt) (i : Nat) : Prog Flt := do
  let c ← rd (l.C i)
  let b ← bin (k + i)
  let v ← rd (l.P (i - 1))
  let b' ← bin (k + (i - 1))
  ret (F.add (F.add Y (F.mul c (F.mul (F.div b F.six) F.convDown))) (F.mul (F.sub v b') F.convDown))

/-- The unscaled loop (`src/binned/ddmconv.c:68-71, 75-78`). -/
def convStepP (l : Loc) (k : Nat) (Y : Flt) (i : Nat) : Prog Flt := do
  let c ← rd (l.C i)
  let b ← bin (k + i)
  let v ← rd (l.P (i - 1))
  let b' ← bin (k + (i - 1))
  ret (F.add (F.add Y (F.mul c (F.div b F.six))) (F.sub v b'))

/-- `priX[fold - 1] - bins[fold - 1]` -/
def convLastP (fold : Nat) (l : Loc) (k : Nat) : Prog Flt := do
  let v ← rd (l.P (fold - 1))
  let b ← bin (k + (fold - 1))
  ret (F.sub v b)

/-- The rest of the scaled branch of `binned_ddmconv` (`src/binned/ddmconv.c:56-72`), from `i`. -/
def convRestP (fold : Nat) (l : Loc) (k i : Nat) (Y : Flt) : Prog Flt := do
  let Y ← loopV (F.convStepSP l k) (List.range' i (min fold (3 * F.p / F.W - k) - i)) Y
  if max i (min fold (3 * F.p / F.W - k)) = fold then do
    let d ← F.convLastP fold l k
    ret (F.mul (F.add Y (F.mul d F.convDown)) F.convUp)
  else if F.isInf (F.mul Y F.convUp) then ret (F.mul Y F.convUp)
  else do
    let Y ← loopV (F.convStepP l k) (List.range' (max i (min fold (3 * F.p / F.W - k))) (fold - max i (min fold (3 * F.p / F.W - k)))) (F.mul Y F.convUp)
    let d ← F.convLastP fold l k
    ret (F.add Y d)

/-- `binned_ddmconv` (`src/binned/ddmconv.c:23-81`). -/
def ddmconvP (fold : Nat) (l : Loc) : Prog Flt := do
  let x0 ← rd l.pri
  if F.isNaNInf x0 then ret x0
  else if isZero x0 then ret zero
  else do
    F.dmbinsP
    if F.dmindex x0 ≤ 3 * F.p / F.W then
      if F.dmindex x0 = 0 then do
        let c0 ← rd (l.C 0)
        let b0 ← bin 0
        let c1 ← rd (l.C 1)
        let b1 ← bin 1
        let Y := F.add zero (F.mul c0 (F.mul (F.mul (F.div b0 F.six) F.convDown) F.expansion))
        let Y := F.add Y (F.mul c1 (F.mul (F.div b1 F.six) F.convDown))
        F.convRestP fold l 0 2 (F.add Y (F.mul (F.mul (F.sub x0 b0) F.convDown) F.expansion))
      else do
        let c0 ← rd (l.C 0)
        let b0 ← bin (F.dmindex x0)
        F.convRestP fold l (F.dmindex x0) 1 (F.add zero (F.mul c0 (F.mul (F.div b0 F.six) F.convDown)))
    else do
      let c0 ← rd (l.C 0)
      let b0 ← bin (F.dmindex x0)
      let Y ← loopV (F.convStepP l (F.dmindex x0)) (List.range' 1 (fold - 1)) (F.add zero (F.mul c0 (F.div b0 F.six)))
      let d ← F.convLastP fold l (F.dmindex x0)
      ret (F.add Y d)

end Fmt

open Fmt

/-- The loop of `binned_ssmconv` (`src/binned/ssmconv.c:50-53`). -/
def sconvStepP (l : Loc) (k : Nat) (Y : Flt) (i : Nat) : Prog Flt := do
  let c ← rd (l.C i)
  let b ← bin (k + i)
  let v ← rd (l.P (i - 1))
  let b' ← bin (k + (i - 1))
  ret (f64.add (f64.add Y (f64.mul (widen c) (f64.div (widen b) f64.six))) (widen (f32.sub v b')))

/-- The end of `binned_ssmconv` (`src/binned/ssmconv.c:50-56`), from `i`. -/
def sconvRestP (fold : Nat) (l : Loc) (k i : Nat) (Y : Flt) : Prog Flt := do
  let Y ← loopV (sconvStepP l k) (List.range' i (fold - i)) Y
  let d ← f32.convLastP fold l k
  ret (narrow (f64.add Y (widen d)))

/-- `binned_ssmconv` (`src/binned/ssmconv.c:22-57`). -/
def ssmconvP (fold : Nat) (l : Loc) : Prog Flt := do
  let x0 ← rd l.pri
  if f32.isNaNInf x0 then ret x0
  else if isZero x0 then ret zero
  else do
    f32.dmbinsP
    if f32.dmindex x0 = 0 then do
      let c0 ← rd (l.C 0)
      let b0 ← bin 0
      let c1 ← rd (l.C 1)
      let b1 ← bin 1
      let Y := f64.add zero (f64.mul (f64.mul (widen c0) (f64.div (widen b0) f64.six)) (widen f32.expansion))
      let Y := f64.add Y (f64.mul (widen c1) (f64.div (widen b1) f64.six))
      sconvRestP fold l 0 2 (f64.add Y (f64.mul (widen (f32.sub x0 b0)) (widen f32.expansion)))
    else do
      let c0 ← rd (l.C 0)
      let b0 ← bin (f32.dmindex x0)
      sconvRestP fold l (f32.dmindex x0) 1 (f64.add zero (f64.mul (widen c0) (f64.div (widen b0) f64.six)))

/-- Conversion of a value of either format. -/
def convertP (F : Fmt) (fold : Nat) (l : Loc) : Prog Flt := if F = f32 then ssmconvP fold l else F.ddmconvP fold l

end Repro
