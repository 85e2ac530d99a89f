import Verif.GenAmax
import Verif.Memory
import Verif.Complex
/-!
# The vector routines in memory, with the generated statements inside

The block loops of `src/binnedBLAS/dmdsum.ccog`, `dmdasum.ccog`, `dmddot.ccog`, `zmzsum.ccog`, `zmzdotu.ccog`, `zmzdotc.ccog`
over one flat memory that holds the vectors and the accumulator with its strides. The maximum is computed by the statements
of `Verif/GenAmax.lean`, the block is deposited by the statements of `Verif/Gen.lean`. The local variables of both are
uninitialised in C: their contents are parameters. `Verif/PropsGenRun.lean` proves that the routines have the effect of the
list models `dmdsum` … (C64).
-/

namespace Repro

/-- The local variables of a deposit kernel (arbitrary contents `σ`) together with the primaries in memory, which the
statements access as `priY[incpriY * j]`, `priY[incpriY * j * 2 + k]`. For real data `l0 = l1`. -/
def bindY (l0 l1 : Loc) (m : Mem) (σ : Regs) : Regs := fun v t =>
  match v with
  | .y 0 j => m (l0.P j)
  | .y 1 j => m (l1.P j)
  | v => σ v t

/-- The primaries the statements have stored, back in memory. The stores are to distinct words (`Sep`), so that only the
last value of each matters. -/
def storeY (fold k : Nat) (l : Loc) (σ : Regs) (m : Mem) : Mem :=
  (List.range fold).foldl (fun m j => m.set (l.P j) (σ (.y k j) 0)) m

/-- What one statement of the exceptional loop adds: `X[j * incX]` (`src/binnedBLAS/dmdsum.ccog:71`), `fabs(X[j * incX])`
(`dmdasum.ccog:70`), `X[j * incX] * Y[j * incY]` (`dmddot.ccog:72`). -/
def rterm (F : Fmt) (op : DepOp) (x z : Flt) : Flt :=
  match op with
  | .asum => Fmt.fabs x
  | .dot => F.mul x z
  | _ => x

/-- Is the kernel one of the products? -/
def DepOp.prod : DepOp → Bool
  | .dot | .dotu | .dotc => true
  | _ => false

/-- The words behind the two data pointers. -/
def behind (m : Mem) (X Z : Int) : Nat → Int → Flt := fun p a => m ((if p = 0 then X else Z) + a)

namespace Fmt
variable (F : Fmt)

/-- `for (j = 0; j < N_block; j++) priY[0] += …` (`src/binnedBLAS/dmdsum.ccog:70-72`, `dmddot.ccog:71-73`, …): `t` gives the
term from the memory. -/
def accum0M (n : Nat) (t : Nat → Mem → Flt) (a : Int) (m : Mem) : Mem :=
  (List.range n).foldl (fun m j => m.set a (F.add (m a) (t j m))) m

/-- The block loop of `binnedBLAS_dmdsum` (`src/binnedBLAS/dmdsum.ccog:57-6203`), `binnedBLAS_dmdasum` (`dmdasum.ccog:57-5943`),
`binnedBLAS_dmddot` (`dmddot.ccog:59-12072`) with the data pointers `X`, `Z`; `rem = N - i`. `jA rem` and `jD rem` are the contents of the
uninitialised variables of the two kernels in this round. The kernel advances the pointers by what its loop skeleton
adds to them, the branch that skips a block by `N_block * incX`. -/
def rloopM (T : Tune) (op : DepOp) (expand : Bool) (fold : Nat) (l : Loc) (incX incZ : Int) (jA jD : Nat → Regs) :
    Nat → Nat → Int → Int → Nat → Mem → Mem
  | 0, _, _, _, _, m => F.dmrenormM fold l m
  | fuel + 1, rem, X, Z, deposits, m =>
    if rem = 0 then F.dmrenormM fold l m
    else
      let nb := min rem T.nb
      let amax := (GenA.mk T false op.prod).code F (behind m X Z) incX incZ nb (jA rem) (.am 0) 0
      let m := if F.isInf amax || F.isInf (m l.pri) then
          F.accum0M nb (fun j m => rterm F op (m (X + j * incX)) (m (Z + j * incZ))) l.pri m else m
      if F.isNaN (m l.pri) then m
      else if F.isInf (m l.pri) then
        rloopM T op expand fold l incX incZ jA jD fuel (rem - nb) (X + nb * incX) (Z + nb * incZ) deposits m
      else
        let over := deposits + nb > F.endurance
        let m := if over then F.dmrenormM fold l m else m
        let deposits := if over then 0 else deposits
        let m := F.dmdupdateM fold amax l m
        let σ := (Gen.mk T false op).kernelCode F (behind m X Z) incX incZ expand fold nb (bindY l l m (jD rem))
        let adv := (runUnrolled (Gen.mk T false op).tsz (T.pipe * T.unroll) nb).off
        rloopM T op expand fold l incX incZ jA jD fuel (rem - nb) (X + incX * adv) (Z + incZ * adv) (deposits + nb)
          (storeY fold 0 l σ m)

/-- `binnedBLAS_dmdsum`, `binnedBLAS_dmdasum`, `binnedBLAS_dmddot` on `n` elements. -/
def rvecM (T : Tune) (op : DepOp) (expand : Bool) (fold : Nat) (l : Loc) (n : Nat) (X incX Z incZ : Int) (jA jD : Nat → Regs) (m : Mem) : Mem :=
  F.rloopM T op expand fold l incX incZ jA jD n n X Z 0 m

/-- The terms of the exceptional loops: `src/binnedBLAS/zmzsum.ccog:69-78`, `zmzdotu.ccog:73-82`, `zmzdotc.ccog:70-79`
(`x[j * 2 * incX]` and the word behind it). -/
def zterm (op : DepOp) (k : Nat) (x z : Flt × Flt) : Flt :=
  match op with
  | .dotu => if k = 0 then F.sub (F.mul x.1 z.1) (F.mul x.2 z.2) else F.add (F.mul x.1 z.2) (F.mul x.2 z.1)
  | .dotc => if k = 0 then F.add (F.mul x.1 z.1) (F.mul x.2 z.2) else F.sub (F.mul x.1 z.2) (F.mul x.2 z.1)
  | _ => if k = 0 then x.1 else x.2

end Fmt

/-- The complex number at a word address. -/
def Mem.pair (m : Mem) (a : Int) : Flt × Flt := (m a, m (a + 1))

namespace Fmt
variable (F : Fmt)

/-- The block loop of `binnedBLAS_zmzsum` (`src/binnedBLAS/zmzsum.ccog:57-7039`), `binnedBLAS_zmzdotu`, `binnedBLAS_zmzdotc`
(`zmzdotu.ccog:59-11667`, `zmzdotc.ccog:59-10157`). `amaxm[0]`, `amaxm[1]` are `a0`, `a1`. -/
def zloopM (T : Tune) (op : DepOp) (expand : Bool) (fold : Nat) (l : Loc) (incX incZ : Int) (jA jD : Nat → Regs) :
    Nat → Nat → Int → Int → Nat → Mem → Mem
  | 0, _, _, _, _, m => F.zmrenormM fold l m
  | fuel + 1, rem, X, Z, deposits, m =>
    if rem = 0 then F.zmrenormM fold l m
    else
      let nb := min rem T.nb
      let σA := (GenA.mk T true op.prod).code F (behind m X Z) incX incZ nb (jA rem)
      let a0 := σA (.am 0) 0
      let a1 := σA (.am 1) 0
      let m := if F.isInf a0 || F.isInf (m l.pri) then
          F.accum0M nb (fun j m => F.zterm op 0 (m.pair (X + j * 2 * incX)) (m.pair (Z + j * 2 * incZ))) l.pri m else m
      let m := if F.isInf a1 || F.isInf (m (l.pri + 1)) then
          F.accum0M nb (fun j m => F.zterm op 1 (m.pair (X + j * 2 * incX)) (m.pair (Z + j * 2 * incZ))) (l.pri + 1) m else m
      if F.isNaN (m l.pri) && F.isNaN (m (l.pri + 1)) then m
      else if F.isInf (m l.pri) && F.isInf (m (l.pri + 1)) then
        zloopM T op expand fold l incX incZ jA jD fuel (rem - nb) (X + nb * 2 * incX) (Z + nb * 2 * incZ) deposits m
      else
        let a0 := if F.isNaNInf (m l.pri) then m l.pri else a0
        let a1 := if F.isNaNInf (m (l.pri + 1)) then m (l.pri + 1) else a1
        let over := deposits + nb > F.endurance / (if op.prod then 2 else 1)
        let m := if over then F.zmrenormM fold l m else m
        let deposits := if over then 0 else deposits
        let m := F.zmzupdateM fold a0 a1 l m
        let σ := (Gen.mk T true op).kernelCode F (behind m X Z) incX incZ expand fold nb (bindY l.re l.im m (jD rem))
        let adv := (runUnrolled (Gen.mk T true op).tsz (T.pipe * T.unroll) nb).off
        let m := storeY fold 1 l.im σ (storeY fold 0 l.re σ m)
        let m := if F.isInf a0 then m.set l.pri a0 else m
        let m := if F.isInf a1 then m.set (l.pri + 1) a1 else m
        zloopM T op expand fold l incX incZ jA jD fuel (rem - nb) (X + incX * 2 * adv) (Z + incZ * 2 * adv) (deposits + nb) m

/-- `binnedBLAS_zmzsum`, `binnedBLAS_zmzdotu`, `binnedBLAS_zmzdotc` on `n` elements. -/
def zvecM (T : Tune) (op : DepOp) (expand : Bool) (fold : Nat) (l : Loc) (n : Nat) (X incX Z incZ : Int) (jA jD : Nat → Regs) (m : Mem) : Mem :=
  F.zloopM T op expand fold l incX incZ jA jD n n X Z 0 m

end Fmt
end Repro
