import Verif.Simd
import Verif.GenRunSq
/-!
# The vector routines on words of bits, with vector instructions inside

The block loops of `Verif/GenRun.lean` and `Verif/GenRunSq.lean` once more, now over a memory of 64 or 32 bit words and with the
kernels executed by the machine of `Verif/Simd.lean` (SSE or AVX intrinsics on registers of 128 or 256 bits). The
functions of `src/binned` called between the kernels are C functions on `double` and `float`: they read the words as numbers and store
the bits of their results. `Verif/PropsWordRun.lean` proves what the words of the accumulator are afterwards (C71).
-/

namespace Repro
namespace Fmt
variable (F : Fmt)

/-- A memory of words. -/
abbrev Words := Int → BitVec F.width

/-- The numbers in a memory of words. -/
def decMem (w : F.Words) : Mem := fun a => F.dec (w a)

/-- The bits of a memory of numbers. -/
def encMem (m : Mem) : F.Words := fun a => F.enc (m a)

/-- A scalar C function: it loads numbers, computes with them and stores the bits of the results. -/
def onWords (f : Mem → Mem) (w : F.Words) : F.Words := F.encMem (f (F.decMem w))

/-- One store. -/
def setW (w : F.Words) (a : Int) (v : BitVec F.width) : F.Words := fun b => if b = a then v else w b

/-- The words behind the two data pointers. -/
def behindW (w : F.Words) (X Z : Int) : Nat → Int → BitVec F.width := fun p a => w ((if p = 0 then X else Z) + a)

/-- `bindY` for words: the registers are arbitrary, the primaries are in memory. -/
def bindYW {n : Nat} (l0 l1 : Loc) (w : F.Words) (σ : IRegs n F.width) : IRegs n F.width where
  vec := σ.vec
  sc := fun v => match v with
    | .y 0 j => w (l0.P j)
    | .y 1 j => w (l1.P j)
    | v => σ.sc v

/-- `storeY` for words. -/
def storeYW {n : Nat} (fold k : Nat) (l : Loc) (σ : IRegs n F.width) (w : F.Words) : F.Words :=
  (List.range fold).foldl (fun w j => F.setW w (l.P j) (σ.sc (.y k j))) w

variable (isa : Isa)

/-- The block loop of `binnedBLAS_dmdsum` (`src/binnedBLAS/dmdsum.ccog:57-6203`), `binnedBLAS_dmdasum` (`dmdasum.ccog:57-5943`),
`binnedBLAS_dmddot` (`dmddot.ccog:59-12072`): `rloopM` on words. -/
def rloopW (T : Tune) (op : DepOp) (expand : Bool) (fold : Nat) (l : Loc) (incX incZ : Int) (jA jD : Nat → IRegs isa.bits F.width) :
    Nat → Nat → Int → Int → Nat → F.Words → F.Words
  | 0, _, _, _, _, w => F.onWords (F.dmrenormM fold l) w
  | fuel + 1, rem, X, Z, deposits, w =>
    if rem = 0 then F.onWords (F.dmrenormM fold l) w
    else
      let nb := min rem T.nb
      let amax := F.dec (((GenA.mk T false op.prod).codeI F isa (F.behindW w X Z) incX incZ nb (jA rem)).sc (.am 0))
      let w := if F.isInf amax || F.isInf (F.dec (w l.pri)) then
          F.onWords (F.accum0M nb (fun j m => rterm F op (m (X + j * incX)) (m (Z + j * incZ))) l.pri) w else w
      if F.isNaN (F.dec (w l.pri)) then w
      else if F.isInf (F.dec (w l.pri)) then
        rloopW T op expand fold l incX incZ jA jD fuel (rem - nb) (X + nb * incX) (Z + nb * incZ) deposits w
      else
        let over := deposits + nb > F.endurance
        let w := if over then F.onWords (F.dmrenormM fold l) w else w
        let deposits := if over then 0 else deposits
        let w := F.onWords (F.dmdupdateM fold amax l) w
        let σ := (Gen.mk T false op).kernelI F isa (F.behindW w X Z) incX incZ expand fold nb (F.bindYW l l w (jD rem))
        let adv := (runUnrolled (Gen.mk T false op).tsz (T.pipe * T.unroll) nb).off
        rloopW T op expand fold l incX incZ jA jD fuel (rem - nb) (X + incX * adv) (Z + incZ * adv) (deposits + nb)
          (F.storeYW fold 0 l σ w)

/-- `binnedBLAS_dmdsum`, `binnedBLAS_dmdasum`, `binnedBLAS_dmddot` on `n` elements. -/
def rvecW (T : Tune) (op : DepOp) (expand : Bool) (fold : Nat) (l : Loc) (n : Nat) (X incX Z incZ : Int)
    (jA jD : Nat → IRegs isa.bits F.width) (w : F.Words) : F.Words :=
  F.rloopW isa T op expand fold l incX incZ jA jD n n X Z 0 w

/-- The block loop of `binnedBLAS_zmzsum` (`src/binnedBLAS/zmzsum.ccog:57-7039`), `binnedBLAS_zmzdotu`, `binnedBLAS_zmzdotc`
(`zmzdotu.ccog:59-11667`, `zmzdotc.ccog:59-10157`): `zloopM` on words. -/
def zloopW (T : Tune) (op : DepOp) (expand : Bool) (fold : Nat) (l : Loc) (incX incZ : Int) (jA jD : Nat → IRegs isa.bits F.width) :
    Nat → Nat → Int → Int → Nat → F.Words → F.Words
  | 0, _, _, _, _, w => F.onWords (F.zmrenormM fold l) w
  | fuel + 1, rem, X, Z, deposits, w =>
    if rem = 0 then F.onWords (F.zmrenormM fold l) w
    else
      let nb := min rem T.nb
      let σA := (GenA.mk T true op.prod).codeI F isa (F.behindW w X Z) incX incZ nb (jA rem)
      let a0 := F.dec (σA.sc (.am 0))
      let a1 := F.dec (σA.sc (.am 1))
      let w := if F.isInf a0 || F.isInf (F.dec (w l.pri)) then
          F.onWords (F.accum0M nb (fun j m => F.zterm op 0 (m.pair (X + j * 2 * incX)) (m.pair (Z + j * 2 * incZ))) l.pri) w else w
      let w := if F.isInf a1 || F.isInf (F.dec (w (l.pri + 1))) then
          F.onWords (F.accum0M nb (fun j m => F.zterm op 1 (m.pair (X + j * 2 * incX)) (m.pair (Z + j * 2 * incZ))) (l.pri + 1)) w else w
      if F.isNaN (F.dec (w l.pri)) && F.isNaN (F.dec (w (l.pri + 1))) then w
      else if F.isInf (F.dec (w l.pri)) && F.isInf (F.dec (w (l.pri + 1))) then
        zloopW T op expand fold l incX incZ jA jD fuel (rem - nb) (X + nb * 2 * incX) (Z + nb * 2 * incZ) deposits w
      else
        let a0 := if F.isNaNInf (F.dec (w l.pri)) then F.dec (w l.pri) else a0
        let a1 := if F.isNaNInf (F.dec (w (l.pri + 1))) then F.dec (w (l.pri + 1)) else a1
        let over := deposits + nb > F.endurance / (if op.prod then 2 else 1)
        let w := if over then F.onWords (F.zmrenormM fold l) w else w
        let deposits := if over then 0 else deposits
        let w := F.onWords (F.zmzupdateM fold a0 a1 l) w
        let σ := (Gen.mk T true op).kernelI F isa (F.behindW w X Z) incX incZ expand fold nb (F.bindYW l.re l.im w (jD rem))
        let adv := (runUnrolled (Gen.mk T true op).tsz (T.pipe * T.unroll) nb).off
        let w := F.storeYW fold 1 l.im σ (F.storeYW fold 0 l.re σ w)
        let w := if F.isInf a0 then F.setW w l.pri (F.enc a0) else w
        let w := if F.isInf a1 then F.setW w (l.pri + 1) (F.enc a1) else w
        zloopW T op expand fold l incX incZ jA jD fuel (rem - nb) (X + incX * 2 * adv) (Z + incZ * 2 * adv) (deposits + nb) w

/-- `binnedBLAS_zmzsum`, `binnedBLAS_zmzdotu`, `binnedBLAS_zmzdotc` on `n` elements. -/
def zvecW (T : Tune) (op : DepOp) (expand : Bool) (fold : Nat) (l : Loc) (n : Nat) (X incX Z incZ : Int)
    (jA jD : Nat → IRegs isa.bits F.width) (w : F.Words) : F.Words :=
  F.zloopW isa T op expand fold l incX incZ jA jD n n X Z 0 w

/-- The last lines of `binnedBLAS_dmdssq` (`src/binnedBLAS/dmdssq.ccog:4962-4969`). -/
def ssqEndW (fold : Nat) (l : Loc) (scl : Flt) (w : F.Words) : Flt × F.Words :=
  let w := F.onWords (F.dmrenormM fold l) w
  (if F.isNaNInf (F.dec (w l.pri)) then F.dscale F.one else scl, w)

/-- The block loop of `binnedBLAS_dmdssq` (`src/binnedBLAS/dmdssq.ccog:60-4970`), `binnedBLAS_smsssq`: `ssqLoopM` on words. -/
def ssqLoopW (T : Tune) (expand : Bool) (fold : Nat) (l : Loc) (incX : Int) (jA jD : Nat → IRegs isa.bits F.width) :
    Nat → Nat → Int → Nat → Flt → F.Words → Flt × F.Words
  | 0, _, _, _, scl, w => F.ssqEndW fold l scl w
  | fuel + 1, rem, X, deposits, scl, w =>
    if rem = 0 then F.ssqEndW fold l scl w
    else
      let nb := min rem T.nb
      let amax := F.dec (((GenA.mk T false false).codeI F isa (F.behindW w X X) incX incX nb (jA rem)).sc (.am 0))
      let w := if F.isInf amax || F.isInf (F.dec (w l.pri)) then F.onWords (F.accum0M nb (fun j m => fabs (m (X + j * incX))) l.pri) w else w
      if F.isNaN (F.dec (w l.pri)) then (F.dscale F.one, w)
      else if F.isInf (F.dec (w l.pri)) then ssqLoopW T expand fold l incX jA jD fuel (rem - nb) (X + nb * incX) deposits scl w
      else
        let over := deposits + nb > F.endurance
        let w := if over then F.onWords (F.dmrenormM fold l) w else w
        let deposits := if over then 0 else deposits
        let new := F.dscale amax
        let w := if F.lt scl new && F.lt zero scl then F.onWords (F.dmdrescaleM fold new scl l) w else w
        let scl := if F.lt scl new then new else scl
        let a := F.div amax scl
        let w := F.onWords (F.dmdupdateM fold (F.mul a a) l) w
        let op := DepOp.ssq (F.div F.one scl)
        let σ := (Gen.mk T false op).kernelI F isa (F.behindW w X X) incX incX expand fold nb (F.bindYW l l w (jD rem))
        let adv := (runUnrolled (Gen.mk T false op).tsz (T.pipe * T.unroll) nb).off
        ssqLoopW T expand fold l incX jA jD fuel (rem - nb) (X + incX * adv) (deposits + nb) scl (F.storeYW fold 0 l σ w)

/-- `binnedBLAS_dmdssq` on `n` elements: the returned scale and the memory. -/
def ssqVecW (T : Tune) (expand : Bool) (fold : Nat) (l : Loc) (n : Nat) (X incX : Int) (scl : Flt)
    (jA jD : Nat → IRegs isa.bits F.width) (w : F.Words) : Flt × F.Words :=
  F.ssqLoopW isa T expand fold l incX jA jD n n X 0 scl w

/-- The block loop of `binnedBLAS_dmzasum` (`src/binnedBLAS/dmzasum.ccog:57-9868`), `binnedBLAS_smcasum`: `zasumLoopM` on words. -/
def zasumLoopW (T : Tune) (expand : Bool) (fold : Nat) (s l : Loc) (incX : Int) (jA jD : Nat → IRegs isa.bits F.width) :
    Nat → Nat → Int → Nat → F.Words → F.Words
  | 0, _, _, _, w => F.onWords (F.zasumEndM fold s l) w
  | fuel + 1, rem, X, deposits, w =>
    if rem = 0 then F.onWords (F.zasumEndM fold s l) w
    else
      let nb := min rem T.nb
      let σA := (GenA.mk T true false).codeI F isa (F.behindW w X X) incX incX nb (jA rem)
      let amax := F.fmax (F.dec (σA.sc (.am 0))) (F.dec (σA.sc (.am 1)))
      let w := if F.isInf amax || F.isInf (F.dec (w l.pri)) then F.onWords (F.accumAbsM nb X incX l.pri) w else w
      if F.isNaN (F.dec (w l.pri)) || F.isNaN (F.dec (w s.pri)) || F.isNaN (F.dec (w (s.pri + 1))) then
        F.onWords (fun m => m.set l.pri (F.add (m l.pri) (F.add (m s.pri) (m (s.pri + 1))))) w
      else if F.isInf (F.dec (w l.pri)) then zasumLoopW T expand fold s l incX jA jD fuel (rem - nb) (X + nb * 2 * incX) deposits w
      else
        let over := deposits + nb > F.endurance
        let w := if over then F.onWords (F.zmrenormM fold s) w else w
        let deposits := if over then 0 else deposits
        let w := F.onWords (F.zmdupdateM fold amax s) w
        let σ := (Gen.mk T true .asum).kernelI F isa (F.behindW w X X) incX incX expand fold nb (F.bindYW s.re s.im w (jD rem))
        let adv := (runUnrolled (Gen.mk T true .asum).tsz (T.pipe * T.unroll) nb).off
        zasumLoopW T expand fold s l incX jA jD fuel (rem - nb) (X + incX * 2 * adv) (deposits + nb)
          (F.storeYW fold 1 s.im σ (F.storeYW fold 0 s.re σ w))

/-- `binnedBLAS_dmzasum` on `n` elements: the temporary is at the address `tmp` (`binned_zballoc`) and is set to zero first. -/
def zasumVecW (T : Tune) (expand : Bool) (fold : Nat) (tmp : Int) (l : Loc) (n : Nat) (X incX : Int)
    (jA jD : Nat → IRegs isa.bits F.width) (w : F.Words) : F.Words :=
  F.zasumLoopW isa T expand fold (zpacked fold tmp) l incX jA jD n n X 0 (F.onWords (zmsetzeroM fold (zpacked fold tmp)) w)

/-- The last lines of `binnedBLAS_dmzssq` (`src/binnedBLAS/dmzssq.ccog:5181-5191`): scalar code on words. -/
def zssqEndW (fold : Nat) (t0 t1 : Int) (s l : Loc) (scl scaleY : Flt) (w : F.Words) : Flt × F.Words :=
  let r := F.zssqEndM fold t0 t1 s l scl scaleY (F.decMem w)
  (r.1, F.encMem r.2)

/-- The block loop of `binnedBLAS_dmzssq` (`src/binnedBLAS/dmzssq.ccog:59-5192`), `binnedBLAS_smcssq`: `zssqLoopM` on words. -/
def zssqLoopW (T : Tune) (expand : Bool) (fold : Nat) (t0 t1 : Int) (s l : Loc) (incX : Int) (scaleY : Flt) (jA jD : Nat → IRegs isa.bits F.width) :
    Nat → Nat → Int → Nat → Flt → F.Words → Flt × F.Words
  | 0, _, _, _, scl, w => F.zssqEndW fold t0 t1 s l scl scaleY w
  | fuel + 1, rem, X, deposits, scl, w =>
    if rem = 0 then F.zssqEndW fold t0 t1 s l scl scaleY w
    else
      let nb := min rem T.nb
      let σA := (GenA.mk T true false).codeI F isa (F.behindW w X X) incX incX nb (jA rem)
      let amax := F.fmax (F.dec (σA.sc (.am 0))) (F.dec (σA.sc (.am 1)))
      let w := if F.isInf amax || F.isInf (F.dec (w l.pri)) then F.onWords (F.accumAbsM nb X incX l.pri) w else w
      if F.isNaN (F.dec (w l.pri)) || F.isNaN (F.dec (w s.pri)) || F.isNaN (F.dec (w (s.pri + 1))) then
        (F.dscale F.one, F.onWords (fun m => m.set l.pri (F.add (m l.pri) (F.add (m s.pri) (m (s.pri + 1))))) w)
      else if F.isInf (F.dec (w l.pri)) then zssqLoopW T expand fold t0 t1 s l incX scaleY jA jD fuel (rem - nb) (X + nb * 2 * incX) deposits scl w
      else
        let over := deposits + nb > F.endurance
        let w := if over then F.onWords (F.zmrenormM fold s) w else w
        let deposits := if over then 0 else deposits
        let new := F.dscale amax
        let w := if F.lt scl new && F.lt zero scl then F.onWords (F.zmdrescaleM fold new scl s) w else w
        let scl := if F.lt scl new then new else scl
        let a := F.div amax scl
        let w := F.onWords (F.zmdupdateM fold (F.mul a a) s) w
        let op := DepOp.ssq (F.div F.one scl)
        let σ := (Gen.mk T true op).kernelI F isa (F.behindW w X X) incX incX expand fold nb (F.bindYW s.re s.im w (jD rem))
        let adv := (runUnrolled (Gen.mk T true op).tsz (T.pipe * T.unroll) nb).off
        zssqLoopW T expand fold t0 t1 s l incX scaleY jA jD fuel (rem - nb) (X + incX * 2 * adv) (deposits + nb) scl
          (F.storeYW fold 1 s.im σ (F.storeYW fold 0 s.re σ w))

/-- `binnedBLAS_dmzssq` on `n` elements: the returned scale and the memory. -/
def zssqVecW (T : Tune) (expand : Bool) (fold : Nat) (tmp t0 t1 : Int) (l : Loc) (n : Nat) (X incX : Int) (scaleY : Flt)
    (jA jD : Nat → IRegs isa.bits F.width) (w : F.Words) : Flt × F.Words :=
  F.zssqLoopW isa T expand fold t0 t1 (zpacked fold tmp) l incX scaleY jA jD n n X 0 zero (F.onWords (zmsetzeroM fold (zpacked fold tmp)) w)

end Fmt
end Repro
