import Verif.GenRun
import Verif.Ssq
import Verif.ZSsq
import Verif.ScaleMem
/-!
# Sums of squares and sums of absolute values of complex vectors in memory, with the generated statements inside

The block loops of `src/binnedBLAS/dmdssq.ccog`, `dmzasum.ccog`, `dmzssq.ccog` over one flat memory, in the manner of
`Verif/GenRun.lean`. The last two allocate a complex accumulator (`binned_zballoc`): its address is a parameter.
`Verif/PropsGenRunSq.lean`, `Verif/PropsGenRunAz.lean` prove that they have the effect of the list models (C64).
-/

namespace Repro
namespace Fmt
variable (F : Fmt)

/-- The last lines of `binnedBLAS_dmdssq` (`src/binnedBLAS/dmdssq.ccog:4962-4969`). -/
def ssqEndM (fold : Nat) (l : Loc) (scl : Flt) (m : Mem) : Flt × Mem :=
  let m := F.dmrenormM fold l m
  (if F.isNaNInf (m l.pri) then F.dscale F.one else scl, m)

/-- The block loop of `binnedBLAS_dmdssq` (`src/binnedBLAS/dmdssq.ccog:60-4970`), `binnedBLAS_smsssq`; `rem = N - i`. The deposit kernel is
that of `depositSSq.py` with the factor `1.0 / scl` in `scale_mask_inv`. -/
def ssqLoopM (T : Tune) (expand : Bool) (fold : Nat) (l : Loc) (incX : Int) (jA jD : Nat → Regs) :
    Nat → Nat → Int → Nat → Flt → Mem → Flt × Mem
  | 0, _, _, _, scl, m => F.ssqEndM fold l scl m
  | fuel + 1, rem, X, deposits, scl, m =>
    if rem = 0 then F.ssqEndM fold l scl m
    else
      let nb := min rem T.nb
      let amax := (GenA.mk T false false).code F (behind m X X) incX incX nb (jA rem) (.am 0) 0
      let m := if F.isInf amax || F.isInf (m l.pri) then F.accum0M nb (fun j m => fabs (m (X + j * incX))) l.pri m else m
      if F.isNaN (m l.pri) then (F.dscale F.one, m)
      else if F.isInf (m l.pri) then ssqLoopM T expand fold l incX jA jD fuel (rem - nb) (X + nb * incX) deposits scl m
      else
        let over := deposits + nb > F.endurance
        let m := if over then F.dmrenormM fold l m else m
        let deposits := if over then 0 else deposits
        let new := F.dscale amax
        let m := if F.lt scl new && F.lt zero scl then F.dmdrescaleM fold new scl l m else m
        let scl := if F.lt scl new then new else scl
        let a := F.div amax scl
        let m := F.dmdupdateM fold (F.mul a a) l m
        let op := DepOp.ssq (F.div F.one scl)
        let σ := (Gen.mk T false op).kernelCode F (behind m X X) incX incX expand fold nb (bindY l l m (jD rem))
        let adv := (runUnrolled (Gen.mk T false op).tsz (T.pipe * T.unroll) nb).off
        ssqLoopM T expand fold l incX jA jD fuel (rem - nb) (X + incX * adv) (deposits + nb) scl (storeY fold 0 l σ m)

/-- `binnedBLAS_dmdssq` on `n` elements: the returned scale and the memory. -/
def ssqVecM (T : Tune) (expand : Bool) (fold : Nat) (l : Loc) (n : Nat) (X incX : Int) (scl : Flt) (jA jD : Nat → Regs) (m : Mem) : Flt × Mem :=
  F.ssqLoopM T expand fold l incX jA jD n n X 0 scl m

/-- The exceptional loop of the routines on complex vectors with a real result:
`for (j = 0; j < N_block; j++){ priY[0] += fabs(x[j * 2 * incX]); priY[0] += fabs(x[j * 2 * incX + 1]); }`
(`src/binnedBLAS/dmzasum.ccog:75-78`, `dmzssq.ccog:79-82`). -/
def accumAbsM (n : Nat) (x incX : Int) (a : Int) (m : Mem) : Mem :=
  (List.range n).foldl (fun m (j : Nat) =>
    let m := m.set a (F.add (m a) (fabs (m (x + j * 2 * incX))))
    m.set a (F.add (m a) (fabs (m (x + j * 2 * incX + 1))))) m

/-- `binned_zbrenorm(fold, asum); binned_dmdmadd(fold, asum, 2, asum + 2 * fold, 2, priY, …); binned_dmdmadd(fold, asum + 1, 2, …)`
(`src/binnedBLAS/dmzasum.ccog:9861-9863`). -/
def zasumEndM (fold : Nat) (s l : Loc) (m : Mem) : Mem :=
  let m := F.zmrenormM fold s m
  let m := F.dmdmaddM fold s.re l m
  F.dmdmaddM fold s.im l m

/-- The block loop of `binnedBLAS_dmzasum` (`src/binnedBLAS/dmzasum.ccog:57-9868`), `binnedBLAS_smcasum`: `s` is the temporary
`asum`, `l` the result. -/
def zasumLoopM (T : Tune) (expand : Bool) (fold : Nat) (s l : Loc) (incX : Int) (jA jD : Nat → Regs) :
    Nat → Nat → Int → Nat → Mem → Mem
  | 0, _, _, _, m => F.zasumEndM fold s l m
  | fuel + 1, rem, X, deposits, m =>
    if rem = 0 then F.zasumEndM fold s l m
    else
      let nb := min rem T.nb
      let σA := (GenA.mk T true false).code F (behind m X X) incX incX nb (jA rem)
      let amax := F.fmax (σA (.am 0) 0) (σA (.am 1) 0)
      let m := if F.isInf amax || F.isInf (m l.pri) then F.accumAbsM nb X incX l.pri m else m
      if F.isNaN (m l.pri) || F.isNaN (m s.pri) || F.isNaN (m (s.pri + 1)) then
        m.set l.pri (F.add (m l.pri) (F.add (m s.pri) (m (s.pri + 1))))
      else if F.isInf (m l.pri) then zasumLoopM T expand fold s l incX jA jD fuel (rem - nb) (X + nb * 2 * incX) deposits m
      else
        let over := deposits + nb > F.endurance
        let m := if over then F.zmrenormM fold s m else m
        let deposits := if over then 0 else deposits
        let m := F.zmdupdateM fold amax s m
        let σ := (Gen.mk T true .asum).kernelCode F (behind m X X) incX incX expand fold nb (bindY s.re s.im m (jD rem))
        let adv := (runUnrolled (Gen.mk T true .asum).tsz (T.pipe * T.unroll) nb).off
        zasumLoopM T expand fold s l incX jA jD fuel (rem - nb) (X + incX * 2 * adv) (deposits + nb)
          (storeY fold 1 s.im σ (storeY fold 0 s.re σ m))

/-- `binnedBLAS_dmzasum` on `n` elements: the temporary is at the address `tmp` (`binned_zballoc`) and is set to zero first. -/
def zasumVecM (T : Tune) (expand : Bool) (fold : Nat) (tmp : Int) (l : Loc) (n : Nat) (X incX : Int) (jA jD : Nat → Regs) (m : Mem) : Mem :=
  F.zasumLoopM T expand fold (zpacked fold tmp) l incX jA jD n n X 0 (zmsetzeroM fold (zpacked fold tmp) m)

/-- The loop of `binned_zmdrescale` (`src/binned/zmdrescale.c:29-36`), `n` rounds from round `i` on: it divides
`priY[i * 2 * incpriY]` and the word behind it, but then looks at `priY[i * incpriY]`. -/
def zrescaleLoopM (r : Flt) (fold : Nat) (l : Loc) : Nat → Nat → Mem → Mem
  | 0, _, m => m
  | n + 1, i, m =>
    let a := l.pri + i * 2 * l.incpri
    let m := m.set a (F.div (m a) r)
    let m := m.set (a + 1) (F.div (m (a + 1)) r)
    if isZero (m (l.pri + i * l.incpri)) then
      F.zmdupdateM (fold - i) zero ⟨a, l.incpri, l.car + i * 2 * l.inccar, l.inccar⟩ m
    else zrescaleLoopM r fold l n (i + 1) m

/-- `binned_zmdrescale` (`src/binned/zmdrescale.c:20-38`). -/
def zmdrescaleM (fold : Nat) (X scaleY : Flt) (l : Loc) (m : Mem) : Mem :=
  if F.feq X scaleY || isZero X || isZero scaleY then m
  else
    let r := F.div X scaleY
    let r := F.mul r r
    F.zrescaleLoopM r fold l fold 0 m

/-- The last lines of `binnedBLAS_dmzssq` (`src/binnedBLAS/dmzssq.ccog:5181-5191`); `t0`, `t1` are the addresses of the temporary values
of the two calls of `binned_dmdmaddsq`. -/
def zssqEndM (fold : Nat) (t0 t1 : Int) (s l : Loc) (scl scaleY : Flt) (m : Mem) : Flt × Mem :=
  let m := F.zmrenormM fold s m
  let u := F.dmdmaddsqM fold t0 scl s.re scaleY l m
  let v := F.dmdmaddsqM fold t1 scl s.im u.1 l u.2
  (if F.isNaNInf (v.2 l.pri) then F.dscale F.one else v.1, v.2)

/-- The block loop of `binnedBLAS_dmzssq` (`src/binnedBLAS/dmzssq.ccog:59-5192`), `binnedBLAS_smcssq`: `s` is the temporary `ssq`. -/
def zssqLoopM (T : Tune) (expand : Bool) (fold : Nat) (t0 t1 : Int) (s l : Loc) (incX : Int) (scaleY : Flt) (jA jD : Nat → Regs) :
    Nat → Nat → Int → Nat → Flt → Mem → Flt × Mem
  | 0, _, _, _, scl, m => F.zssqEndM fold t0 t1 s l scl scaleY m
  | fuel + 1, rem, X, deposits, scl, m =>
    if rem = 0 then F.zssqEndM fold t0 t1 s l scl scaleY m
    else
      let nb := min rem T.nb
      let σA := (GenA.mk T true false).code F (behind m X X) incX incX nb (jA rem)
      let amax := F.fmax (σA (.am 0) 0) (σA (.am 1) 0)
      let m := if F.isInf amax || F.isInf (m l.pri) then F.accumAbsM nb X incX l.pri m else m
      if F.isNaN (m l.pri) || F.isNaN (m s.pri) || F.isNaN (m (s.pri + 1)) then
        (F.dscale F.one, m.set l.pri (F.add (m l.pri) (F.add (m s.pri) (m (s.pri + 1)))))
      else if F.isInf (m l.pri) then zssqLoopM T expand fold t0 t1 s l incX scaleY jA jD fuel (rem - nb) (X + nb * 2 * incX) deposits scl m
      else
        let over := deposits + nb > F.endurance
        let m := if over then F.zmrenormM fold s m else m
        let deposits := if over then 0 else deposits
        let new := F.dscale amax
        let m := if F.lt scl new && F.lt zero scl then F.zmdrescaleM fold new scl s m else m
        let scl := if F.lt scl new then new else scl
        let a := F.div amax scl
        let m := F.zmdupdateM fold (F.mul a a) s m
        let op := DepOp.ssq (F.div F.one scl)
        let σ := (Gen.mk T true op).kernelCode F (behind m X X) incX incX expand fold nb (bindY s.re s.im m (jD rem))
        let adv := (runUnrolled (Gen.mk T true op).tsz (T.pipe * T.unroll) nb).off
        zssqLoopM T expand fold t0 t1 s l incX scaleY jA jD fuel (rem - nb) (X + incX * 2 * adv) (deposits + nb) scl
          (storeY fold 1 s.im σ (storeY fold 0 s.re σ m))

/-- `binnedBLAS_dmzssq` on `n` elements: the returned scale and the memory. -/
def zssqVecM (T : Tune) (expand : Bool) (fold : Nat) (tmp t0 t1 : Int) (l : Loc) (n : Nat) (X incX : Int) (scaleY : Flt) (jA jD : Nat → Regs) (m : Mem) : Flt × Mem :=
  F.zssqLoopM T expand fold t0 t1 (zpacked fold tmp) l incX scaleY jA jD n n X 0 zero (zmsetzeroM fold (zpacked fold tmp) m)

end Fmt
end Repro
