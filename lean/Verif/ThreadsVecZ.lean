import Verif.ThreadsVec
import Verif.PropsGenRunZq
/-!
# The remaining vector routines as programs of single memory accesses

`binnedBLAS_zmzsum`, `zmzdotu`, `zmzdotc`, `dmzasum`, `dmdssq`, `dmzssq`, in the manner of `Verif/ThreadsVec.lean`. Where an exceptional loop
uses only one part of a complex number, both are read here.
-/

namespace Repro
open Prog

/-- The complex number at a word address. -/
def pairP (a : Int) : Prog (Flt × Flt) := (rd a).bind fun x => (rd (a + 1)).bind fun y => ret (x, y)

/-- Element `j` of a complex vector, or of two for a product (`src/binnedBLAS/zmzsum.ccog:69-78`, `zmzdotu.ccog:73-82`), as `el` combines them. -/
def zelP {α : Type} (prod : Bool) (el : Flt × Flt → Flt × Flt → α) (X Z incX incZ : Int) (j : Nat) : Prog α :=
  (pairP (X + j * 2 * incX)).bind fun x =>
    if prod then (pairP (Z + j * 2 * incZ)).bind fun z => ret (el x z) else ret (el x x)

namespace Fmt
variable (F : Fmt)

/-- `binned_zmsetzero` (`src/binned/zmsetzero.c:19-22`). -/
def zmsetzeroP (fold : Nat) (y : Loc) : Prog Unit := (dmsetzeroP fold y.re).bind fun _ => dmsetzeroP fold y.im

/-- `binned_zmrenorm` (`src/binned/zmrenorm.c`). -/
def zmrenormP (fold : Nat) (y : Loc) : Prog Unit := (F.dmrenormP fold y.re).bind fun _ => F.dmrenormP fold y.im

/-- `binned_zmzupdate` (`src/binned/zmzupdate.c:20-23`); `binned_zmdupdate` (`src/binned/zmdupdate.c:20-23`) for equal numbers. -/
def zmzupdateP (fold : Nat) (xr xi : Flt) (y : Loc) : Prog Unit := (F.dmdupdateP fold xr y.re).bind fun _ => F.dmdupdateP fold xi y.im

/-- A deposit kernel on complex data (`src/binned/deposit.py`). -/
def kernZP {α : Type} (T : Tune) (O : ZOp α) (fold : Nat) (l : Loc) (vals : Prog (List α)) : Prog Unit :=
  (mapP (fun j => rd (l.re.P j)) (List.range fold)).bind fun p0 =>
  (mapP (fun j => rd (l.im.P j)) (List.range fold)).bind fun p1 =>
  vals.bind fun vs =>
  let z0 := F.dmindex0 (nth p0 0)
  let z1 := F.dmindex0 (nth p1 0)
  (loop (fun j => wr (l.re.P j) (nth (F.kernelZ T (zmode z0 z1) O.e O.fR O.zfill vs p0) j)) (List.range fold)).bind fun _ =>
  loop (fun j => wr (l.im.P j) (nth (F.kernelZ T (zmode z1 z0) O.e O.fI O.zfill vs p1) j)) (List.range fold)

/-- The block loop of `binnedBLAS_zmzsum` (`src/binnedBLAS/zmzsum.ccog:57-7039`), `binnedBLAS_zmzdotu`, `binnedBLAS_zmzdotc` (`zmzdotu.ccog:59-11667`, `zmzdotc.ccog:59-10157`). -/
def zloopP {α : Type} (T : Tune) (op : DepOp) (O : ZOp α) (el : Flt × Flt → Flt × Flt → α) (fold : Nat) (l : Loc) (incX incZ : Int) : Nat → Nat → Int → Int → Nat → Prog Unit
  | 0, _, _, _, _ => F.zmrenormP fold l
  | fuel + 1, rem, X, Z, deposits =>
    if rem = 0 then F.zmrenormP fold l
    else
      let nb := min rem T.nb
      let vals := mapP (zelP op.prod el X Z incX incZ) (List.range nb)
      vals.bind fun vs =>
      let a0 := F.amaxZ T O.e O.fR O.zfill vs
      let a1 := F.amaxZ T O.e O.fI O.zfill vs
      (rd l.pri).bind fun y0 =>
      (if F.isInf a0 || F.isInf y0 then F.accum0P nb (zelP op.prod (F.zterm op 0) X Z incX incZ) l.pri else ret ()).bind fun _ =>
      (rd (l.pri + 1)).bind fun y1 =>
      (if F.isInf a1 || F.isInf y1 then F.accum0P nb (zelP op.prod (F.zterm op 1) X Z incX incZ) (l.pri + 1) else ret ()).bind fun _ =>
      (rd l.pri).bind fun y0 =>
      (rd (l.pri + 1)).bind fun y1 =>
      if F.isNaN y0 && F.isNaN y1 then ret ()
      else if F.isInf y0 && F.isInf y1 then zloopP T op O el fold l incX incZ fuel (rem - nb) (X + nb * 2 * incX) (Z + nb * 2 * incZ) deposits
      else
        let a0 := if F.isNaNInf y0 then y0 else a0
        let a1 := if F.isNaNInf y1 then y1 else a1
        let over := deposits + nb > F.endurance / (if op.prod then 2 else 1)
        (if over then F.zmrenormP fold l else ret ()).bind fun _ =>
        (F.zmzupdateP fold a0 a1 l).bind fun _ =>
        (F.kernZP T O fold l vals).bind fun _ =>
        (if F.isInf a0 then wr l.pri a0 else ret ()).bind fun _ =>
        (if F.isInf a1 then wr (l.pri + 1) a1 else ret ()).bind fun _ =>
        zloopP T op O el fold l incX incZ fuel (rem - nb) (X + nb * 2 * incX) (Z + nb * 2 * incZ) ((if over then 0 else deposits) + nb)

/-- The exceptional loop of the routines on complex vectors with a real result (`src/binnedBLAS/dmzasum.ccog:75-78`, `dmzssq.ccog:79-82`). -/
def accumAbsP (n : Nat) (x incX : Int) (a : Int) : Prog Unit :=
  loop (fun j =>
    (rd a).bind fun y => (rd (x + j * 2 * incX)).bind fun v => (wr a (F.add y (fabs v))).bind fun _ =>
    (rd a).bind fun y => (rd (x + j * 2 * incX + 1)).bind fun v => wr a (F.add y (fabs v))) (List.range n)

/-- The end of `binnedBLAS_dmzasum` (`src/binnedBLAS/dmzasum.ccog:9861-9863`). -/
def zasumEndP (fold : Nat) (s l : Loc) : Prog Unit :=
  (F.zmrenormP fold s).bind fun _ => (F.dmdmaddP fold s.re l).bind fun _ => F.dmdmaddP fold s.im l

/-- The block loop of `binnedBLAS_dmzasum` (`src/binnedBLAS/dmzasum.ccog:57-9868`): `s` is the temporary, `l` the result. -/
def zasumLoopP (T : Tune) (fold : Nat) (s l : Loc) (incX : Int) : Nat → Nat → Int → Nat → Prog Unit
  | 0, _, _, _ => F.zasumEndP fold s l
  | fuel + 1, rem, X, deposits =>
    if rem = 0 then F.zasumEndP fold s l
    else
      let nb := min rem T.nb
      let vals := mapP (zelP false (fun x _ => x) X X incX incX) (List.range nb)
      vals.bind fun vs =>
      let amax := F.fmax (F.amaxZ T 1 zasumOp.fR zasumOp.zfill vs) (F.amaxZ T 1 zasumOp.fI zasumOp.zfill vs)
      (rd l.pri).bind fun y =>
      (if F.isInf amax || F.isInf y then F.accumAbsP nb X incX l.pri else ret ()).bind fun _ =>
      (rd l.pri).bind fun y => (rd s.pri).bind fun s0 => (rd (s.pri + 1)).bind fun s1 =>
      if F.isNaN y || F.isNaN s0 || F.isNaN s1 then wr l.pri (F.add y (F.add s0 s1))
      else if F.isInf y then zasumLoopP T fold s l incX fuel (rem - nb) (X + nb * 2 * incX) deposits
      else
        let over := deposits + nb > F.endurance
        (if over then F.zmrenormP fold s else ret ()).bind fun _ =>
        (F.zmzupdateP fold amax amax s).bind fun _ =>
        (F.kernZP T zasumOp fold s vals).bind fun _ =>
        zasumLoopP T fold s l incX fuel (rem - nb) (X + nb * 2 * incX) ((if over then 0 else deposits) + nb)

/-- `binnedBLAS_dmzasum` on `n` elements: the temporary is at the address `tmp` (`binned_zballoc`). -/
def zasumVecP (T : Tune) (fold : Nat) (tmp : Int) (l : Loc) (n : Nat) (X incX : Int) : Prog Unit :=
  (zmsetzeroP fold (zpacked fold tmp)).bind fun _ => F.zasumLoopP T fold (zpacked fold tmp) l incX n n X 0

/-- The loop of `binned_dmdrescale` (`src/binned/dmdrescale.c:30-36`). -/
def rescaleLoopP (r : Flt) : Nat → Loc → Prog Unit
  | 0, _ => ret ()
  | n + 1, l => (rd l.pri).bind fun v => (wr l.pri (F.div v r)).bind fun _ =>
    if isZero (F.div v r) then F.dmdupdateP (n + 1) zero l else rescaleLoopP r n l.next

/-- `binned_dmdrescale` (`src/binned/dmdrescale.c:20-37`). -/
def dmdrescaleP (fold : Nat) (X scaleY : Flt) (l : Loc) : Prog Unit :=
  if F.feq X scaleY || isZero X || isZero scaleY then ret ()
  else F.rescaleLoopP (F.mul (F.div X scaleY) (F.div X scaleY)) fold l

/-- The last lines of `binnedBLAS_dmdssq` (`src/binnedBLAS/dmdssq.ccog:4962-4969`). -/
def ssqEndP (fold : Nat) (l : Loc) (scl : Flt) : Prog Flt :=
  (F.dmrenormP fold l).bind fun _ => (rd l.pri).bind fun y => ret (if F.isNaNInf y then F.dscale F.one else scl)

/-- The block loop of `binnedBLAS_dmdssq` (`src/binnedBLAS/dmdssq.ccog:60-4970`). -/
def ssqLoopP (T : Tune) (fold : Nat) (l : Loc) (incX : Int) : Nat → Nat → Int → Nat → Flt → Prog Flt
  | 0, _, _, _, scl => F.ssqEndP fold l scl
  | fuel + 1, rem, X, deposits, scl =>
    if rem = 0 then F.ssqEndP fold l scl
    else
      let nb := min rem T.nb
      let vals := mapP (rtermP F .sum X X incX incX) (List.range nb)
      vals.bind fun vs =>
      let amax := F.amaxK T (vs.map fabs)
      (rd l.pri).bind fun y =>
      (if F.isInf amax || F.isInf y then F.accum0P nb (rtermP F .asum X X incX incX) l.pri else ret ()).bind fun _ =>
      (rd l.pri).bind fun y =>
      if F.isNaN y then ret (F.dscale F.one)
      else if F.isInf y then ssqLoopP T fold l incX fuel (rem - nb) (X + nb * incX) deposits scl
      else
        let over := deposits + nb > F.endurance
        (if over then F.dmrenormP fold l else ret ()).bind fun _ =>
        let new := F.dscale amax
        (if F.lt scl new && F.lt zero scl then F.dmdrescaleP fold new scl l else ret ()).bind fun _ =>
        let scl := if F.lt scl new then new else scl
        let a := F.div amax scl
        (F.dmdupdateP fold (F.mul a a) l).bind fun _ =>
        (F.kernP T fold l (vals.bind fun vs => ret (vs.map (F.sq scl)))).bind fun _ =>
        ssqLoopP T fold l incX fuel (rem - nb) (X + nb * incX) ((if over then 0 else deposits) + nb) scl

/-- `binnedBLAS_dmdssq` on `n` elements. -/
def ssqVecP (T : Tune) (fold : Nat) (l : Loc) (n : Nat) (X incX : Int) (scl : Flt) : Prog Flt := F.ssqLoopP T fold l incX n n X 0 scl

/-- The loop of `binned_zmdrescale` (`src/binned/zmdrescale.c:29-36`): it looks at the word `i * incpriY`. -/
def zrescaleLoopP (r : Flt) (fold : Nat) (l : Loc) : Nat → Nat → Prog Unit
  | 0, _ => ret ()
  | n + 1, i =>
    let a := l.pri + i * 2 * l.incpri
    (rd a).bind fun v => (wr a (F.div v r)).bind fun _ =>
    (rd (a + 1)).bind fun v => (wr (a + 1) (F.div v r)).bind fun _ =>
    (rd (l.pri + i * l.incpri)).bind fun v =>
    if isZero v then F.zmzupdateP (fold - i) zero zero ⟨a, l.incpri, l.car + i * 2 * l.inccar, l.inccar⟩
    else zrescaleLoopP r fold l n (i + 1)

/-- `binned_zmdrescale` (`src/binned/zmdrescale.c:20-38`). -/
def zmdrescaleP (fold : Nat) (X scaleY : Flt) (l : Loc) : Prog Unit :=
  if F.feq X scaleY || isZero X || isZero scaleY then ret ()
  else F.zrescaleLoopP (F.mul (F.div X scaleY) (F.div X scaleY)) fold l fold 0

/-- `binned_dmdmaddsq` (`src/binned/dmdmaddsq.c:26-41`): `tmp` is the address of the temporary value. -/
def dmdmaddsqP (fold : Nat) (tmp : Int) (scaleX : Flt) (x : Loc) (scaleY : Flt) (y : Loc) : Prog Flt :=
  if F.lt scaleY scaleX then (F.dmdrescaleP fold scaleX scaleY y).bind fun _ => (F.dmdmaddP fold x y).bind fun _ => ret scaleX
  else if F.feq scaleX scaleY then (F.dmdmaddP fold x y).bind fun _ => ret scaleX
  else
    (dmdmsetP fold x (packed fold tmp)).bind fun _ => (F.dmdrescaleP fold scaleY scaleX (packed fold tmp)).bind fun _ =>
    (F.dmdmaddP fold (packed fold tmp) y).bind fun _ => ret scaleY

/-- The last lines of `binnedBLAS_dmzssq` (`src/binnedBLAS/dmzssq.ccog:5181-5191`). -/
def zssqEndP (fold : Nat) (t0 t1 : Int) (s l : Loc) (scl scaleY : Flt) : Prog Flt :=
  (F.zmrenormP fold s).bind fun _ =>
  (F.dmdmaddsqP fold t0 scl s.re scaleY l).bind fun u =>
  (F.dmdmaddsqP fold t1 scl s.im u l).bind fun v =>
  (rd l.pri).bind fun y => ret (if F.isNaNInf y then F.dscale F.one else v)

/-- The block loop of `binnedBLAS_dmzssq` (`src/binnedBLAS/dmzssq.ccog:59-5192`). -/
def zssqLoopP (T : Tune) (fold : Nat) (t0 t1 : Int) (s l : Loc) (incX : Int) (scaleY : Flt) : Nat → Nat → Int → Nat → Flt → Prog Flt
  | 0, _, _, _, scl => F.zssqEndP fold t0 t1 s l scl scaleY
  | fuel + 1, rem, X, deposits, scl =>
    if rem = 0 then F.zssqEndP fold t0 t1 s l scl scaleY
    else
      let nb := min rem T.nb
      let vals := mapP (zelP false (fun x _ => x) X X incX incX) (List.range nb)
      vals.bind fun vs =>
      let amax := F.fmax (F.amaxZ T 1 zasumOp.fR zasumOp.zfill vs) (F.amaxZ T 1 zasumOp.fI zasumOp.zfill vs)
      (rd l.pri).bind fun y =>
      (if F.isInf amax || F.isInf y then F.accumAbsP nb X incX l.pri else ret ()).bind fun _ =>
      (rd l.pri).bind fun y => (rd s.pri).bind fun s0 => (rd (s.pri + 1)).bind fun s1 =>
      if F.isNaN y || F.isNaN s0 || F.isNaN s1 then (wr l.pri (F.add y (F.add s0 s1))).bind fun _ => ret (F.dscale F.one)
      else if F.isInf y then zssqLoopP T fold t0 t1 s l incX scaleY fuel (rem - nb) (X + nb * 2 * incX) deposits scl
      else
        let over := deposits + nb > F.endurance
        (if over then F.zmrenormP fold s else ret ()).bind fun _ =>
        let new := F.dscale amax
        (if F.lt scl new && F.lt zero scl then F.zmdrescaleP fold new scl s else ret ()).bind fun _ =>
        let scl := if F.lt scl new then new else scl
        let a := F.div amax scl
        (F.zmzupdateP fold (F.mul a a) (F.mul a a) s).bind fun _ =>
        (F.kernZP T (F.zssqOp scl) fold s vals).bind fun _ =>
        zssqLoopP T fold t0 t1 s l incX scaleY fuel (rem - nb) (X + nb * 2 * incX) ((if over then 0 else deposits) + nb) scl

/-- `binnedBLAS_dmzssq` on `n` elements. -/
def zssqVecP (T : Tune) (fold : Nat) (tmp t0 t1 : Int) (l : Loc) (n : Nat) (X incX : Int) (scaleY : Flt) : Prog Flt :=
  (zmsetzeroP fold (zpacked fold tmp)).bind fun _ => F.zssqLoopP T fold t0 t1 (zpacked fold tmp) l incX scaleY n n X 0 zero

end Fmt

open Fmt
variable {F : Fmt} {α β : Type}

/-! ## Alone -/

theorem eval_zel {prod : Bool} {el : Flt × Flt → Flt × Flt → α} (hel : prod = false → ∀ x z z', el x z = el x z') (X Z incX incZ : Int) (j : Nat) (m : Mem) :
    (zelP prod el X Z incX incZ j).eval F m = (el (m.pair (X + j * 2 * incX)) (m.pair (Z + j * 2 * incZ)), m) := by
  cases prod with
  | true => rfl
  | false =>
    show (el (m.pair (X + j * 2 * incX)) (m.pair (X + j * 2 * incX)), m) = _
    rw [hel rfl]

theorem eval_zmsetzero (fold : Nat) (l : Loc) (m : Mem) : (zmsetzeroP fold l).eval F m = ((), zmsetzeroM fold l m) := by
  unfold zmsetzeroP; rw [eval_bind, eval_setzero, eval_setzero]; rfl
theorem eval_zmrenorm (fold : Nat) (l : Loc) (m : Mem) : (F.zmrenormP fold l).eval F m = ((), F.zmrenormM fold l m) := by
  unfold zmrenormP; rw [eval_bind, eval_dmrenorm, eval_dmrenorm]; rfl
theorem eval_zmzupdate (fold : Nat) (x y : Flt) (l : Loc) (m : Mem) : (F.zmzupdateP fold x y l).eval F m = ((), F.zmzupdateM fold x y l m) := by
  unfold zmzupdateP; rw [eval_bind, eval_dmdupdate, eval_dmdupdate]; rfl

theorem eval_kernZ {T : Tune} {op : DepOp} {O : ZOp α} {el : Flt × Flt → Flt × Flt → α} (hK : ZKern F T op O el) {fold : Nat} (hf : 1 ≤ fold) {expand : Bool} (he : expand = true → 2 ≤ fold)
    (l : Loc) (X Z incX incZ : Int) (n : Nat) (σ : Regs) {vals : Prog (List α)} {m : Mem} (hv : vals.eval F m = (zvals el m X Z incX incZ n, m)) :
    (F.kernZP T O fold l vals).eval F m =
      ((), storeY fold 1 l.im ((Gen.mk T true op).kernelCode F (behind m X Z) incX incZ expand fold n (bindY l.re l.im m σ))
        (storeY fold 0 l.re ((Gen.mk T true op).kernelCode F (behind m X Z) incX incZ expand fold n (bindY l.re l.im m σ)) m)) := by
  have hk := fun j hj => hK m X Z incX incZ expand fold n l σ j hf he hj
  unfold kernZP
  rw [eval_bind, eval_mapP (g := fun j => m (l.re.P j)) (fun i _ => rfl), eval_bind, eval_mapP (g := fun j => m (l.im.P j)) (fun i _ => rfl), eval_bind]
  dsimp only
  rw [hv]
  have e0 : nth ((List.range fold).map (fun j => m (l.re.P j))) 0 = m l.pri := nth_view0 hf l.re m
  have e1 : nth ((List.range fold).map (fun j => m (l.im.P j))) 0 = m (l.pri + 1) := nth_view0 hf l.im m
  rw [e0, e1]
  generalize (Gen.mk T true op).kernelCode F (behind m X Z) incX incZ expand fold n (bindY l.re l.im m σ) = σ' at *
  rw [← stores_eq (k := 1) (l := l.im) (fun j hj => (hk j hj).2), ← stores_eq (k := 0) (l := l.re) (fun j hj => (hk j hj).1)]
  dsimp only
  generalize zvals el m X Z incX incZ n = vs
  generalize hp0 : (view fold l.re m).pri = p0
  generalize hp1 : (view fold l.im m).pri = p1
  have hp0' : (List.range fold).map (fun j => m (l.re.P j)) = p0 := hp0
  have hp1' : (List.range fold).map (fun j => m (l.im.P j)) = p1 := hp1
  rw [hp0', hp1', eval_loopB (fun j m' => m'.set (l.re.P j) (nth (F.kernelZ T (zmode (F.dmindex0 (m l.pri)) (F.dmindex0 (m (l.pri + 1)))) O.e O.fR O.zfill vs p0) j)) (fun i m' => rfl)]
  exact eval_loop (g := fun j m' => m'.set (l.im.P j) (nth (F.kernelZ T (zmode (F.dmindex0 (m (l.pri + 1))) (F.dmindex0 (m l.pri))) O.e O.fI O.zfill vs p1) j)) (fun i m' => rfl) _ _

/-- Alone: exactly the effect of the emitted statements in memory. -/
theorem eval_zloop [F.OK] {T : Tune} (hT : T.OK F) {op : DepOp} {O : ZOp α} {el : Flt × Flt → Flt × Flt → α} (hL : ZLink F T op O el) {expand : Bool} {fold : Nat}
    (hf : 1 ≤ fold) (he : expand = true → 2 ≤ fold) (l : Loc) (incX incZ : Int) (jA jD : Nat → Regs) (hz : op.prod = false → ∀ k x z z', F.zterm op k x z = F.zterm op k x z') (fuel : Nat) :
    ∀ (rem : Nat) (X Z : Int) (dep : Nat) (m : Mem),
      (F.zloopP T op O el fold l incX incZ fuel rem X Z dep).eval F m = ((), F.zloopM T op expand fold l incX incZ jA jD fuel rem X Z dep m) := by
  induction fuel with
  | zero => intro rem X Z dep m; exact eval_zmrenorm fold l m
  | succ fuel ih =>
    intro rem X Z dep m
    unfold zloopP zloopM
    by_cases h0 : rem = 0
    · rw [if_pos h0, if_pos h0]; exact eval_zmrenorm fold l m
    · rw [if_neg h0, if_neg h0]
      dsimp only
      have hvals : ∀ m : Mem, (mapP (zelP op.prod el X Z incX incZ) (List.range (min rem T.nb))).eval F m = (zvals el m X Z incX incZ (min rem T.nb), m) :=
        fun m => eval_mapP (fun i _ => eval_zel hL.fst X Z incX incZ i m)
      rw [eval_bind, hvals]
      dsimp only
      rw [← (hL.amax m X Z incX incZ (min rem T.nb) (jA rem)).1, ← (hL.amax m X Z incX incZ (min rem T.nb) (jA rem)).2]
      generalize (GenA.mk T true op.prod).code F (behind m X Z) incX incZ (min rem T.nb) (jA rem) (.am 0) 0 = a0
      generalize (GenA.mk T true op.prod).code F (behind m X Z) incX incZ (min rem T.nb) (jA rem) (.am 1) 0 = a1
      have hacc : ∀ k a m, (F.accum0P (min rem T.nb) (zelP op.prod (F.zterm op k) X Z incX incZ) a).eval F m
          = ((), F.accum0M (min rem T.nb) (fun j m => F.zterm op k (m.pair (X + j * 2 * incX)) (m.pair (Z + j * 2 * incZ))) a m) :=
        fun k a m => eval_accum0 (fun j m => eval_zel (fun h => hz h k) X Z incX incZ j m) _ _ _
      rw [eval_rdB, eval_iteB _ (hacc 0 l.pri m), eval_rdB]
      generalize (if (F.isInf a0 || F.isInf (m l.pri)) = true then F.accum0M (min rem T.nb) (fun j m => F.zterm op 0 (m.pair (X + j * 2 * incX)) (m.pair (Z + j * 2 * incZ))) l.pri m else m) = m1
      rw [eval_iteB _ (hacc 1 (l.pri + 1) m1), eval_rdB, eval_rdB]
      generalize (if (F.isInf a1 || F.isInf (m1 (l.pri + 1))) = true then F.accum0M (min rem T.nb) (fun j m => F.zterm op 1 (m.pair (X + j * 2 * incX)) (m.pair (Z + j * 2 * incZ))) (l.pri + 1) m1 else m1) = m2
      rw [eval_ite, eval_ite]
      split
      · rfl
      split
      · exact ih _ _ _ _ _
      generalize (if F.isNaNInf (m2 l.pri) = true then m2 l.pri else a0) = b0
      generalize (if F.isNaNInf (m2 (l.pri + 1)) = true then m2 (l.pri + 1) else a1) = b1
      rw [eval_iteB _ (eval_zmrenorm fold l m2)]
      generalize (if dep + min rem T.nb > F.endurance / (if op.prod = true then 2 else 1) then F.zmrenormM fold l m2 else m2) = m3
      rw [eval_bind, eval_zmzupdate]
      dsimp only
      generalize F.zmzupdateM fold b0 b1 l m3 = m4
      rw [eval_bind, eval_kernZ hL.kern hf he l X Z incX incZ (min rem T.nb) (jD rem) (hvals m4)]
      dsimp only
      generalize storeY fold 1 l.im _ (storeY fold 0 l.re _ m4) = m5
      rw [eval_iteB (g := fun m => m.set l.pri b0) _ (eval_wr l.pri b0 m5)]
      generalize (if F.isInf b0 = true then m5.set l.pri b0 else m5) = m6
      rw [eval_iteB (g := fun m => m.set (l.pri + 1) b1) _ (eval_wr (l.pri + 1) b1 m6)]
      have hadv : (runUnrolled (Gen.mk T true op).tsz (T.pipe * T.unroll) (min rem T.nb)).off = min rem T.nb := adv_eq (G := Gen.mk T true op) hT _
      rw [hadv, show incX * 2 * ((min rem T.nb : Nat) : Int) = (min rem T.nb : Nat) * 2 * incX by ring, show incZ * 2 * ((min rem T.nb : Nat) : Int) = (min rem T.nb : Nat) * 2 * incZ by ring]
      exact ih _ _ _ _ _

theorem eval_accumAbs (n : Nat) (x incX a : Int) (m : Mem) : (F.accumAbsP n x incX a).eval F m = ((), F.accumAbsM n x incX a m) :=
  eval_loop (fun j m => by simp only [eval_rdB, eval_wrB, eval_wr]) _ m

theorem eval_zasumEnd (fold : Nat) (s l : Loc) (m : Mem) : (F.zasumEndP fold s l).eval F m = ((), F.zasumEndM fold s l m) := by
  unfold zasumEndP
  rw [eval_bind, eval_zmrenorm, eval_bind, eval_dmdmadd, eval_dmdmadd]
  rfl

/-- Alone: exactly the effect of the emitted statements in memory. -/
theorem eval_zasumLoop [F.OK] {T : Tune} (hT : T.OK F) {expand : Bool} {fold : Nat} (hf : 1 ≤ fold) (he : expand = true → 2 ≤ fold) (s l : Loc) (incX : Int) (jA jD : Nat → Regs) (fuel : Nat) :
    ∀ (rem : Nat) (X : Int) (dep : Nat) (m : Mem),
      (F.zasumLoopP T fold s l incX fuel rem X dep).eval F m = ((), F.zasumLoopM T expand fold s l incX jA jD fuel rem X dep m) := by
  induction fuel with
  | zero => intro rem X dep m; exact eval_zasumEnd fold s l m
  | succ fuel ih =>
    intro rem X dep m
    unfold zasumLoopP zasumLoopM
    by_cases h0 : rem = 0
    · rw [if_pos h0, if_pos h0]; exact eval_zasumEnd fold s l m
    · rw [if_neg h0, if_neg h0]
      dsimp only
      have hvals : ∀ m : Mem, (mapP (zelP false (fun x _ => x) X X incX incX) (List.range (min rem T.nb))).eval F m = (zvals (fun x _ => x) m X X incX incX (min rem T.nb), m) :=
        fun m => eval_mapP (fun i _ => eval_zel (fun _ _ _ _ => rfl) X X incX incX i m)
      rw [eval_bind, hvals]
      dsimp only
      rw [← (zamax_code hT m X incX (min rem T.nb) (jA rem)).1, ← (zamax_code hT m X incX (min rem T.nb) (jA rem)).2]
      generalize F.fmax ((GenA.mk T true false).code F (behind m X X) incX incX (min rem T.nb) (jA rem) (.am 0) 0) ((GenA.mk T true false).code F (behind m X X) incX incX (min rem T.nb) (jA rem) (.am 1) 0) = amax
      rw [eval_rdB, eval_iteB _ (eval_accumAbs _ _ _ _ _), eval_rdB, eval_rdB, eval_rdB]
      generalize (if (F.isInf amax || F.isInf (m l.pri)) = true then F.accumAbsM (min rem T.nb) X incX l.pri m else m) = m1
      rw [eval_ite, eval_ite]
      split
      · rfl
      split
      · exact ih _ _ _ _
      rw [eval_iteB _ (eval_zmrenorm fold s m1)]
      generalize (if dep + min rem T.nb > F.endurance then F.zmrenormM fold s m1 else m1) = m2
      rw [eval_bind, eval_zmzupdate]
      dsimp only
      change eval F _ (F.zmdupdateM fold amax s m2) = _
      generalize F.zmdupdateM fold amax s m2 = m3
      rw [eval_bind, eval_kernZ (zkern_asum hT) hf he s X X incX incX (min rem T.nb) (jD rem) (hvals m3)]
      dsimp only
      have hadv : (runUnrolled (Gen.mk T true .asum).tsz (T.pipe * T.unroll) (min rem T.nb)).off = min rem T.nb := adv_eq (G := Gen.mk T true .asum) hT _
      rw [hadv, show incX * 2 * ((min rem T.nb : Nat) : Int) = (min rem T.nb : Nat) * 2 * incX by ring]
      exact ih _ _ _ _

theorem eval_rescaleLoop (r : Flt) (n : Nat) (l : Loc) (m : Mem) : (F.rescaleLoopP r n l).eval F m = ((), F.rescaleLoopM r n l m) := by
  induction n generalizing l m with
  | zero => rfl
  | succ n ih =>
    unfold rescaleLoopP rescaleLoopM
    rw [eval_rdB, eval_wrB, eval_ite, eval_dmdupdate, ih]
    dsimp only
    rw [Mem.set_same]
    split <;> rfl

theorem eval_dmdrescale (fold : Nat) (x y : Flt) (l : Loc) (m : Mem) : (F.dmdrescaleP fold x y l).eval F m = ((), F.dmdrescaleM fold x y l m) := by
  unfold dmdrescaleP dmdrescaleM
  rw [eval_ite, eval_rescaleLoop]
  split <;> rfl

theorem eval_ssqEnd (fold : Nat) (l : Loc) (scl : Flt) (m : Mem) : (F.ssqEndP fold l scl).eval F m = F.ssqEndM fold l scl m := by
  unfold ssqEndP
  rw [eval_bind, eval_dmrenorm]
  rfl

theorem eval_zrescaleLoop (r : Flt) (fold : Nat) (l : Loc) (n i : Nat) (m : Mem) : (F.zrescaleLoopP r fold l n i).eval F m = ((), F.zrescaleLoopM r fold l n i m) := by
  induction n generalizing i m with
  | zero => rfl
  | succ n ih =>
    unfold zrescaleLoopP zrescaleLoopM
    dsimp only
    rw [eval_rdB, eval_wrB, eval_rdB, eval_wrB, eval_rdB, eval_ite, eval_zmzupdate, ih]
    split <;> rfl

theorem eval_zmdrescale (fold : Nat) (x y : Flt) (l : Loc) (m : Mem) : (F.zmdrescaleP fold x y l).eval F m = ((), F.zmdrescaleM fold x y l m) := by
  unfold zmdrescaleP zmdrescaleM
  rw [eval_ite, eval_zrescaleLoop]
  split <;> rfl

theorem eval_dmdmaddsq (fold : Nat) (tmp : Int) (sx : Flt) (x : Loc) (sy : Flt) (y : Loc) (m : Mem) : (F.dmdmaddsqP fold tmp sx x sy y).eval F m = F.dmdmaddsqM fold tmp sx x sy y m := by
  unfold dmdmaddsqP dmdmaddsqM
  rw [eval_ite, eval_ite, eval_bind, eval_dmdrescale, eval_bind, eval_dmdmadd, eval_bind, eval_dmdmadd, eval_bind, eval_dmdmset, eval_bind, eval_dmdrescale, eval_bind, eval_dmdmadd]
  split
  · rfl
  split <;> rfl

theorem eval_zssqEnd (fold : Nat) (t0 t1 : Int) (s l : Loc) (scl sy : Flt) (m : Mem) : (F.zssqEndP fold t0 t1 s l scl sy).eval F m = F.zssqEndM fold t0 t1 s l scl sy m := by
  unfold zssqEndP
  rw [eval_bind, eval_zmrenorm, eval_bind, eval_dmdmaddsq, eval_bind, eval_dmdmaddsq]
  rfl

/-- Alone: exactly the effect of the emitted statements in memory. -/
theorem eval_zssqLoop [F.OK] {T : Tune} (hT : T.OK F) {expand : Bool} {fold : Nat} (hf : 1 ≤ fold) (he : expand = true → 2 ≤ fold) (t0 t1 : Int) (s l : Loc) (incX : Int) (sy : Flt) (jA jD : Nat → Regs) (fuel : Nat) :
    ∀ (rem : Nat) (X : Int) (dep : Nat) (scl : Flt) (m : Mem),
      (F.zssqLoopP T fold t0 t1 s l incX sy fuel rem X dep scl).eval F m = F.zssqLoopM T expand fold t0 t1 s l incX sy jA jD fuel rem X dep scl m := by
  induction fuel with
  | zero => intro rem X dep scl m; exact eval_zssqEnd fold t0 t1 s l scl sy m
  | succ fuel ih =>
    intro rem X dep scl m
    unfold zssqLoopP zssqLoopM
    by_cases h0 : rem = 0
    · rw [if_pos h0, if_pos h0]; exact eval_zssqEnd fold t0 t1 s l scl sy m
    · rw [if_neg h0, if_neg h0]
      dsimp only
      have hvals : ∀ m : Mem, (mapP (zelP false (fun x _ => x) X X incX incX) (List.range (min rem T.nb))).eval F m = (zvals (fun x _ => x) m X X incX incX (min rem T.nb), m) :=
        fun m => eval_mapP (fun i _ => eval_zel (fun _ _ _ _ => rfl) X X incX incX i m)
      rw [eval_bind, hvals]
      dsimp only
      rw [← (zamax_code hT m X incX (min rem T.nb) (jA rem)).1, ← (zamax_code hT m X incX (min rem T.nb) (jA rem)).2]
      generalize F.fmax ((GenA.mk T true false).code F (behind m X X) incX incX (min rem T.nb) (jA rem) (.am 0) 0) ((GenA.mk T true false).code F (behind m X X) incX incX (min rem T.nb) (jA rem) (.am 1) 0) = amax
      rw [eval_rdB, eval_iteB _ (eval_accumAbs _ _ _ _ _), eval_rdB, eval_rdB, eval_rdB]
      generalize (if (F.isInf amax || F.isInf (m l.pri)) = true then F.accumAbsM (min rem T.nb) X incX l.pri m else m) = m1
      rw [eval_ite, eval_ite]
      split
      · rfl
      split
      · exact ih _ _ _ _ _
      rw [eval_iteB _ (eval_zmrenorm fold s m1)]
      generalize (if dep + min rem T.nb > F.endurance then F.zmrenormM fold s m1 else m1) = m2
      rw [eval_iteB _ (eval_zmdrescale fold _ scl s m2)]
      generalize (if (F.lt scl (F.dscale amax) && F.lt zero scl) = true then F.zmdrescaleM fold (F.dscale amax) scl s m2 else m2) = m3
      generalize (if F.lt scl (F.dscale amax) = true then F.dscale amax else scl) = scl'
      rw [eval_bind, eval_zmzupdate]
      dsimp only
      change eval F _ (F.zmdupdateM fold (F.mul (F.div amax scl') (F.div amax scl')) s m3) = _
      generalize F.zmdupdateM fold (F.mul (F.div amax scl') (F.div amax scl')) s m3 = m4
      rw [eval_bind, eval_kernZ (zkern_ssq hT scl') hf he s X X incX incX (min rem T.nb) (jD rem) (hvals m4)]
      dsimp only
      have hadv : (runUnrolled (Gen.mk T true (.ssq (F.div F.one scl'))).tsz (T.pipe * T.unroll) (min rem T.nb)).off = min rem T.nb := adv_eq (G := Gen.mk T true (.ssq (F.div F.one scl'))) hT _
      rw [hadv, show incX * 2 * ((min rem T.nb : Nat) : Int) = (min rem T.nb : Nat) * 2 * incX by ring]
      exact ih _ _ _ _ _

/-- Alone: exactly the effect of the emitted statements in memory, when the scale has a reciprocal and the vector lies outside the accumulator. -/
theorem eval_ssqLoop [F.OK] {T : Tune} (hT : T.OK F) {expand : Bool} {fold : Nat} (hf : 1 ≤ fold) (he : expand = true → 2 ≤ fold) {l : Loc} (hs : Sep fold l) (incX : Int) (jA jD : Nat → Regs) (fuel : Nat) :
    ∀ (rem : Nat) (X : Int) (dep : Nat) (scl : Flt) (m : Mem), ScaleOK F scl → (∀ i : Nat, i < rem → ¬ l.In fold (X + i * incX)) →
      (∀ i : Nat, i < rem → F.Word (m (X + i * incX))) →
      (F.ssqLoopP T fold l incX fuel rem X dep scl).eval F m = F.ssqLoopM T expand fold l incX jA jD fuel rem X dep scl m := by
  induction fuel with
  | zero => intro rem X dep scl m _ _ _; exact eval_ssqEnd fold l scl m
  | succ fuel ih =>
    intro rem X dep scl m hS hr hw
    have hIn : l.In fold l.pri := by rw [← Loc.P0]; exact l.inP (by omega)
    unfold ssqLoopP ssqLoopM
    by_cases h0 : rem = 0
    · rw [if_pos h0, if_pos h0]; exact eval_ssqEnd fold l scl m
    · rw [if_neg h0, if_neg h0]
      dsimp only
      have hmin : min rem T.nb ≤ rem := Nat.min_le_left _ _
      have hvals : ∀ m : Mem, (mapP (rtermP F .sum X X incX incX) (List.range (min rem T.nb))).eval F m = (rvals F .sum m X X incX incX (min rem T.nb), m) :=
        fun m => eval_mapP (fun i _ => eval_rterm (Or.inl rfl) X X incX incX i m)
      have hword : F.Word (F.amaxK T ((rvals F .sum m X X incX incX (min rem T.nb)).map fabs)) := by
        refine amaxK_of _ zero_word T (fun x hx => ?_)
        obtain ⟨y, hy, rfl⟩ := List.mem_map.mp hx
        unfold rvals at hy
        obtain ⟨i, hi, rfl⟩ := List.mem_map.mp hy
        exact fabs_word (hw i (by have := List.mem_range.mp hi; omega))
      have haddr : ∀ i : Nat, X + ((min rem T.nb : Nat) : Int) * incX + (i : Int) * incX = X + ((min rem T.nb + i : Nat) : Int) * incX := by
        intro i; push_cast; ring
      have hrd : ∀ i : Nat, i < rem - min rem T.nb → ¬ l.In fold (X + (min rem T.nb : Nat) * incX + i * incX) := by
        intro i hi; rw [haddr]; exact hr _ (by omega)
      have hwd : ∀ m' : Mem, (∀ a, ¬ l.In fold a → m' a = m a) → ∀ i : Nat, i < rem - min rem T.nb → F.Word (m' (X + (min rem T.nb : Nat) * incX + i * incX)) := by
        intro m' hm' i hi
        rw [hm' _ (hrd i hi), haddr]; exact hw _ (by omega)
      rw [eval_bind, hvals]
      dsimp only
      have hamx := amax_rvals hT (F := F) (op := .sum) (Or.inl rfl) m X X incX incX (min rem T.nb) (jA rem)
      rw [show DepOp.prod DepOp.sum = false from rfl] at hamx
      rw [hamx]
      generalize F.amaxK T ((rvals F .sum m X X incX incX (min rem T.nb)).map fabs) = amax at *
      have hacc : (F.accum0P (min rem T.nb) (rtermP F .asum X X incX incX) l.pri).eval F m = ((), F.accum0M (min rem T.nb) (fun j m => fabs (m (X + j * incX))) l.pri m) :=
        eval_accum0 (fun j m => eval_rterm (Or.inr (Or.inl rfl)) X X incX incX j m) _ _ _
      rw [eval_rdB, eval_iteB (g := F.accum0M (min rem T.nb) (fun j m => fabs (m (X + j * incX))) l.pri) _ hacc, eval_rdB]
      have hf1 : ∀ a, ¬ l.In fold a → (if (F.isInf amax || F.isInf (m l.pri)) = true then F.accum0M (min rem T.nb) (fun j m => fabs (m (X + j * incX))) l.pri m else m) a = m a := by
        intro a ha
        split
        · unfold accum0M
          generalize List.range (min rem T.nb) = L
          have h2 : ∀ (L : List Nat) (m' : Mem), L.foldl (fun m' j => m'.set l.pri (F.add (m' l.pri) (fabs (m' (X + j * incX))))) m' a = m' a := by
            intro L
            induction L with
            | nil => intro m'; rfl
            | cons j L ihL => intro m'; rw [List.foldl_cons, ihL, Mem.set_ne _ _ (fun e : a = l.pri => ha (e ▸ hIn))]
          exact h2 L m
        · rfl
      generalize (if (F.isInf amax || F.isInf (m l.pri)) = true then F.accum0M (min rem T.nb) (fun j m => fabs (m (X + j * incX))) l.pri m else m) = m1 at *
      rw [eval_ite, eval_ite]
      split
      · rfl
      split
      · exact ih _ _ _ _ _ hS hrd (hwd m1 hf1)
      rw [eval_iteB _ (eval_dmrenorm fold l m1)]
      have hf2 : ∀ a, ¬ l.In fold a → (if dep + min rem T.nb > F.endurance then F.dmrenormM fold l m1 else m1) a = m a := by
        intro a ha
        split
        · exact ((dmrenormM_refines (F := F) hf hs m1).2 a ha).trans (hf1 a ha)
        · exact hf1 a ha
      generalize (if dep + min rem T.nb > F.endurance then F.dmrenormM fold l m1 else m1) = m2 at *
      rw [eval_iteB _ (eval_dmdrescale fold _ scl l m2)]
      have hf3 : ∀ a, ¬ l.In fold a → (if (F.lt scl (F.dscale amax) && F.lt zero scl) = true then F.dmdrescaleM fold (F.dscale amax) scl l m2 else m2) a = m a := by
        intro a ha
        split
        · exact ((dmdrescaleM_refines (F := F) hs (F.dscale amax) scl m2).2 a ha).trans (hf2 a ha)
        · exact hf2 a ha
      generalize (if (F.lt scl (F.dscale amax) && F.lt zero scl) = true then F.dmdrescaleM fold (F.dscale amax) scl l m2 else m2) = m3 at *
      have hnew := scale_next hS hword
      generalize (if F.lt scl (F.dscale amax) = true then F.dscale amax else scl) = scl' at *
      rw [eval_bind, eval_dmdupdate]
      dsimp only
      have hf4 : ∀ a, ¬ l.In fold a → F.dmdupdateM fold (F.mul (F.div amax scl') (F.div amax scl')) l m3 a = m a := fun a ha =>
        ((dmdupdateM_refines (F := F) hf hs (F.mul (F.div amax scl') (F.div amax scl')) m3).2 a ha).trans (hf3 a ha)
      generalize F.dmdupdateM fold (F.mul (F.div amax scl') (F.div amax scl')) l m3 = m4 at *
      rw [eval_bind, eval_kern (vs := (rvals F .sum m4 X X incX incX (min rem T.nb)).map (F.sq scl')) T fold l (by rw [eval_bind, hvals]; rfl),
        stores_eq (k := 0) (σ := (Gen.mk T false (.ssq (F.div F.one scl'))).kernelCode F (behind m4 X X) incX incX expand fold (min rem T.nb) (bindY l l m4 (jD rem)))
          (ks := F.kernel T ((rvals F .sum m4 X X incX incX (min rem T.nb)).map (F.sq scl')) (view fold l m4).pri)
          (fun j hj => C62_ssq hT (behind m4 X X) incX incX hf he (bindY l l m4 (jD rem)) hnew hj 0)]
      dsimp only
      have hadv : (runUnrolled (Gen.mk T false (.ssq (F.div F.one scl'))).tsz (T.pipe * T.unroll) (min rem T.nb)).off = min rem T.nb := adv_eq (G := Gen.mk T false (.ssq (F.div F.one scl'))) hT _
      rw [hadv, mul_comm incX]
      refine ih _ _ _ _ _ (Or.inr hnew) hrd (hwd _ (fun a ha => ((storeY_spec hs 0 _ m4).2 a (fun i hi e => ha ⟨i, hi, Or.inl e⟩)).trans (hf4 a ha)))

/-! ## What they access -/

variable {W R : Int → Prop} {st : Nat → Prop}

theorem Ok.pair {a : Int} (h0 : R a) (h1 : R (a + 1)) : Ok F W R st (pairP a) := Ok.bind (Ok.rd h0) (fun _ => Ok.bind (Ok.rd h1) (fun _ => Ok.ret _))

theorem Ok.zel {op : DepOp} {el : Flt × Flt → Flt × Flt → α} {X Z incX incZ : Int} {n : Nat} (hr : ZReads op X Z incX incZ n R) {j : Nat} (hj : j < n) : Ok F W R st (zelP op.prod el X Z incX incZ j) := by
  have ⟨h1, h2⟩ := hr j hj
  exact Ok.bind (Ok.pair h1.1 h1.2) (fun _ => Ok.ite (fun h => Ok.bind (Ok.pair (h2 h).1 (h2 h).2) (fun _ => Ok.ret _)) (fun _ => Ok.ret _))

theorem ZReads.mono {op : DepOp} {X Z incX incZ : Int} {n k : Nat} {P : Int → Prop} (h : ZReads op X Z incX incZ n P) (hk : k ≤ n) : ZReads op X Z incX incZ k P :=
  fun i hi => h i (by omega)

theorem ZReads.shift {op : DepOp} {X Z incX incZ : Int} {n k : Nat} {P : Int → Prop} (h : ZReads op X Z incX incZ n P) (hk : k ≤ n) :
    ZReads op (X + k * 2 * incX) (Z + k * 2 * incZ) incX incZ (n - k) P := by
  intro i hi
  have := h (k + i) (by omega)
  rw [show X + (k : Int) * 2 * incX + (i : Int) * 2 * incX = X + ((k + i : Nat) : Int) * 2 * incX by push_cast; ring,
    show Z + (k : Int) * 2 * incZ + (i : Int) * 2 * incZ = Z + ((k + i : Nat) : Int) * 2 * incZ by push_cast; ring]
  exact this

theorem Ok.dmdupdate1 (hF : F = f64 ∨ F = f32) {n : Nat} (hn : 1 ≤ n) (hm : n ≤ F.maxFold) (x : Flt) {l : Loc} (hR : ∀ a, l.In n a → R a) (hW : ∀ a, l.In n a → W a) : Ok F W R st (F.dmdupdateP n x l) := by
  have fill : ∀ k, k ≤ n → Ok F W R (fun i => st i ∨ Full F i) (Prog.loop (fun i => (Prog.bin (F.dindex x + i)).bind fun v => (Prog.wr (l.P i) v).bind fun _ => Prog.wr (l.C i) zero) (List.range k)) := fun k hk =>
    Ok.loop (fun i hi => by
      have hi := List.mem_range.1 hi
      exact Ok.bind (Ok.bin (Or.inr (full_of hm (dindex_le_max hF x) (by omega : i < n)))) (fun _ => Ok.bind (Ok.wr _ (hW _ (l.inP (by omega)))) (fun _ => Ok.wr _ (hW _ (l.inC (by omega))))))
  unfold dmdupdateP
  simp only [bind_eq]
  refine Ok.bind (Ok.rd (hR _ (by rw [← Loc.P0]; exact l.inP (by omega)))) (fun y0 => ?_)
  refine Ok.ite (fun _ => Ok.ret ()) (fun _ => Ok.ite (fun _ => Ok.dmbins hF (fill _ (le_refl _))) (fun _ => Ok.ite (fun _ => ?_) (fun _ => Ok.ret ())))
  refine Ok.bind (Ok.loop (fun i hi => ?_)) (fun _ => Ok.dmbins hF (fill _ (Nat.min_le_left _ _)))
  have hi := mem_downTo hi
  exact Ok.bind (Ok.rd (hR _ (l.inP (by omega)))) (fun _ => Ok.bind (Ok.wr _ (hW _ (l.inP (by omega)))) (fun _ => Ok.bind (Ok.rd (hR _ (l.inC (by omega)))) (fun _ => Ok.wr _ (hW _ (l.inC (by omega))))))

theorem next_in {l : Loc} {n : Nat} {a : Int} (h : l.next.In n a) : l.In (n + 1) a := by
  obtain ⟨i, hi, h⟩ := h
  refine ⟨i + 1, by omega, ?_⟩
  unfold Loc.P Loc.C Loc.next at *
  rcases h with h | h
  · left; rw [h]; push_cast; ring
  · right; rw [h]; push_cast; ring

theorem Ok.rescaleLoop (hF : F = f64 ∨ F = f32) (r : Flt) (n : Nat) (hm : n ≤ F.maxFold) (l : Loc) (hR : ∀ a, l.In n a → R a) (hW : ∀ a, l.In n a → W a) : Ok F W R st (F.rescaleLoopP r n l) := by
  induction n generalizing l with
  | zero => exact Ok.ret ()
  | succ n ih =>
    have h0 : l.In (n + 1) l.pri := by rw [← Loc.P0]; exact l.inP (by omega)
    exact Ok.bind (Ok.rd (hR _ h0)) (fun v => Ok.bind (Ok.wr _ (hW _ h0)) (fun _ => Ok.ite (fun _ => Ok.dmdupdate1 hF (by omega) hm _ hR hW) (fun _ =>
      ih (by omega) _ (fun a h => hR a (next_in h)) (fun a h => hW a (next_in h)))))

theorem Ok.dmdrescale (hF : F = f64 ∨ F = f32) {fold : Nat} (hm : fold ≤ F.maxFold) (x y : Flt) {l : Loc} (hR : ∀ a, l.In fold a → R a) (hW : ∀ a, l.In fold a → W a) : Ok F W R st (F.dmdrescaleP fold x y l) :=
  Ok.ite (fun _ => Ok.ret ()) (fun _ => Ok.rescaleLoop hF _ fold hm l hR hW)

theorem Ok.zrescaleLoop (hF : F = f64 ∨ F = f32) (r : Flt) {fold : Nat} (hm : fold ≤ F.maxFold) {l : Loc} (hR : ∀ a, l.CIn fold a → R a) (hW : ∀ a, l.CIn fold a → W a) (hx : ∀ i : Nat, i < fold → R (l.pri + i * l.incpri))
    (n i : Nat) (h : i + n = fold) : Ok F W R st (F.zrescaleLoopP r fold l n i) := by
  induction n generalizing i with
  | zero => exact Ok.ret ()
  | succ n ih =>
    have e0 : l.CIn fold (l.pri + i * 2 * l.incpri) := Or.inl ⟨i, by omega, Or.inl (by unfold Loc.P Loc.re; ring)⟩
    have e1 : l.CIn fold (l.pri + i * 2 * l.incpri + 1) := Or.inr ⟨i, by omega, Or.inl (by unfold Loc.P Loc.im; ring)⟩
    have f0 : ∀ a, (Loc.re ⟨l.pri + i * 2 * l.incpri, l.incpri, l.car + i * 2 * l.inccar, l.inccar⟩).In (fold - i) a → l.CIn fold a := by
      rintro a ⟨j, hj, h | h⟩
      · exact Or.inl ⟨i + j, by omega, Or.inl (by rw [h]; unfold Loc.P Loc.re; push_cast; ring)⟩
      · exact Or.inl ⟨i + j, by omega, Or.inr (by rw [h]; unfold Loc.C Loc.re; push_cast; ring)⟩
    have f1 : ∀ a, (Loc.im ⟨l.pri + i * 2 * l.incpri, l.incpri, l.car + i * 2 * l.inccar, l.inccar⟩).In (fold - i) a → l.CIn fold a := by
      rintro a ⟨j, hj, h | h⟩
      · exact Or.inr ⟨i + j, by omega, Or.inl (by rw [h]; unfold Loc.P Loc.im; push_cast; ring)⟩
      · exact Or.inr ⟨i + j, by omega, Or.inr (by rw [h]; unfold Loc.C Loc.im; push_cast; ring)⟩
    exact Ok.bind (Ok.rd (hR _ e0)) (fun _ => Ok.bind (Ok.wr _ (hW _ e0)) (fun _ => Ok.bind (Ok.rd (hR _ e1)) (fun _ => Ok.bind (Ok.wr _ (hW _ e1)) (fun _ => Ok.bind (Ok.rd (hx i (by omega))) (fun _ =>
      Ok.ite (fun _ => Ok.bind (Ok.dmdupdate1 hF (by omega) (by omega) _ (fun a h => hR a (f0 a h)) (fun a h => hW a (f0 a h))) (fun _ => Ok.dmdupdate1 hF (by omega) (by omega) _ (fun a h => hR a (f1 a h)) (fun a h => hW a (f1 a h))))
        (fun _ => ih _ (by omega)))))))

/-- The words `binned_zmdrescale` looks at are those of the value, if it is contiguous. -/
theorem zpacked_word {fold : Nat} {a : Int} {i : Nat} (hi : i < fold) : (zpacked fold a).CIn fold ((zpacked fold a).pri + i * (zpacked fold a).incpri) := by
  by_cases h : i % 2 = 0
  · exact Or.inl ⟨i / 2, by omega, Or.inl (by unfold Loc.P Loc.re zpacked; dsimp only; omega)⟩
  · exact Or.inr ⟨i / 2, by omega, Or.inl (by unfold Loc.P Loc.im zpacked; dsimp only; omega)⟩

variable (hF : F = f64 ∨ F = f32) {fold : Nat} (hf : 2 ≤ fold) (hm : fold ≤ F.maxFold)

theorem Ok.zmsetzero {l : Loc} (hW : ∀ a, l.CIn fold a → W a) : Ok F W R st (zmsetzeroP fold l) :=
  Ok.bind (Ok.setzero (fun a h => hW a (Or.inl h))) (fun _ => Ok.setzero (fun a h => hW a (Or.inr h)))

include hf in
theorem Ok.zmrenorm {l : Loc} (hR : ∀ a, l.CIn fold a → R a) (hW : ∀ a, l.CIn fold a → W a) : Ok F W R st (F.zmrenormP fold l) :=
  Ok.bind (Ok.dmrenorm hf (fun a h => hR a (Or.inl h)) (fun a h => hW a (Or.inl h))) (fun _ => Ok.dmrenorm hf (fun a h => hR a (Or.inr h)) (fun a h => hW a (Or.inr h)))

include hF hf hm in
theorem Ok.zmzupdate (x y : Flt) {l : Loc} (hR : ∀ a, l.CIn fold a → R a) (hW : ∀ a, l.CIn fold a → W a) : Ok F W R st (F.zmzupdateP fold x y l) :=
  Ok.bind (Ok.dmdupdate hF hf hm _ (fun a h => hR a (Or.inl h)) (fun a h => hW a (Or.inl h))) (fun _ => Ok.dmdupdate hF hf hm _ (fun a h => hR a (Or.inr h)) (fun a h => hW a (Or.inr h)))

theorem Ok.kernZ {T : Tune} {O : ZOp α} {l : Loc} (hR : ∀ a, l.CIn fold a → R a) (hW : ∀ a, l.CIn fold a → W a) {vals : Prog (List α)} (hv : Ok F W R st vals) : Ok F W R st (F.kernZP T O fold l vals) :=
  Ok.bind (Ok.mapP (fun _ hi => Ok.rd (hR _ (Or.inl (l.re.inP (List.mem_range.1 hi)))))) (fun _ => Ok.bind (Ok.mapP (fun _ hi => Ok.rd (hR _ (Or.inr (l.im.inP (List.mem_range.1 hi)))))) (fun _ => Ok.bind hv (fun _ =>
    Ok.bind (Ok.loop (fun _ hi => Ok.wr _ (hW _ (Or.inl (l.re.inP (List.mem_range.1 hi)))))) (fun _ => Ok.loop (fun _ hi => Ok.wr _ (hW _ (Or.inr (l.im.inP (List.mem_range.1 hi)))))))))

theorem CIn_pri {l : Loc} (hf : 1 ≤ fold) : l.CIn fold l.pri ∧ l.CIn fold (l.pri + 1) :=
  ⟨Or.inl ⟨0, by omega, Or.inl (by unfold Loc.P Loc.re; simp)⟩, Or.inr ⟨0, by omega, Or.inl (by unfold Loc.P Loc.im; simp)⟩⟩

include hF hf hm in
theorem Ok.zloop (T : Tune) (op : DepOp) (O : ZOp α) (el : Flt × Flt → Flt × Flt → α) {l : Loc} (hR : ∀ a, l.CIn fold a → R a) (hW : ∀ a, l.CIn fold a → W a) (incX incZ : Int) (fuel : Nat) :
    ∀ (rem : Nat) (X Z : Int) (dep : Nat), ZReads op X Z incX incZ rem R → Ok F W R st (F.zloopP T op O el fold l incX incZ fuel rem X Z dep) := by
  obtain ⟨h0, h1⟩ := CIn_pri (fold := fold) (l := l) (by omega)
  induction fuel with
  | zero => intro rem X Z dep _; exact Ok.zmrenorm hf hR hW
  | succ fuel ih =>
    intro rem X Z dep hr
    unfold zloopP
    have hmin : min rem T.nb ≤ rem := Nat.min_le_left _ _
    have hvals : Ok F W R st (Prog.mapP (zelP op.prod el X Z incX incZ) (List.range (min rem T.nb))) := Ok.mapP (fun i hi => Ok.zel (hr.mono hmin) (List.mem_range.1 hi))
    have hacc : ∀ k a, l.CIn fold a → Ok F W R st (F.accum0P (min rem T.nb) (zelP op.prod (F.zterm op k) X Z incX incZ) a) := fun k a ha => Ok.accum0 (fun j hj => Ok.zel (hr.mono hmin) hj) (hR _ ha) (hW _ ha)
    refine Ok.ite (fun _ => Ok.zmrenorm hf hR hW) (fun _ => Ok.bind hvals (fun vs => Ok.bind (Ok.rd (hR _ h0)) (fun y0 => Ok.bind (Ok.iteU (hacc 0 _ h0)) (fun _ => Ok.bind (Ok.rd (hR _ h1)) (fun y1 => Ok.bind (Ok.iteU (hacc 1 _ h1)) (fun _ =>
      Ok.bind (Ok.rd (hR _ h0)) (fun y0 => Ok.bind (Ok.rd (hR _ h1)) (fun y1 => Ok.ite (fun _ => Ok.ret ()) (fun _ => Ok.ite (fun _ => ih _ _ _ _ (hr.shift hmin)) (fun _ => ?_))))))))))
    exact Ok.bind (Ok.iteU (Ok.zmrenorm hf hR hW)) (fun _ => Ok.bind (Ok.zmzupdate hF hf hm _ _ hR hW) (fun _ => Ok.bind (Ok.kernZ hR hW hvals) (fun _ => Ok.bind (Ok.iteU (Ok.wr _ (hW _ h0))) (fun _ => Ok.bind (Ok.iteU (Ok.wr _ (hW _ h1))) (fun _ =>
      ih _ _ _ _ (hr.shift hmin))))))

theorem Ok.accumAbs {n : Nat} {x incX a : Int} (hr : ZReads .sum x x incX incX n R) (hR : R a) (hW : W a) : Ok F W R st (F.accumAbsP n x incX a) :=
  Ok.loop (fun j hj => by
    have h := (hr j (List.mem_range.1 hj)).1
    exact Ok.bind (Ok.rd hR) (fun _ => Ok.bind (Ok.rd h.1) (fun _ => Ok.bind (Ok.wr _ hW) (fun _ => Ok.bind (Ok.rd hR) (fun _ => Ok.bind (Ok.rd h.2) (fun _ => Ok.wr _ hW))))))

include hF hf hm in
theorem Ok.zasumEnd {s l : Loc} (hRs : ∀ a, s.CIn fold a → R a) (hWs : ∀ a, s.CIn fold a → W a) (hR : ∀ a, l.In fold a → R a) (hW : ∀ a, l.In fold a → W a) : Ok F W R st (F.zasumEndP fold s l) :=
  Ok.bind (Ok.zmrenorm hf hRs hWs) (fun _ => Ok.bind (Ok.dmdmadd hF hf hm (fun a h => hRs a (Or.inl h)) hR hW) (fun _ => Ok.dmdmadd hF hf hm (fun a h => hRs a (Or.inr h)) hR hW))

include hF hf hm in
theorem Ok.zasumLoop (T : Tune) {s l : Loc} (hRs : ∀ a, s.CIn fold a → R a) (hWs : ∀ a, s.CIn fold a → W a) (hR : ∀ a, l.In fold a → R a) (hW : ∀ a, l.In fold a → W a) (incX : Int) (fuel : Nat) :
    ∀ (rem : Nat) (X : Int) (dep : Nat), ZReads .sum X X incX incX rem R → Ok F W R st (F.zasumLoopP T fold s l incX fuel rem X dep) := by
  obtain ⟨s0, s1⟩ := CIn_pri (fold := fold) (l := s) (by omega)
  have h0 : l.In fold l.pri := by rw [← Loc.P0]; exact l.inP (by omega)
  induction fuel with
  | zero => intro rem X dep _; exact Ok.zasumEnd hF hf hm hRs hWs hR hW
  | succ fuel ih =>
    intro rem X dep hr
    unfold zasumLoopP
    have hmin : min rem T.nb ≤ rem := Nat.min_le_left _ _
    have hvals : Ok F W R st (Prog.mapP (zelP false (fun x _ => x) X X incX incX) (List.range (min rem T.nb))) := Ok.mapP (fun i hi => Ok.zel (op := .sum) (hr.mono hmin) (List.mem_range.1 hi))
    refine Ok.ite (fun _ => Ok.zasumEnd hF hf hm hRs hWs hR hW) (fun _ => Ok.bind hvals (fun vs => Ok.bind (Ok.rd (hR _ h0)) (fun y => Ok.bind (Ok.iteU (Ok.accumAbs (hr.mono hmin) (hR _ h0) (hW _ h0))) (fun _ =>
      Ok.bind (Ok.rd (hR _ h0)) (fun y => Ok.bind (Ok.rd (hRs _ s0)) (fun _ => Ok.bind (Ok.rd (hRs _ s1)) (fun _ => Ok.ite (fun _ => Ok.wr _ (hW _ h0)) (fun _ => Ok.ite (fun _ => ih _ _ _ (hr.shift hmin)) (fun _ => ?_)))))))))
    exact Ok.bind (Ok.iteU (Ok.zmrenorm hf hRs hWs)) (fun _ => Ok.bind (Ok.zmzupdate hF hf hm _ _ hRs hWs) (fun _ => Ok.bind (Ok.kernZ hRs hWs hvals) (fun _ => ih _ _ _ (hr.shift hmin))))

include hf in
theorem Ok.ssqEnd {l : Loc} (hR : ∀ a, l.In fold a → R a) (hW : ∀ a, l.In fold a → W a) (scl : Flt) : Ok F W R st (F.ssqEndP fold l scl) :=
  Ok.bind (Ok.dmrenorm hf hR hW) (fun _ => Ok.bind (Ok.rd (hR _ (by rw [← Loc.P0]; exact l.inP (by omega)))) (fun _ => Ok.ret _))

include hF hf hm in
theorem Ok.ssqLoop (T : Tune) {l : Loc} (hR : ∀ a, l.In fold a → R a) (hW : ∀ a, l.In fold a → W a) (incX : Int) (fuel : Nat) :
    ∀ (rem : Nat) (X : Int) (dep : Nat) (scl : Flt), RReads .sum X X incX incX rem R → Ok F W R st (F.ssqLoopP T fold l incX fuel rem X dep scl) := by
  have h0 : l.In fold l.pri := by rw [← Loc.P0]; exact l.inP (by omega)
  induction fuel with
  | zero => intro rem X dep scl _; exact Ok.ssqEnd hf hR hW scl
  | succ fuel ih =>
    intro rem X dep scl hr
    unfold ssqLoopP
    have hmin : min rem T.nb ≤ rem := Nat.min_le_left _ _
    have hvals : Ok F W R st (Prog.mapP (rtermP F .sum X X incX incX) (List.range (min rem T.nb))) := Ok.mapP (fun i hi => Ok.rterm (hr.mono hmin) (List.mem_range.1 hi))
    have hr' : RReads .asum X X incX incX (min rem T.nb) R := hr.mono hmin
    refine Ok.ite (fun _ => Ok.ssqEnd hf hR hW scl) (fun _ => Ok.bind hvals (fun vs => Ok.bind (Ok.rd (hR _ h0)) (fun y => Ok.bind (Ok.iteU (Ok.accum0 (fun j hj => Ok.rterm hr' hj) (hR _ h0) (hW _ h0))) (fun _ =>
      Ok.bind (Ok.rd (hR _ h0)) (fun y => Ok.ite (fun _ => Ok.ret _) (fun _ => Ok.ite (fun _ => ih _ _ _ _ (hr.shift hmin)) (fun _ => ?_)))))))
    exact Ok.bind (Ok.iteU (Ok.dmrenorm hf hR hW)) (fun _ => Ok.bind (Ok.iteU (Ok.dmdrescale hF hm _ _ hR hW)) (fun _ => Ok.bind (Ok.dmdupdate hF hf hm _ hR hW) (fun _ => Ok.bind (Ok.kern hR hW (Ok.bind hvals (fun _ => Ok.ret _))) (fun _ =>
      ih _ _ _ _ (hr.shift hmin)))))

include hF hf hm in
theorem Ok.dmdmaddsq (tmp : Int) (sx sy : Flt) {x y : Loc} (hRx : ∀ a, x.In fold a → R a) (hRt : ∀ a, (packed fold tmp).In fold a → R a) (hWt : ∀ a, (packed fold tmp).In fold a → W a)
    (hR : ∀ a, y.In fold a → R a) (hW : ∀ a, y.In fold a → W a) : Ok F W R st (F.dmdmaddsqP fold tmp sx x sy y) :=
  Ok.ite (fun _ => Ok.bind (Ok.dmdrescale hF hm _ _ hR hW) (fun _ => Ok.bind (Ok.dmdmadd hF hf hm hRx hR hW) (fun _ => Ok.ret _)))
    (fun _ => Ok.ite (fun _ => Ok.bind (Ok.dmdmadd hF hf hm hRx hR hW) (fun _ => Ok.ret _))
      (fun _ => Ok.bind (Ok.dmdmset hRx hWt) (fun _ => Ok.bind (Ok.dmdrescale hF hm _ _ hRt hWt) (fun _ => Ok.bind (Ok.dmdmadd hF hf hm hRt hR hW) (fun _ => Ok.ret _)))))

include hF hf hm in
theorem Ok.zssqEnd {t0 t1 : Int} {s l : Loc} (hRs : ∀ a, s.CIn fold a → R a) (hWs : ∀ a, s.CIn fold a → W a) (hR : ∀ a, l.In fold a → R a) (hW : ∀ a, l.In fold a → W a)
    (hR0 : ∀ a, (packed fold t0).In fold a → R a) (hW0 : ∀ a, (packed fold t0).In fold a → W a) (hR1 : ∀ a, (packed fold t1).In fold a → R a) (hW1 : ∀ a, (packed fold t1).In fold a → W a) (scl sy : Flt) :
    Ok F W R st (F.zssqEndP fold t0 t1 s l scl sy) :=
  Ok.bind (Ok.zmrenorm hf hRs hWs) (fun _ => Ok.bind (Ok.dmdmaddsq hF hf hm _ _ _ (fun a h => hRs a (Or.inl h)) hR0 hW0 hR hW) (fun _ => Ok.bind (Ok.dmdmaddsq hF hf hm _ _ _ (fun a h => hRs a (Or.inr h)) hR1 hW1 hR hW) (fun _ =>
    Ok.bind (Ok.rd (hR _ (by rw [← Loc.P0]; exact l.inP (by omega)))) (fun _ => Ok.ret _))))

include hF hf hm in
theorem Ok.zssqLoop (T : Tune) {t0 t1 : Int} {s l : Loc} (hRs : ∀ a, s.CIn fold a → R a) (hWs : ∀ a, s.CIn fold a → W a) (hx : ∀ i : Nat, i < fold → R (s.pri + i * s.incpri)) (hR : ∀ a, l.In fold a → R a) (hW : ∀ a, l.In fold a → W a)
    (hR0 : ∀ a, (packed fold t0).In fold a → R a) (hW0 : ∀ a, (packed fold t0).In fold a → W a) (hR1 : ∀ a, (packed fold t1).In fold a → R a) (hW1 : ∀ a, (packed fold t1).In fold a → W a) (incX : Int) (sy : Flt) (fuel : Nat) :
    ∀ (rem : Nat) (X : Int) (dep : Nat) (scl : Flt), ZReads .sum X X incX incX rem R → Ok F W R st (F.zssqLoopP T fold t0 t1 s l incX sy fuel rem X dep scl) := by
  obtain ⟨s0, s1⟩ := CIn_pri (fold := fold) (l := s) (by omega)
  have h0 : l.In fold l.pri := by rw [← Loc.P0]; exact l.inP (by omega)
  induction fuel with
  | zero => intro rem X dep scl _; exact Ok.zssqEnd hF hf hm hRs hWs hR hW hR0 hW0 hR1 hW1 _ _
  | succ fuel ih =>
    intro rem X dep scl hr
    unfold zssqLoopP
    have hmin : min rem T.nb ≤ rem := Nat.min_le_left _ _
    have hvals : Ok F W R st (Prog.mapP (zelP false (fun x _ => x) X X incX incX) (List.range (min rem T.nb))) := Ok.mapP (fun i hi => Ok.zel (op := .sum) (hr.mono hmin) (List.mem_range.1 hi))
    refine Ok.ite (fun _ => Ok.zssqEnd hF hf hm hRs hWs hR hW hR0 hW0 hR1 hW1 _ _) (fun _ => Ok.bind hvals (fun vs => Ok.bind (Ok.rd (hR _ h0)) (fun y => Ok.bind (Ok.iteU (Ok.accumAbs (hr.mono hmin) (hR _ h0) (hW _ h0))) (fun _ =>
      Ok.bind (Ok.rd (hR _ h0)) (fun y => Ok.bind (Ok.rd (hRs _ s0)) (fun _ => Ok.bind (Ok.rd (hRs _ s1)) (fun _ => Ok.ite (fun _ => Ok.bind (Ok.wr _ (hW _ h0)) (fun _ => Ok.ret _)) (fun _ => Ok.ite (fun _ => ih _ _ _ _ (hr.shift hmin)) (fun _ => ?_)))))))))
    refine Ok.bind (Ok.iteU (Ok.zmrenorm hf hRs hWs)) (fun _ => Ok.bind (Ok.iteU (Ok.ite (fun _ => Ok.ret ()) (fun _ => Ok.zrescaleLoop hF _ hm hRs hWs hx _ _ (by omega)))) (fun _ => ?_))
    exact Ok.bind (Ok.zmzupdate hF hf hm _ _ hRs hWs) (fun _ => Ok.bind (Ok.kernZ hRs hWs hvals) (fun _ => ih _ _ _ _ (hr.shift hmin)))

end Repro
