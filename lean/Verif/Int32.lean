import Verif.MatMem
import Verif.GenRunSq
import Verif.GenLemmas
/-!
# The routines with C's `int` arithmetic

Loop counters, strides, leading dimensions and the products of them in subscripts and pointer offsets have type `int` in the C code;
an overflow is undefined behaviour (C99 6.5p5). The other files compute with mathematical integers. Here the same routines are written with
every `int` expression checked: `chk zs k` goes on with `k` if all of `zs`, the values of the `int` expressions the C code evaluates
at this point (with their subexpressions, in C's association), are representable, and fails (`none`) otherwise. `int` has 32 bits. Pointer arithmetic itself is not
checked, only the `int` operand. `N * sizeof(double)` converts `N` to `size_t` and is not an `int` expression.

The calls of the routines of `src/binned` on one binned value are not checked here: see `Verif/Int32Binned.lean`.
-/

namespace Repro

/-- Representable in a 32-bit `int`. -/
def InInt (z : Int) : Prop := -2147483648 ≤ z ∧ z ≤ 2147483647

instance (z : Int) : Decidable (InInt z) := inferInstanceAs (Decidable (_ ∧ _))

/-- Evaluate `int` expressions with the values `zs`: undefined if one of them overflows. -/
def chk {α : Type} (zs : List Int) (k : Option α) : Option α := if ∀ z ∈ zs, InInt z then k else none

/-- `for(i = …; cond; i += step) body`: `cond i` gives the values of the `int` expressions in the condition, and the condition. `none` also if the rounds do not suffice. -/
def forC (cond : Nat → List Int × Bool) (step : Nat) (body : Nat → Mem → Option Mem) : Nat → Nat → Mem → Option Mem
  | 0, _, _ => none
  | fuel + 1, i, m =>
    chk (cond i).1 (if (cond i).2 then (body i m).bind fun m => chk [((i : Int) + step)] (forC cond step body fuel (i + step) m) else some m)

/-- `for(i = 0; i < hi; i += step) body` -/
def for1 (hi step : Nat) (body : Nat → Mem → Option Mem) (m : Mem) : Option Mem := forC (fun i => ([], decide (i < hi))) step body (hi + 1) 0 m

/-- `for(ii = lo; ii < hi && ii < lo' + blk; ii += step) body`: the sum is evaluated only if the first comparison holds. -/
def for2 (lo hi blk step : Nat) (body : Nat → Mem → Option Mem) (m : Mem) : Option Mem :=
  forC (fun i => (if i < hi then [((lo : Int) + blk)] else [], decide (i < hi) && decide (i < lo + blk))) step body (hi + 1) lo m

/-! ## The emitted kernels -/

/-- The addresses an expression loads from: the values of the subscripts in `X[…]`. -/
def Ex.subs : Ex → List Int
  | .var _ | .lane _ _ | .cst _ => []
  | .ri a b | .first _ a b | .add a b | .sub a b | .mul a b | .max a b => a.subs ++ b.subs
  | .or1 a | .abs a | .swap a | .evens a | .odds a | .flipE a | .flipO a => a.subs
  | .ld _ l => l.filterMap id

/-- The subscripts in a sequence of assignments. (For complex data, the subscript `inc * 2 * k + 1` has the subexpression `inc * 2 * k`, the subscript of the real part, which is loaded, too.) -/
def Code.subs (c : Code) : List Int := c.flatMap (fun a => a.2.subs)

/-- `data_increment` (`src/gen/dataTypes.py:37-38`): `X += (inc * 8)`, `X += (inc * (n - i) * 2)`. -/
def ptrIncr (pw : Nat) (incs : List Int) (u : Nat) : List Int := incs.flatMap (fun inc => [inc * u, inc * u * pw])

/-- The `int` expressions of one statement of the loop skeleton in state `s` (`src/gen/vectorizations.py:94-114`): in the loop `i + step` in every test (and as the
new value of `i`) and the increments of the pointers; in the `if`s `i + u`, and the increments if the condition holds; at the end `n - i` and the increments by it. -/
def Stmt.ints (pw : Nat) (incs : List Int) (n : Nat) (s : LoopState) : Stmt → List Int
  | .loop step _ => (List.range (n / step + 1)).map (fun (t : Nat) => (step : Int) * t + step) ++ (if step ≤ n then ptrIncr pw incs step else [])
  | .once u => ((s.i : Int) + u) :: (if s.i + u ≤ n then ptrIncr pw incs u else [])
  | .rest => if s.i < n then ((n : Int) - s.i) :: ptrIncr pw incs (n - s.i) else []

/-- The `int` expressions of the statements `l` from state `s` on. -/
def stmtInts (pw : Nat) (incs : List Int) (n : Nat) : List Stmt → LoopState → List Int
  | [], _ => []
  | st :: l, s => st.ints pw incs n s ++ stmtInts pw incs n l (st.run n s)

/-- The deposit kernel (`Gen.kernelCode`) with its `int` expressions: the loop skeleton and the subscripts of the bodies executed. -/
def Gen.kernelC (G : Gen) (F : Fmt) (M : Nat → Int → Flt) (incX incZ : Int) (expand : Bool) (fold n : Nat) (σ : Regs) : Option Regs :=
  chk (stmtInts G.pw (incX :: if G.op.prod then [incZ] else []) n (emit G.tsz (G.T.pipe * G.T.unroll)) ⟨0, 0, []⟩)
    (chk ((runUnrolled G.tsz (G.T.pipe * G.T.unroll) n).done.flatMap (fun c => Code.subs (G.body F incX incZ (F.dmindex0 (σ (.y 0 0) 0) || (G.cplx && F.dmindex0 (σ (.y 1 0) 0))) expand fold c)))
      (some (G.kernelCode F M incX incZ expand fold n σ)))

/-- The maximum kernel (`GenA.code`) with its `int` expressions. -/
def GenA.codeC (A : GenA) (F : Fmt) (M : Nat → Int → Flt) (incX incZ : Int) (n : Nat) (σ : Regs) : Option Regs :=
  chk (stmtInts A.gen.pw (incX :: if A.prod then [incZ] else []) n (emit A.gen.tsz A.T.aunroll) ⟨0, 0, []⟩)
    (chk ((runUnrolled A.gen.tsz A.T.aunroll n).done.flatMap (fun c => Code.subs (A.body incX incZ c))) (some (A.code F M incX incZ n σ)))

/-! ## The vector routines -/

namespace Fmt
variable (F : Fmt)

/-- `for (j = 0; j < N_block; j++) priY[0] += …` (`src/binnedBLAS/dmdsum.ccog:70-72`, …); `es j` are the `int` expressions of the body. -/
def accum0K (n : Nat) (es : Nat → List Int) (t : Nat → Mem → Flt) (a : Int) (m : Mem) : Option Mem :=
  for1 n 1 (fun j m => chk (es j) (some (m.set a (F.add (m a) (t j m))))) m

/-- The subscripts `j * incX` and, in a product, `j * incY` (`src/binnedBLAS/dmdsum.ccog:71`, `dmddot.ccog:72`). -/
def rsubs (op : DepOp) (incX incZ : Int) (j : Nat) : List Int := [(j : Int) * incX] ++ if op.prod then [(j : Int) * incZ] else []

/-- `rloopM` with checked `int` arithmetic (`src/binnedBLAS/dmdsum.ccog:57-6203`, `dmdasum.ccog:57-5943`, `dmddot.ccog:59-12072`): `N - i`, `j * incX`, `N_block * incX`,
`deposits + N_block`, `i += N_block` and the kernels. -/
def rloopC (T : Tune) (op : DepOp) (expand : Bool) (fold : Nat) (l : Loc) (incX incZ : Int) (jA jD : Nat → Regs) (N : Nat) :
    Nat → Nat → Int → Int → Nat → Mem → Option Mem
  | 0, _, _, _, _, _ => none
  | fuel + 1, i, X, Z, deposits, m =>
    if N ≤ i then some (F.dmrenormM fold l m)
    else
      let nb := min (N - i) T.nb
      chk [(N : Int) - i, (i : Int) + nb] <|
      ((GenA.mk T false op.prod).codeC F (behind m X Z) incX incZ nb (jA (N - i))).bind fun σA =>
      let amax := σA (.am 0) 0
      (if F.isInf amax || F.isInf (m l.pri) then
          F.accum0K nb (rsubs op incX incZ) (fun j m => rterm F op (m (X + j * incX)) (m (Z + j * incZ))) l.pri m else some m).bind fun m =>
      if F.isNaN (m l.pri) then some m
      else if F.isInf (m l.pri) then
        chk ([(nb : Int) * incX] ++ if op.prod then [(nb : Int) * incZ] else []) <|
        rloopC T op expand fold l incX incZ jA jD N fuel (i + nb) (X + nb * incX) (Z + nb * incZ) deposits m
      else
        chk [(deposits : Int) + nb] <|
        let over := deposits + nb > F.endurance
        let m := if over then F.dmrenormM fold l m else m
        let deposits := if over then 0 else deposits
        let m := F.dmdupdateM fold amax l m
        ((Gen.mk T false op).kernelC F (behind m X Z) incX incZ expand fold nb (bindY l l m (jD (N - i)))).bind fun σ =>
        let adv := (runUnrolled (Gen.mk T false op).tsz (T.pipe * T.unroll) nb).off
        rloopC T op expand fold l incX incZ jA jD N fuel (i + nb) (X + incX * adv) (Z + incZ * adv) (deposits + nb) (storeY fold 0 l σ m)

/-- `binnedBLAS_dmdsum`, `binnedBLAS_dmdasum`, `binnedBLAS_dmddot` on `n` elements. -/
def rvecC (T : Tune) (op : DepOp) (expand : Bool) (fold : Nat) (l : Loc) (n : Nat) (X incX Z incZ : Int) (jA jD : Nat → Regs) (m : Mem) : Option Mem :=
  F.rloopC T op expand fold l incX incZ jA jD n (n + 1) 0 X Z 0 m

/-- The subscripts `j * 2 * incX`, `j * 2 * incX + 1` (`src/binnedBLAS/zmzsum.ccog:71-76`, `zmzdotc.ccog:72-77`). -/
def zsubs1 (inc : Int) (j : Nat) : List Int := [(j : Int) * 2, (j : Int) * 2 * inc, (j : Int) * 2 * inc + 1]
/-- The same in both vectors of a product. -/
def zsubs (op : DepOp) (incX incZ : Int) (j : Nat) : List Int := zsubs1 incX j ++ if op.prod then zsubs1 incZ j else []

/-- `zloopM` with checked `int` arithmetic (`src/binnedBLAS/zmzsum.ccog:57-7039`, `zmzdotu.ccog:59-11667`, `zmzdotc.ccog:59-10157`). -/
def zloopC (T : Tune) (op : DepOp) (expand : Bool) (fold : Nat) (l : Loc) (incX incZ : Int) (jA jD : Nat → Regs) (N : Nat) :
    Nat → Nat → Int → Int → Nat → Mem → Option Mem
  | 0, _, _, _, _, _ => none
  | fuel + 1, i, X, Z, deposits, m =>
    if N ≤ i then some (F.zmrenormM fold l m)
    else
      let nb := min (N - i) T.nb
      chk [(N : Int) - i, (i : Int) + nb] <|
      ((GenA.mk T true op.prod).codeC F (behind m X Z) incX incZ nb (jA (N - i))).bind fun σA =>
      let a0 := σA (.am 0) 0
      let a1 := σA (.am 1) 0
      (if F.isInf a0 || F.isInf (m l.pri) then
          F.accum0K nb (zsubs op incX incZ) (fun j m => F.zterm op 0 (m.pair (X + j * 2 * incX)) (m.pair (Z + j * 2 * incZ))) l.pri m else some m).bind fun m =>
      (if F.isInf a1 || F.isInf (m (l.pri + 1)) then
          F.accum0K nb (zsubs op incX incZ) (fun j m => F.zterm op 1 (m.pair (X + j * 2 * incX)) (m.pair (Z + j * 2 * incZ))) (l.pri + 1) m else some m).bind fun m =>
      if F.isNaN (m l.pri) && F.isNaN (m (l.pri + 1)) then some m
      else if F.isInf (m l.pri) && F.isInf (m (l.pri + 1)) then
        chk ([(nb : Int) * 2, (nb : Int) * 2 * incX] ++ if op.prod then [(nb : Int) * 2 * incZ] else []) <|
        zloopC T op expand fold l incX incZ jA jD N fuel (i + nb) (X + nb * 2 * incX) (Z + nb * 2 * incZ) deposits m
      else
        let a0 := if F.isNaNInf (m l.pri) then m l.pri else a0
        let a1 := if F.isNaNInf (m (l.pri + 1)) then m (l.pri + 1) else a1
        chk [(deposits : Int) + nb] <|
        let over := deposits + nb > F.endurance / (if op.prod then 2 else 1)
        let m := if over then F.zmrenormM fold l m else m
        let deposits := if over then 0 else deposits
        let m := F.zmzupdateM fold a0 a1 l m
        ((Gen.mk T true op).kernelC F (behind m X Z) incX incZ expand fold nb (bindY l.re l.im m (jD (N - i)))).bind fun σ =>
        let adv := (runUnrolled (Gen.mk T true op).tsz (T.pipe * T.unroll) nb).off
        let m := storeY fold 1 l.im σ (storeY fold 0 l.re σ m)
        let m := if F.isInf a0 then m.set l.pri a0 else m
        let m := if F.isInf a1 then m.set (l.pri + 1) a1 else m
        zloopC T op expand fold l incX incZ jA jD N fuel (i + nb) (X + incX * 2 * adv) (Z + incZ * 2 * adv) (deposits + nb) m

/-- `binnedBLAS_zmzsum`, `binnedBLAS_zmzdotu`, `binnedBLAS_zmzdotc` on `n` elements. -/
def zvecC (T : Tune) (op : DepOp) (expand : Bool) (fold : Nat) (l : Loc) (n : Nat) (X incX Z incZ : Int) (jA jD : Nat → Regs) (m : Mem) : Option Mem :=
  F.zloopC T op expand fold l incX incZ jA jD n (n + 1) 0 X Z 0 m

/-- `ssqLoopM` with checked `int` arithmetic (`src/binnedBLAS/dmdssq.ccog:60-4970`). -/
def ssqLoopK (T : Tune) (expand : Bool) (fold : Nat) (l : Loc) (incX : Int) (jA jD : Nat → Regs) (N : Nat) :
    Nat → Nat → Int → Nat → Flt → Mem → Option (Flt × Mem)
  | 0, _, _, _, _, _ => none
  | fuel + 1, i, X, deposits, scl, m =>
    if N ≤ i then some (F.ssqEndM fold l scl m)
    else
      let nb := min (N - i) T.nb
      chk [(N : Int) - i, (i : Int) + nb] <|
      ((GenA.mk T false false).codeC F (behind m X X) incX incX nb (jA (N - i))).bind fun σA =>
      let amax := σA (.am 0) 0
      (if F.isInf amax || F.isInf (m l.pri) then
          F.accum0K nb (fun j => [(j : Int) * incX]) (fun j m => fabs (m (X + j * incX))) l.pri m else some m).bind fun m =>
      if F.isNaN (m l.pri) then some (F.dscale F.one, m)
      else if F.isInf (m l.pri) then
        chk [(nb : Int) * incX] <| ssqLoopK T expand fold l incX jA jD N fuel (i + nb) (X + nb * incX) deposits scl m
      else
        chk [(deposits : Int) + nb] <|
        let over := deposits + nb > F.endurance
        let m := if over then F.dmrenormM fold l m else m
        let deposits := if over then 0 else deposits
        let new := F.dscale amax
        let m := if F.lt scl new && F.lt zero scl then F.dmdrescaleM fold new scl l m else m
        let scl := if F.lt scl new then new else scl
        let a := F.div amax scl
        let m := F.dmdupdateM fold (F.mul a a) l m
        let op := DepOp.ssq (F.div F.one scl)
        ((Gen.mk T false op).kernelC F (behind m X X) incX incX expand fold nb (bindY l l m (jD (N - i)))).bind fun σ =>
        let adv := (runUnrolled (Gen.mk T false op).tsz (T.pipe * T.unroll) nb).off
        ssqLoopK T expand fold l incX jA jD N fuel (i + nb) (X + incX * adv) (deposits + nb) scl (storeY fold 0 l σ m)

/-- `binnedBLAS_dmdssq` on `n` elements. -/
def ssqVecC (T : Tune) (expand : Bool) (fold : Nat) (l : Loc) (n : Nat) (X incX : Int) (scl : Flt) (jA jD : Nat → Regs) (m : Mem) : Option (Flt × Mem) :=
  F.ssqLoopK T expand fold l incX jA jD n (n + 1) 0 X 0 scl m

/-- The exceptional loop of `src/binnedBLAS/dmzasum.ccog:75-78`, `dmzssq.ccog:79-82`; compare `accumAbsM`. -/
def accumAbsC (n : Nat) (x incX : Int) (a : Int) (m : Mem) : Option Mem :=
  for1 n 1 (fun j m => chk (zsubs1 incX j) <|
    let m := m.set a (F.add (m a) (fabs (m (x + j * 2 * incX))))
    some (m.set a (F.add (m a) (fabs (m (x + j * 2 * incX + 1)))))) m

/-- `zasumLoopM` with checked `int` arithmetic (`src/binnedBLAS/dmzasum.ccog:57-9868`). -/
def zasumLoopK (T : Tune) (expand : Bool) (fold : Nat) (s l : Loc) (incX : Int) (jA jD : Nat → Regs) (N : Nat) :
    Nat → Nat → Int → Nat → Mem → Option Mem
  | 0, _, _, _, _ => none
  | fuel + 1, i, X, deposits, m =>
    if N ≤ i then some (F.zasumEndM fold s l m)
    else
      let nb := min (N - i) T.nb
      chk [(N : Int) - i, (i : Int) + nb] <|
      ((GenA.mk T true false).codeC F (behind m X X) incX incX nb (jA (N - i))).bind fun σA =>
      let amax := F.fmax (σA (.am 0) 0) (σA (.am 1) 0)
      (if F.isInf amax || F.isInf (m l.pri) then F.accumAbsC nb X incX l.pri m else some m).bind fun m =>
      if F.isNaN (m l.pri) || F.isNaN (m s.pri) || F.isNaN (m (s.pri + 1)) then
        some (m.set l.pri (F.add (m l.pri) (F.add (m s.pri) (m (s.pri + 1)))))
      else if F.isInf (m l.pri) then
        chk [(nb : Int) * 2, (nb : Int) * 2 * incX] <| zasumLoopK T expand fold s l incX jA jD N fuel (i + nb) (X + nb * 2 * incX) deposits m
      else
        chk [(deposits : Int) + nb] <|
        let over := deposits + nb > F.endurance
        let m := if over then F.zmrenormM fold s m else m
        let deposits := if over then 0 else deposits
        let m := F.zmdupdateM fold amax s m
        ((Gen.mk T true .asum).kernelC F (behind m X X) incX incX expand fold nb (bindY s.re s.im m (jD (N - i)))).bind fun σ =>
        let adv := (runUnrolled (Gen.mk T true .asum).tsz (T.pipe * T.unroll) nb).off
        zasumLoopK T expand fold s l incX jA jD N fuel (i + nb) (X + incX * 2 * adv) (deposits + nb) (storeY fold 1 s.im σ (storeY fold 0 s.re σ m))

/-- `binnedBLAS_dmzasum` on `n` elements. -/
def zasumVecC (T : Tune) (expand : Bool) (fold : Nat) (tmp : Int) (l : Loc) (n : Nat) (X incX : Int) (jA jD : Nat → Regs) (m : Mem) : Option Mem :=
  F.zasumLoopK T expand fold (zpacked fold tmp) l incX jA jD n (n + 1) 0 X 0 (zmsetzeroM fold (zpacked fold tmp) m)

/-- `zssqLoopM` with checked `int` arithmetic (`src/binnedBLAS/dmzssq.ccog:59-5192`). -/
def zssqLoopK (T : Tune) (expand : Bool) (fold : Nat) (t0 t1 : Int) (s l : Loc) (incX : Int) (scaleY : Flt) (jA jD : Nat → Regs) (N : Nat) :
    Nat → Nat → Int → Nat → Flt → Mem → Option (Flt × Mem)
  | 0, _, _, _, _, _ => none
  | fuel + 1, i, X, deposits, scl, m =>
    if N ≤ i then some (F.zssqEndM fold t0 t1 s l scl scaleY m)
    else
      let nb := min (N - i) T.nb
      chk [(N : Int) - i, (i : Int) + nb] <|
      ((GenA.mk T true false).codeC F (behind m X X) incX incX nb (jA (N - i))).bind fun σA =>
      let amax := F.fmax (σA (.am 0) 0) (σA (.am 1) 0)
      (if F.isInf amax || F.isInf (m l.pri) then F.accumAbsC nb X incX l.pri m else some m).bind fun m =>
      if F.isNaN (m l.pri) || F.isNaN (m s.pri) || F.isNaN (m (s.pri + 1)) then
        some (F.dscale F.one, m.set l.pri (F.add (m l.pri) (F.add (m s.pri) (m (s.pri + 1)))))
      else if F.isInf (m l.pri) then
        chk [(nb : Int) * 2, (nb : Int) * 2 * incX] <| zssqLoopK T expand fold t0 t1 s l incX scaleY jA jD N fuel (i + nb) (X + nb * 2 * incX) deposits scl m
      else
        chk [(deposits : Int) + nb] <|
        let over := deposits + nb > F.endurance
        let m := if over then F.zmrenormM fold s m else m
        let deposits := if over then 0 else deposits
        let new := F.dscale amax
        let m := if F.lt scl new && F.lt zero scl then F.zmdrescaleM fold new scl s m else m
        let scl := if F.lt scl new then new else scl
        let a := F.div amax scl
        let m := F.zmdupdateM fold (F.mul a a) s m
        let op := DepOp.ssq (F.div F.one scl)
        ((Gen.mk T true op).kernelC F (behind m X X) incX incX expand fold nb (bindY s.re s.im m (jD (N - i)))).bind fun σ =>
        let adv := (runUnrolled (Gen.mk T true op).tsz (T.pipe * T.unroll) nb).off
        zssqLoopK T expand fold t0 t1 s l incX scaleY jA jD N fuel (i + nb) (X + incX * 2 * adv) (deposits + nb) scl
          (storeY fold 1 s.im σ (storeY fold 0 s.re σ m))

/-- `binnedBLAS_dmzssq` on `n` elements. -/
def zssqVecC (T : Tune) (expand : Bool) (fold : Nat) (tmp t0 t1 : Int) (l : Loc) (n : Nat) (X incX : Int) (scaleY : Flt) (jA jD : Nat → Regs) (m : Mem) : Option (Flt × Mem) :=
  F.zssqLoopK T expand fold t0 t1 (zpacked fold tmp) l incX scaleY jA jD n (n + 1) 0 X 0 zero (zmsetzeroM fold (zpacked fold tmp) m)

end Fmt

/-! ## The matrix products -/

/-- The operations of `MOps` with a checked dot product. -/
structure COps (α : Type) extends MOps α where
  /-- the dot product call, `none` if an `int` expression overflows in it -/
  dotC : Nat → Int → Int → Int → Int → Int → Mem → Option Mem

/-- Real elements. -/
def realOpsC (F : Fmt) (T : Tune) (expand : Bool) (fold : Nat) (jA jD : Junk) : COps Flt :=
  { realOps F T expand fold jA jD with
    dotC := fun n X incX Z incZ y m => F.rvecC T .dot expand fold (packed fold y) n X incX Z incZ (jA m X Z y) (jD m X Z y) m }

/-- Complex elements. -/
def cplxOpsC (F : Fmt) (T : Tune) (expand : Bool) (fold : Nat) (jA jD : Junk) (conj : Bool) : COps (Flt × Flt) :=
  { cplxOps F T expand fold jA jD conj with
    dotC := fun n X incX Z incZ y m => F.zvecC T (if conj then .dotc else .dotu) expand fold (zpacked fold y) n X incX Z incZ (jA m X Z y) (jD m X Z y) m }

section
variable {α : Type} (O : COps α)

/-- `A + a * ld + b` (`src/binnedBLAS/dbdgemv.ccog:99`), `A + 2 * (a * ld + b)` (`zbzgemv.ccog:100`). -/
def rowE (a ld b : Int) : List Int := if O.w = 1 then [a * ld] else [a * ld, a * ld + b, 2 * (a * ld + b)]
/-- `A[a * ld + b]` (`src/binnedBLAS/dbdgemv.ccog:127`), `A[2 * (a * ld + b)]`, `A[2 * (a * ld + b) + 1]` (`zbzgemv.ccog:129-130`). -/
def subE (a ld b : Int) : List Int := if O.w = 1 then [a * ld, a * ld + b] else [a * ld, a * ld + b, 2 * (a * ld + b), 2 * (a * ld + b) + 1]
/-- `bufX + j * inc` (`src/binnedBLAS/dbdgemv.ccog:99`), `bufX + 2 * j * inc` (`zbzgemv.ccog:100`). -/
def vecE (j inc : Int) : List Int := if O.w = 1 then [j * inc] else [2 * j, 2 * j * inc]
/-- `X[j * inc]` (`src/binnedBLAS/dbdgemv.ccog:92`), `X[2 * j * inc]`, `X[2 * j * inc + 1]` (`zbzgemv.ccog:92-93`). -/
def elE (j inc : Int) : List Int := if O.w = 1 then [j * inc] else [2 * j, 2 * j * inc, 2 * j * inc + 1]
/-- `bufA + d * XT_BLOCK` (`src/binnedBLAS/dbdgemv.ccog:133`), `bufA + 2 * d * XT_BLOCK` (`zbzgemv.ccog:137`), `d = ii - i`. -/
def tileE (d xt : Int) : List Int := if O.w = 1 then [d, d * xt] else [d, 2 * d, 2 * d * xt]
/-- `bufA[d * XT_BLOCK + e]` (`src/binnedBLAS/dbdgemv.ccog:127`), `bufA[2 * (d * XT_BLOCK + e)]` (`zbzgemv.ccog:129-130`), `d = iii - i`, `e = jjj - j`. -/
def tileS (d xt e : Int) : List Int := [d, e] ++ subE O d xt e
/-- `malloc(XT_BLOCK * YT_BLOCK * sizeof(double))` (`src/binnedBLAS/dbdgemv.ccog:120`), `malloc(XT_BLOCK * YT_BLOCK * 2 * sizeof(double))` (`zbzgemv.ccog:122`); the same for `M * K` (`dbdgemm.ccog:96`). -/
def allocE (a b : Int) : List Int := if O.w = 1 then [a * b] else [a * b, a * b * 2]
/-- `Y + ii * incY * binned_dbnum(fold)` (`src/binnedBLAS/dbdgemv.ccog:99`, `src/binned/dbnum.c`). -/
def outE (ii incY : Int) : List Int := [(O.bw : Int), ii * incY, ii * incY * O.bw]
/-- `C + (a * ld + b) * binned_dbnum(fold)` (`src/binnedBLAS/dbdgemm.ccog:120`). -/
def entE (a ld b : Int) : List Int := [(O.bw : Int), a * ld, a * ld + b, (a * ld + b) * O.bw]

/-- `scaleXM` with checked `int` arithmetic (`src/binnedBLAS/dbdgemv.ccog:86-95, 110-119`, `zbzgemv.ccog:86-97`); the complex code computes `N * 2` for `malloc` and the subscripts `2 * j`, `2 * j + 1`. -/
def scaleXC (unit : Bool) (scl : α → α) (n : Nat) (X incX bufX : Int) (m : Mem) : Option (Int × Int × Mem) :=
  if unit then some (X, incX, m)
  else
    chk (if O.w = 1 then [] else [(n : Int) * 2]) <|
    (for1 n 1 (fun j m => chk ((if O.w = 1 then [] else [2 * (j : Int), 2 * (j : Int) + 1]) ++ elE O j incX) <|
      some (O.put m (bufX + O.w * j) (scl (O.get m (X + O.w * (j * incX)))))) m).map fun m => (bufX, 1, m)

/-- `gemvNM` with checked `int` arithmetic (`src/binnedBLAS/dbdgemv.ccog:96-102`, `zbzgemv.ccog:98-104`). -/
def gemvNC (b : GemvB) (M N : Nat) (A lda bufX incbufX Y incY : Int) (m : Mem) : Option Mem :=
  for1 M b.y (fun i => for1 N b.x (fun j => for2 i M b.y 1 (fun ii m =>
    chk ([(N : Int) - j] ++ rowE O ii lda j ++ vecE O j incbufX ++ outE O ii incY) <|
    O.dotC (min b.x (N - j)) (A + O.w * (ii * lda + j)) 1 (bufX + O.w * (j * incbufX)) incbufX (Y + O.bw * (ii * incY)) m))) m

/-- `packTM` with checked `int` arithmetic (`src/binnedBLAS/dbdgemv.ccog:123-131`). -/
def packTC (b : GemvB) (M N i j : Nat) (A lda bufA : Int) (m : Mem) : Option Mem :=
  for2 j M b.xt b.t (fun jj => for2 i N b.yt b.t (fun ii =>
    for2 jj M (min b.t b.xt) 1 (fun jjj => for2 ii N (min b.t b.yt) 1 (fun iii m =>
      chk (tileS O ((iii : Int) - i) b.xt ((jjj : Int) - j) ++ subE O jjj lda iii) <|
      some (O.put m (bufA + O.w * ((iii - i : Nat) * (b.xt : Int) + (jjj - j : Nat))) (O.get m (A + O.w * (jjj * lda + iii)))))))) m

/-- `gemvTM` with checked `int` arithmetic (`src/binnedBLAS/dbdgemv.ccog:120-137`, `zbzgemv.ccog:122-141, 159-178`). -/
def gemvTC (b : GemvB) (M N : Nat) (A lda bufX incbufX Y incY bufA : Int) (m : Mem) : Option Mem :=
  chk (allocE O b.xt b.yt) <|
  for1 N b.yt (fun i => for1 M b.xt (fun j m =>
    (packTC O b M N i j A lda bufA m).bind fun m =>
    for2 i N b.yt 1 (fun ii m =>
      chk ([(M : Int) - j] ++ tileE O ((ii : Int) - i) b.xt ++ vecE O j incbufX ++ outE O ii incY) <|
      O.dotC (min b.xt (M - j)) (bufA + O.w * ((ii - i : Nat) * (b.xt : Int))) 1 (bufX + O.w * (j * incbufX)) incbufX (Y + O.bw * (ii * incY)) m) m)) m

/-- `gemvM` with checked `int` arithmetic (`src/binnedBLAS/dbdgemv.ccog:57-162`). -/
def gemvC (zero unit : Bool) (scl : α → α) (b : GemvB) (Order TransA : Char) (M N : Nat) (A lda X incX Y incY bufX bufA : Int) (m : Mem) : Option Mem :=
  let row := fun (noTrans : Bool) (M N : Nat) =>
    if M = 0 ∨ N = 0 ∨ zero then some m
    else if noTrans then
      (scaleXC O unit scl N X incX bufX m).bind fun s => gemvNC O b M N A lda s.1 s.2.1 Y incY s.2.2
    else
      (scaleXC O unit scl M X incX bufX m).bind fun s => gemvTC O b M N A lda s.1 s.2.1 Y incY bufA s.2.2
  if M = 0 ∨ N = 0 ∨ zero then some m
  else if isRow Order then row (isNo TransA) M N
  else if isNo TransA then row false N M
  else row true N M

/-- `packM` with checked `int` arithmetic (`src/binnedBLAS/dbdgemm.ccog:113-117, 163-172, 185-194`). -/
def packC (xt yt : Nat) (f : α → α) (K M k i : Nat) (A lda buf : Int) (m : Mem) : Option Mem :=
  for2 k K xt 1 (fun kk => for2 i M yt 1 (fun ii m =>
    chk (tileS O ((ii : Int) - i) xt ((kk : Int) - k) ++ subE O kk lda ii) <|
    some (O.put m (buf + O.w * ((ii - i : Nat) * (xt : Int) + (kk - k : Nat))) (f (O.get m (A + O.w * (kk * lda + ii))))))) m

/-- `scaleAM` with checked `int` arithmetic (`src/binnedBLAS/dbdgemm.ccog:92-103, 361-372`). -/
def scaleAC (unit : Bool) (f : α → α) (M K : Nat) (A lda buf : Int) (m : Mem) : Option (Int × Int × Mem) :=
  if unit then some (A, lda, m)
  else
    chk (allocE O M K) <|
    (for1 M 1 (fun i => for1 K 1 (fun k m =>
      chk (subE O i K k ++ subE O i lda k) <|
      some (O.put m (buf + O.w * (i * (K : Int) + k)) (f (O.get m (A + O.w * (i * lda + k))))))) m).map fun m => (buf, (K : Int), m)

/-- `tilesM` with checked `int` arithmetic (`src/binnedBLAS/dbdgemm.ccog:111-126`, …). -/
def tilesC (bi bj bk M N K : Nat) (jFirst : Bool) (pk : Nat → Nat → Nat → Mem → Option Mem) (call : Nat → Nat → Nat → Nat → Nat → Mem → Option Mem) (m : Mem) : Option Mem :=
  for1 M bi (fun i => for1 N bj (fun j => for1 K bk (fun k m =>
    (pk i j k m).bind fun m =>
    if jFirst then for2 j N bj 1 (fun jj => for2 i M bi 1 (fun ii => call i j k ii jj)) m
    else for2 i M bi 1 (fun ii => for2 j N bj 1 (fun jj => call i j k ii jj)) m))) m

/-- `gemmM` with checked `int` arithmetic (`src/binnedBLAS/dbdgemm.ccog:61-420`, `zbzgemm.ccog:61-879`). -/
def gemmC (b : GemmB) (row aPack bPack swap unit : Bool) (fA fB : α → α) (M N K : Nat) (A lda B ldb C ldc bufS bufA bufB : Int) (m : Mem) : Option Mem :=
  (if aPack then some (A, lda, m) else scaleAC O unit fA M K A lda bufS m).bind fun s =>
  chk (if aPack || bPack then allocE O b.xt b.yt else []) <|
  let bk := if aPack || bPack then b.xt else b.x
  tilesC (if aPack then b.yt else b.y) (if bPack then b.yt else b.y) bk M N K (!row)
    (fun i j k m =>
      (if aPack then packC O b.xt b.yt fA K M k i A lda bufA m else some m).bind fun m =>
      if bPack then packC O b.xt b.yt fB K N k j B ldb bufB m else some m)
    (fun i j k ii jj m =>
      chk ([(K : Int) - k] ++ (if aPack then tileE O ((ii : Int) - i) b.xt else rowE O ii s.2.1 k) ++ (if bPack then tileE O ((jj : Int) - j) b.xt else rowE O jj ldb k)
        ++ (if row then entE O ii ldc jj else entE O jj ldc ii)) <|
      let a := if aPack then bufA + O.w * ((ii - i : Nat) * (b.xt : Int)) else s.1 + O.w * (ii * s.2.1 + k)
      let bb := if bPack then bufB + O.w * ((jj - j : Nat) * (b.xt : Int)) else B + O.w * (jj * ldb + k)
      let c := C + O.bw * (if row then ii * ldc + jj else jj * ldc + ii)
      if swap then O.dotC (min bk (K - k)) bb 1 a 1 c m else O.dotC (min bk (K - k)) a 1 bb 1 c m) s.2.2

/-- `rgemvM` with checked `int` arithmetic (`src/reproBLAS/rdgemv.c:35-87`, `rzgemv.c:35-93`): `YI + i * binned_dbnum(fold)`, `Y[i * incY]` or `Y + 2 * i * incY`, `Y[2 * i * incY + 1]`. The subscripts of `Y` are not evaluated
in the first loop if `beta` is zero (`memset`). -/
def rgemvC (zero unit : Bool) (scl : α → α) (prod : Int → Mem → Option Mem) (noTrans : Bool) (M N : Nat) (Y incY YI : Int) (m : Mem) : Option Mem :=
  if N = 0 ∨ M = 0 then some m
  else
    let n := if noTrans then M else N
    (for1 n 1 (fun i m => chk (if zero then [] else outE O i 1 ++ (if unit then vecE O i incY else elE O i incY)) <| some (initM O.toMOps zero unit scl (YI + O.bw * i) (Y + O.w * (i * incY)) m)) m).bind fun m =>
    (prod YI m).bind fun m =>
    for1 n 1 (fun i m => chk (outE O i 1 ++ vecE O i incY) <| some (O.put m (Y + O.w * (i * incY)) (O.unconv (YI + O.bw * i) m))) m

/-- `rgemmM` with checked `int` arithmetic (`src/reproBLAS/rdgemm.c:41-105`, `rzgemm.c:41-110`): `malloc(M * N * binned_dbsize(fold))`, `CI + (i * N + j) * binned_dbnum(fold)`, `C[i * ldc + j]`. -/
def rgemmC (zero unit : Bool) (scl : α → α) (prod : Int → Int → Mem → Option Mem) (row : Bool) (M N : Nat) (C ldc CI : Int) (m : Mem) : Option Mem :=
  if M = 0 ∨ N = 0 then some m
  else
    chk [(M : Int) * N] <|
    let P := if row then M else N
    let Q := if row then N else M
    (for1 P 1 (fun i => for1 Q 1 (fun j m => chk (if zero then [] else entE O i Q j ++ subE O i ldc j) <|
      some (initM O.toMOps zero unit scl (CI + O.bw * (i * (Q : Int) + j)) (C + O.w * (i * ldc + j)) m))) m).bind fun m =>
    (prod CI Q m).bind fun m =>
    for1 P 1 (fun i => for1 Q 1 (fun j m => chk (entE O i Q j ++ subE O i ldc j) <|
      some (O.put m (C + O.w * (i * ldc + j)) (O.unconv (CI + O.bw * (i * (Q : Int) + j)) m)))) m

end

namespace Fmt
variable (F : Fmt)

/-- `binnedBLAS_dbdgemv`, `binnedBLAS_sbsgemv` (`src/binnedBLAS/dbdgemv.ccog:57-162`). -/
def dgemvC (T : Tune) (expand : Bool) (fold : Nat) (jA jD : Junk) (b : GemvB) (Order TransA : Char) (M N : Nat) (alpha : Flt)
    (A lda X incX Y incY bufX bufA : Int) (m : Mem) : Option Mem :=
  gemvC (realOpsC F T expand fold jA jD) (isZero alpha) (F.feq alpha (F.pow2 0)) (fun x => F.mul x alpha) b Order TransA M N A lda X incX Y incY bufX bufA m

/-- `binnedBLAS_dbdgemm`, `binnedBLAS_sbsgemm` (`src/binnedBLAS/dbdgemm.ccog:61-420`). -/
def dgemmC (T : Tune) (expand : Bool) (fold : Nat) (jA jD : Junk) (b : GemmB) (Order TransA TransB : Char) (M N K : Nat) (alpha : Flt)
    (A lda B ldb C ldc bufS bufA bufB : Int) (m : Mem) : Option Mem :=
  if M = 0 ∨ N = 0 ∨ K = 0 ∨ isZero alpha then some m
  else
    let row := isRow Order
    let u := F.feq alpha (F.pow2 0)
    gemmC (realOpsC F T expand fold jA jD) b row (row != isNo TransA) (row == isNo TransB) false u (if u then id else fun x => F.mul x alpha) id
      M N K A lda B ldb C ldc bufS bufA bufB m

/-- `reproBLAS_rdgemv`, `reproBLAS_rsgemv` (`src/reproBLAS/rdgemv.c:35-87`). -/
def rdgemvC (T : Tune) (expand : Bool) (fold : Nat) (jA jD : Junk) (b : GemvB) (Order TransA : Char) (M N : Nat) (alpha : Flt)
    (A lda X incX : Int) (beta : Flt) (Y incY YI bufX bufA : Int) (m : Mem) : Option Mem :=
  rgemvC (realOpsC F T expand fold jA jD) (isZero beta) (F.feq beta (F.pow2 0)) (fun y => F.mul y beta)
    (fun YI => F.dgemvC T expand fold jA jD b Order TransA M N alpha A lda X incX YI 1 bufX bufA) (isNo TransA) M N Y incY YI m

/-- `reproBLAS_rdgemm`, `reproBLAS_rsgemm` (`src/reproBLAS/rdgemm.c:41-105`). -/
def rdgemmC (T : Tune) (expand : Bool) (fold : Nat) (jA jD : Junk) (b : GemmB) (Order TransA TransB : Char) (M N K : Nat) (alpha : Flt)
    (A lda B ldb : Int) (beta : Flt) (C ldc CI bufS bufA bufB : Int) (m : Mem) : Option Mem :=
  rgemmC (realOpsC F T expand fold jA jD) (isZero beta) (F.feq beta (F.pow2 0)) (fun y => F.mul y beta)
    (fun CI ld => F.dgemmC T expand fold jA jD b Order TransA TransB M N K alpha A lda B ldb CI ld bufS bufA bufB) (isRow Order) M N C ldc CI m

/-- The column-major conjugate transposed case of `zbzgemv` (`src/binnedBLAS/zbzgemv.ccog:215-221`). -/
def zgemvCC (O : COps (Flt × Flt)) (b : GemvB) (M N : Nat) (A lda bufX incbufX Y incY : Int) (m : Mem) : Option Mem :=
  for1 N b.y (fun i => for1 M b.x (fun j => for2 i N b.y 1 (fun ii m =>
    chk ([(N : Int) - j] ++ rowE O ii lda j ++ vecE O j incbufX ++ outE O ii incY) <|
    O.dotC (min b.x (N - j)) (A + O.w * (ii * lda + j)) 1 (bufX + O.w * (j * incbufX)) incbufX (Y + O.bw * (ii * incY)) m))) m

/-- `binnedBLAS_zbzgemv`, `binnedBLAS_cbcgemv` (`src/binnedBLAS/zbzgemv.ccog:57-229`). -/
def zgemvK (T : Tune) (expand : Bool) (fold : Nat) (jA jD : Junk) (b : GemvB) (Order TransA : Char) (M N : Nat) (alpha : Flt × Flt)
    (A lda X incX Y incY bufX bufA : Int) (m : Mem) : Option Mem :=
  let O := cplxOpsC F T expand fold jA jD
  let sx := fun n => scaleXC (O false) (F.zunit alpha) (F.zscl alpha) n X incX bufX m
  let row := fun (t : Tr) (M N : Nat) =>
    if M = 0 ∨ N = 0 ∨ zzero alpha then some m
    else match t with
      | .no => (sx N).bind fun s => gemvNC (O false) b M N A lda s.1 s.2.1 Y incY s.2.2
      | .tr => (sx M).bind fun s => gemvTC (O false) b M N A lda s.1 s.2.1 Y incY bufA s.2.2
      | .cj => (sx M).bind fun s => gemvTC (O true) b M N A lda s.1 s.2.1 Y incY bufA s.2.2
  if M = 0 ∨ N = 0 ∨ zzero alpha then some m
  else if isRow Order then row (trOf TransA) M N
  else match trOf TransA with
    | .no => row .tr N M
    | .tr => row .no N M
    | .cj => (sx M).bind fun s => zgemvCC (O true) b M N A lda s.1 s.2.1 Y incY s.2.2

/-- `binnedBLAS_zbzgemm`, `binnedBLAS_cbcgemm` (`src/binnedBLAS/zbzgemm.ccog:61-879`). -/
def zgemmK (T : Tune) (expand : Bool) (fold : Nat) (jA jD : Junk) (b : GemmB) (Order TransA TransB : Char) (M N K : Nat) (alpha : Flt × Flt)
    (A lda B ldb C ldc bufS bufA bufB : Int) (m : Mem) : Option Mem :=
  if M = 0 ∨ N = 0 ∨ K = 0 ∨ zzero alpha then some m
  else
    let row := isRow Order
    let br := F.zbranch row (trOf TransA) (trOf TransB) alpha
    gemmC (cplxOpsC F T expand fold jA jD br.conj) b row (row != isNo TransA) (row == isNo TransB) br.swap (F.zunit alpha) br.fA br.fB
      M N K A lda B ldb C ldc bufS bufA bufB m

/-- `reproBLAS_rzgemv`, `reproBLAS_rcgemv` (`src/reproBLAS/rzgemv.c:35-93`). -/
def rzgemvK (T : Tune) (expand : Bool) (fold : Nat) (jA jD : Junk) (b : GemvB) (Order TransA : Char) (M N : Nat) (alpha : Flt × Flt)
    (A lda X incX : Int) (beta : Flt × Flt) (Y incY YI bufX bufA : Int) (m : Mem) : Option Mem :=
  rgemvC (cplxOpsC F T expand fold jA jD false) (zzero beta) (F.zunit beta) (F.zscl beta)
    (fun YI => F.zgemvK T expand fold jA jD b Order TransA M N alpha A lda X incX YI 1 bufX bufA) (isNo TransA) M N Y incY YI m

/-- `reproBLAS_rzgemm`, `reproBLAS_rcgemm` (`src/reproBLAS/rzgemm.c:41-110`). -/
def rzgemmK (T : Tune) (expand : Bool) (fold : Nat) (jA jD : Junk) (b : GemmB) (Order TransA TransB : Char) (M N K : Nat) (alpha : Flt × Flt)
    (A lda B ldb : Int) (beta : Flt × Flt) (C ldc CI bufS bufA bufB : Int) (m : Mem) : Option Mem :=
  rgemmC (cplxOpsC F T expand fold jA jD false) (zzero beta) (F.zunit beta) (F.zscl beta)
    (fun CI ld => F.zgemmK T expand fold jA jD b Order TransA TransB M N K alpha A lda B ldb CI ld bufS bufA bufB) (isRow Order) M N C ldc CI m

end Fmt
end Repro
