import Verif.Complex
import Verif.Ssq
/-!
# Model of the code generator: the statements of a generated deposit kernel

`Verif/Kernel.lean` and `Verif/Complex.lean` model a generated kernel as independent lanes. This file models what
`src/binned/deposit.py`, `src/binnedBLAS/deposit*.py` and `src/gen/vectorizations.py` really do: they write a list of
assignments to C variables (`X_0`, `q_0`, `s_0_0`, ...). `Verif/PropsGen.lean` proves that executing the written
statements, starting from uninitialised variables, has the effect of the lane model (C62).

Python's lists of variable names are lists of `Var`; a C expression is an `Ex`; a vector register is a function from
lane numbers to numbers; scalar code uses lane 0.
-/

namespace Repro

/-- The C variables of a kernel: `x i`, `z i` the load variables `X_i`, `Z_i` (`src/binned/deposit.py:336-338`,
`src/binnedBLAS/depositM.py:45-51`), `q i`, `s j i` the variables `q_i` and `s_j_i` (`s_i` if the fold is not expanded),
`buf j i` the array element `s_buffer[j * max_reg_width + i]`, `comp i`, `expn i`, `mask i` the factors
(`src/binned/deposit.py:110-143`), `cons` the variable `cons_tmp` (`src/gen/vectorizations.py:140, 286-288`), `y k j` the
word of the accumulator in memory: primary `j` of part `k` (0 real, 1 imaginary); `m i`, `mb i` the variables `m_i` and
`max_buffer_tmp[i]` of the maximum kernels (`src/binnedBLAS/amax.py:52`, `src/gen/vectorizations.py:283`) and `am k` the
part `k` of their result. -/
inductive Var where
  | x (i : Nat)
  | z (i : Nat)
  | q (i : Nat)
  | s (j i : Nat)
  | buf (j i : Nat)
  | comp (i : Nat)
  | expn (i : Nat)
  | mask (i : Nat)
  | cons
  | y (k j : Nat)
  | m (i : Nat)
  | mb (i : Nat)
  | am (k : Nat)
deriving DecidableEq, Repr, Inhabited

/-- Expressions. `lane v i` is element `i` of a register (or a scalar in all lanes), `ri a b` the vector with `a` in the
even and `b` in the odd lanes, `first k a b` the vector with `a` in the first `k` lanes and `b` in the others, `or1` the
bitwise or with 1, `swap`, `evens`, `odds` the shuffles `swap_pairwise`, `rep_evens`, `rep_odds`, `flipE`, `flipO` the
change of the sign bits of the even and of the odd lanes, `ld p l` the vector whose lane `t` is the word at address
`l[t]` behind pointer `p` (zero where there is no address) (`src/gen/vectorizations.py:205-268, 442-536, 705-801`). -/
inductive Ex where
  | var (v : Var)
  | lane (v : Var) (i : Nat)
  | cst (c : Flt)
  | ri (a b : Ex)
  | first (k : Nat) (a b : Ex)
  | add (a b : Ex)
  | sub (a b : Ex)
  | mul (a b : Ex)
  | max (a b : Ex)
  | or1 (a : Ex)
  | abs (a : Ex)
  | swap (a : Ex)
  | evens (a : Ex)
  | odds (a : Ex)
  | flipE (a : Ex)
  | flipO (a : Ex)
  | ld (p : Nat) (l : List (Option Int))
deriving Inhabited

/-- The contents of the variables. -/
abbrev Regs := Var → Nat → Flt

/-- Assignments, in execution order. -/
abbrev Code := List (Var × Ex)

namespace Fmt
variable (F : Fmt)

/-- The value of an expression in lane `t`; `M p a` is the word `a` behind the pointer `p`. -/
def evalEx (M : Nat → Int → Flt) (σ : Regs) : Ex → Nat → Flt
  | .var v, t => σ v t
  | .lane v i, _ => σ v i
  | .cst c, _ => c
  | .ri a b, t => if t % 2 = 0 then evalEx M σ a t else evalEx M σ b t
  | .first k a b, t => if t < k then evalEx M σ a t else evalEx M σ b t
  | .add a b, t => F.add (evalEx M σ a t) (evalEx M σ b t)
  | .sub a b, t => F.sub (evalEx M σ a t) (evalEx M σ b t)
  | .mul a b, t => F.mul (evalEx M σ a t) (evalEx M σ b t)
  | .max a b, t => F.fmax (evalEx M σ a t) (evalEx M σ b t)
  | .or1 a, t => Fmt.or1 (evalEx M σ a t)
  | .abs a, t => fabs (evalEx M σ a t)
  | .swap a, t => evalEx M σ a ((t + 1) % 2 + 2 * (t / 2))
  | .evens a, t => evalEx M σ a (2 * (t / 2))
  | .odds a, t => evalEx M σ a (2 * (t / 2) + 1)
  | .flipE a, t => if t % 2 = 0 then fneg (evalEx M σ a t) else evalEx M σ a t
  | .flipO a, t => if t % 2 = 0 then evalEx M σ a t else fneg (evalEx M σ a t)
  | .ld p l, t => match l.getD t none with
    | some a => M p a
    | none => zero

/-- One assignment. -/
def exec (M : Nat → Int → Flt) (σ : Regs) (c : Var × Ex) : Regs :=
  fun v => if v = c.1 then F.evalEx M σ c.2 else σ v

/-- A sequence of assignments. -/
def run (M : Nat → Int → Flt) (c : Code) (σ : Regs) : Regs := c.foldl (F.exec M) σ

end Fmt

/-- `CodeBlock.set_equal` (`src/gen/utils.py:62-64`): Python's `zip` stops at the shorter list. -/
def setEqual (dst : List Var) (src : List Ex) : Code := List.zipWith (fun d e => (d, e)) dst src

/-- `itertools.cycle` of a list, its first `n` elements. -/
def cycleTo {α : Type} [Inhabited α] (l : List α) (n : Nat) : List α := (List.range n).map (fun i => l.getD (i % l.length) default)

/-- `l[::2]`. -/
def stride2 {α : Type} : List α → List α
  | [] => []
  | [a] => [a]
  | a :: _ :: l => a :: stride2 l

/-- What a kernel deposits: `DepositSum`, `DepositASum`, `DepositSSq`, `DepositDot`, `DepositDotU`, `DepositDotC`
(`src/binnedBLAS/deposit*.py`); `inv` is `1.0 / scale`. -/
inductive DepOp where
  | sum
  | asum
  | ssq (inv : Flt)
  | dot
  | dotu
  | dotc
deriving DecidableEq, Repr

/-- A kernel to generate: the tuning, whether the data type is complex, the operation. -/
structure Gen where
  T : Tune
  cplx : Bool
  op : DepOp

namespace Gen
variable (G : Gen)

/-- `data_type.base_size` (`src/gen/dataTypes.py:56, 68`). -/
def pw : Nat := if G.cplx then 2 else 1

/-- `vec.base_size` (`src/gen/vectorizations.py:135, 301, 563`): numbers in a register. -/
def base : Nat := if G.T.simd then G.T.ts * G.pw else 1

/-- `vec.type_size` (`src/gen/vectorizations.py:136, 302, 564`): 0 for complex scalar code. -/
def tsz : Nat := G.base / G.pw

/-- `vec.suf_width` (`src/gen/vectorizations.py:138, 281`). -/
def suf : Nat := if G.T.simd then 1 else G.pw

/-- The last factor of `compute_reg_width` (`src/binned/deposit.py:343-344`, `src/binnedBLAS/depositM.py:53-54`). -/
def e : Nat := match G.op with
  | .dot | .dotu | .dotc => G.pw
  | _ => 1

/-- `compute_reg_width` (`src/binned/deposit.py:343-344`, `src/binnedBLAS/depositM.py:53-54`). -/
def regWidth (n : Nat) : Nat := n * G.pw / G.base * G.e

/-- `max_reg_width` (`src/binned/deposit.py:111`). -/
def maxRW : Nat := G.regWidth G.T.pipe

/-- `load_vars[0]` (`src/binned/deposit.py:117, 336-338`). -/
def xv : List Var := (List.range (G.maxRW * G.T.unroll)).map .x

/-- `load_vars[1]` (`src/binnedBLAS/depositM.py:45-51`). -/
def zv : List Var := (List.range (if G.cplx then G.maxRW * G.T.unroll / 2 else G.maxRW * G.T.unroll)).map .z

/-- `q_vars` (`src/binned/deposit.py:127, 134`). -/
def qv : List Var := (List.range G.maxRW).map .q

/-- `s_vars[j]` (`src/binned/deposit.py:130, 137`). -/
def sv (j : Nat) : List Var := (List.range G.maxRW).map (.s j)

/-- `buffer_vars` for the value `j` of the C variable `j`; `buffer0_vars` for `j = 0` (`src/binned/deposit.py:142-144`). -/
def bufv (j : Nat) : List Var := (List.range G.maxRW).map (.buf j)

/-- `compression_vars`, `expansion_vars`, `expansion_mask_vars` (`src/binned/deposit.py:118-124`). -/
def compv : List Var := (List.range G.suf).map .comp
def expnv : List Var := (List.range G.suf).map .expn
def maskv : List Var := (List.range G.suf).map .mask

/-- `data_type.index(0, inc, i)` (`src/gen/dataTypes.py:23-27`). -/
def index (inc : Int) (i : Nat) : Int :=
  if G.cplx then 2 * inc * ((i / 2 : Nat) : Int) + ((i % 2 : Nat) : Int) else inc * i

/-- `vec.load(ptr, 0, inc, n)` (`src/gen/vectorizations.py:205-212, 442-461, 705-724`). -/
def load (p : Nat) (inc : Int) (n : Nat) : List Ex :=
  if G.T.simd then
    (List.range (n / G.tsz)).map (fun i =>
      if inc = 1 ∨ G.tsz = 1 then .ld p ((List.range G.base).map (fun (t : Nat) => some (G.index inc (i * G.base) + (t : Int))))
      else .ld p ((List.range G.base).map (fun t => some (G.index inc (i * G.base + t)))))
  else (List.range (n * G.pw)).map (fun i => .ld p [some (G.index inc i)])

/-- `vec.load_partial(ptr, 0, inc, n)` (`src/gen/vectorizations.py:463-475, 726-740`): the first element is always
loaded, the last lane group never, the others if `n` is large enough. -/
def loadPartial (p : Nat) (inc : Int) (n : Nat) : List Ex :=
  [.ld p ((List.range G.base).map (fun t =>
    if t / G.pw = 0 then some (G.index inc t)
    else if t / G.pw + 1 < G.tsz ∧ t / G.pw < n then some (G.index inc t) else none))]

/-- `vec.load` or `vec.load_partial`. -/
def loadC (p : Nat) (inc : Int) (c : Chunk) : List Ex := if c.part then G.loadPartial p inc c.count else G.load p inc c.count

/-- `vec.swap_pairwise` (`src/gen/vectorizations.py:254-256, 532-536, 797-801`). -/
def swapP (l : List Ex) : List Ex :=
  if G.T.simd then l.map .swap else (List.range l.length).map (fun i => l.getD ((i + 1) % 2 + 2 * (i / 2)) default)

/-- `vec.rep_evens` (`src/gen/vectorizations.py:248-249, 520-524, 785-789`). -/
def repE (l : List Ex) : List Ex := if G.T.simd then l.map .evens else (stride2 l).flatMap (fun a => [a, a])

/-- `vec.rep_odds` (`src/gen/vectorizations.py:251-252, 526-530, 791-795`). -/
def repO (l : List Ex) : List Ex := if G.T.simd then l.map .odds else (stride2 (l.drop 1)).flatMap (fun a => [a, a])

end Gen

/-- `vec.add`, `vec.sub`, `vec.mul` on lists (`src/gen/vectorizations.py:227-240, 477-488, 742-753`). -/
def vadd (a b : List Ex) : List Ex := List.zipWith .add a b
def vsub (a b : List Ex) : List Ex := List.zipWith .sub a b
def vmul (a b : List Ex) : List Ex := List.zipWith .mul a b

/-- Variables as expressions. -/
def ev (l : List Var) : List Ex := l.map .var

/-- `vec.mul(a, itertools.cycle(c))`. -/
def vmulC (a : List Ex) (c : List Var) : List Ex := vmul a (cycleTo (ev c) a.length)

/-- `vec.add_blp_into(dst, src, blp, width)` (`src/gen/vectorizations.py:191-203, 433-440, 697-703`): the scalar code
goes through the variable `blp_tmp`, which is written immediately before it is read. -/
def addBlp (dst src : List Var) (blp : List Ex) (w : Nat) : Code :=
  (List.range w).map (fun i => (dst.getD i default, .add (.var (src.getD i default)) (.or1 (blp.getD i default))))

namespace Gen
variable (G : Gen)

/-- `vec.conj` (odd lanes) and `vec.nconj` (even lanes) (`src/gen/vectorizations.py:258-268, 496-508, 761-773`): scalar
code multiplies by `-1`. -/
def conj (F : Fmt) (l : List Ex) : List Ex :=
  if G.T.simd then l.map .flipO
  else (List.range l.length).map (fun i => if i % 2 = 0 then l.getD i default else .mul (l.getD i default) (.cst (Fmt.fneg F.one)))
def nconj (F : Fmt) (l : List Ex) : List Ex :=
  if G.T.simd then l.map .flipE
  else (List.range l.length).map (fun i => if i % 2 = 1 then l.getD i default else .mul (l.getD i default) (.cst (Fmt.fneg F.one)))

/-- `preprocess` (`src/binned/deposit.py:261-265`, `src/binnedBLAS/depositASum.py:16-20`, `depositSSq.py:18-28`,
`depositDot.py:19-28`, `depositDotU.py:15-24`, `depositDotC.py:15-24`). -/
def preprocess (F : Fmt) (incX incZ : Int) (c : Chunk) : Code :=
  let rw := G.regWidth (if c.part then G.tsz else c.count)
  let h := rw / 2
  match G.op with
  | .sum => setEqual G.xv (G.loadC 0 incX c)
  | .asum => setEqual G.xv ((G.loadC 0 incX c).map .abs)
  | .ssq inv =>
    setEqual G.xv (vmul (G.loadC 0 incX c) (List.replicate rw (.cst inv)))
      ++ setEqual G.xv (vmul (ev G.xv) (ev (G.xv.take rw)))
  | .dot =>
    setEqual G.xv (G.loadC 0 incX c) ++ setEqual G.zv (G.loadC 1 incZ c)
      ++ setEqual G.xv (vmul (ev G.xv) (ev (G.zv.take rw)))
  | .dotu =>
    setEqual G.xv (G.loadC 0 incX c) ++ setEqual G.zv (G.loadC 1 incZ c)
      ++ setEqual ((G.xv.take rw).drop h) (G.nconj F (vmul (G.swapP (ev G.xv)) (G.repO (ev G.zv))))
      ++ setEqual (G.xv.take h) (vmul (ev G.xv) (G.repE (ev G.zv)))
  | .dotc =>
    setEqual G.xv (G.loadC 0 incX c) ++ setEqual G.zv (G.loadC 1 incZ c)
      ++ setEqual ((G.xv.take rw).drop h) (vmul (G.swapP (ev G.xv)) (G.repO (ev G.zv)))
      ++ setEqual (G.xv.take h) (G.conj F (vmul (ev G.xv) (G.repE (ev G.zv))))

/-- One level `j` of an expanded fold for the load variables from `i * w` on (`src/binned/deposit.py:282-286, 322-325`). -/
def level (w i j : Nat) : Code :=
  setEqual G.qv (ev ((G.sv j).take w))
    ++ addBlp (G.sv j) (G.sv j) (ev (G.xv.drop (i * w))) w
    ++ setEqual G.qv (vsub (ev G.qv) (ev ((G.sv j).take w)))
    ++ setEqual (G.xv.drop (i * w)) (vadd (ev (G.xv.drop (i * w))) (ev (G.qv.take w)))

/-- One level `j` of the loop over a fold that is not expanded (`src/binned/deposit.py:270-278, 300-307`). -/
def levelBuf (w i j : Nat) : Code :=
  setEqual (G.sv 0) (ev ((G.bufv j).take w))
    ++ addBlp G.qv (G.sv 0) (ev (G.xv.drop (i * w))) w
    ++ setEqual (G.bufv j) (ev (G.qv.take w))
    ++ setEqual G.qv (vsub (ev (G.sv 0)) (ev (G.qv.take w)))
    ++ setEqual (G.xv.drop (i * w)) (vadd (ev (G.xv.drop (i * w))) (ev (G.qv.take w)))

/-- `process` (`src/binned/deposit.py:267-287`). The C loop over `j` of a fold that is not expanded is unrolled here;
behind it the variable `j` is `fold - 1`. -/
def process (expand : Bool) (fold w u : Nat) : Code :=
  (List.range (max u 1)).flatMap (fun i =>
    if expand then
      (List.range (fold - 1)).flatMap (G.level w i)
        ++ addBlp (G.sv (fold - 1)) (G.sv (fold - 1)) (ev (G.xv.drop (i * w))) w
    else
      (List.range (fold - 1)).flatMap (G.levelBuf w i)
        ++ addBlp (G.bufv (fold - 1)) (G.bufv (fold - 1)) (ev (G.xv.drop (i * w))) w)

/-- The first level of `process0` (`src/binned/deposit.py:291-299` without, `313-320` with expansion). The complex
code without expansion forgets the slice `[:reg_width]` behind `q_vars` in the last line. -/
def level0 (expand : Bool) (w i : Nat) : Code :=
  let lv := G.xv.drop (i * w)
  if expand then
    setEqual G.qv (ev ((G.sv 0).take w))
      ++ addBlp (G.sv 0) (G.sv 0) (vmulC (ev lv) G.compv) w
      ++ (if G.cplx then
            setEqual G.qv (vsub (ev G.qv) (ev ((G.sv 0).take w)))
              ++ setEqual lv (vadd (vadd (ev lv) (vmulC (ev (G.qv.take w)) G.expnv)) (vmulC (ev (G.qv.take w)) G.maskv))
          else
            setEqual G.qv (vmulC (vsub (ev G.qv) (ev ((G.sv 0).take w))) G.expnv)
              ++ setEqual lv (vadd (vadd (ev lv) (ev (G.qv.take w))) (ev (G.qv.take w))))
  else
    setEqual (G.sv 0) (ev ((G.bufv 0).take w))
      ++ addBlp G.qv (G.sv 0) (vmulC (ev lv) G.compv) w
      ++ setEqual (G.bufv 0) (ev (G.qv.take w))
      ++ (if G.cplx then
            setEqual G.qv (vsub (ev (G.sv 0)) (ev (G.qv.take w)))
              ++ setEqual lv (vadd (vadd (ev lv) (vmulC (ev G.qv) G.expnv)) (vmulC (ev G.qv) G.maskv))
          else
            setEqual G.qv (vmulC (vsub (ev (G.sv 0)) (ev (G.qv.take w))) G.expnv)
              ++ setEqual lv (vadd (vadd (ev lv) (ev (G.qv.take w))) (ev (G.qv.take w))))

/-- `process0` (`src/binned/deposit.py:289-326`). Behind the C loop `for(j = 1; j < fold - 1; j++)` the variable `j` is
`max(fold - 1, 1)`. -/
def process0 (expand : Bool) (fold w u : Nat) : Code :=
  (List.range (max u 1)).flatMap (fun i =>
    G.level0 expand w i ++
    if expand then
      (List.range' 1 (fold - 2)).flatMap (G.level w i)
        ++ addBlp (G.sv (fold - 1)) (G.sv (fold - 1)) (ev (G.xv.drop (i * w))) w
    else
      (List.range' 1 (fold - 2)).flatMap (G.levelBuf w i)
        ++ addBlp (G.bufv (max (fold - 1) 1)) (G.bufv (max (fold - 1) 1)) (ev (G.xv.drop (i * w))) w)

/-- The body of the unrolled loop for one chunk: `body`, `body0` (`src/binned/deposit.py:190-212`). -/
def body (F : Fmt) (incX incZ : Int) (idx0 expand : Bool) (fold : Nat) (c : Chunk) : Code :=
  let w := G.regWidth (if c.part then G.tsz else min c.count G.T.pipe)
  let u := if c.part then 1 else c.count / G.T.pipe
  G.preprocess F incX incZ c ++ (if idx0 then G.process0 expand fold w u else G.process expand fold w u)

/-- `vec.set_real_imag` (`src/gen/vectorizations.py:223-225, 513-518, 778-783`). -/
def setRI (a b : Flt) : List Ex := if G.T.simd then [.ri (.cst a) (.cst b)] else [.cst a, .cst b]

/-- The assignments of the factors in front of `process0` (`src/binned/deposit.py:214-258`); `i0`, `i1` tell whether the
real and the imaginary part are in bin 0. -/
def factors (F : Fmt) (i0 i1 : Bool) : Code :=
  let set := fun (v : List Var) (l : List Ex) => setEqual v (cycleTo l v.length)
  if G.cplx then
    if i0 then
      if i1 then
        set G.compv [.cst F.compression] ++ set G.expnv [.cst F.halfExpansion] ++ set G.maskv [.cst F.halfExpansion]
      else
        set G.compv (G.setRI F.compression F.one) ++ set G.expnv (G.setRI F.halfExpansion F.one)
          ++ set G.maskv (G.setRI F.halfExpansion Fmt.zero)
    else
      set G.compv (G.setRI F.one F.compression) ++ set G.expnv (G.setRI F.one F.halfExpansion)
        ++ set G.maskv (G.setRI Fmt.zero F.halfExpansion)
  else set G.compv [.cst F.compression] ++ set G.expnv [.cst F.halfExpansion]

/-- The value `propagate_into` gives a vector register (`src/gen/vectorizations.py:423-431, 687-695`). -/
def bcast (j : Nat) : Ex := if G.cplx then .ri (.lane (.y 0 j) 0) (.lane (.y 1 j) 0) else .lane (.y 0 j) 0

/-- `propagate_into` (`src/gen/vectorizations.py:180-189, 423-431, 687-695`). -/
def propagate (j : Nat) (dst : List Var) : Code :=
  if G.T.simd then dst.map (fun v => (v, G.bcast j))
  else if G.cplx then
    (stride2 dst).map (fun v => (v, .lane (.y 0 j) 0)) ++ (stride2 (dst.drop 1)).map (fun v => (v, .lane (.y 1 j) 0))
  else dst.map (fun v => (v, .lane (.y 0 j) 0))

/-- `s0 = s0 + (v - cons_tmp)`. -/
def accumInto (s0 v : Var) : Var × Ex := (s0, .add (.var s0) (.sub (.var v) (.var .cons)))

/-- `consolidate_into` with `common_summand_ptr = dst_ptr`, the only use (`src/gen/vectorizations.py:143-166` scalar,
`385-407` SSE, `647-671` AVX). The vector code stores the register into the array `cons_buffer_tmp` and reads it back.
The subtraction from the first register is missing for a register that holds one complex number. -/
def consolidate (j : Nat) (src : List Var) : Code :=
  let s0 := src.getD 0 default
  let s1 := src.getD 1 default
  if G.T.simd then
    (if G.cplx && G.tsz == 1 then [] else [(s0, .sub (.var s0) (.first G.pw (.cst Fmt.zero) (G.bcast j)))])
      ++ (if 1 < src.length then (Var.cons, G.bcast j) :: (src.drop 1).map (accumInto s0) else [])
      ++ (List.range G.pw).map (fun k =>
          (.y k j, (List.range' 1 (G.tsz - 1)).foldl (fun a i => .add a (.lane s0 (G.pw * i + k))) (.lane s0 k)))
  else if G.cplx then
    (if 2 < src.length then [(Var.cons, .lane (.y 0 j) 0)] else [])
      ++ (stride2 (src.drop 2)).map (accumInto s0)
      ++ (if 2 < src.length then [(Var.cons, .lane (.y 1 j) 0)] else [])
      ++ (stride2 (src.drop 3)).map (accumInto s1)
      ++ [(.y 0 j, .lane s0 0), (.y 1 j, .lane s1 0)]
  else
    (if 1 < src.length then [(Var.cons, .lane (.y 0 j) 0)] else [])
      ++ (src.drop 1).map (accumInto s0)
      ++ [(.y 0 j, .lane s0 0)]

/-- The accumulator variables of level `j`. -/
def accv (expand : Bool) (j : Nat) : List Var := if expand then G.sv j else G.bufv j

/-- The memory behind the data pointers when they have been advanced by `off` elements
(`data_increment`, `src/gen/dataTypes.py:37-38`). -/
def memAt (M : Nat → Int → Flt) (incX incZ : Int) (off : Nat) : Nat → Int → Flt :=
  fun p a => M p ((if p = 0 then incX else incZ) * (G.pw : Int) * (off : Int) + a)

/-- The generated kernel for one fold: `write_fold`, `write_core` (`src/binned/deposit.py:110-258`). `expand` if the
generator expanded the fold (`src/binned/deposit.py:81-107`). The bodies executed are those of the loop skeleton. -/
def kernelCode (F : Fmt) (M : Nat → Int → Flt) (incX incZ : Int) (expand : Bool) (fold n : Nat) (σ : Regs) : Regs :=
  let σ1 := F.run (fun _ _ => Fmt.zero) ((List.range fold).flatMap (fun j => G.propagate j (G.accv expand j))) σ
  let i0 := F.dmindex0 (σ1 (.y 0 0) 0)
  let i1 := G.cplx && F.dmindex0 (σ1 (.y 1 0) 0)
  let σ2 := if i0 || i1 then F.run (fun _ _ => Fmt.zero) (G.factors F i0 i1) σ1 else σ1
  let σ3 := (runUnrolled G.tsz (G.T.pipe * G.T.unroll) n).done.foldl
    (fun σ c => F.run (G.memAt M incX incZ c.off) (G.body F incX incZ (i0 || i1) expand fold c) σ) σ2
  F.run (fun _ _ => Fmt.zero) ((List.range fold).flatMap (fun j => G.consolidate j (G.accv expand j))) σ3

end Gen
end Repro
