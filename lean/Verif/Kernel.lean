import Verif.Unroll
/-!
# Model of the generated deposit kernels and of the maximum-magnitude kernels

`src/binned/deposit.py` writes the inner loops of the vector sums: `REG_WIDTH` vector registers of
`ts` lanes each hold partial accumulators which all start from the current primaries; the elements of
the vector are dealt over the lanes; at the end the lanes are folded back into the primaries.
`src/binnedBLAS/amax.py` writes the maximum kernels with the same loop skeleton.
The input of a kernel is the list of values after `preprocess` (the elements themselves, their absolute
values, or the rounded products).
-/

namespace Repro

/-- Tuning parameters of a build for one data type: `nb = N_block_MAX` (`src/common/blockSize.py:31`),
`ts` the number of elements in a vector register (`src/gen/vectorizations.py:136, 302, 564`), `pipe`
and `unroll` the deposit parameters `max_pipe_width`, `max_unroll_width` (`src/binned/deposit.py:53-67`),
`aunroll` the parameter `max_unroll_width` of the maximum kernel (`src/binnedBLAS/amax.py:25-35`),
`simd` whether vector code (SSE, AVX) or scalar code is generated. -/
structure Tune where
  nb : Nat
  ts : Nat
  pipe : Nat
  unroll : Nat
  aunroll : Nat
  simd : Bool
deriving DecidableEq, Repr

namespace Fmt
variable (F : Fmt)

/-- `Deposit.process` (`src/binned/deposit.py:267-287`): every primary but the last takes a slice. -/
def kloop (x : Flt) : List Flt → List Flt
  | [] => []
  | [m] => [F.add m (or1 x)]
  | m :: ms =>
    let s := F.add m (or1 x)
    s :: kloop (F.add x (F.sub m s)) ms

/-- One element deposited into one lane: `process` or, when the accumulator is in bin 0, `process0`
(`src/binned/deposit.py:267-326`). -/
def kstep (idx0 : Bool) (x : Flt) (pri : List Flt) : List Flt :=
  if idx0 then
    match pri with
    | [] => []
    | m :: ms =>
      let s := F.add m (or1 (F.mul x F.compression))
      let q := F.mul (F.sub m s) F.halfExpansion
      s :: kloop F (F.add (F.add x q) q) ms
  else kloop F x pri

end Fmt

/-- The elements of one loop body dealt over the lanes (`write_core`, `src/binned/deposit.py:187-212`,
and `process`): a complete body of `count` elements processes `count // pipe` (at least one) groups of
`min(count, pipe)` lanes; a partial body fills the lanes of one register behind its elements with zeros
(`load_partial`, `src/gen/vectorizations.py:463-475, 726-741`). -/
def Tune.deal (T : Tune) (vs : List Flt) (c : Chunk) : List (Nat × Flt) :=
  if c.part then
    (List.range T.ts).map (fun l => (l, if l < c.count then nth vs (c.off + l) else Fmt.zero))
  else
    (List.range (max (c.count / T.pipe) 1)).flatMap (fun g =>
      (List.range (min c.count T.pipe)).map (fun l =>
        (l, nth vs (c.off + (g * min c.count T.pipe + l)))))

/-- All deposits of a kernel in execution order, with their lanes. The lanes of one register are
processed at the same time, which does not matter because they are independent. -/
def Tune.trace (T : Tune) (vs : List Flt) : List (Nat × Flt) :=
  (runUnrolled T.ts (T.pipe * T.unroll) vs.length).done.flatMap (T.deal vs)

namespace Fmt
variable (F : Fmt)

/-- Run the deposits on `n` lanes that all start with the primaries `pri` (`propagate_into`). -/
def lanes (idx0 : Bool) (n : Nat) (tr : List (Nat × Flt)) (pri : List Flt) : List (List Flt) :=
  tr.foldl (fun s d => s.set d.1 (F.kstep idx0 d.2 (s.getD d.1 pri))) (List.replicate n pri)

/-- `SISD.consolidate_into` (`src/gen/vectorizations.py:143-166`) for one primary `c` with the lane
values `s 0, ..., s (n-1)`: `s0 = s0 + (s1 - c)`, ... -/
def consSISD (n : Nat) (s : Nat → Flt) (c : Flt) : Flt :=
  (List.range' 1 (n - 1)).foldl (fun a r => F.add a (F.sub (s r) c)) (s 0)

/-- `SSE.consolidate_into` / `AVX.consolidate_into` (`src/gen/vectorizations.py:385-407, 647-671`) for
one primary, `b` lanes per register, `n` lanes in all. -/
def consSIMD (b n : Nat) (s : Nat → Flt) (c : Flt) : Flt :=
  let reg := fun i => (List.range' 1 (n / b - 1)).foldl (fun a r => F.add a (F.sub (s (r * b + i)) c))
    (F.sub (s i) (if i = 0 then zero else c))
  (List.range' 1 (b - 1)).foldl (fun a i => F.add a (reg i)) (reg 0)

/-- Fold the lanes back into the primaries. -/
def consolidate (T : Tune) (s : List (List Flt)) (pri : List Flt) : List Flt :=
  (List.range pri.length).map (fun j =>
    if T.simd then F.consSIMD T.ts T.pipe (fun l => nth (s.getD l pri) j) (nth pri j)
    else F.consSISD T.pipe (fun l => nth (s.getD l pri) j) (nth pri j))

/-- A deposit kernel (`Deposit.write_fold`, `src/binned/deposit.py:110-174`; the folds that are not
expanded by the generator use a buffer with the same contents). -/
def kernel (T : Tune) (vs : List Flt) (pri : List Flt) : List Flt :=
  F.consolidate T (F.lanes (F.dmindex0 (nth pri 0)) T.pipe (T.trace vs) pri) pri

/-- `(a > b? a: b)` (`src/gen/vectorizations.py:245-246`), also the semantics of the SIMD `max` instructions. -/
def fmax (a b : Flt) : Flt := if F.lt b a then a else b

/-- The maximum kernel `binnedBLAS_damax` (`src/binnedBLAS/damax.ccog:45-307`, `src/binnedBLAS/amax.py:44-98`)
on the list of absolute values: `ts` running maxima started from zero, then the maximum of these
(`max_into`). -/
def amaxK (T : Tune) (vs : List Flt) : Flt :=
  let tr := (runUnrolled T.ts T.aunroll vs.length).done.flatMap (fun c =>
    if c.part then
      (List.range T.ts).map (fun l => (l, if l < c.count then nth vs (c.off + l) else zero))
    else (List.range c.count).map (fun e => (e % T.ts, nth vs (c.off + e))))
  let m := tr.foldl (fun m d => m.set d.1 (F.fmax (nth m d.1) d.2)) (List.replicate T.ts zero)
  (List.range' 1 (T.ts - 1)).foldl (fun a i => F.fmax a (nth m i)) (nth m 0)

/-- `binnedBLAS_damax` (`src/binnedBLAS/damax.ccog:45`). -/
def damax (T : Tune) (xs : List Flt) : Flt := F.amaxK T (xs.map fabs)

/-- `binnedBLAS_damaxm` (`src/binnedBLAS/damaxm.ccog:47`, `src/binnedBLAS/amaxm.py:33-45`). -/
def damaxm (T : Tune) (xs ys : List Flt) : Flt := F.amaxK T ((List.zipWith F.mul xs ys).map fabs)

end Fmt

/-- The settings the parameter declarations allow (`src/binned/deposit.py:53-67`: `max_pipe_width` is a
power of two, a multiple of the register size; `max_unroll_width` is at least 1;
`src/binnedBLAS/amax.py:25-35`: multiples of the register size; `src/common/blockSize.py:26-29`: a power
of two up to the endurance). -/
structure Tune.OK (F : Fmt) (T : Tune) : Prop where
  nb1 : 1 ≤ T.nb
  nb2 : T.nb ≤ F.endurance
  ts : ∃ a, T.ts = 2 ^ a
  pipe : ∃ a, T.pipe = 2 ^ a
  tp : T.ts ≤ T.pipe
  unroll : 1 ≤ T.unroll
  au1 : 1 ≤ T.aunroll
  au : T.ts ∣ T.aunroll
  sisd : T.simd = false → T.ts = 1

end Repro
