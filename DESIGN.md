# A Lean 4 model of ReproBLAS and what is proved about it

`properties.jsonl` lists the properties, `MANIFEST.json` maps each to its status and theorem names,
`seeded/LOG.jsonl` records the wrong programs the theorems were tested against.

## 1. Approach

* **Floats are bit patterns** (`Float.lean`). `Flt = (sign bit, remaining bits as Nat)`. The bit tricks of the
  code (`EXP`, `ISNANINF`, `q.l |= 1`, the mask arithmetic in `dmrenorm`) are modelled literally on the pattern.
  `+ - * / sqrt` are IEEE-754 round-to-nearest-even: decode to an exact integer multiple of the least subnormal,
  compute exactly, round once. Overflow gives an infinity, subnormals are gradual, zeros are signed.
* **One model, two precisions.** A `Fmt` record carries `MANT_DIG`, `MAX_EXP` and the bin width; the `dm*`/`sm*`
  sources are textually identical up to these constants (where they are not - conversion, scale - there are two
  definitions). `F.OK` means "F is the double or the float instance", so a theorem with `[F.OK]` is a theorem
  about both.
* **Binned values** are `(pri, car)` lists of length `fold`. A lower layer (`Memory.lean`, `ScaleMem.lean`)
  models memory with pointers, strides, loops and in-place updates and is proved to refine the list layer.
* **Specification** (`Spec.lean`): `slice r j` is the part of the exact integer `r` that falls in bin `j`
  (round half away on the remainder, bin by bin), `total xs j` the exact integer sum of the slices, `canon k A`
  the encoding of index `k` and totals `A`, `specSum xs = canon (least index) (total xs)`. The central refinement:
  every history of library operations evaluates to `canon`, so the bits only depend on the multiset of numbers.
* **Generated code**: the unroller (`Unroll.lean`), the deposit kernels with lanes and consolidation
  (`Kernel.lean`, `Complex.lean`) are modelled as functions of an arbitrary tuning `T : Tune` (block size, vector
  width, pipeline depth, unrolling), i.e. all outputs of the generator at once. `T.OK` states what the generator
  guarantees (powers of two, width divides pipeline, block at most `endurance`); `PropsTune.lean` proves that
  every parameter file accepted by the generator yields such a `T`.

## 2. Modules

| modelled code | definitions | theorems |
|---|---|---|
| IEEE arithmetic, bit macros | Float | FloatLemmas, Rnd, Round |
| `src/binned/*`: index, bins, update, deposit, renorm, add, merge, negate, set | Binned | Deposit*, State, Refine, Value, Hist, PropsSum, PropsRound, PropsInf |
| conversion `ddmconv`, `ssmconv`, `zzmconv` | Conv, Memory | ConvLemmas, ConvEq(S), ConvErr, PropsConv, PropsConvErr, PropsMem |
| `dmdenorm`, flush-to-zero mode | Ftz | FtzLemmas, PropsFtz |
| programs of matrix products and merges for one entry | PropsDistrib | PropsDistrib |
| the autotuner `tune/ReproBLASOpenTuner.py` | Tuner | PropsTuner, PropsTuner2 |
| the BLAS meaning of letters and storage orders | BlasLetters, PropsBlas | PropsBlas |
| distributed complex matrix products | PropsDistribZ | PropsDistribZ |
| threads calling the matrix products | ThreadsMat, ThreadsMatOk | PropsThreadsMat, PropsThreadsMat2, PropsThreadsMat3 |
| infinities and NaN in complex matrix products | ZBlocks | PropsZGemmInf |
| `src/gen/utils.py` `CodeBlock` | CodeBlock | PropsCodeBlock |
| the complex natives in memory and on words | PropsNativeZ (definitions at the top) | PropsNativeZ |
| the conversions in flush-to-zero mode | FtzConv | PropsFtzConv |
| accuracy and overflow of the native results | – | PropsAccuracy, PropsAccuracy2, PropsAccuracy3, PropsAccuracy4 |
| `dbbound`, `UFP`, `scale` | Bound, Scale | PropsBound, PropsBoundVec, PropsScale |
| memory, strides, packed layout, `*addv`, rescale in memory | Memory, ScaleMem | MemLemmas, PropsMem |
| packed public wrappers `db*`, `zb*` (`sb*`, `cb*`), programs of calls | Packed | PropsPacked |
| agreement between routines and between folds | – | PropsConsist |
| `src/gen` unroller, deposit generator, SISD/SSE/AVX consolidation | Unroll, Kernel | PropsUnroll, KernelLemmas, PropsKernel |
| deposit generator at statement level: variables, vector expressions, emitted assignments | Gen | GenLemmas, GenProcess, GenGroup, GenLoad, GenPre, GenBody, GenCons, GenConsol, PropsGen |
| maximum generator at statement level (`amax.py`, `amaxm.py`) | GenAmax | GenAmaxPre, GenAmaxBody, PropsGenAmax |
| whole vector routines over flat memory, with the generated statements inside | GenRun, GenRunSq | PropsGenRun, PropsGenRunZ, PropsRoutine, PropsGenRunSq, PropsGenRunAz, ZRescaleMem, PropsGenRunZq, PropsRoutineSq |
| SSE and AVX intrinsics on registers as bit vectors: masks, shuffles, loads, broadcasts | Simd | PropsSimd, PropsSimdRun, PropsSimdCode, PropsSimdLoad, PropsSimdKernel |
| the vector routines over a memory of 64/32-bit words, kernels executed by the vector machine | WordRun | WordRunLemmas, PropsWordRun |
| fused multiply-add and the contracted versions of deposit, kernels, vector routines and conversion | Fma | FmaLemmas, FmaEq, FmaConv, PropsFma, PropsFmaPlain |
| matrix products in one flat memory: operands, packed tiles, scratch buffers, arrays of binned values | MatMem | MatMemLemmas, MatMemGemv, MatMemGemm, MatMemWrap, MatMemLaws, MatMemProd, PropsMatMem, PropsMatMemZ |
| threads: operations as programs of single memory accesses, any interleaving, lazily initialised table of bins | Threads | ThreadsLemmas, ThreadsProgs, ThreadsOk, PropsThreads |
| the same on a machine with store buffers | Tso | Tso, PropsTso |
| the vector routines as programs of single memory accesses | ThreadsVec, ThreadsVecZ | ThreadsVec, ThreadsVecZ, PropsThreadsVec |
| the vector and matrix routines with checked `int` arithmetic | Int32, Int32Binned | Int32Lemmas, Int32Vec, Int32Mat, PropsInt32, PropsInt32Binned |
| `damax(m)`, `dmdsum`, `dmdasum`, `dmddot`, wrappers | Vec | PropsAmax, PropsVec, PropsVecInf, PropsTight |
| `dmdssq`, `dmdrescale`, `dmdmaddsq`, `rdnrm2` | Scale, Ssq | SsqLemmas, SsqNear, SsqRescale, SsqState, PropsSsq, PropsSsqInf, NormLemmas, NormCore, PropsNorm, NormSmall |
| complex `zmzsum`, `zmzdotu/c`, `dmzasum`, `dmzssq`, `zmdrescale` | Complex, ZSsq | ZLemmas, ZVec, PropsZ, PropsZDot, ZInfLemmas, PropsZInf(2), ZRescale, ZSsqMerge, ZSsqState, PropsZSsq, ZVecInf, PropsZVecInf, PropsShipped |
| `dbdgemv/gemm`, `zbzgemv/gemm`, `rdgemv/gemm`, ... | Gemm, ZGemm | GemmLemmas, PropsGemm*, PropsGemmInf, ZGemmLemmas, PropsZGemm* |
| `src/binnedMPI` operations and their use in reductions | Mpi | PropsMpi, PropsMpiSq |
| Python: `params.py`, `parameter` files, tuning, `mix` | Params, TuneParams, Mix | ParamsLemmas, PropsParams*, PropsTune, PropsMix |

### 2.1 Files that are modelled by the definition of a twin

The comments in the Lean files cite the double precision file. A file listed here is not cited by name; it was compared
with the cited one by a textual diff after renaming the types (`double`/`float`, `d`/`s`, `z`/`c`, constants).

| files | modelled by |
|---|---|
| `src/binned/sm*.c`, `cm*.c`, `sindex.c`, `smindex(0).c`, `smbins.c` | the `dm*`/`zm*` definition at `F = f32` (Binned, Memory) |
| `src/binned/sb*.c`, `cb*.c` | the `db*`/`zb*` definition at `F = f32` (Packed, Memory, ScaleMem) |
| `src/binned/{db,zb,sb,cb}num.c`, `*size.c`, `sbsbze.c` | `dbnum`, `zbnum` |
| `src/binned/*addv.c`, `*addsq.c` | `dbdbaddvM`, `zbzbaddvM`, `dmdmaddsq` (Memory, Scale); each wrapper passes `(X, 1, X + fold, 1)` |
| `src/binnedBLAS/sm*.ccog`, `cm*.ccog`, `samax*.ccog`, `camax*_sub.ccog`, `zamax*_sub.ccog` | the double definition at `F = f32` (Vec, Complex); the tunings differ and are a parameter |
| `src/binnedBLAS/{db,zb,sb,cb}*.c` | one-line wrappers: the `dm*` definition at the packed location |
| `src/binnedBLAS/{sbs,cbc}gemv.ccog`, `*gemm.ccog` | Gemm, ZGemm with the tile sizes as parameters (PropsShipped gives the shipped ones) |
| `src/binnedBLAS/depositM.py`, `depositSum.py`, `depositASum.py`, `depositSSq.py`, `depositDot.py`, `depositDotU.py`, `depositDotC.py` | Kernel, Vec (`Tune`), the loads of each kernel; Gen |
| `src/reproBLAS/r{s,c,sc}*.c`, `r{z,dz}*.c` | the `rd*` definition at `F = f32`, Complex, ZGemm |
| `src/reproBLAS/{d,s,z,c}*.c` (no `r`) | call of the `r` function with fold `DEFAULT_FOLD`: `C36_wrappers` |
| `src/binnedMPI/FLOAT_BINNED*.c` | Mpi at `F = f32` |

See section 4 for what is not modelled.

## 3. Properties

Status: P proved, p partial. "Partial" is nearly always "the claim is false of the code": then the theorem
`..._violated` proves a concrete witness in the kernel and `..._partial` proves the claim where it is true.

| id | status | what is modelled and how it is proved |
|---|---|---|
| C01-C03 | P | sequential add, reduction trees, merge algebra: refinement to the canonical state, induction over lists, trees and histories |
| C04, C05 | P | block loop and generated kernel for an arbitrary tuning: lane invariant (window of exact integers), consolidation is exact, induction over blocks |
| C06-C09 | P | update/deposit/renormalise protocol; endurance with a tightness witness; capacity; renormalisation bits |
| C10-C12 | P | index arithmetic on bit patterns; update commutes with everything |
| C13 | P | kinds (finite, +-Inf, NaN) form a commutative monoid; every history evaluates to the kind of its numbers |
| C14 | p | false (finding 1); NaN and opposite infinities always right; reproducible for numbers of index >= 1 |
| C15, C16, C41 | P | value of canonical states, error bound of the dropped slices, exactness |
| C17 | p | false for tiny numbers, for large folds and for float sums of 2^25 + 2 numbers (findings 2, 18, 22); bound proved otherwise (float: up to 2^25 + 1 numbers) |
| C18, C19, C49 | P | conversion evaluated on canonical states; rounding-error analysis of the compensated conversion |
| C20, C21, C33, C36 | P | reduction to C04 |
| C22 | P | interleaved complex memory: componentwise refinement |
| C23 | p | false (finding 4); carry stride 1 and packed layout proved |
| C24-C26, C46 | P | loops with tiling and packing over index functions; work buffers bounded |
| C27, C44 | P | transition system of messages, every schedule; handles |
| C28 | p | false (finding 6) |
| C29, C51 | P | scaled squares: power-of-two scaling commutes with slicing (`Near`), state invariant over blocks and merges; folds 2..22 / 2..6, larger folds refuted (finding 8) |
| C30 | P | both precisions; documented lower bound refuted (finding 13) |
| C31, C32, C35 | P | frame theorems on the memory model |
| C34 | p | false for double (finding 3) |
| C37 | P | invariant of the unrolled loop for every unrolling and length |
| C38, C39 | P | models of the Python parameter classes and files |
| C40 | p | false for `%` and `//` with symbols (finding 16) |
| C42, C45, C47, C55 | p | complex dot products exceed the endurance with the shipped block size for more than endurance/2 elements (finding 11); complex gemv/gemm bugs (findings 14, 15); proved otherwise, and for the shipped tiles in `PropsShipped` |
| C43 | p | false for double complex (finding 12) |
| C48, C50, C52, C54 | P | complex sums; special values |
| C53 | p | false for complex vectors (finding 19); real vectors proved |
| C56 | P | `IsNorm`: the square of the result against the exact sum of squares in rationals; scale, squares, binned sum, conversion, root and last product each contribute one rounding lemma (NormLemmas, NormCore, PropsNorm); `IsNormAbs` for tiny elements, where the last rounding is absolute (NormSmall) |
| C57 | P | the operations again with flushing arithmetic; the slicing loop carries the IEEE remainder or something that reads as zero (`Rem`), the other operations only meet multiples of large powers of two (Ftz, FtzLemmas, PropsFtz) |
| C58 | P | `convert_canon` (the conversion is one rounding of `convTotal`), `convTotal_err`, the overflow case of the final rounding, the C16 error of the accumulation and the half-ulp error of each product (PropsAccuracy, PropsAccuracy2) |
| C59 | P | wrappers with `memset`/`memcpy` and pointer offsets; simulation between memory and separate abstract values, call by call, then the protocol automaton `Track` (which history each value holds) and `hist_spec` (PropsPacked) |
| C60, C61 | P | both sides are evaluated to the specification by C24-C26, C36, C42, C48; the summands agree up to order (PropsConsist) |
| C62 | P | the emitted assignments are data (`Code`), executed over an arbitrary state of all variables; Hoare-style lemmas for each generator method (load, preprocess, process, propagate, consolidate), then induction over the emitted bodies (GenLemmas .. PropsGen) |
| C63 | P | the same statement semantics as C62 for the maximum kernels: one lemma per generator method, induction over the bodies, `max_into` folded over the lanes; equal to `amaxK`/`amaxZ`; `C63_is_max` composes with `damax_eq` (GenAmax .. PropsGenAmax) |
| C64 | P | block loops over `Mem`, kernels = executed statements with arbitrary garbage in the variables; induction over the rounds using C62, C63, the memory refinements of C31/C22 and C37 (pointer advance); then composed with C36, C04 and C56 (GenRun .. PropsRoutineSq) |
| C65 | P | a second interpreter for the emitted statements, on 128/256-bit vectors; one lemma per intrinsic about the bits of a lane (masks computed, shuffles for all immediates), `Sim` (lanes decode to the lane model) preserved by every statement the generator can emit, hence by whole kernels; composed with C62, C63 (Simd .. PropsSimdKernel) |
| C66 | P | the loops of the matrix routines as folds over one memory, with the dot-product routines of C64 inside; refinement: a relation between memory and the array-level model (words of the result area decode to the abstract array, operands unchanged, all other words framed) preserved by every packing loop and every call, then induction over the tile loops; composed with C24-C26, C45, C47 (MatMem .. PropsMatMemZ) |
| C67 | P | every operation as a tree of single accesses (load, store, flag, table entry); invariant over all interleavings: once the flag is set all entries have their final values, an unset flag allows any junk, every thread only ever writes final values into the table and reads an entry only after it wrote it itself or saw the flag (Threads .. PropsThreads) |
| C68 | P | as C67, with a frame: the words a thread uses are written by no other thread, so the thread's remaining program evaluates alone to the same result (simulation), plus a cost bound per thread for termination; composed with C01 and C02 for parallel sums |
| C69 | P | transition system with a write queue per thread; the invariant of C67/C68 about what each thread sees (memory after its own queue), plus: every queued write is allowed at the moment it arrives (a flag only when the table below it is filled), which is stable under the arrivals of other threads; failing run on a machine without store order computed in the kernel (Tso, PropsTso) |
| C70 | P | the kind (finite, +-Inf, NaN) of an entry through the sequence of dot product calls given by `gemv_eq`/`gemm_eq`: induction over the blocks with the C14 lemmas for the first block with a special product and for a special accumulator (PropsGemmInf) |
| C71 | P | the block loops over a memory of words with the kernels of the vector machine; decoding the memory commutes with every step (C65 for the kernels; the scalar functions keep numbers within the format), so C64 applies to the decoded memory; decoding is injective, so equal values are equal words (WordRun .. PropsWordRun) |
| C72 | P | every `a*b+c` of the C code becomes `mac choice a b c`, fused or not; the products of the deposit and of the conversion are by powers of two and exact, or their operands are infinite or NaN, and then fused and separate agree; induction over histories, kernel, block loop; the exceptional loops of the dot products add to an accumulator that is already not finite (Fma .. PropsFma) |
| C73 | P | the block loops of the vector routines as trees of single accesses (the kernels load primaries and elements, compute, store); evaluated alone they equal the emitted statements of C64 (`C73_alone`, by induction over the block loop); their accesses stay within accumulator, temporaries, scale and vectors; then the invariants of C68/C69; totals by C01/C02 and `collect_total` (ThreadsVec .. PropsThreadsVec) |
| C74 | P | the routines again, with the value of every `int` expression (and its subexpressions) checked at the place where the C code evaluates it; induction over the loops shows that under bounds on the extents of the arrays no check fails; the subscripts of the emitted kernels are collected from the emitted statements; for the converse, the last round of the last loop of the gemm wrappers fails for every memory (Int32 .. PropsInt32); the operations on single binned values likewise (Int32Binned, PropsInt32Binned) |
| C75 | P | C58 with the rounding errors of the terms `(a * (x * alpha))`, `y * beta` bounded against the exact products of rationals (relative plus half a unit of underflow, multiplied by the other factor) and summed (PropsAccuracy3) |
| C76 | partial | the same for pairs of rationals with complex multiplication; partial because C42, C45, C47 are (PropsAccuracy4) |
| C77 | P | a program of calls for one entry is a history of additions and merges (induction over the program, C24, C25), and histories of the same numbers agree (PropsDistrib) |
| C78 | P | the states of the arguments file are a list built run by run; every configuration in range keeps all values legal (induction over configurations, trials, runs; PropsTuner) |
| C79 | P | C26 rewritten for mathematical matrices: the letters are read by a separate specification (PropsBlas) |
| C80 | partial | as C77, on pairs of histories, for the calls where C45 and C47 hold |
| C81 | P | the matrix routines as trees of accesses (`ThreadsMat`); run alone they are the statements of `MatMem`; they stay within the words of their operands (`ThreadsMatOk`); then the interleaving theorems of C68 and C74, and C66 for the values |
| C82 | P | C81 for the threads, C66 and C25 for each slab (induction over the slabs), C68's collection for each entry |
| C83 | partial | ZBlocks: consecutive calls, one part at a time (C55's loop lemmas); the products of a branch agree with those of the complex product up to order and the choice of NaN |
| C84 | partial | CodeBlock: objects in a heap, text by recursion over the history; simulation: the rest of a history appends to every block what the specification says |

## 4. Trusted base

* **Lean's kernel** (4.33.0). No `native_decide`, `bv_decide`, added axioms or unproved statements.
* **Axioms.** `#print axioms` on the 389 theorems listed in `MANIFEST.json`: all depend on at most `propext`,
  `Classical.choice` and `Quot.sound`.
* **The model.** That the definitions say what the C, `.ccog` and Python sources say. Each definition cites file
  and lines. Nothing here ran the code.
* **IEEE-754** binary64/binary32 round-to-nearest-even arithmetic without flush-to-zero except in C57 (the `daz/ftz`
  line in `src/binned/deposit.py:80` is commented out), without extended precision and without contraction into fused
  multiply-add (C72 proves contraction within an expression irrelevant except in dot products that overflow and in products with a complex `alpha` or `beta`; fusion across statements is excluded, see `C72_fast_violated`); `sqrt`, `ldexp`, `frexp`, `fabs` correctly rounded / exact.
* **Vector units** (C65): the bitwise and data-moving intrinsics as defined in `Verif/Simd.lean` after Intel's manual;
  `_mm_add_pd` ... apply the IEEE operation in every lane; `_mm_max_pd` is `a > b ? a : b`.
* **C integers**: `int` has 32 bits. That nothing overflows is not assumed but proved, under bounds on the extents of the arrays (C74), for the vector routines, the matrix products, the operations on single
  binned values, the table of bins and the sums in `binnedMPI`; in the sums of squares of `binnedMPI` it is assumed.
* **malloc** succeeds; the contents of a fresh buffer are arbitrary (theorems quantify over them).
* **MPI** delivers, for each reduction, the results of applying the registered operation along some tree in rank
  order or any order, in segments of whole elements; the library itself is not modelled.

### Not modelled

NaN payloads and signs (one NaN pattern class; statements say "is NaN"); floating point flags; printing functions;
allocation helpers other than their sizes; the build system (`config.mk`, Makefiles), the autotuner's search
(any proposals within the ranges given to it, C78), `cogapp`, the characters of the statements written by the code generators (how chunks are put together is C84; the
emitted assignments are modelled in Gen as expressions over variables; declarations, types, `#if` lines and the
compiler are not; the C loop over `j` of a buffered fold is unrolled), the tests and benchmarks,
memory models weaker than total store order (C67, C68 assume that single accesses to words are atomic and sequentially consistent, C69 allows store
buffers; all assume that the compiler keeps the order of accesses),
performance, and `src/common` command line helpers.

## 5. Simplifications

* The generated kernels are modelled per lane: a register is a list of lanes, a vector instruction acts on all lanes.
  Lanes are independent between loads and consolidation, so only the order of deposits per lane matters.
* Negative strides: arrays are functions `Int -> Flt`, the routines use `X[i*inc]` exactly as the C code does.
* The block loop carries a fuel argument bounded by the number of remaining elements; theorems hold for any
  sufficient fuel and the routines are defined with `fuel = n`.
* gemv/gemm: matrices are index functions; the packing buffers are lists; the dot product inside is the modelled one.
* Python `round` of a float quotient is an arbitrary function in C38 (one theorem assumes it is a nearest integer);
  dictionaries are association lists; file errors are not modelled.
* `C39`: JSON reload sorts keys; sets are lists compared by membership.

## 6. Findings (disagreements between documented behaviour and the code)

Each is proved as a theorem on the model unless marked (noted).

1. `dsum` with infinities depends on the order (C14_violated).
2. `dbbound` is not a bound for tiny numbers (C17_violated_tiny).
3. `binned_ufp` for double goes through a helper returning `float` (C34_ufp_violated).
4. `zzmconv_sub`/`ccmconv_sub` pass the carry stride `inc + 1` (C23_violated).
5. `zmdrescale`/`cmsrescale` test the wrong array element (modelled; harmless for the folds of C51).
6. The MPI `*ADDSQ` operations drop the returned scale (C28_violated); fold `MAXFOLD` missing in the operation switch (C44_largest_fold_violated).
7. Fold 1 writes past the declared size for index 0 (C32_fold_one_violated).
8. Rescaling loses bins for large folds (C29_large_fold_violated).
9. README states bin width 40 for single precision (noted).
10. Conversion is not odd: `conv(-Y) != -conv(Y)` (C15_conversion_not_odd).
11. The complex dot product makes `2 * endurance` deposits per block (C42_violated: a result of -8387968 instead of about 256).
12. `ZBZBADD` registers functions that call `dbdbaddv` (C43_violated).
13. Documented lower bound of `scale` fails for the smallest subnormals (C30_doc_violated).
14. Column-major complex `gemm` with transposed `A` uses `alpha[1]` for `alpha[0]` (C47_violated).
15. Column-major conjugate-transposed complex `gemv` uses length `N - j` for `M - j` (C45_violated).
16. Generator `mix` is wrong for `%` and `//` with symbols (C40_violated, C40_fdiv_violated).
17. `PowerOfTwoParameter` does not check `min <= max` (noted in C38).
18. The factor inside `dbbound` underflows for fold >= 28 (C17_violated_fold).
19. An infinite sum of squares divided by an overflowed scale factor becomes NaN (C53_violated, C53_merge_violated).
20. `rdgemv` leaves `Y` unscaled by `beta` when a dimension is empty (C26_gemv_empty); `damax` with NaN depends on the order (C33_nan_order_dependent).
21. (noted) `dmdmaddsq` leaks its temporary; `SBSBADDSQ` uses `binned_dbnum` for float; the multi-source branch of SIMD `max_into` is broken but unused.
22. `sbbound` rounds its bound down to a float: with 2^25 + 2 summands and the default fold the error exceeds it (C17_violated_many; the bound is proved up to 2^25 + 1 summands).
23. (harmless, C62 holds) in `deposit.py` the buffered complex case of the first level does not cut the register list to the width of the load, and with fold 1 it writes `buffer[1]`, which is never read.
24. (C67, C68 hold under sequential consistency, C69 on x86) `dmbins.c`/`smbins.c` fill the shared table lazily without any synchronisation: by the C standard the first calls of two threads are a data race. If the flag becomes visible before the table (a compiler or a weakly ordered machine may do that), a thread reads unset bins: `C67_order_matters`, `C69_unordered_violated`.
25. (C72, `C72_dot_violated`, `C72_scale_violated`) nothing in the sources or flags forbids contraction (`-std=c99` makes gcc refrain; clang from version 14 contracts by default): a dot product whose products overflow returns NaN with one compiler and an infinity with another (`rsdot` of `(2^64, 2^64)` and `(2^64, -2^64)`), and `X*alpha`, `Y*beta` in the complex matrix products are rounded once or twice. A compiler that fuses across statements could also fuse `X_0 = X_0 * Y_0; ...; X_0 = X_0 + q_0` in the deposit of a dot product (`C72_fast_violated`).
26. (C74, `C74_gemm_violated`) `rdgemm`, `rsgemm`, `rzgemm`, `rcgemm` address their array of binned values with `(i * N + j) * binned_dbnum(fold)`, an `int` product: it overflows as soon as `2 * fold * M * N` (complex: `4 * fold * M * N`) exceeds 2^31, e.g. for 20000 by 20000 and fold 3, whatever the operands; `malloc(M * N * ...)` got the right size. The same product occurs in `dbdgemm`.
27. (C78, `C78_broken_violated`, `C78_interrupted_violated`) the autotuner rewrites the arguments file in place in every trial. A crash during a write leaves a file that neither the tuner nor the code generators can read; a crash between writes leaves the values of the trial, neither the values before the run nor the best ones, and the next run takes them as its starting point.
28. (C84, `C84_again_violated`) `CodeBlock.__str__` modifies the block: each call appends an empty string to the included chunks, so that a second call returns a different text (one more empty line). The generators call it once.
