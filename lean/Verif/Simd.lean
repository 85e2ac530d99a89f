import Verif.GenAmax
import Verif.Conv
import Verif.Scale
/-!
# The vector instructions at the level of bits

`Verif/Gen.lean` gives an expression of the generated code a value in every lane. This file models what the generator writes
for it: SSE and AVX intrinsics on registers of 128 and 256 bits (`src/gen/vectorizations.py:291-813`). Registers are bit
vectors, numbers in memory are bit vectors of the width of the format; the masks for `abs`, `or`, `conj`, `nconj` are computed
by the statements of `include_abs_vars` … from floating-point constants; shuffles are given by their immediate operands.
The bitwise and the moving intrinsics are defined as in Intel's manual; the arithmetic ones apply the IEEE operation in every
lane. `Verif/PropsSimd.lean` proves that the generated kernels executed on this machine compute what `Verif/Gen.lean` says (C65).
-/

namespace Repro

namespace Fmt
variable (F : Fmt)

/-- Bits of a number: 64 for `double`, 32 for `float`. -/
def width : Nat := F.p + Nat.log2 (2 * F.maxExp)

/-- The number with the given bits: the most significant bit is the sign. -/
def dec (b : BitVec F.width) : Flt := ⟨b.msb, b.toNat % 2 ^ (F.width - 1)⟩

/-- The bits of a number. -/
def enc (x : Flt) : BitVec F.width := BitVec.ofNat F.width (x.mag + if x.neg then 2 ^ (F.width - 1) else 0)

/-- The patterns that have bits. -/
def Bits (x : Flt) : Prop := x.mag < 2 ^ (F.width - 1)

end Fmt

/-- The first `n` bits of a sequence as a number. -/
def bitsNat (b : Nat → Bool) : Nat → Nat
  | 0 => 0
  | n + 1 => bitsNat b n + if b n then 2 ^ n else 0

/-- Lane `k` of a register seen as lanes of `w` bits. -/
def lane {n : Nat} (w k : Nat) (r : BitVec n) : BitVec w := r.extractLsb' (k * w) w

/-- The register of `n` bits with `f k` in lane `k`. -/
def vpack (w n : Nat) (f : Nat → BitVec w) : BitVec n := BitVec.ofNat n (bitsNat (fun i => (f (i / w)).getLsbD (i % w)) n)

/-- The two vector units (`src/gen/vectorizations.py:291-303, 553-565`). -/
inductive Isa where
  | sse
  | avx
deriving DecidableEq, Repr

/-- `bit_size` (`src/gen/vectorizations.py:298, 560`). -/
def Isa.bits : Isa → Nat
  | .sse => 128
  | .avx => 256

/-! ## Intrinsics -/

/-- `_mm_set_pd(a1, a0)`, `_mm_set_ps(a3, a2, a1, a0)`, `_mm256_set_pd`, `_mm256_set_ps`: the last argument goes to lane 0. -/
def mmSet {w : Nat} (n : Nat) (args : List (BitVec w)) : BitVec n := vpack w n (fun t => args.reverse.getD t 0)

/-- `_mm_set1_pd` …, also `_mm_load1_pd`, `_mm_load1_ps`, `_mm256_broadcast_sd`, `_mm256_broadcast_ss` of the word loaded. -/
def mmSet1 {w : Nat} (n : Nat) (a : BitVec w) : BitVec n := vpack w n (fun _ => a)

/-- `_mm_loadu_pd`, `_mm_loadu_ps`, `_mm256_loadu_pd`, `_mm256_loadu_ps` from the address `a`. -/
def mmLoadu {w : Nat} (n : Nat) (M : Int → BitVec w) (a : Int) : BitVec n := vpack w n (fun t => M (a + (t : Int)))

/-- `_mm256_broadcast_pd`: the 128 bits loaded, twice. -/
def mmBroadcastPd (r : BitVec 128) : BitVec 256 := r ++ r

/-- `_mm_shuffle_pd(a, b, imm)`: lane 0 is lane `imm[0]` of `a`, lane 1 is lane `imm[1]` of `b`. -/
def mmShufflePd (a b : BitVec 128) (imm : BitVec 8) : BitVec 128 :=
  vpack 64 128 (fun t => lane 64 (imm.getLsbD t).toNat (if t = 0 then a else b))

/-- `_mm_shuffle_ps(a, b, imm)`: lanes 0, 1 are the lanes `imm[1:0]`, `imm[3:2]` of `a`, lanes 2, 3 the lanes `imm[5:4]`,
`imm[7:6]` of `b`. -/
def mmShufflePs (a b : BitVec 128) (imm : BitVec 8) : BitVec 128 :=
  vpack 32 128 (fun t => lane 32 (imm.extractLsb' (2 * t) 2).toNat (if t < 2 then a else b))

/-- `_mm256_permute_pd(a, imm)`: lane `t` is lane `imm[t]` of the same half of `a`. -/
def mmPermutePd (a : BitVec 256) (imm : BitVec 8) : BitVec 256 :=
  vpack 64 256 (fun t => lane 64 (2 * (t / 2) + (imm.getLsbD t).toNat) a)

/-- `_mm256_permute_ps(a, imm)`: lane `t` is lane `imm[2(t % 4) + 1 : 2(t % 4)]` of the same half of `a`. -/
def mmPermutePs (a : BitVec 256) (imm : BitVec 8) : BitVec 256 :=
  vpack 32 256 (fun t => lane 32 (4 * (t / 4) + (imm.extractLsb' (2 * (t % 4)) 2).toNat) a)

namespace Fmt
variable (F : Fmt)

/-- `_mm_add_pd`, `_mm_sub_pd`, `_mm_mul_pd` …: an operation in every lane. -/
def mmMap2 (n : Nat) (f : Flt → Flt → Flt) (a b : BitVec n) : BitVec n :=
  vpack F.width n (fun t => F.enc (f (F.dec (lane F.width t a)) (F.dec (lane F.width t b))))

/-- `a > b ? a : b` on bits. -/
def maxBits (a b : BitVec F.width) : BitVec F.width := if F.lt (F.dec b) (F.dec a) then a else b

/-- `_mm_max_pd` …: `a > b ? a : b` in every lane. -/
def mmMax (n : Nat) (a b : BitVec n) : BitVec n := vpack F.width n (fun t => F.maxBits (lane F.width t a) (lane F.width t b))

/-- `_mm_cmpeq_pd`, `_mm_cmpeq_ps`, `_mm256_cmp_pd(a, b, 0)`, `_mm256_cmp_ps(a, b, 0)`: all ones in the lanes that are equal. -/
def mmCmpeq (n : Nat) (a b : BitVec n) : BitVec n :=
  vpack F.width n (fun t => if F.feq (F.dec (lane F.width t a)) (F.dec (lane F.width t b)) then BitVec.allOnes F.width else 0)

/-! ## Masks -/

/-- `include_abs_vars` (`src/gen/vectorizations.py:305-325, 567-587`). -/
def absMask (n : Nat) : BitVec n :=
  let tmp := mmSet1 n (F.enc (F.ofInt 1))
  let mask := mmSet1 n (F.enc (F.ofInt (-1)))
  let mask := mask ^^^ tmp
  let tmp := F.mmCmpeq n tmp tmp
  mask ^^^ tmp

/-- The literal `1.0001`: 10001 / 10000 rounded to `double`. -/
def lit10001 : Flt := f64.div (f64.ofInt 10001) (f64.ofInt 10000)

/-- `1.0 + (DBL_EPSILON * 1.0001)`, and `(float)(1.0 + (FLT_EPSILON * 1.0001))`, which is computed in `double`. -/
def onePlusEps : Flt :=
  if F = f32 then narrow (f64.add (f64.ofInt 1) (f64.mul (f64.pow2 (-23)) lit10001))
  else f64.add (f64.ofInt 1) (f64.mul (f64.pow2 (-52)) lit10001)

/-- `include_blp_vars` (`src/gen/vectorizations.py:327-343, 589-605`). -/
def blpMask (n : Nat) : BitVec n := mmSet1 n (F.enc (F.ofInt 1)) ^^^ mmSet1 n (F.enc F.onePlusEps)

/-- The arguments `c, 0, c, 0, …` of the constants in `include_conj_vars`. -/
def conjArgs (n : Nat) (c : Int) : List (BitVec F.width) :=
  (List.range (n / F.width)).map (fun i => if i % 2 = 0 then F.enc (F.ofInt c) else F.enc (F.ofInt 0))

/-- The arguments `0, c, 0, c, …` of the constants in `include_nconj_vars`. -/
def nconjArgs (n : Nat) (c : Int) : List (BitVec F.width) :=
  (List.range (n / F.width)).map (fun i => if i % 2 = 0 then F.enc (F.ofInt 0) else F.enc (F.ofInt c))

/-- `include_conj_vars` (`src/gen/vectorizations.py:345-361, 607-623`). -/
def conjMask (n : Nat) : BitVec n := mmSet n (F.conjArgs n (-1)) ^^^ mmSet n (F.conjArgs n 1)

/-- `include_nconj_vars` (`src/gen/vectorizations.py:363-379, 625-641`). -/
def nconjMask (n : Nat) : BitVec n := mmSet n (F.nconjArgs n (-1)) ^^^ mmSet n (F.nconjArgs n 1)

/-! ## Shuffles -/

/-- `swap_pairwise` (`src/gen/vectorizations.py:532-536, 797-801`). -/
def mmSwap (isa : Isa) (r : BitVec isa.bits) : BitVec isa.bits :=
  match isa, r with
  | .sse, r => if F = f64 then mmShufflePd r r 0x1 else mmShufflePs r r 0xB1
  | .avx, r => if F = f64 then mmPermutePd r 0x5 else mmPermutePs r 0xB1

/-- `rep_evens` (`src/gen/vectorizations.py:520-524, 785-789`). -/
def mmEvens (isa : Isa) (r : BitVec isa.bits) : BitVec isa.bits :=
  match isa, r with
  | .sse, r => if F = f64 then mmShufflePd r r 0x0 else mmShufflePs r r 0xA0
  | .avx, r => if F = f64 then mmPermutePd r 0x0 else mmPermutePs r 0xA0

/-- `rep_odds` (`src/gen/vectorizations.py:526-530, 791-795`). -/
def mmOdds (isa : Isa) (r : BitVec isa.bits) : BitVec isa.bits :=
  match isa, r with
  | .sse, r => if F = f64 then mmShufflePd r r 0x3 else mmShufflePs r r 0xF5
  | .avx, r => if F = f64 then mmPermutePd r 0xF else mmPermutePs r 0xF5

end Fmt

/-! ## The machine -/

/-- The variables that are single numbers in vector code: the words of the accumulator, the elements of `max_buffer_tmp` and
the result of a maximum kernel. -/
def Var.scalar : Var → Bool
  | .y _ _ => true
  | .mb _ => true
  | .am _ => true
  | _ => false

/-- The contents of the variables: vector registers of `n` bits, single numbers of `w` bits. -/
structure IRegs (n w : Nat) where
  vec : Var → BitVec n
  sc : Var → BitVec w

namespace Fmt
variable (F : Fmt) (isa : Isa)

/-- A scalar expression. Element `i` of a register is read behind a store to `cons_buffer_tmp`, `max_buffer_tmp`
(`src/gen/vectorizations.py:402-407, 417`). -/
def evalS (σ : IRegs isa.bits F.width) : Ex → BitVec F.width
  | .lane v i => if v.scalar then σ.sc v else lane F.width i (σ.vec v)
  | .cst c => F.enc c
  | .add a b => F.enc (F.add (F.dec (evalS σ a)) (F.dec (evalS σ b)))
  | .max a b => F.maxBits (evalS σ a) (evalS σ b)
  | _ => 0

/-- A vector expression: the intrinsics the generator writes for it. `set_real_imag` (`src/gen/vectorizations.py:513-518,
778-783`) is `ri`, the constant `_mm_set_ps(m, m, m, 0)` of `consolidate_into` (`:392-397, 654-661`) is `first`. Loads take
each lane from an address; `PropsSimdLoad` proves that the intrinsics written for `load`, `load_partial`, `propagate_into` do
that. -/
def evalI (M : Nat → Int → BitVec F.width) (σ : IRegs isa.bits F.width) : Ex → BitVec isa.bits
  | .var v => σ.vec v
  | .lane v i => mmSet1 isa.bits (F.evalS isa σ (.lane v i))
  | .cst c => mmSet1 isa.bits (F.enc c)
  | .ri a b => mmSet isa.bits ((List.range (isa.bits / F.width)).map (fun i => if i % 2 = 0 then F.evalS isa σ b else F.evalS isa σ a))
  | .first k a b => vpack F.width isa.bits (fun t => if t < k then F.evalS isa σ a else match b with
      | .ri c d => if t % 2 = 0 then F.evalS isa σ c else F.evalS isa σ d
      | b => F.evalS isa σ b)
  | .add a b => F.mmMap2 isa.bits F.add (evalI M σ a) (evalI M σ b)
  | .sub a b => F.mmMap2 isa.bits F.sub (evalI M σ a) (evalI M σ b)
  | .mul a b => F.mmMap2 isa.bits F.mul (evalI M σ a) (evalI M σ b)
  | .max a b => F.mmMax isa.bits (evalI M σ a) (evalI M σ b)
  | .or1 a => evalI M σ a ||| F.blpMask isa.bits
  | .abs a => evalI M σ a &&& F.absMask isa.bits
  | .swap a => F.mmSwap isa (evalI M σ a)
  | .evens a => F.mmEvens isa (evalI M σ a)
  | .odds a => F.mmOdds isa (evalI M σ a)
  | .flipE a => evalI M σ a ^^^ F.nconjMask isa.bits
  | .flipO a => evalI M σ a ^^^ F.conjMask isa.bits
  | .ld p l => vpack F.width isa.bits (fun t => match l.getD t none with
      | some a => M p a
      | none => 0)

/-- One assignment. -/
def execI (M : Nat → Int → BitVec F.width) (σ : IRegs isa.bits F.width) (c : Var × Ex) : IRegs isa.bits F.width :=
  if c.1.scalar then ⟨σ.vec, fun v => if v = c.1 then F.evalS isa σ c.2 else σ.sc v⟩
  else ⟨fun v => if v = c.1 then F.evalI isa M σ c.2 else σ.vec v, σ.sc⟩

/-- A sequence of assignments. -/
def runI (M : Nat → Int → BitVec F.width) (c : Code) (σ : IRegs isa.bits F.width) : IRegs isa.bits F.width := c.foldl (F.execI isa M) σ

end Fmt

/-- `memAt` for words of bits (`src/gen/dataTypes.py:37-38`). -/
def Gen.memAtI {w : Nat} (G : Gen) (M : Nat → Int → BitVec w) (incX incZ : Int) (off : Nat) : Nat → Int → BitVec w :=
  fun p a => M p ((if p = 0 then incX else incZ) * (G.pw : Int) * (off : Int) + a)

/-- The generated deposit kernel (`src/binned/deposit.py:110-258`) on this machine: `kernelCode` with bits. -/
def Gen.kernelI (G : Gen) (F : Fmt) (isa : Isa) (M : Nat → Int → BitVec F.width) (incX incZ : Int) (expand : Bool) (fold n : Nat)
    (σ : IRegs isa.bits F.width) : IRegs isa.bits F.width :=
  let σ1 := F.runI isa (fun _ _ => 0) ((List.range fold).flatMap (fun j => G.propagate j (G.accv expand j))) σ
  let i0 := F.dmindex0 (F.dec (σ1.sc (.y 0 0)))
  let i1 := G.cplx && F.dmindex0 (F.dec (σ1.sc (.y 1 0)))
  let σ2 := if i0 || i1 then F.runI isa (fun _ _ => 0) (G.factors F i0 i1) σ1 else σ1
  let σ3 := (runUnrolled G.tsz (G.T.pipe * G.T.unroll) n).done.foldl
    (fun σ c => F.runI isa (G.memAtI M incX incZ c.off) (G.body F incX incZ (i0 || i1) expand fold c) σ) σ2
  F.runI isa (fun _ _ => 0) ((List.range fold).flatMap (fun j => G.consolidate j (G.accv expand j))) σ3

/-- The generated maximum kernel (`src/binnedBLAS/amax.py:44-78`) on this machine: `GenA.code` with bits. -/
def GenA.codeI (A : GenA) (F : Fmt) (isa : Isa) (M : Nat → Int → BitVec F.width) (incX incZ : Int) (n : Nat)
    (σ : IRegs isa.bits F.width) : IRegs isa.bits F.width :=
  let σ1 := F.runI isa (fun _ _ => 0) (setEqual A.mv (List.replicate A.gen.suf (.cst Fmt.zero))) σ
  let σ2 := (runUnrolled A.gen.tsz A.T.aunroll n).done.foldl
    (fun σ c => F.runI isa (A.gen.memAtI M incX incZ c.off) (A.body incX incZ c) σ) σ1
  F.runI isa (fun _ _ => 0) A.maxInto σ2

end Repro
