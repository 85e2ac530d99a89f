import Verif.PropsParams2
/-!
# The parameters of the vector kernels and of the block sizes

What `Deposit` (`src/binned/deposit.py`), `AMax` (`src/binnedBLAS/amax.py`) and `BlockSize` (`src/common/blockSize.py`) declare
and how the generated code uses the parsed values.
-/
namespace Repro

/-- A vectorization (`src/gen/vectorizations.py:127-140, 291-302, 553-564, 817`). -/
structure VecT where
  name : String
  bits : Nat
  simd : Bool

/-- `vectorization_lookup` for a base type of `baseBits` bits. -/
def vecs (baseBits : Nat) : List VecT := [⟨"SISD", baseBits, false⟩, ⟨"SSE", 128, true⟩, ⟨"AVX", 256, true⟩]

/-- `config.max_expand_fold` (`config.py:212`) -/
def maxExpand : Nat := 4

/-- The argument names (`src/binned/deposit.py:36-39`). -/
def expandName (name : String) (v : VecT) (i : Nat) : String := name ++ "_expand_" ++ v.name ++ "_fold_" ++ toString i
/-- `src/binned/deposit.py:38` -/
def pipeName (name : String) (v : VecT) (i : Nat) : String := name ++ "_max_pipe_width_" ++ v.name ++ "_fold_" ++ toString i
/-- `src/binned/deposit.py:39` -/
def unrollName (name : String) (v : VecT) (i : Nat) : String := name ++ "_max_unroll_width_" ++ v.name ++ "_fold_" ++ toString i
/-- `src/binnedBLAS/amax.py:23, 29` -/
def amaxName (name : String) (v : VecT) : String := name ++ "_max_unroll_width_" ++ v.name

/-- The folds with their own parameters, `i in range(max_expand_fold + 1), i != 1` (`src/binned/deposit.py:33-34`). -/
def tunedFolds : List Nat := (List.range (maxExpand + 1)).filter (· != 1)

/-- The arguments of a constructor call. -/
structure Decl where
  name : String
  tags : List (String × String)
  flavor : Flavor
  default : PyVal

/-- `max(1, vec.type_size)` (`src/binned/deposit.py:63`, `src/binnedBLAS/amax.py:30`); `type_size` is
`bit_size//data_type.bit_size`. -/
def VecT.size (v : VecT) (typeBits : Nat) : Nat := max 1 (v.bits / typeBits)

/-- `Deposit.get_parameters` (`src/binned/deposit.py:53-67`). -/
def depositDecls (name : String) (baseBits typeBits defaultFold : Nat) : List Decl :=
  tunedFolds.flatMap (fun i => (vecs baseBits).flatMap (fun v =>
    (if i != 0 then [⟨expandName name v i, [("vectorization", v.name)], .boolean, .bool (i == defaultFold)⟩] else []) ++
    [⟨unrollName name v i, [("vectorization", v.name)], .integer 1 8 1, .int 1⟩,
     ⟨pipeName name v i, [("vectorization", v.name)], .poweroftwo (v.size typeBits) (v.size typeBits * 8), .int (v.size typeBits)⟩]))

/-- `Deposit.get_arguments` (`src/binned/deposit.py:31-40`). -/
def depositArgs (name : String) (baseBits : Nat) : List String :=
  tunedFolds.flatMap (fun i => (vecs baseBits).flatMap (fun v =>
    (if i != 0 then [expandName name v i] else []) ++ [pipeName name v i, unrollName name v i]))

/-- `AMax.get_parameters` (`src/binnedBLAS/amax.py:25-34`). -/
def amaxDecls (name : String) (baseBits typeBits : Nat) : List Decl :=
  (vecs baseBits).map (fun v => ⟨amaxName name v, [("vectorization", v.name)],
    .integer (v.size typeBits) (v.size typeBits * 8) (v.size typeBits), .int (v.size typeBits)⟩)

/-- `AMax.get_arguments` (`src/binnedBLAS/amax.py:22-23`). -/
def amaxArgs (name : String) (baseBits : Nat) : List String := (vecs baseBits).map (amaxName name)

/-- Calling the constructors. -/
def makeAll (rnd : Int → Int → Option Int) (ds : List Decl) : Option (List Param) :=
  ds.mapM (fun d => Param.make rnd d.name d.tags d.flavor d.default)

/-- The target `Deposit`. The metrics are left out. -/
def depositTarget (rnd : Int → Int → Option Int) (name : String) (baseBits typeBits defaultFold : Nat) : Option Target :=
  (makeAll rnd (depositDecls name baseBits typeBits defaultFold)).map (fun ps => ⟨depositArgs name baseBits, [], ps⟩)

/-- The target `AMax`. The metrics are left out. -/
def amaxTarget (rnd : Int → Int → Option Int) (name : String) (baseBits typeBits : Nat) : Option Target :=
  (makeAll rnd (amaxDecls name baseBits typeBits)).map (fun ps => ⟨amaxArgs name baseBits, [], ps⟩)

/-- A parsed integer argument. -/
def argInt (d : List (String × PyVal)) (a : String) : Option Nat := ((dget d a).bind PyVal.toInt?).map Int.toNat

/-- The fold whose parameters the code for `fold` uses: the `case` of an expanded fold or the `default` case of the
`switch` (`src/binned/deposit.py:76-108`). -/
def tunedFold (D : List (String × PyVal)) (name : String) (v : VecT) (fold : Nat) : Nat :=
  if 2 ≤ fold ∧ fold ≤ maxExpand ∧ ((dget D (expandName name v fold)).map PyVal.toBool).getD false = true then fold else 0

/-- The tuning of the code generated from the arguments `D` of the `Deposit`, `A` of the `AMax` and `B` of the `BlockSize` target, for the
vectorization chosen at compile time. -/
def tuneOf (name amax var block : String) (typeBits : Nat) (v : VecT) (fold : Nat) (D A B : List (String × PyVal)) : Option Tune := do
  let i := tunedFold D name v fold
  return ⟨← argInt B (blockName block var), v.size typeBits, ← argInt D (pipeName name v i), ← argInt D (unrollName name v i),
    ← argInt A (amaxName amax v), v.simd⟩

/-- The blocks of a matrix-vector product (`src/binnedBLAS/dbdgemv.ccog:13-21`): `cache` is the size of the cache in bytes, `byteSize` the size
of an element; the five targets. -/
def gemvBlocks (rnd : Int → Int → Option Int) (name : String) (cache byteSize : Nat) : Option (List Target) :=
  let rounded : Nat := 2 ^ (bitLength cache - 1)
  let xy : Int := (rounded / byteSize : Nat)
  let y : Int := max (xy / 256) 1
  [("Y_BLOCK", 1, y), ("XY_BLOCK", y, xy), ("YT_BLOCK", 1, y), ("XYT_BLOCK", y, xy), ("T_BLOCK", 1, 32)].mapM
    (fun (b : String × Int × Int) => blockSize rnd name b.1 b.2.1 b.2.2 b.2.2 [])

/-- The blocks read back from the parsed arguments of the five targets. -/
def gemvB (name : String) (d : String → List (String × PyVal)) : Option GemvB := do
  let g := fun var => argInt (d var) (blockName name var)
  return ⟨← g "Y_BLOCK", ← g "XY_BLOCK", ← g "YT_BLOCK", ← g "XYT_BLOCK", ← g "T_BLOCK"⟩

end Repro
