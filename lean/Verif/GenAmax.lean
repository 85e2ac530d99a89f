import Verif.Gen
/-!
# Model of the code generator: the statements of a generated maximum kernel

`src/binnedBLAS/amax.py` and `src/binnedBLAS/amaxm.py`, in the same style as `Verif/Gen.lean`. `Verif/PropsGenAmax.lean`
proves that executing the statements has the effect of the lane model `amaxK`, `amaxZ` (C63).
-/

namespace Repro

/-- `vec.max` (`src/gen/vectorizations.py:245-246, 493-494, 758-759`). -/
def vmax (a b : List Ex) : List Ex := List.zipWith .max a b

/-- A maximum kernel to generate: the tuning (`T.aunroll` is `max_unroll_width`), whether the data type is complex, whether
it is `AMaxM` (two vectors) or `AMax`. -/
structure GenA where
  T : Tune
  cplx : Bool
  prod : Bool

namespace GenA
variable (A : GenA)

/-- The part of `Gen` a maximum kernel shares with a deposit kernel: loads, widths. `compute_reg_width`
(`src/binnedBLAS/amax.py:97-98`, `amaxm.py:33-34`) is `Gen.regWidth`: `AMaxM` has a factor `base_size`. -/
def gen : Gen := ⟨A.T, A.cplx, if A.prod then (if A.cplx then .dotu else .dot) else .asum⟩

/-- `load_vars` (`src/binnedBLAS/amax.py:90-92`, `amaxm.py:25-31`). -/
def xv : List Var := (List.range (A.gen.regWidth A.T.aunroll)).map .x
def zv : List Var := (List.range (if A.cplx then A.gen.regWidth A.T.aunroll / 2 else A.gen.regWidth A.T.aunroll)).map .z

/-- `m_vars` (`src/binnedBLAS/amax.py:52`). -/
def mv : List Var := (List.range A.gen.suf).map .m

/-- `preprocess` (`src/binnedBLAS/amax.py:80-84`, `amaxm.py:36-48`). -/
def preprocess (incX incZ : Int) (c : Chunk) : Code :=
  let rw := A.gen.regWidth (if c.part then A.gen.tsz else c.count)
  if A.prod then
    setEqual A.xv (A.gen.loadC 0 incX c) ++ setEqual A.zv (A.gen.loadC 1 incZ c)
      ++ (if A.cplx then
            setEqual ((A.xv.take rw).drop (rw / 2)) ((vmul (A.gen.swapP (ev A.xv)) (A.gen.repO (ev A.zv))).map .abs)
              ++ setEqual (A.xv.take (rw / 2)) ((vmul (ev A.xv) (A.gen.repE (ev A.zv))).map .abs)
          else setEqual A.xv ((vmul (ev A.xv) (ev (A.zv.take rw))).map .abs))
  else setEqual A.xv ((A.gen.loadC 0 incX c).map .abs)

/-- `process` (`src/binnedBLAS/amax.py:86-87`): both `m_vars` are cycled, `zip` stops behind the load variables. -/
def process (w : Nat) : Code :=
  let l := A.xv.take w
  setEqual (cycleTo A.mv l.length) (vmax (cycleTo (ev A.mv) l.length) (ev l))

/-- `body` (`src/binnedBLAS/amax.py:70-78`). -/
def body (incX incZ : Int) (c : Chunk) : Code :=
  A.preprocess incX incZ c ++ A.process (A.gen.regWidth (if c.part then A.gen.tsz else c.count))

/-- `vec.max_into` (`src/gen/vectorizations.py:168-178, 409-421, 673-685`). In scalar code the loop
`for i in range(data_type.base_size, base_size)` is empty. -/
def maxInto : Code :=
  if A.T.simd then
    (List.range A.gen.base).map (fun i => (.mb i, .lane (.m 0) i))
      ++ (List.range (A.gen.base - A.gen.pw)).map (fun i => (.mb ((A.gen.pw + i) % A.gen.pw),
          .max (.lane (.mb ((A.gen.pw + i) % A.gen.pw)) 0) (.lane (.mb (A.gen.pw + i)) 0)))
      ++ (List.range A.gen.pw).map (fun k => (.am k, .lane (.mb k) 0))
  else (List.range A.gen.pw).map (fun k => (.am k, .lane (.m k) 0))

/-- The generated kernel: `write_vec`, `write_core` (`src/binnedBLAS/amax.py:44-78`). The maxima are initialised with zero,
the bodies executed are those of the loop skeleton. -/
def code (F : Fmt) (M : Nat → Int → Flt) (incX incZ : Int) (n : Nat) (σ : Regs) : Regs :=
  let σ1 := F.run (fun _ _ => Fmt.zero) (setEqual A.mv (List.replicate A.gen.suf (.cst Fmt.zero))) σ
  let σ2 := (runUnrolled A.gen.tsz A.T.aunroll n).done.foldl
    (fun σ c => F.run (A.gen.memAt M incX incZ c.off) (A.body incX incZ c) σ) σ1
  F.run (fun _ _ => Fmt.zero) A.maxInto σ2

end GenA
end Repro
