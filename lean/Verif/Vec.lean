import Verif.Kernel
import Verif.Conv
/-!
# Model of the blocked vector routines of `src/binnedBLAS` and of the wrappers of `src/reproBLAS`
-/

namespace Repro
namespace Fmt
variable (F : Fmt)

/-- `for (j = 0; j < N_block; j++) priY[0] += X[j * incX];` (`src/binnedBLAS/dmdsum.ccog:70-72`). -/
def accum0 (vs : List Flt) (y : Binned) : Binned :=
  ⟨match y.pri with
    | [] => []
    | m :: ms => vs.foldl F.add m :: ms, y.car⟩

/-- The block loop of `binnedBLAS_dmdsum` (`src/binnedBLAS/dmdsum.ccog:57-6203`), on the remaining
values `vs`, with the counter `deposits` and the accumulator. The same loop is in
`dmdasum.ccog`, with `vs` the absolute values, and in `dmddot.ccog`, with `vs` the rounded products.
The first argument bounds the number of rounds (every round consumes at least one value).
`X` is advanced by the kernel or, in the branch that skips a block, explicitly. -/
def vecLoop (T : Tune) (fold : Nat) : Nat → List Flt → Nat → Binned → Binned
  | 0, _, _, y => F.dmrenorm y
  | fuel + 1, vs, deposits, y =>
    if vs = [] then F.dmrenorm y
    else
      let b := vs.take T.nb
      let amax := F.amaxK T (b.map fabs)
      let y := if F.isInf amax || F.isInf (nth y.pri 0) then F.accum0 b y else y
      if F.isNaN (nth y.pri 0) then y
      else if F.isInf (nth y.pri 0) then vecLoop T fold fuel (vs.drop T.nb) deposits y
      else
        let over := deposits + b.length > F.endurance
        let y := if over then F.dmrenorm y else y
        let deposits := if over then 0 else deposits
        let y := F.dmdupdate fold amax y
        vecLoop T fold fuel (vs.drop T.nb) (deposits + b.length) ⟨F.kernel T b y.pri, y.car⟩

/-- The routine on the list of values it deposits. -/
def vecSum (T : Tune) (fold : Nat) (vs : List Flt) (y : Binned) : Binned := F.vecLoop T fold vs.length vs 0 y

end Fmt

/-- The elements `X[0], X[inc], ..., X[(n-1)*inc]` of an array. -/
def gather (X : Int → Flt) (inc : Int) (n : Nat) : List Flt := (List.range n).map (fun (i : Nat) => X ((i : Int) * inc))

namespace Fmt
variable (F : Fmt)

/-- `binnedBLAS_dmdsum` (`src/binnedBLAS/dmdsum.ccog:57`). -/
def dmdsum (T : Tune) (fold n : Nat) (X : Int → Flt) (incX : Int) (y : Binned) : Binned :=
  F.vecSum T fold (gather X incX n) y

/-- `binnedBLAS_dmdasum` (`src/binnedBLAS/dmdasum.ccog:57`); the maximum is taken over `|x|`, which are the
values themselves. -/
def dmdasum (T : Tune) (fold n : Nat) (X : Int → Flt) (incX : Int) (y : Binned) : Binned :=
  F.vecSum T fold ((gather X incX n).map fabs) y

/-- `binnedBLAS_dmddot` (`src/binnedBLAS/dmddot.ccog:59`); `binnedBLAS_damaxm` is the maximum over the
absolute values of the rounded products. (`X[j]*Y[j]` is rounded before it is added: C72 shows what happens if
the compiler contracts it to a fused multiply-add.) -/
def dmddot (T : Tune) (fold n : Nat) (X : Int → Flt) (incX : Int) (Y : Int → Flt) (incY : Int) (z : Binned) : Binned :=
  F.vecSum T fold (List.zipWith F.mul (gather X incX n) (gather Y incY n)) z

/-- `reproBLAS_rdsum` (`src/reproBLAS/rdsum.c:20-31`). -/
def rdsum (T : Tune) (fold n : Nat) (X : Int → Flt) (incX : Int) : Flt :=
  convert F fold (F.dmdsum T fold n X incX (dmsetzero fold))

/-- `reproBLAS_rdasum` (`src/reproBLAS/rdasum.c:20-31`). -/
def rdasum (T : Tune) (fold n : Nat) (X : Int → Flt) (incX : Int) : Flt :=
  convert F fold (F.dmdasum T fold n X incX (dmsetzero fold))

/-- `reproBLAS_rddot` (`src/reproBLAS/rddot.c:22-33`). -/
def rddot (T : Tune) (fold n : Nat) (X : Int → Flt) (incX : Int) (Y : Int → Flt) (incY : Int) : Flt :=
  convert F fold (F.dmddot T fold n X incX Y incY (dmsetzero fold))

/-- `DIDEFAULTFOLD`, `SIDEFAULTFOLD` (`config.h`). -/
def defaultFold : Nat := 3

/-- `reproBLAS_dsum` (`src/reproBLAS/dsum.c:20-22`), `dasum`, `ddot`. -/
def dsum (T : Tune) (n : Nat) (X : Int → Flt) (incX : Int) : Flt := F.rdsum T defaultFold n X incX
def dasum (T : Tune) (n : Nat) (X : Int → Flt) (incX : Int) : Flt := F.rdasum T defaultFold n X incX
def ddot (T : Tune) (n : Nat) (X : Int → Flt) (incX : Int) (Y : Int → Flt) (incY : Int) : Flt :=
  F.rddot T defaultFold n X incX Y incY

end Fmt
end Repro
