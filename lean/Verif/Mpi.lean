import Verif.Memory
/-!
# The MPI layer: packed values in message buffers, the reduction operations and their handles

An MPI implementation may reduce the buffers of the ranks in any order, with any tree, in segments of any
length, and may pass either operand as `invec` (the operations are registered as commutative). This is
modelled by a transition system: a step sends a segment of the buffer of one rank to another, which applies
the registered function. The MPI library itself (delivery of messages, termination) is not modelled.
-/

namespace Repro

/-- A reduction operation on arrays of elements of `words` words: `op invec inoutvec len`. -/
structure RedOp where
  words : Int
  op : Int → Int → Nat → Mem → Mem

namespace Fmt
variable (F : Fmt)

/-- `binnedMPI_dbdbadd_{fold}` (`src/binnedMPI/DBDBADD.ccog:9-17`), on elements of the datatype
`MPI_Type_contiguous(binned_dbnum(fold), MPI_DOUBLE)` (`src/binnedMPI/DOUBLE_BINNED.c:26-30`). Single
precision: `src/binnedMPI/SBSBADD.ccog:9-17`, `FLOAT_BINNED.c`. -/
def mpiAdd (fold : Nat) : RedOp where
  words := dbnum fold
  op invec inoutvec len m := F.dbdbaddvM fold len invec 1 inoutvec 1 m

/-- `binnedMPI_cbcbadd_{fold}` (`src/binnedMPI/CBCBADD.ccog:8-16`) on the datatype of
`src/binnedMPI/FLOAT_COMPLEX_BINNED.c:26-30`. -/
def mpiCAdd (fold : Nat) : RedOp where
  words := zbnum fold
  op invec inoutvec len m := F.zbzbaddvM fold len invec 1 inoutvec 1 m

/-- `binnedMPI_zbzbadd_{fold}` (`src/binnedMPI/ZBZBADD.ccog:8-16`) on the datatype of
`src/binnedMPI/DOUBLE_COMPLEX_BINNED.c:26-30`: the generated functions call `binned_dbdbaddv`, the routine for
real values, on arrays of complex ones. -/
def mpiZAdd (fold : Nat) : RedOp where
  words := zbnum fold
  op invec inoutvec len m := F.dbdbaddvM fold len invec 1 inoutvec 1 m

end Fmt

namespace RedOp
variable (o : RedOp)

/-- The memory in which a segment of `len` elements is combined: the segment of `A` as `invec` at address 0,
directly followed by the segment of `B` as `inoutvec`. -/
def stage (lo len : Nat) (A B : Mem) : Mem := fun a =>
  if 0 ≤ a ∧ a < len * o.words then A (lo * o.words + a)
  else if len * o.words ≤ a ∧ a < 2 * (len * o.words) then B (lo * o.words + (a - len * o.words))
  else Fmt.zero

/-- The rank with buffer `own` combines elements `lo .. lo + len` with those of the received buffer `other`;
`recvIn` says which of the two the library passes as `invec`. The result replaces the own elements. -/
def combine (recvIn : Bool) (lo len : Nat) (own other : Mem) : Mem :=
  let st := o.op 0 (len * o.words) len (if recvIn then o.stage lo len other own else o.stage lo len own other)
  fun a =>
    if lo * o.words ≤ a ∧ a < (lo + len : Nat) * o.words then st (len * o.words + (a - lo * o.words)) else own a
end RedOp

/-- A running reduction: which ranks still hold a partial result of which elements, and the buffer of each
rank (element `i` at address `i * words`). -/
structure Mpi where
  live : Nat → Nat → Bool
  buf : Nat → Mem

/-- One message of a reduction over `R` ranks of `L` elements: rank `p` sends its partial results of the
elements `lo .. lo + len` to rank `q`, which combines them with its own. -/
inductive MpiStep (o : RedOp) (R L : Nat) : Mpi → Mpi → Prop where
  | message (s : Mpi) (p q lo len : Nat) (recvIn : Bool) (hp : p < R) (hq : q < R) (hpq : p ≠ q)
      (hL : lo + len ≤ L) (hlive : ∀ i, lo ≤ i → i < lo + len → s.live p i = true ∧ s.live q i = true) :
      MpiStep o R L s
        { live := fun r i => if r = p ∧ lo ≤ i ∧ i < lo + len then false else s.live r i
          buf := fun r => if r = q then o.combine recvIn lo len (s.buf q) (s.buf p) else s.buf r }

/-- Any number of messages. -/
inductive MpiRun (o : RedOp) (R L : Nat) : Mpi → Mpi → Prop where
  | start (s : Mpi) : MpiRun o R L s s
  | step {s t u : Mpi} : MpiRun o R L s t → MpiStep o R L t u → MpiRun o R L s u

/-- At the start every rank holds all elements of its own buffer. -/
def Mpi.start (R L : Nat) (buf : Nat → Mem) : Mpi := ⟨fun r i => decide (r < R ∧ i < L), buf⟩

/-! ## Handles of the operations -/

/-- The static arrays `ops`, `ops_initialized` of `src/binnedMPI/DBDBADD.ccog:220-221` and the operations the
MPI library has created so far (the list of function indices, a handle is a position in it). -/
structure OpCache where
  initialized : Nat → Bool
  ops : Nat → Nat
  created : List Nat

/-- Statically initialised to 0. -/
def OpCache.empty : OpCache := ⟨fun _ => false, fun _ => 0, []⟩

/-- `binnedMPI_DBDBADD(fold)` (`src/binnedMPI/DBDBADD.ccog:240-470`) when the calls to `MPI_Op_create` succeed:
the switch has the cases `2 .. maxIndex`, each registering the function generated for that fold. In any other
case no operation is created and the uninitialised return code decides: `junk` says whether it happens to be
`MPI_SUCCESS`; if not, the program is aborted (`none`). Handle 0 is the statically initialised one, real handles are
`1 + ` the position among the created operations. -/
def OpCache.get (maxIndex : Nat) (c : OpCache) (junk : Bool) (fold : Nat) : Option (Nat × OpCache) :=
  if c.initialized fold then some (c.ops fold, c)
  else if 2 ≤ fold ∧ fold ≤ maxIndex then
    let h := c.created.length + 1
    some (h, ⟨fun f => if f = fold then true else c.initialized f, fun f => if f = fold then h else c.ops f, c.created ++ [fold]⟩)
  else if junk then some (c.ops fold, ⟨fun f => if f = fold then true else c.initialized f, c.ops, c.created⟩)
  else none

/-- The function (named by its fold) a handle stands for. -/
def OpCache.fn (c : OpCache) (h : Nat) : Option Nat := if h = 0 then none else c.created[h - 1]?

/-- A sequence of requests; returns the handles in order. -/
def OpCache.gets (maxIndex : Nat) : OpCache → List Nat → Option (List Nat × OpCache)
  | c, [] => some ([], c)
  | c, f :: fs => do
    let (h, c) ← c.get maxIndex true f
    let (hs, c) ← OpCache.gets maxIndex c fs
    return (h :: hs, c)

end Repro
