import Verif.Binned
/-!
# Model of the unrolled loop skeleton emitted by the code generator

`Vectorization.iterate_unrolled` (`src/gen/vectorizations.py:90-119`) writes C code: a main `for` loop
with the maximal unroll width, then `if`s with halving widths, then (for SIMD types) one partial
vector.  `emit` models the Python loop that writes the code, `Stmt.run` the execution of the C code it
writes, for a vector of `n` elements.
-/

namespace Repro

/-- The statements written: `loop step width` is `for(i = 0; i + step <= n; i += step, X += step){body(width)}`,
`once u` is `if(i + u <= n){body(u); i += u, X += u;}`, `rest` is
`if(i < n){body((n - i)); X += (n - i);}` (`src/gen/vectorizations.py:94-114`). -/
inductive Stmt where
  | loop (step width : Nat)
  | once (u : Nat)
  | rest
deriving DecidableEq, Repr

/-- The next width (`src/gen/vectorizations.py:115-118`): the largest power of two below a width that is
no power of two, half of a power of two. (`math.log(unroll, 2)` is computed in floating point by the
Python code; it is exact on the widths that occur, at most 512.) -/
def nextUnroll (u : Nat) : Nat := if 2 ^ Nat.log2 u ≠ u then 2 ^ Nat.log2 u else u / 2

theorem nextUnroll_lt {u : Nat} (h : u ≠ 0) : nextUnroll u < u := by
  unfold nextUnroll
  split
  · rename_i hne
    have := Nat.log2_self_le h
    omega
  · omega

/-- The `while` loop after its first round (`src/gen/vectorizations.py:93, 100-119`) with
`min_unroll = 1`; `ts` is `type_size`, the number of elements in a vector register (0 for complex
numbers in scalar code). The first argument bounds the number of rounds; the width decreases in
every round, so that starting it at the width is enough. -/
def emitTail (ts : Nat) : Nat → Nat → List Stmt
  | 0, _ => []
  | fuel + 1, u =>
    if u = 0 then []
    else if u < ts then [.rest]
    else .once u :: emitTail ts fuel (nextUnroll u)

/-- `iterate_unrolled` (`src/gen/vectorizations.py:90-119`). -/
def emit (ts maxUnroll : Nat) : List Stmt :=
  let u := maxUnroll / max ts 1 * max ts 1
  if u = 0 then [] else .loop maxUnroll u :: emitTail ts u (nextUnroll u)

/-- One execution of a loop body: it starts at pointer offset `off` (in elements, i.e. `X + off*incX`)
and loads `count` elements; `part` if it is the partial vector load. -/
structure Chunk where
  off : Nat
  count : Nat
  part : Bool
deriving DecidableEq, Repr

/-- The elements a chunk loads. -/
def Chunk.elems (c : Chunk) : List Nat := List.range' c.off c.count

/-- State of the emitted code: the loop variable `i`, the offset of the data pointers, and the bodies
executed so far. -/
structure LoopState where
  i : Nat
  off : Nat
  done : List Chunk

/-- Execute one statement on a vector of `n` elements. The main loop runs `n / step` times. -/
def Stmt.run (n : Nat) (s : LoopState) : Stmt → LoopState
  | .loop step width =>
    ⟨step * (n / step), s.off + step * (n / step),
     s.done ++ (List.range (n / step)).map (fun t => ⟨s.off + step * t, width, false⟩)⟩
  | .once u =>
    if s.i + u ≤ n then ⟨s.i + u, s.off + u, s.done ++ [⟨s.off, u, false⟩]⟩ else s
  | .rest =>
    if s.i < n then ⟨s.i, s.off + (n - s.i), s.done ++ [⟨s.off, n - s.i, true⟩]⟩ else s

/-- Execute the emitted code. -/
def runUnrolled (ts maxUnroll n : Nat) : LoopState :=
  (emit ts maxUnroll).foldl (Stmt.run n) ⟨0, 0, []⟩

end Repro
