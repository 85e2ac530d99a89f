/-!
# `CodeBlock`: the text assembled by the code generators

`src/gen/utils.py:31-80`. Python strings are lists of characters; the objects are in a list in the order of their creation, a reference is a position. Every block but the first is in the `blocks` of the block that created it.
-/

namespace Repro
namespace Cb

abbrev Str := List Char

/-- `s.split("\n")`. -/
def splitNL : Str → List Str
  | [] => [[]]
  | c :: s => if c = '\n' then [] :: splitNL s else match splitNL s with
    | [] => [[c]]
    | l :: ls => (c :: l) :: ls

/-- `"\n".join(ls)`. -/
def joinNL : List Str → Str
  | [] => []
  | [l] => l
  | l :: l' :: ls => l ++ '\n' :: joinNL (l' :: ls)

/-- `", ".join(ls)`. -/
def joinComma : List Str → Str
  | [] => []
  | [l] => l
  | l :: l' :: ls => l ++ ", ".toList ++ joinComma (l' :: ls)

/-- `"  " * n`. -/
def pad (n : Nat) : Str := List.replicate (2 * n) ' '

/-- `"\n".join(["  " * n + line for line in chunk.split("\n")])`. -/
def padded (n : Nat) (chunk : Str) : Str := joinNL ((splitNL chunk).map (pad n ++ ·))

/-- An element of `self.blocks`: a string or a `CodeBlock`. -/
inductive Item where
  | text (s : Str)
  | sub (id : Nat)

/-- The fields of a `CodeBlock` (`src/gen/utils.py:32-37`). -/
structure Block where
  base : Nat
  level : Nat
  blocks : List Item
  included : List Str
  includes : List Str

/-- `CodeBlock(base_indent_level = n)` (`src/gen/utils.py:32-37`). -/
def new (n : Nat) : Block := ⟨n, n, [], [], []⟩

abbrev Heap := List Block

/-- The methods. -/
inductive Op where
  | indent
  | dedent
  | write (chunk : Str)
  | incl (chunk : Str)
  | defineVars (type : Str) (vars : List Str)
  | setEqual (as bs : List Str)
  | newLine
  | subBlock

/-- `write` (`src/gen/utils.py:46-47`). -/
def Block.write (b : Block) (chunk : Str) : Block := { b with blocks := b.blocks ++ [.text (padded b.level chunk)] }

/-- The statement written by `set_equal` for one pair (`src/gen/utils.py:57-59`). -/
def assign (p : Str × Str) : Str := p.1 ++ " = ".toList ++ p.2 ++ ";".toList
/-- The declaration written by `define_vars` (`src/gen/utils.py:54-55`). -/
def declare (type : Str) (vars : List Str) : Str := type ++ " ".toList ++ joinComma vars ++ ";".toList

/-- A method call on block `id`: `none` if the assertion in `dedent` fails (or there is no such block). -/
def step (h : Heap) (id : Nat) (op : Op) : Option Heap :=
  h[id]?.bind fun b => match op with
    | .indent => some (h.set id { b with level := b.level + 1 }) -- lines 39-40
    | .dedent => if b.level > b.base then some (h.set id { b with level := b.level - 1 }) else none -- lines 42-44
    | .write c => some (h.set id (b.write c)) -- lines 46-47
    | .incl c => if c ∈ b.included then some h else some (h.set id { b with includes := b.includes ++ [padded b.base c], included := c :: b.included }) -- lines 49-52
    | .defineVars t vs => some (h.set id (b.write (declare t vs))) -- lines 54-55
    | .setEqual as bs => some (h.set id ((as.zip bs).foldl (fun b p => b.write (assign p)) b)) -- lines 57-59
    | .newLine => some (h.set id { b with blocks := b.blocks ++ [.text []] }) -- lines 61-62
    | .subBlock => some (h.set id { b with blocks := b.blocks ++ [.sub h.length] } ++ [new b.level]) -- lines 64-67

/-- Calls, one after the other. -/
def run : Heap → List (Nat × Op) → Option Heap
  | h, [] => some h
  | h, (id, op) :: evs => (step h id op).bind fun h => run h evs

/-- The string returned by `__str__` (`src/gen/utils.py:69-72`). The first argument bounds the nesting. -/
def str : Nat → Heap → Nat → Str
  | 0, _, _ => []
  | n + 1, h, id => match h[id]? with
    | none => []
    | some b => joinNL ((if b.includes = [] then [] else b.includes ++ [[]]) ++ b.blocks.map fun i => match i with | .text s => s | .sub j => str n h j) ++ "\n".toList

/-- What `__str__` does to the blocks (`src/gen/utils.py:70-71`): the empty string is appended to the `includes` that are not empty, also in the blocks inside (all of them, since every block is in the one that created it). -/
def touch (h : Heap) : Heap := h.map fun b => if b.includes = [] then b else { b with includes := b.includes ++ [[]] }

/-- `generate` in mode `"generate"` (`src/gen/generate.py:254-273`): calls on a new block, then `str`. -/
def generate (evs : List (Nat × Op)) : Option Str := (run [new 0] evs).map fun h => str h.length h 0

end Cb
end Repro
