/-!
# The expressions of the code generator

A model of `mix` (`src/gen/utils.py:10-29`) and of the address expressions built with it (`src/gen/dataTypes.py:24-39`). Texts are
lists of C tokens; the value of a text is what a C parser with the usual precedences makes of it. Integers are unbounded.
-/
namespace Repro

/-- The operators of `mix`, and the minus of `(N - i)`. -/
inductive MOp where
  | add | mul | mod | fdiv | sub
deriving DecidableEq, Repr

/-- A token. `op fdiv` is the text `//`, which starts a comment in C. -/
inductive Tok where
  | num (n : Nat)
  | id (s : String)
  | lp
  | rp
  | op (o : MOp)
deriving DecidableEq, Repr

/-! ### The value of a text -/

mutual
/-- A primary expression: a literal, a variable, or an expression in parentheses; returns its value and the rest. -/
def pPrim (ρ : String → Int) : Nat → List Tok → Option (Int × List Tok)
  | 0, _ => none
  | _ + 1, .num n :: r => some (n, r)
  | _ + 1, .id s :: r => some (ρ s, r)
  | f + 1, .lp :: r =>
    match pAdd ρ f r with
    | some (v, .rp :: r') => some (v, r')
    | _ => none
  | _ + 1, _ => none
/-- The rest of a product after a left operand with value `v`. -/
def pMulT (ρ : String → Int) : Nat → Int → List Tok → Option (Int × List Tok)
  | 0, _, _ => none
  | f + 1, v, .op .mul :: r =>
    match pPrim ρ f r with
    | some (w, r') => pMulT ρ f (v * w) r'
    | none => none
  | f + 1, v, .op .mod :: r =>
    match pPrim ρ f r with
    | some (w, r') => if w = 0 then none else pMulT ρ f (v.tmod w) r'
    | none => none
  | _ + 1, _, .op .fdiv :: _ => none
  | _ + 1, v, r => some (v, r)
/-- A sum. -/
def pAdd (ρ : String → Int) : Nat → List Tok → Option (Int × List Tok)
  | 0, _ => none
  | f + 1, r =>
    match pPrim ρ f r with
    | some (v, r) =>
      match pMulT ρ f v r with
      | some (v, r) => pAddT ρ f v r
      | none => none
    | none => none
/-- The rest of a sum after a left operand with value `v`. -/
def pAddT (ρ : String → Int) : Nat → Int → List Tok → Option (Int × List Tok)
  | 0, _, _ => none
  | f + 1, v, .op .add :: r =>
    match pPrim ρ f r with
    | some (w, r) =>
      match pMulT ρ f w r with
      | some (w, r) => pAddT ρ f (v + w) r
      | none => none
    | none => none
  | f + 1, v, .op .sub :: r =>
    match pPrim ρ f r with
    | some (w, r) =>
      match pMulT ρ f w r with
      | some (w, r) => pAddT ρ f (v - w) r
      | none => none
    | none => none
  | _ + 1, v, r => some (v, r)
end

/-- The text is a complete expression with value `v`. -/
def Means (ρ : String → Int) (t : List Tok) (v : Int) : Prop := ∃ f₀, ∀ f, f₀ ≤ f → pAdd ρ f t = some (v, [])

/-- The text is a primary expression with value `v`: it keeps this value inside any other text. -/
def IsPrim (ρ : String → Int) (t : List Tok) (v : Int) : Prop :=
  ∃ f₀, ∀ f, f₀ ≤ f → ∀ r, pPrim ρ f (t ++ r) = some (v, r)

/-! ### `mix` -/

/-- `str(arg).isdigit()` -/
def digits? : List Tok → Option Nat
  | [.num n] => some n
  | _ => none

/-- Python's value of `a op b` on literals; `none`: `ZeroDivisionError` -/
def litOp : MOp → Nat → Nat → Option Nat
  | .add, a, b => some (a + b)
  | .mul, a, b => some (a * b)
  | .mod, a, b => if b = 0 then none else some (a % b)
  | .fdiv, a, b => if b = 0 then none else some (a / b)
  | .sub, _, _ => none

/-- `eval(" op ".join(int_args))`, left to right. -/
def litFold (o : MOp) : List Nat → Option Nat
  | [] => none
  | n :: ns => ns.foldlM (litOp o) n

/-- `" op ".join(str_args)` -/
def joinOp (o : MOp) : List (List Tok) → List Tok
  | [] => []
  | [t] => t
  | t :: ts => t ++ .op o :: joinOp o ts

/-- `identities`, `zeros` (`src/gen/utils.py:20-24`). -/
def isIdentity : MOp → Nat → Bool
  | .add, n => n == 0
  | .mul, n => n == 1
  | _, _ => false
/-- `zeros` -/
def isZeroOf : MOp → Nat → Bool
  | .mul, n => n == 0
  | _, _ => false

/-- The last lines of `mix` (`src/gen/utils.py:26-29`). -/
def mixStr (o : MOp) (paren : Bool) (strs : List (List Tok)) : List Tok :=
  if paren && decide (strs.length > 1) then .lp :: joinOp o strs ++ [.rp] else joinOp o strs

/-- `mix` (`src/gen/utils.py:10-29`). `none` is a Python exception. -/
def mix (o : MOp) (args : List (List Tok)) (paren : Bool := true) : Option (List Tok) :=
  let ints := args.filterMap digits?
  let strs := args.filter (fun t => (digits? t).isNone)
  if ints.isEmpty then some (mixStr o paren strs)
  else (litFold o ints).bind fun n =>
    if strs.isEmpty then some [.num n]
    else if isZeroOf o n then some [.num 0]
    else some (mixStr o paren (if isIdentity o n then strs else strs ++ [[.num n]]))

/-- `DataType.index` (`src/gen/dataTypes.py:24-28`) with `base_index`; `base_size` is 2 for complex types, 1 for real ones. -/
def index (cplx : Bool) (offset inc : List Tok) (i : Nat) : Option (List Tok) :=
  if cplx then do
    let q ← mix .fdiv [[.num i], [.num 2]]
    let s ← mix .add [offset, q]
    let m ← mix .mul [[.num 2], inc, s]
    let r ← mix .mod [[.num i], [.num 2]]
    mix .add [m, r]
  else do
    let s ← mix .add [offset, [.num i]]
    mix .mul [inc, s]

/-- The right side of the increment of a pointer (`src/gen/dataTypes.py:38-39`). -/
def increment (baseSize : Nat) (inc i : List Tok) : Option (List Tok) := mix .mul [inc, [.num baseSize], i]

end Repro
