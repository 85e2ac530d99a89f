import Verif.Kernel
import Verif.Gemm
/-!
# Tuning parameters and parameter files

A model of `src/gen/generate.py`, `src/common/blockSize.py` and of the parameters that `src/binned/deposit.py` and
`src/binnedBLAS/amax.py` declare. `none` stands for a Python exception (a failed `assert`, a `KeyError`, an error of `int`).
Printed warnings are not modelled. Python dictionaries are association lists in insertion order, sets are lists.
-/
namespace Repro

/-- A value supplied in an arguments file. All other Python values (texts, floats, `None`, lists) are represented
by what the code observes of them: the result of `int(v)` (`none`: it raises) and of `bool(v)`. -/
inductive PyVal where
  | bool (b : Bool)
  | int (n : Int)
  | other (asInt : Option Int) (truthy : Bool)
deriving DecidableEq, Repr

/-- Python's `int(value)` -/
def PyVal.toInt? : PyVal → Option Int
  | .bool b => some (if b then 1 else 0)
  | .int n => some n
  | .other i _ => i

/-- Python's `bool(value)` -/
def PyVal.toBool : PyVal → Bool
  | .bool b => b
  | .int n => n != 0
  | .other _ t => t

/-- Python's `int.bit_length()` (of the magnitude) -/
def bitLength (v : Int) : Nat := if v = 0 then 0 else Nat.log2 v.natAbs + 1

/-- `value == 2**(value.bit_length() - 1)` (`src/gen/generate.py:121-122, 127`). For `value == 0` the right side is
`2**-1`, a float different from 0. -/
def isPow2 (v : Int) : Bool := v != 0 && v == 2 ^ (bitLength v - 1)

/-- The flavor and the bounds of a parameter (`src/gen/generate.py:67-143`). -/
inductive Flavor where
  | boolean
  | integer (minimum maximum step : Int)
  | poweroftwo (minimum maximum : Int)
deriving DecidableEq, Repr

/-- The two clamping `if`s (`src/gen/generate.py:99-104, 130-135`). -/
def clamp (mn mx v : Int) : Int :=
  let v := if v < mn then mn else v
  if v > mx then mx else v

section
-- `rnd value step` is `round(value/float(step))`, a floating point computation; it is left arbitrary (`none`: it raises
-- `OverflowError`).
variable (rnd : Int → Int → Option Int)

/-- `parse_value` (`src/gen/generate.py:73-74, 94-105, 125-136`). -/
def Flavor.parse : Flavor → PyVal → Option PyVal
  | .boolean, v => some (.bool v.toBool)
  | .integer mn mx step, v =>
    v.toInt?.bind fun value =>
    (if value % step != 0 then (rnd value step).map (· * step) else some value).bind fun value =>
    some (.int (clamp mn mx value))
  | .poweroftwo mn mx, v => do
    let value ← v.toInt?
    let value := if !isPow2 value then 2 ^ bitLength value else value
    some (.int (clamp mn mx value))

/-- The assertions of the constructors (`src/gen/generate.py:88-91, 121-122`). -/
def Flavor.valid : Flavor → Bool
  | .boolean => true
  | .integer mn mx step => decide (step > 0) && mn % step == 0 && mx % step == 0 && decide (mn ≤ mx)
  | .poweroftwo mn mx => isPow2 mn && isPow2 mx

/-- A constructed parameter (`src/gen/generate.py:38-41`); `tags` is a dictionary. -/
structure Param where
  name : String
  tags : List (String × String)
  flavor : Flavor
  default : PyVal
deriving DecidableEq, Repr

/-- The constructors `BooleanParameter`, `IntegerParameter`, `PowerOfTwoParameter` (`src/gen/generate.py:68-71, 82-92,
116-123`). -/
def Param.make (name : String) (tags : List (String × String)) (f : Flavor) (default : PyVal) : Option Param :=
  if f.valid then (f.parse rnd default).map (fun d => ⟨name, tags, f, d⟩) else none
end

/-! ### Dictionaries, sets and JSON files -/

section
variable {α : Type}

/-- `d.get(k)` -/
def dget (d : List (String × α)) (k : String) : Option α := (d.find? (fun e => e.1 == k)).map (·.2)

/-- `d[k] = v` -/
def dset (d : List (String × α)) (k : String) (v : α) : List (String × α) :=
  if d.any (fun e => e.1 == k) then d.map (fun e => if e.1 == k then (k, v) else e) else d ++ [(k, v)]

/-- `dict(pairs)` -/
def dictOf (l : List (String × α)) : List (String × α) := l.foldl (fun d e => dset d e.1 e.2) []
end

/-- `s.add(a)` -/
def sadd (s : List String) (a : String) : List String := if a ∈ s then s else s ++ [a]

/-- Insert into a list sorted by key. -/
def insKey {α : Type} (key : α → String) (a : α) : List α → List α
  | [] => [a]
  | b :: l => if key b < key a then b :: insKey key a l else a :: b :: l

/-- Python's `sorted` by a text key, here an insertion sort. -/
def sortKey {α : Type} (key : α → String) : List α → List α
  | [] => []
  | a :: l => insKey key a (sortKey key l)

/-- `sorted(list(s))` -/
def strSort (s : List String) : List String := sortKey id s

/-- JSON data. -/
inductive Json where
  | str (s : String)
  | int (n : Int)
  | bool (b : Bool)
  | arr (l : List Json)
  | obj (o : List (String × Json))

mutual
/-- Writing a file with `json.dump(..., sort_keys=True)` and reading it back with `json.load`
(`src/gen/generate.py:14-36`): the keys of every object come back sorted, everything else unchanged. -/
def Json.reload : Json → Json
  | .arr l => .arr (reloadL l)
  | .obj o => .obj (sortKey (·.1) (reloadO o))
  | j => j
/-- The elements of an array. -/
def reloadL : List Json → List Json
  | [] => []
  | j :: l => j.reload :: reloadL l
/-- The values of an object. -/
def reloadO : List (String × Json) → List (String × Json)
  | [] => []
  | (k, j) :: o => (k, j.reload) :: reloadO o
end

/-- A parsed value as JSON. Parsed values are booleans or integers; anything else is not produced. -/
def PyVal.encode : PyVal → Json
  | .bool b => .bool b
  | .int n => .int n
  | .other _ _ => .str ""

/-- A JSON value as seen by `int` and `bool`; `intOf` says what `int` makes of a text. -/
def Json.toVal (intOf : String → Option Int) : Json → PyVal
  | .bool b => .bool b
  | .int n => .int n
  | .str s => .other (intOf s) (s != "")
  | .arr l => .other none (!l.isEmpty)
  | .obj o => .other none (!o.isEmpty)

/-- `encode` of a parameter (`src/gen/generate.py:46-47, 76-79, 107-113, 138-143`). -/
def Param.encode (p : Param) : Json :=
  let base := fun (f : String) => [("name", Json.str p.name), ("flavor", .str f), ("tags", .arr (p.tags.map (fun t => .arr [.str t.1, .str t.2])))]
  match p.flavor with
  | .boolean => .obj (base "boolean" ++ [("default", p.default.encode)])
  | .integer mn mx step => .obj (base "integer" ++ [("minimum", .int mn), ("maximum", .int mx), ("step", .int step), ("default", p.default.encode)])
  | .poweroftwo mn mx => .obj (base "poweroftwo" ++ [("minimum", .int mn), ("maximum", .int mx), ("default", p.default.encode)])

/-- An object's item. -/
def Json.item (j : Json) (k : String) : Option Json :=
  match j with
  | .obj o => dget o k
  | _ => none
/-- A text. -/
def Json.text? : Json → Option String
  | .str s => some s
  | _ => none
/-- An integer. -/
def Json.int? : Json → Option Int
  | .int n => some n
  | _ => none
/-- A list. -/
def Json.arr? : Json → Option (List Json)
  | .arr l => some l
  | _ => none
/-- A dictionary. -/
def Json.obj? : Json → Option (List (String × Json))
  | .obj o => some o
  | _ => none
/-- A pair of texts. -/
def Json.pair? : Json → Option (String × String)
  | .arr [.str a, .str b] => some (a, b)
  | _ => none

section
variable (rnd : Int → Int → Option Int) (intOf : String → Option Int)

/-- `Parameter.decode` (`src/gen/generate.py:49-65`). (A file with items of other types than `encode` writes is an
error in the model.) -/
def Param.decode (j : Json) : Option Param := do
  let name ← (← j.item "name").text?
  let flavor ← (← j.item "flavor").text?
  let default := (← j.item "default").toVal intOf
  let tags := dictOf (← (← (← j.item "tags").arr?).mapM Json.pair?)
  if flavor = "boolean" then Param.make rnd name tags .boolean default
  else if flavor = "integer" then do
    let mn ← (← j.item "minimum").int?
    let mx ← (← j.item "maximum").int?
    let step ← (← j.item "step").int?
    Param.make rnd name tags (.integer mn mx step) default
  else if flavor = "poweroftwo" then do
    let mn ← (← j.item "minimum").int?
    let mx ← (← j.item "maximum").int?
    Param.make rnd name tags (.poweroftwo mn mx) default
  else none

/-- `ParameterSpace` (`src/gen/generate.py:145-151`). -/
structure Space where
  fwd : List (String × List String)
  bwd : List (String × List String)
  fmet : List (String × List String)
  bmet : List (String × List String)
  params : List (String × Param)

/-- `ParameterSpace()` -/
def Space.empty : Space := ⟨[], [], [], [], []⟩

/-- A dictionary of sets as JSON. -/
def encSets (d : List (String × List String)) : Json := .obj (d.map (fun e => (e.1, .arr ((strSort e.2).map .str))))

/-- `ParameterSpace.encode` (`src/gen/generate.py:153-158`). -/
def Space.encode (s : Space) : Json :=
  .obj [("forward_dependencies", encSets s.fwd), ("backward_dependencies", encSets s.bwd), ("forward_metrics", encSets s.fmet),
    ("backward_metrics", encSets s.bmet), ("parameters", .obj (s.params.map (fun e => (e.1, e.2.encode))))]

/-- `{key:set(values) for ...}` -/
def decSets (j : Json) : Option (List (String × List String)) := do
  (← j.obj?).mapM (fun e => do
    let l ← (← e.2.arr?).mapM Json.text?
    return (e.1, l.foldl sadd []))

/-- `ParameterSpace.decode` (`src/gen/generate.py:160-174`). -/
def Space.decode (j : Json) : Option Space := do
  let fwd ← decSets (← j.item "forward_dependencies")
  let bwd ← decSets (← j.item "backward_dependencies")
  let fmet ← decSets (← j.item "forward_metrics")
  let bmet ← decSets (← j.item "backward_metrics")
  let params ← (← (← j.item "parameters").obj?).mapM (fun e => do return (e.1, ← Param.decode rnd intOf e.2))
  return ⟨fwd, bwd, fmet, bmet, params⟩

/-- What a target tells the parameter space (`src/gen/generate.py:212-235`); `metrics` is a dictionary. -/
structure Target where
  arguments : List String
  metrics : List (String × List String)
  parameters : List Param

/-- `if k not in d: d[k] = set()` -/
def ensure (d : List (String × List String)) (k : String) : List (String × List String) :=
  if (dget d k).isSome then d else dset d k []

/-- `d[k].add(a)` for a key that is present -/
def addTo (d : List (String × List String)) (k a : String) : List (String × List String) :=
  dset d k (sadd ((dget d k).getD []) a)

/-- `add_target` (`src/gen/generate.py:176-202`). -/
def Space.addTarget (s : Space) (file : String) (t : Target) : Option Space := do
  let fwd := t.arguments.foldl (fun d a => addTo d file a) (ensure s.fwd file)
  let bwd := t.arguments.foldl (fun d a => addTo (ensure d a) a file) s.bwd
  let bmet := t.metrics.foldl (fun d e => e.2.foldl (fun d m => addTo d e.1 m) (ensure d e.1)) s.bmet
  let fmet := t.metrics.foldl (fun d e => e.2.foldl (fun d m => addTo (ensure d m) m e.1) d) s.fmet
  let params ← t.parameters.foldlM (fun ps p => if (dget ps p.name).isSome then none else some (dset ps p.name p)) s.params
  return ⟨fwd, bwd, fmet, bmet, params⟩

/-- `get_value` (`src/gen/generate.py:204-207`). -/
def Space.getValue (s : Space) (argument : String) (arguments : List (String × PyVal)) : Option PyVal := do
  let v ← dget arguments argument
  let p ← dget s.params argument
  p.flavor.parse rnd v

/-- `get_default_arguments` (`src/gen/generate.py:209-210`). -/
def Space.defaults (s : Space) : List (String × PyVal) :=
  dictOf (s.params.map (fun e => (e.2.name, e.2.default)))

/-- `set_arguments` (`src/gen/generate.py:237-244`). -/
def Target.setArguments (t : Target) (arguments : List (String × PyVal)) (s : Space) : Option (List (String × PyVal)) :=
  t.arguments.foldlM (fun d a => (s.getValue rnd a arguments).map (dset d a)) []

/-- `generate` with `mode == "params"` (`src/gen/generate.py:267-273`): `none` as the first argument is a missing parameters file;
the result is the new contents of the file, as `json.load` will read it. -/
def generateParams (params : Option Json) (file : String) (t : Target) : Option Json := do
  let s ← match params with
    | some j => Space.decode rnd intOf j
    | none => some Space.empty
  return (← s.addTarget file t).encode.reload

/-- The arguments file written by `src/gen/default_args.py:9-11` from a parameters file, as `json.load` will read it. -/
def defaultArgs (params : Json) : Option Json := do
  let s ← Space.decode rnd intOf params
  return (Json.obj (s.defaults.map (fun e => (e.1, e.2.encode)))).reload

/-- Reading an arguments file (`src/gen/generate.py:20-25`). -/
def loadArgs (j : Json) : Option (List (String × PyVal)) := do
  return (← j.obj?).map (fun e => (e.1, e.2.toVal intOf))
end

/-! ### The declared parameters -/

/-- The argument name of a block size (`src/common/blockSize.py:20-31`). -/
def blockName (name var : String) : String := name ++ "_block_size_" ++ var

/-- `BlockSize` (`src/common/blockSize.py:10-34`). -/
def blockSize (rnd : Int → Int → Option Int) (name var : String) (mn mx default : Int) (metrics : List String) : Option Target := do
  let p ← Param.make rnd (blockName name var) [] (.poweroftwo mn mx) (.int default)
  return ⟨[blockName name var], [(blockName name var, metrics)], [p]⟩

end Repro
