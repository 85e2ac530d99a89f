import Verif.Params

/-!
# The autotuner

A model of `tune/ReproBLASOpenTuner.py`. The search of the library `opentuner` is not modelled: it may propose any configurations within the ranges it was given, in
any trial, or none, and may call any configuration in those ranges the best. The building and running of the benchmarks does not touch the arguments file. The arguments
file is represented by the dictionary that `json.load` returns; between `open(..., "w")` and `close` it is `broken`. `none` stands for a Python exception.
-/
namespace Repro

/-- The range of a parameter as given to the search (`tune/ReproBLASOpenTuner.py:51-56`). -/
inductive SRange where
  | ints (lo hi : Int)
  | bool
  | pow2 (lo hi : Int)
deriving DecidableEq, Repr

/-- The range of a parameter; `/` is the integer division of Python 2 (`tune/ReproBLASOpenTuner.py:51-56`). -/
def Param.srange (p : Param) : SRange :=
  match p.flavor with
  | .integer mn mx step => .ints (mn / step) (mx / step)
  | .boolean => .bool
  | .poweroftwo mn mx => .pow2 mn mx

/-- The parameters of other vectorizations are left out (`tune/ReproBLASOpenTuner.py:50`). -/
def Param.tunable (vec : String) (p : Param) : Bool :=
  match dget p.tags "vectorization" with
  | none => true
  | some t => t == vec

/-- `manipulator` (`tune/ReproBLASOpenTuner.py:46-57`): the names and ranges given to the search for a benchmark. -/
def manipulator (s : Space) (vec bench : String) : Option (List (String × SRange)) := do
  let names ← dget s.fmet bench
  let ps ← names.mapM (dget s.params)
  return (ps.filter (Param.tunable vec)).map (fun p => (p.name, p.srange))

/-- A configuration proposed by the search. -/
abbrev Config := List (String × PyVal)

/-- The value written for a proposed value: integers are multiplied by the step (`tune/ReproBLASOpenTuner.py:90-95`). -/
def Param.toArg (p : Param) (v : PyVal) : Option PyVal :=
  match p.flavor, v with
  | .integer _ _ step, .int n => some (.int (n * step))
  | .integer _ _ _, _ => none
  | .boolean, v => some v
  | .poweroftwo _ _, v => some v

/-- One pass of the loop over a configuration (`tune/ReproBLASOpenTuner.py:88-95, 126-133`). -/
def applyConf (s : Space) (args : List (String × PyVal)) (c : Config) : Option (List (String × PyVal)) :=
  c.foldlM (fun d e => (dget s.params e.1).bind fun p => (p.toArg e.2).map (dset d p.name)) args

/-- The arguments file. -/
inductive FileSt where
  | missing
  | broken
  | ok (args : List (String × PyVal))
deriving DecidableEq

/-- The arguments a run starts from (`tune/ReproBLASOpenTuner.py:68-73`). -/
def startArgs (s : Space) : FileSt → Option (List (String × PyVal))
  | .missing => some s.defaults
  | .broken => none
  | .ok a => some a

/-- The trials of a run (`tune/ReproBLASOpenTuner.py:75-100`): every trial starts again from `args` and writes the file if the search of at least one benchmark
proposes something. The result lists the states of the file and says whether there was no exception. -/
def runTrials (s : Space) (args : List (String × PyVal)) : List (List (Option Config)) → List FileSt × Bool
  | [] => ([], true)
  | t :: ts =>
    match (t.filterMap id).foldlM (applyConf s) args with
    | none => ([], false)
    | some a =>
      let r := runTrials s args ts
      if (t.filterMap id).isEmpty then r else (.broken :: .ok a :: r.1, r.2)

/-- A run: the benchmarks, what their searches propose in each trial, what they call the best at the end (one configuration per benchmark, in order). -/
structure Phase where
  benchs : List String
  trials : List (List (Option Config))
  best : List Config

/-- `run` (`tune/ReproBLASOpenTuner.py:66-135`). -/
def tunerRun (s : Space) (f : FileSt) (ph : Phase) : List FileSt × Bool :=
  match startArgs s f with
  | none => ([], false)
  | some args =>
    let r := runTrials s args ph.trials
    if r.2 then
      match ph.best.foldlM (applyConf s) args with
      | none => (r.1, false)
      | some b => (r.1 ++ [.broken, .ok b], true)
    else (r.1, false)

/-- `main` (`tune/ReproBLASOpenTuner.py:137-199`): one run after the other, each reading the file again. The states of the file are listed from the first one on. -/
def session (s : Space) (f : FileSt) : List Phase → List FileSt × Bool
  | [] => ([f], true)
  | ph :: phs =>
    let r := tunerRun s f ph
    if r.2 then
      let q := session s ((f :: r.1).getLast (by simp)) phs
      ((f :: r.1).dropLast ++ q.1, q.2)
    else (f :: r.1, false)

/-- Code generation from an arguments file (`src/gen/generate.py:262-264`). -/
def generateFrom (rnd : Int → Int → Option Int) (s : Space) (f : FileSt) (t : Target) : Option (List (String × PyVal)) :=
  match f with
  | .ok a => t.setArguments rnd a s
  | _ => none

end Repro
