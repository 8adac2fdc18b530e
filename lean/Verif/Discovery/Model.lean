/-!
# Model of the search for process models

`ProcGroupDiGraphs._find_proc_models_in_module` and `_find_proc_models`
(`src/lava/magma/compiler/compiler_graphs.py:757-903`).

A class of an imported module is identified by the name of the module and its own name. Executing the file of a module again makes new classes,
which are different from all imported ones; they get the plain name of the file as module name.
-/

namespace Verif.Discovery

/-- The class a model was declared to implement (`@implements(proc=..)`), seen from the file of the model. -/
inductive Ref where
  /-- a class of the same file -/
  | own (name : String)
  /-- a class that the file imports, by module and name -/
  | ext (mod name : String)
deriving DecidableEq

/-- An entry of the dictionary of a module that is a class. `defined`: it was made by the file itself (`cls.__module__ == module.__name__`),
not imported. `impl`: the value of the attribute `implements_process`, which subclasses inherit. -/
structure Cls where
  name : String
  defined : Bool
  isModel : Bool
  impl : Option Ref
deriving DecidableEq

/-- A Python file of a directory. `executes`: it can be executed under its plain name, without a parent package – relative imports cannot. -/
structure File where
  stem : String
  executes : Bool
  classes : List Cls
deriving DecidableEq

/-- `_find_proc_models_in_module` (compiler_graphs.py:757-792) for the imported module of the process `P` (named `name` in it). -/
def inOwnModule (name : String) (l : List Cls) : List Cls :=
  l.filter fun c => c.defined && c.isModel && decide (c.impl = some (.own name))

/-- The same for a module that was executed anew: a class of the same file is a copy, never the class of the process. -/
def inFreshModule (mod name : String) (l : List Cls) : List Cls :=
  l.filter fun c => c.defined && c.isModel && decide (c.impl = some (.ext mod name))

/-- What the search sees. `dirs`: the directories searched (compiler_graphs.py:844-868), with repetitions; `lookup stem` is
`importlib.import_module(package + '.' + stem)` (compiler_graphs.py:884-888): the module name and the names of its attributes, `none` if it
raises. -/
structure World where
  procMod : String
  procName : String
  /-- the dictionary of the module of the process -/
  ownClasses : List Cls
  dirs : List (List File)
  lookup : String → Option (String × List String)

/-- An imported class. -/
abbrev Id := String × String

/-- The inner loop over the models of a file (compiler_graphs.py:884-893): stops at the first exception. -/
def addModels (lookup : String → Option (String × List String)) (stem : String) : List Cls → List Id → List Id
  | [], found => found
  | c :: cs, found =>
    match lookup stem with
    | none => found
    | some (m, attrs) =>
      if c.name ∈ attrs then addModels lookup stem cs (if (m, c.name) ∈ found then found else found ++ [(m, c.name)])
      else found

/-- One file (compiler_graphs.py:876-899). -/
def addFile (w : World) (found : List Id) (f : File) : List Id :=
  if f.executes then addModels w.lookup f.stem (inFreshModule w.procMod w.procName f.classes) found else found

/-- `_find_proc_models` (compiler_graphs.py:795-903): `none` is `NoProcessModelFound`. -/
def findModels (w : World) : Option (List Id) :=
  let found := w.dirs.flatten.foldl (addFile w) ((inOwnModule w.procName w.ownClasses).map fun c => (w.procMod, c.name))
  if found = [] then none else some found

/-! ## The directories -/

/-- The package of the process, as far as the search sees it: `none` for a script (`__main__`) and for a module without a package
(compiler_graphs.py:848-850). `modDirs`: the directory of the file of every module of the package (compiler_graphs.py:852-868), for a plain
module the directory of the package. -/
structure Pkg where
  modDirs : List Nat

/-- compiler_graphs.py:843-868. -/
def searchDirs (home : Nat) : Option Pkg → List Nat
  | none => [home]
  | some p => home :: p.modDirs

/-- How often a search executes the files of directory `d`. -/
def executions (home : Nat) (p : Option Pkg) (d : Nat) : Nat := (searchDirs home p).count d

end Verif.Discovery
