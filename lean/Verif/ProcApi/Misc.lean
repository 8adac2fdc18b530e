import Verif.ProcApi.Collection

/-
Models of
* `src/lava/utils/serialization.py` (save and load),
* `src/lava/proc/monitor/process.py`, `src/lava/proc/monitor/models.py` (Monitor),
* `src/lava/magma/core/decorator.py` (implements, requires, tag),
* `src/lava/utils/slurm.py` (SLURM environment).
-/

namespace Verif.ProcApi

/-! ### Saving and loading -/

/-- Contents of a file: a pickled `SerializationObject` with its processes and executable
(serialization.py:13-31), or something that does not unpickle to one (for instance a file cut off by
a failing write). -/
inductive File where
  | obj (processes : Nat) (executable : Option Nat)
  | other
deriving DecidableEq, Repr

/-- A file system: names to contents. -/
abbrev FS := String → Option File

def FS.write (fs : FS) (n : String) (f : File) : FS := fun m => if m = n then some f else fs m

/-- The file written for a name: `".pickle"` is appended if there is no dot anywhere in the name
(serialization.py:73-75). -/
def saveName (n : String) : String := if '.' ∈ n.toList then n else n ++ ".pickle"

/-- `save` (serialization.py:34-79).  `dumpOk` is whether pickling succeeds; opening for writing has
already emptied the file when it does not. -/
def save (fs : FS) (processes : Nat) (n : String) (executable : Option Nat) (dumpOk : Bool) : FS :=
  fs.write (saveName n) (if dumpOk then .obj processes executable else .other)

/-- Outcomes of `load` (serialization.py:82-128). -/
inductive Load where
  | ok (processes : Nat) (executable : Option Nat)
  | osError
  | badFile
deriving DecidableEq, Repr

/-- `load` (serialization.py:115-128): the name is used as it is. -/
def load (fs : FS) (n : String) : Load :=
  match fs n with
  | none => .osError
  | some .other => .badFile
  | some (.obj p e) => .ok p e

/-! ### Monitor -/

/-- A Var or OutPort that can be probed. -/
structure Target where
  proc : String
  name : String
  isVar : Bool
deriving DecidableEq, Repr

/-- Monitor process (process.py:44-115 of proc/monitor): attribute `ref_port_i` is known by its
index `i`.  The lists hold the names stored in `proc_params`; a name is an index, too. -/
structure Mon where
  nRef : Nat
  nIn : Nat
  refPorts : List Nat
  varsData1 : List Nat
  inPorts : List Nat
  varsData2 : List Nat
  refConn : Nat → Option Target
  inConn : Nat → Option Target
  rows1 : Nat → Option Nat
  rows2 : Nat → Option Nat
  names1 : Nat → Option Target
  names2 : Nat → Option Target
  data : List (String × List (String × Option (List Int)))

def upd {α : Type} (f : Nat → α) (i : Nat) (v : α) : Nat → α := fun j => if j = i then v else f j

/-- `Monitor.__init__` and `post_init` (monitor/process.py:54-114): prototypes with index 0. -/
def Mon.init : Mon :=
  { nRef := 0
    nIn := 0
    refPorts := []
    varsData1 := []
    inPorts := []
    varsData2 := []
    refConn := fun _ => none
    inConn := fun _ => none
    rows1 := fun i => if i = 0 then some 1 else none
    rows2 := fun i => if i = 0 then some 1 else none
    names1 := fun _ => none
    names2 := fun _ => none
    data := [] }

/-- `probe` (monitor/process.py:116-207) for a Var or OutPort: new ports and data Vars under the
next index; the names appended to `proc_params` are those of the prototypes, index 0. -/
def Mon.probe (m : Mon) (t : Target) (steps : Nat) : Mon :=
  { nRef := if t.isVar then m.nRef + 1 else m.nRef
    nIn := if t.isVar then m.nIn else m.nIn + 1
    refPorts := m.refPorts ++ [0]
    varsData1 := m.varsData1 ++ [0]
    inPorts := m.inPorts ++ [0]
    varsData2 := m.varsData2 ++ [0]
    refConn := upd m.refConn m.nRef (if t.isVar then some t else none)
    inConn := upd m.inConn m.nIn (if t.isVar then none else some t)
    rows1 := upd m.rows1 m.nRef (some steps)
    rows2 := upd m.rows2 m.nIn (some steps)
    names1 := if t.isVar then upd m.names1 m.nRef (some t) else m.names1
    names2 := if t.isVar then m.names2 else upd m.names2 m.nIn (some t)
    data := dictSet m.data t.proc [(t.name, none)] }

/-- The compiler accepts the monitor only if every port and Var of the process has a counterpart in
`PyMonitorModel`, which has index 0 only (monitor/models.py:22-29,
compiler/builders/interfaces.py:79-102). -/
def Mon.compiles (m : Mon) : Prop := ∀ i, 0 < i → m.rows1 i = none ∧ m.rows2 i = none

/-- Recorded arrays of the running model: `var_read_0`, `out_read_0`. -/
structure Rec where
  var0 : List Int
  out0 : List Int
deriving DecidableEq, Repr

/-- The arrays start as zeros (`init=0`). -/
def Mon.start (m : Mon) : Rec :=
  ⟨List.replicate ((m.rows1 0).getD 0) 0, List.replicate ((m.rows2 0).getD 0) 0⟩

/-- One row assignment `arr[t - 1, ...] = v`; `none` is `IndexError`. -/
def setRow (arr : List Int) (t : Nat) (v : Int) : Option (List Int) :=
  if t - 1 < arr.length then some (arr.set (t - 1) v) else none

/-- `run_spk` and `run_post_mgmt` in time step `t` (monitor/models.py:34-61) of a compiled monitor:
`val` gives the value that a target has (Var, after the spiking phase) or sends (OutPort) in step
`t`.  Every name in the lists is index 0.  `none`: `IndexError`, or a read of an unconnected port. -/
def Mon.step (m : Mon) (val : Target → Nat → Int) (t : Nat) (r : Rec) : Option Rec :=
  let out := (m.inPorts.take m.nIn).foldl (init := some r.out0) fun acc i =>
    acc.bind fun arr => (m.inConn i).bind fun tg => setRow arr t (val tg t)
  let var := (m.refPorts.take m.nRef).foldl (init := some r.var0) fun acc i =>
    acc.bind fun arr => (m.refConn i).bind fun tg => setRow arr t (val tg t)
  out.bind fun o => var.bind fun v => some ⟨v, o⟩

/-- `T` time steps. -/
def Mon.run (m : Mon) (val : Target → Nat → Int) : Nat → Option Rec
  | 0 => some m.start
  | t + 1 => (m.run val t).bind (m.step val (t + 1))

/-- One assignment `self.data[p][n] = v` of `get_data`. -/
def putData (d : List (String × List (String × Option (List Int)))) (t : Target) (v : List Int) :
    List (String × List (String × Option (List Int))) :=
  dictSet d t.proc (dictSet ((dictGet d t.proc).getD []) t.name (some v))

/-- `get_data` (monitor/process.py:209-237). -/
def Mon.getData (m : Mon) (r : Rec) : List (String × List (String × Option (List Int))) :=
  let d1 := (m.varsData2.take m.nIn).foldl (init := m.data) fun d i =>
    match m.names2 i with
    | some t => putData d t r.out0
    | none => d
  (m.varsData1.take m.nRef).foldl (init := d1) fun d i =>
    match m.names1 i with
    | some t => putData d t r.var0
    | none => d

/-- What `monitor.get_data()[proc][name]` yields. -/
def lookupData (d : List (String × List (String × Option (List Int)))) (p n : String) :
    Option (Option (List Int)) :=
  (dictGet d p).bind fun inner => dictGet inner n

/-! ### Decorators -/

/-- Own attributes of a process model class; lists are addresses in the heap, as in Python. -/
structure Cls where
  /-- method resolution order without the class itself, nearest first -/
  mro : List Nat
  proc : Option Nat := none
  prot : Option Nat := none
  res : Option Nat := none
  tags : Option Nat := none
deriving DecidableEq, Repr

/-- Classes and heap of lists (resources and tags are numbers). -/
structure World where
  cls : List Cls
  heap : List (List Nat)
deriving DecidableEq, Repr

/-- `AbstractProcessModel` (model.py:76-79) is class 0 with two empty lists. -/
def World.base : World := ⟨[{ mro := [], res := some 0, tags := some 1 }], [[], []]⟩

/-- Attribute lookup on a class: first class along the MRO with an own value. -/
def World.attr (w : World) (get : Cls → Option Nat) (c : Nat) : Option Nat :=
  match w.cls[c]? with
  | none => none
  | some k => (c :: k.mro).findSome? (fun i => (w.cls[i]?).bind get)

def World.listOf (w : World) (get : Cls → Option Nat) (c : Nat) : List Nat :=
  ((w.attr get c).bind (fun a => w.heap[a]?)).getD []

/-- A new class with one base class (the MRO is the base and its MRO); returns its number. -/
def World.subclass (w : World) (b : Nat) : Nat × World :=
  (w.cls.length, { w with cls := w.cls ++ [{ mro := b :: ((w.cls[b]?).map (·.mro)).getD [] }] })

def World.setCls (w : World) (c : Nat) (f : Cls → Cls) : World := { w with cls := w.cls.modify c f }

/-- `implements` (decorator.py:13-66); `none` is `AssertionError`.  The process check and its
`setattr` come before the protocol check. -/
def World.implements (w : World) (c : Nat) (proc prot : Option Nat) : Option World :=
  if (w.attr (·.proc) c).isSome ∧ proc.isSome ∧ w.attr (·.proc) c ≠ proc then none
  else
    let w1 := match proc with
      | some p => w.setCls c (fun k => { k with proc := some p })
      | none => w
    if (w1.attr (·.prot) c).isSome ∧ prot.isSome ∧ w1.attr (·.prot) c ≠ prot then none
    else
      match prot with
      | some p => some (w1.setCls c (fun k => { k with prot := some p }))
      | none => some w1

/-- `requires` (decorator.py:69-105): a copy of the inherited list plus the new entries becomes an
own attribute. -/
def World.requires (w : World) (c : Nat) (reqs : List Nat) : World :=
  let l := w.listOf (·.res) c ++ reqs
  { cls := w.cls.modify c (fun k => { k with res := some w.heap.length }), heap := w.heap ++ [l] }

/-- `tag` (decorator.py:108-168). -/
def World.tag (w : World) (c : Nat) (ts : List Nat) : World :=
  let l := w.listOf (·.tags) c ++ ts
  { cls := w.cls.modify c (fun k => { k with tags := some w.heap.length }), heap := w.heap ++ [l] }

/-! ### SLURM -/

/-- Outcome of running a command (slurm.py:218-239): output text, `SubprocessError`, or another
exception such as `FileNotFoundError`, which is not caught. -/
inductive Cmd where
  | out (stdout : List Char)
  | subprocessError
  | otherError
deriving DecidableEq, Repr

/-- `str.split("\n")`. -/
def splitLines : List Char → List (List Char)
  | [] => [[]]
  | c :: cs =>
    if c = '\n' then [] :: splitLines cs
    else
      match splitLines cs with
      | [] => [[c]]
      | l :: ls => (c :: l) :: ls

/-- `str.split()` on blanks and tabs (the lines contain no newline). -/
def fields : List Char → List (List Char)
  | [] => []
  | c :: cs =>
    if c = ' ' ∨ c = '\t' then fields cs
    else
      match cs, fields cs with
      | [], _ => [[c]]
      | d :: _, fs =>
        if d = ' ' ∨ d = '\t' then [c] :: fs
        else
          match fs with
          | [] => [[c]]
          | f :: rest => (c :: f) :: rest

/-- Exceptions of this module. -/
inductive SErr where
  | valueError
  | indexError
  | otherError
deriving DecidableEq, Repr

/-- `try_run_command` (slurm.py:218-239). -/
def tryRun : Cmd → Except SErr (List (List Char))
  | .out s => .ok (splitLines s)
  | .subprocessError => .ok []
  | .otherError => .error .otherError

/-- `is_available` (slurm.py:12-16). -/
def isAvailable (sinfo : Cmd) : Except SErr Bool :=
  match tryRun sinfo with
  | .ok ls => .ok (!ls.isEmpty)
  | .error e => .error e

/-- `PartitionInfo` / `BoardInfo` reduced to name, partition and state (slurm.py:156-163, 211-215). -/
structure Info where
  name : List Char
  partition : List Char
  state : List Char
deriving DecidableEq, Repr

/-- `parse_partition` (slurm.py:119-132): only the name is mandatory. -/
def parsePartition (line : List Char) : Except SErr Info :=
  match fields line with
  | [] => .error .indexError
  | n :: rest => .ok ⟨n, n, (rest[3]?).getD []⟩

/-- `parse_board` (slurm.py:181-186). -/
def parseBoard (line : List Char) : Except SErr Info :=
  match fields line with
  | n :: _ :: p :: s :: _ => .ok ⟨n, p, s⟩
  | _ => .error .indexError

/-- List comprehension with a function that may raise. -/
def mapE (f : List Char → Except SErr Info) : List (List Char) → Except SErr (List Info)
  | [] => .ok []
  | l :: ls =>
    match f l with
    | .error e => .error e
    | .ok i =>
      match mapE f ls with
      | .error e => .error e
      | .ok is => .ok (i :: is)

/-- `get_partitions` / `get_boards` (slurm.py:104-133, 166-188): first `sinfo`, then the listing;
the header line is deleted. -/
def getInfos (parse : List Char → Except SErr Info) (sinfo listing : Cmd) : Except SErr (List Info) :=
  match isAvailable sinfo with
  | .error e => .error e
  | .ok false => .ok []
  | .ok true =>
    match tryRun listing with
    | .error e => .error e
    | .ok [] => .error .indexError
    | .ok (_ :: lines) => mapE parse lines

/-- Substring test (`"down" in state`). -/
def hasSub (pat : List Char) : List Char → Bool
  | [] => pat.isEmpty
  | c :: cs => pat.isPrefixOf (c :: cs) || hasSub pat cs

/-- The environment variables touched by this module. -/
structure Env where
  slurm : Option (List Char) := none
  noslurm : Option (List Char) := none
  board : Option (List Char) := none
  partition : Option (List Char) := none
deriving DecidableEq, Repr

/-- `enable` (slurm.py:19-26). -/
def slurmEnable (sinfo : Cmd) (e : Env) : Except SErr Env :=
  match isAvailable sinfo with
  | .error x => .error x
  | .ok false => .error .valueError
  | .ok true => .ok { e with slurm := some ['1'], noslurm := none }

/-- `disable` (slurm.py:29-32). -/
def slurmDisable (e : Env) : Env := { e with slurm := none, noslurm := some ['1'] }

/-- `get_board_info` / `get_partition_info` (slurm.py:136-153, 191-208). -/
def findInfo (n : List Char) (is : List Info) : Option Info := is.find? (fun i => i.name == n)

/-- `set_board` (slurm.py:35-69); an empty partition string counts as none given. -/
def slurmSetBoard (sinfo listing : Cmd) (b part : Option (List Char)) (e : Env) : Except SErr Env :=
  match b with
  | none => .ok { e with board := none }
  | some n =>
    match getInfos parseBoard sinfo listing with
    | .error x => .error x
    | .ok is =>
      match findInfo n is with
      | none => .error .valueError
      | some i =>
        if hasSub "down".toList i.state then .error .valueError
        else if part.getD [] ≠ [] ∧ part ≠ some i.partition then .error .valueError
        else .ok { e with board := some n }

/-- `set_partition` (slurm.py:72-93). -/
def slurmSetPartition (sinfo listing : Cmd) (p : Option (List Char)) (e : Env) : Except SErr Env :=
  match p with
  | none => .ok { e with partition := none }
  | some n =>
    match getInfos parsePartition sinfo listing with
    | .error x => .error x
    | .ok is =>
      match findInfo n is with
      | none => .error .valueError
      | some i =>
        if hasSub "down".toList i.state then .error .valueError
        else .ok { e with partition := some n }

inductive SOp where
  | enable (sinfo : Cmd)
  | disable
  | setBoard (sinfo listing : Cmd) (b part : Option (List Char))
  | setPartition (sinfo listing : Cmd) (p : Option (List Char))
deriving DecidableEq, Repr

/-- One call; a call that raises leaves the environment as it was. -/
def SOp.apply (e : Env) : SOp → Except SErr Env
  | .enable s => slurmEnable s e
  | .disable => .ok (slurmDisable e)
  | .setBoard s l b p => slurmSetBoard s l b p e
  | .setPartition s l p => slurmSetPartition s l p e

def SOp.step (e : Env) (o : SOp) : Env :=
  match o.apply e with
  | .ok e' => e'
  | .error _ => e

end Verif.ProcApi
