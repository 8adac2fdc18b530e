/-!
# The compile cache

`Compiler._compile_proc_groups` (compiler/compiler.py:197-303) with `compile_config["cache"]`, `ChannelMap.write_to_cache` and `read_from_cache`
(compiler/channel_map.py:132-207), the Python builders (subcompilers/py/pyproc_compiler.py:118-151), what the runtime takes from them
(runtime/runtime.py:209-236, 573-627; builders/py_builder.py:274, 399-427; core/model/py/ports.py:139-210).

Simplifications. Classes, initial values, shapes and types of ports, transformation functions and process parameters are opaque and written as
numbers. Only Python process models, one runtime service. Processes are identified by their id (C60). `getattr` of a port name in a process that has
no such port raises; an attribute of that name which is no port is not considered. Channel payloads are empty for Python models
(channel_builders_factory.py:83-107 fills them for other models only), so only the look-ups of `read_from_cache` matter. Pickling gives the
object back.
-/

namespace Verif.Cache

/-- A Var: name, id, initial value. -/
structure VarD where
  name : String
  id : Nat
  init : Int
deriving DecidableEq, Repr

/-- A port with what `PortInitializer` records of it (compiler/utils.py:26-33): shape, type and size in `info`; for every source port (id of its
process and name, core/process/ports/ports.py:33-49) the transformation of the virtual ports in between. -/
structure PortD where
  name : String
  info : Nat
  trans : List ((Nat × String) × Nat)
deriving DecidableEq, Repr

/-- A leaf process with the process model selected for it. -/
structure ProcD where
  id : Nat
  name : String
  cls : Nat
  params : Nat
  vars : List VarD
  ports : List PortD
deriving DecidableEq, Repr

/-- The network: processes and pairs of connected ports (process id, port name). -/
structure NetD where
  procs : List ProcD
  chans : List ((Nat × String) × (Nat × String))
deriving DecidableEq, Repr

/-- `PyProcessBuilder` (py_builder.py:55-72) with `var_id_to_var_model_map`: id of a Var to the id of its process (var_model.py:61-73). -/
structure Builder where
  cls : Nat
  modelId : Nat
  params : Option Nat
  vars : List VarD
  ports : List PortD
  models : List (Nat × Nat)
deriving DecidableEq, Repr

/-- What is run: a builder for every process, and the channels with the initializers of their ends. -/
structure Exe where
  builders : List (Nat × Builder)
  chans : List (((Nat × String) × (Nat × String)) × PortD × PortD)
deriving DecidableEq, Repr

inductive Err where
  /-- "Unable to Cache. Please give unique names" (compiler.py:289-295) -/
  | names
  /-- `KeyError` of a process name, `AttributeError` of a port name -/
  | unknownName
  /-- no initializer for a port (channel_map.py:129-130) -/
  | noInitializer
  /-- no builder for a process (runtime.py:207) -/
  | noBuilder
  /-- the file cannot be read -/
  | badFile
  /-- writing was interrupted, or an object could not be pickled -/
  | crashed
  /-- "was not associated in the ProcModel" (runtime.py:581-586) -/
  | notAssociated
  /-- the service has no model of that id (runtime_service.py:95) -/
  | noModel
  /-- the model has no Var of that id (model/py/model.py:113-114) -/
  | noVar
deriving DecidableEq, Repr

/-- A dictionary given by its assignments in order. -/
def look {K A : Type} [DecidableEq K] : List (K × A) → K → Option A
  | [], _ => none
  | (a, b) :: l, k => match look l k with
    | some x => some x
    | none => if a = k then some b else none

/-- `_create_builder_for_process` (pyproc_compiler.py:118-151). -/
def build (p : ProcD) : Builder :=
  { cls := p.cls, modelId := p.id, params := some p.params, vars := p.vars, ports := p.ports, models := p.vars.map fun v => (v.id, p.id) }

/-- `_extract_proc_builders` (compiler.py:279-281). -/
def builders (n : NetD) : List (Nat × Builder) := n.procs.map fun p => (p.id, build p)

/-- The initializers set while builders are created (pyproc_compiler.py:153-275, channel_map.py:120-127). -/
def inits (n : NetD) : List ((Nat × String) × PortD) := n.procs.flatMap fun p => p.ports.map fun q => ((p.id, q.name), q)

/-- Channel builders (channel_builders_factory.py:54-80), each with the initializers of its ports. -/
def chanBuilders (i : List ((Nat × String) × PortD)) : List ((Nat × String) × (Nat × String)) →
    Except Err (List (((Nat × String) × (Nat × String)) × PortD × PortD))
  | [] => .ok []
  | (s, d) :: l =>
    match look i s, look i d with
    | some a, some b =>
      match chanBuilders i l with
      | .ok r => .ok (((s, d), a, b) :: r)
      | .error e => .error e
    | _, _ => .error .noInitializer

/-- The rest of `compile` and the start of the runtime, which needs a builder for every process (compiler.py:138-195, runtime.py:204-298). -/
def finish (n : NetD) (b : List (Nat × Builder)) (i : List ((Nat × String) × PortD)) : Except Err Exe :=
  match chanBuilders i n.chans with
  | .error e => .error e
  | .ok c => if n.procs.all fun p => (look b p.id).isSome then .ok ⟨b, c⟩ else .error .noBuilder

/-- Compilation without a cache. -/
def fresh (n : NetD) : Except Err Exe := finish n (builders n) (inits n)

/-! ### The cache -/

/-- What is stored. -/
structure Cache where
  named : List (String × Builder)
  inits : List (String × String × PortD)
  chans : List ((String × String) × (String × String))
deriving DecidableEq, Repr

/-- The file in the cache directory. -/
inductive File where
  | absent | truncated | full (c : Cache)
deriving DecidableEq, Repr

/-- Is `a` a part of `b` (`in` for strings)? -/
def hasPart (a : List Char) : List Char → Bool
  | [] => a.isPrefixOf []
  | c :: l => a.isPrefixOf (c :: l) || hasPart a l

/-- `"Process_" in p.name` (compiler.py:291). -/
def auto (s : String) : Bool := hasPart "Process_".toList s.toList

/-- `proc_to_procname_map` (compiler.py:224-229). -/
def nameOf (n : NetD) (id : Nat) : String := ((n.procs.find? fun p => p.id == id).map (·.name)).getD ""

/-- The check of the names, in the order of the builders (compiler.py:287-296). -/
def namesOk : List String → List String → Bool
  | _, [] => true
  | seen, s :: l => if seen.contains s || auto s then false else namesOk (s :: seen) l

/-- compiler.py:283-303 and channel_map.py:135-175. -/
def write (n : NetD) : Except Err Cache :=
  if namesOk [] (n.procs.map (·.name)) then
    .ok { named := n.procs.map fun p => (p.name, { build p with params := none })
          inits := n.procs.flatMap fun p => p.ports.map fun q => (p.name, q.name, q)
          chans := n.chans.map fun sd => ((nameOf n sd.1.1, sd.1.2), (nameOf n sd.2.1, sd.2.2)) }
  else .error .names

/-- `procname_to_proc_map` (compiler.py:224-229). -/
def byName (n : NetD) : List (String × ProcD) := n.procs.map fun p => (p.name, p)

/-- compiler.py:238-243. -/
def readBuilders (n : NetD) : List (String × Builder) → Except Err (List (Nat × Builder))
  | [] => .ok []
  | (s, b) :: l =>
    match look (byName n) s with
    | none => .error .unknownName
    | some p =>
      match readBuilders n l with
      | .ok r => .ok ((p.id, { b with params := some p.params }) :: r)
      | .error e => .error e

/-- A process by name and its port by name (channel_map.py:186-187, 193-200). -/
def findPort (n : NetD) (s port : String) : Option (Nat × String) :=
  match look (byName n) s with
  | none => none
  | some p => if port ∈ p.ports.map (·.name) then some (p.id, port) else none

/-- channel_map.py:185-187. -/
def readInits (n : NetD) : List (String × String × PortD) → Except Err (List ((Nat × String) × PortD))
  | [] => .ok []
  | (s, port, q) :: l =>
    match findPort n s port with
    | none => .error .unknownName
    | some k =>
      match readInits n l with
      | .ok r => .ok ((k, q) :: r)
      | .error e => .error e

/-- channel_map.py:192-207: only the look-ups have an effect. -/
def readChans (n : NetD) (l : List ((String × String) × (String × String))) : Bool :=
  l.all fun sd => (findPort n sd.1.1 sd.1.2).isSome && (findPort n sd.2.1 sd.2.2).isSome

/-- compiler.py:233-248. -/
def read (n : NetD) (c : Cache) : Except Err (List (Nat × Builder) × List ((Nat × String) × PortD)) :=
  match readBuilders n c.named with
  | .error e => .error e
  | .ok b =>
    match readInits n c.inits with
    | .error e => .error e
    | .ok i => if readChans n c.chans then .ok (b, i) else .error .unknownName

/-- `compile` with the cache enabled. `crash`: writing the file is interrupted, or fails because something cannot be pickled; the file has been
opened for writing then (compiler.py:300-301). -/
def compile (f : File) (crash : Bool) (n : NetD) : File × Except Err Exe :=
  match f with
  | .full c => (f, match read n c with
      | .error e => .error e
      | .ok (b, i) => finish n b i)
  | .truncated => (f, .error .badFile)
  | .absent =>
    match write n with
    | .error e => (.absent, .error e)
    | .ok c => if crash then (.truncated, .error .crashed) else (.full c, fresh n)

/-! ### What an executable does -/

/-- The Var that `get` and `set` of a Var with id `v` reach: id of the process and name of the Var (runtime.py:581-600, runtime_service.py:92-118,
model/py/model.py:110-116). -/
def reaches (n : NetD) (e : Exe) (v : Nat) : Except Err (Nat × String) :=
  match look (e.builders.flatMap fun b => b.2.models) v with
  | none => .error .notAssociated
  | some p =>
    if p ∈ n.procs.map (·.id) then
      match look e.builders p with
      | none => .error .noBuilder
      | some b =>
        match look (b.vars.map fun x => (x.id, x.name)) v with
        | none => .error .noVar
        | some s => .ok (p, s)
    else .error .noModel

/-- The transformation applied to what arrives over a channel, `none` for none (model/py/ports.py:160-164, runtime.py:231-236). -/
def applied (e : Exe) (c : (Nat × String) × (Nat × String)) : Option Nat :=
  match look e.builders c.2.1 with
  | none => none
  | some b =>
    match look (b.ports.map fun q => (q.name, q.trans)) c.2.2 with
    | none => none
    | some t => look t c.1

end Verif.Cache
