import Verif.Compiler.Model
import Verif.Learning.FloatModel

/-!
# Model of the wiring of ports

How the runtime turns the channel map into channels and ports of process models: `ChannelBuildersFactory.from_channel_map` (magma/compiler/subcompilers/
channel_builders_factory.py), `Runtime._build_channels` (magma/runtime/runtime.py:209-254) and `PyProcessBuilder` (magma/compiler/builders/py_builder.py).

All process models are Python models; the channel map is the list of its keys (its construction is C31). A channel is a number and has two ends.
-/

namespace Verif.Wiring

open Verif.Compiler (dictSet dictGet dictAppend)

inductive PKind where
  | inp | out | ref | var
  deriving DecidableEq, Repr

/-- A port of a leaf process: id of the process, name and class of the port. -/
structure Port where
  proc : Nat
  name : String
  kind : PKind
  deriving DecidableEq, Repr

/-- A CSP port: `send` says which end of the channel it is; its name is the name of the port (channel_builder.py:143-152). -/
structure End where
  chan : Nat
  send : Bool
  name : String
  deriving DecidableEq, Repr

/-- A `ChannelBuilderMp` (channel_builder.py:97-107). -/
structure CB where
  src : Port
  dst : Port
  deriving DecidableEq, Repr

/-- `from_channel_map` for channels between Python models (channel_builders_factory.py:54-184): a second builder for the way back from a VarPort. -/
def builders (pairs : List (Port × Port)) : List CB :=
  pairs.flatMap fun p => ⟨p.1, p.2⟩ :: (if p.2.kind = .var then [⟨p.2, p.1⟩] else [])

/-- `create_port_id` (process/ports/ports.py:33-49). -/
def portId (proc : Nat) (name : String) : List Char := Learning.natText proc ++ '_' :: name.toList

/-- What a `PyProcessBuilder` knows about CSP ports (py_builder.py:68-69). -/
structure PB where
  csp : List (String × List End)
  cmap : List (String × List (List Char × End))
  deriving DecidableEq

/-- `set_csp_ports` for one CSP port (py_builder.py:173-207): refused if the process model has no attribute of that name. -/
def setCsp (has : String → Bool) (e : End) (b : PB) : Option PB :=
  if has e.name then some { b with csp := dictAppend e.name e b.csp } else none

/-- `add_csp_port_mapping` (py_builder.py:209-225). -/
def addMapping (id : List Char) (e : End) (b : PB) : PB :=
  { b with cmap := dictSet e.name (dictSet id e ((dictGet e.name b.cmap).getD [])) b.cmap }

/-- The process builders, by process. -/
abbrev Builders := Nat → PB

def upd (s : Builders) (p : Nat) (b : PB) : Builders := fun q => if q = p then b else s q

/-- One turn of `_build_channels` (runtime.py:212-237): channel number `k`. -/
def buildOne (has : Nat → String → Bool) (k : Nat) (c : CB) (s : Builders) : Option Builders :=
  (setCsp (has c.src.proc) ⟨k, true, c.src.name⟩ (s c.src.proc)).bind fun b =>
    let s := upd s c.src.proc b
    (setCsp (has c.dst.proc) ⟨k, false, c.dst.name⟩ (s c.dst.proc)).map fun b =>
      upd s c.dst.proc (addMapping (portId c.src.proc c.src.name) ⟨k, false, c.dst.name⟩ b)

/-- `_build_channels` (runtime.py:209-237). -/
def buildFrom (has : Nat → String → Bool) : Nat → List CB → Builders → Option Builders
  | _, [], s => some s
  | k, c :: cs, s => (buildOne has k c s).bind (buildFrom has (k + 1) cs)

def empty : Builders := fun _ => ⟨[], []⟩

def buildChannels (has : Nat → String → Bool) (pairs : List (Port × Port)) : Option Builders := buildFrom has 0 (builders pairs) empty

/-- CSP ports handed to a PyInPort or PyOutPort (py_builder.py:281-285). -/
def ioEnds (s : Builders) (p : Port) : List End := (dictGet p.name (s p.proc).csp).getD []

/-- CSP ports handed to a PyRefPort or PyVarPort: the send and the receive port (py_builder.py:316-327, 353-364). A missing second element would raise. -/
def rvEnds (s : Builders) (p : Port) : Option (End × End) :=
  match dictGet p.name (s p.proc).csp with
  | some (a :: r) =>
    (if a.send then some a else r.head?).bind fun snd => (if a.send then r.head? else some a).map fun rcv => (snd, rcv)
  | _ => none

/-- `VirtualPortTransformer` (model/py/ports.py:130-210) or `IdentityTransformer`: the functions applied to data received on `e` by port `p`, whose transformation functions
are `funcs`; `none` raises. The inner dictionary is searched by CSP port; later entries of `csp_ports.items()` would overwrite earlier ones. -/
def transformers {F : Type} (s : Builders) (p : Port) (funcs : List (List Char × List F)) (e : End) : Option (List F) :=
  if funcs.isEmpty then some []
  else
    let m := (dictGet p.name (s p.proc).cmap).getD []
    (m.reverse.find? fun x => x.2 = e).map fun x => (dictGet x.1 funcs).getD []

/-! ## Messages -/

/-- The channels as queues (their correctness is C01). -/
abbrev Queues (V : Type) := Nat → List V

inductive Op (V : Type) where
  | send (p : Port) (v : V)
  | recv (q : Port)

/-- `PyOutPortVectorDense.send` (model/py/ports.py:486-497). -/
def sendAll {V : Type} (v : V) (es : List End) (qs : Queues V) : Queues V := es.foldl (fun qs e => fun k => if k = e.chan then qs k ++ [v] else qs k) qs

/-- `PyInPortVectorDense.recv` (model/py/ports.py:333-351): blocks while a channel is empty, modelled as doing nothing. `tr` transforms data received on a CSP port. -/
def recvAll {V : Type} [Add V] (tr : End → V → V) (es : List End) (zero : V) (qs : Queues V) : Option (V × Queues V) :=
  es.foldlM (fun (a : V × Queues V) e => match a.2 e.chan with
    | [] => none
    | v :: r => some (a.1 + tr e v, fun k => if k = e.chan then r else a.2 k)) (zero, qs)

/-- What happened so far: queues and, per port, the values received. -/
structure MSt (V : Type) where
  qs : Queues V
  got : Port → List V

/-- One operation of a process model. -/
def mStep {V : Type} [Add V] [Zero V] (s : Builders) (tr : Port → End → V → V) (m : MSt V) : Op V → MSt V
  | .send p v => { m with qs := sendAll v (ioEnds s p) m.qs }
  | .recv q => match recvAll (tr q) (ioEnds s q) 0 m.qs with
    | none => m
    | some (v, qs) => { qs := qs, got := fun r => if r = q then m.got r ++ [v] else m.got r }

def mRun {V : Type} [Add V] [Zero V] (s : Builders) (tr : Port → End → V → V) (ops : List (Op V)) : MSt V :=
  ops.foldl (mStep s tr) { qs := fun _ => [], got := fun _ => [] }

/-- `PyInPortVectorSparse.recv` reads the first CSP port only (model/py/ports.py:375-381). -/
def sparseSources (s : Builders) (q : Port) : List End := (ioEnds s q).take 1

end Verif.Wiring
