/-!
# Model of the compiler's bookkeeping

`src/lava/magma/compiler/compiler.py`, `channel_map.py`, `subcompilers/channel_map_updater.py`. The sub-compilers'
own code generation is not modelled here.
-/

namespace Verif.Compiler

/-- Type of a process model as seen by the compiler. -/
inductive Kind where
  | py | c | nc | other
deriving DecidableEq, Repr

/-- What the compiler knows about a process. `proto` is `implements_protocol`, `none` if there is none. -/
structure Proc where
  id : Nat
  kind : Kind
  proto : Option Nat
deriving DecidableEq, Repr

/-- `SyncDomain` (core/sync/domain.py:10-51): `protocol` is the class of the protocol instance. -/
structure Domain where
  name : String
  protocol : Nat
  procs : List Proc
deriving DecidableEq, Repr

/-- Protocol classes: names, the subclass relation, and AsyncProtocol. -/
structure Protocols where
  name : Nat → String
  sub : Nat → Nat → Bool
  async : Nat

/-- Auto-assign AsyncProtocol (compiler.py:643-648 and 679-684). -/
def Proc.protoOf (pr : Protocols) (p : Proc) : Nat := p.proto.getD pr.async

inductive Err where
  | nameTwice | incompatible | processTwice
deriving DecidableEq, Repr

/-- The dictionaries `sync_domains` (in insertion order) and `proc_to_domain_map`. -/
structure SdState where
  domains : List Domain
  map : List (Proc × String)
deriving DecidableEq, Repr

/-- Domain name of a process. -/
def lookup (p : Proc) (m : List (Proc × String)) : Option String := (m.find? fun e => e.1 = p).map (·.2)

/-- Loop over the processes of a custom domain (compiler.py:638-670). -/
def mapCustom (pr : Protocols) (d : Domain) : List Proc → List (Proc × String) → Except Err (List (Proc × String))
  | [], m => .ok m
  | p :: ps, m =>
    if pr.sub d.protocol (p.protoOf pr) = false then .error .incompatible
    else if (lookup p m).isSome then .error .processTwice
    else mapCustom pr d ps (m ++ [(p, d.name)])

/-- Loop over the custom domains (compiler.py:628-673). -/
def addCustom (pr : Protocols) : List Domain → SdState → Except Err SdState
  | [], s => .ok s
  | d :: ds, s =>
    if d.name ∈ s.domains.map Domain.name then .error .nameTwice
    else
      match mapCustom pr d d.procs s.map with
      | .error e => .error e
      | .ok m => addCustom pr ds { domains := s.domains ++ [d], map := m }

/-- Name of the default domain of a process (compiler.py:689-691). -/
def defaultName (pr : Protocols) (p : Proc) : String :=
  if p.kind = .py then pr.name (p.protoOf pr) ++ "_SyncDomain"
  else pr.name (p.protoOf pr) ++ "_Nc_C" ++ "_SyncDomain"

/-- `sd.add_process(p)` for the domain called `n`. -/
def addTo (n : String) (p : Proc) (ds : List Domain) : List Domain :=
  ds.map fun d => if d.name = n then { d with procs := d.procs ++ [p] } else d

/-- Assignment of one process to a default domain (compiler.py:677-700). -/
def assign (pr : Protocols) (s : SdState) (p : Proc) : SdState :=
  if (lookup p s.map).isSome then s
  else
    let n := defaultName pr p
    let ds := if n ∈ s.domains.map Domain.name then s.domains
      else s.domains ++ [{ name := n, protocol := p.protoOf pr, procs := [] }]
    { domains := addTo n p ds, map := s.map ++ [(p, n)] }

/-- `_create_sync_domains` (compiler.py:604-712) up to the node dictionary; `procs` are the processes of all
groups. -/
def createSyncDomains (pr : Protocols) (custom : List Domain) (procs : List Proc) : Except Err SdState :=
  match addCustom pr custom { domains := [], map := [] } with
  | .error e => .error e
  | .ok s => .ok (procs.foldl (assign pr) s)

/-! ## Sub-compilers and nodes -/

/-- Sub-compiler for a kind of model; `none` is NotImplementedError. -/
def compilerOf : Kind → Option Kind
  | .py => some .py
  | .c => some .c
  | .nc => some .nc
  | .other => none

/-- `setdefault(k, []).append(p)` on an insertion ordered dictionary. -/
def dictAppend {κ β : Type} [DecidableEq κ] (k : κ) (v : β) : List (κ × List β) → List (κ × List β)
  | [] => [(k, [v])]
  | (k', vs) :: rest => if k' = k then (k', vs ++ [v]) :: rest else (k', vs) :: dictAppend k v rest

/-- `_map_subcompiler_type_to_procs` (compiler.py:307-344); `none` is NotImplementedError. -/
def mapSubcompilers : List Proc → List (Kind × List Proc) → Option (List (Kind × List Proc))
  | [], d => some d
  | p :: ps, d =>
    match compilerOf p.kind with
    | none => none
    | some k => mapSubcompilers ps (dictAppend k p d)

/-- Put `c` before `nc` by swapping them (compiler.py:396-406): positions of the two kinds in the list. -/
def swapCNc (l : List (Kind × List Proc)) : List (Kind × List Proc) :=
  let ci := l.findIdx fun e => e.1 = .c
  let ni := l.findIdx fun e => e.1 = .nc
  if ci < l.length ∧ ni < l.length ∧ ni < ci then
    match l[ci]?, l[ni]? with
    | some a, some b => (l.set ci b).set ni a
    | _, _ => l
  else l

/-- Kinds of nodes. -/
inductive NodeT where
  | head | oheoGulch | nahuku
deriving DecidableEq, Repr

/-- Node for a process (compiler.py:564-595); `none` is NotImplementedError ("Not Supported"). `gen` is
`loihi_gen.upper()`. -/
def nodeOf (gen : String) (p : Proc) : Option NodeT :=
  if p.kind = .nc ∨ p.kind = .c then
    if gen = "OHEOGULCH" then some .oheoGulch
    else if gen = "NAHUKU" then some .nahuku
    else none
  else some .head

/-- `_create_node_cfgs` (compiler.py:472-602): the nodes with their processes, before the set of nodes is put in
some order. -/
def createNodes (gen : String) : List Proc → List (NodeT × List Proc) → Option (List (NodeT × List Proc))
  | [], d => some d
  | p :: ps, d =>
    match nodeOf gen p with
    | none => none
    | some k => createNodes gen ps (dictAppend k p d)

/-! ## Runtime services -/

/-- Assignment to a key of an insertion ordered dictionary. -/
def dictSet {κ β : Type} [DecidableEq κ] (k : κ) (v : β) : List (κ × β) → List (κ × β)
  | [] => [(k, v)]
  | (k', v') :: rest => if k' = k then (k', v) :: rest else (k', v') :: dictSet k v rest

/-- Value at a key. -/
def dictGet {κ β : Type} [DecidableEq κ] (k : κ) (d : List (κ × β)) : Option β := (d.find? fun e => e.1 = k).map (·.2)

/-- State of `_create_runtime_service_builder`: `rs_builders` (domain name to service id),
`proc_id_to_runtime_service_id_map`, `rs_id`. -/
structure RsState where
  builders : List (String × Nat)
  procMap : List (Nat × Nat)
  next : Nat
deriving DecidableEq, Repr

/-- Body of the inner loop (compiler.py:739-793). -/
def rsStep (s : RsState) (d : Domain) : RsState :=
  { builders := dictSet d.name s.next s.builders
    procMap := d.procs.foldl (fun m p => dictSet p.id s.next m) s.procMap
    next := s.next + 1 }

/-- `_create_runtime_service_builder` (compiler.py:714-795): `nodes` lists, for each node, its sync domains (the
iteration order of the set). -/
def createServices (nodes : List (List Domain)) : RsState :=
  nodes.flatten.foldl rsStep { builders := [], procMap := [], next := 0 }

/-- Substring test. -/
def contains (pat : List Char) : List Char → Bool
  | [] => pat.isEmpty
  | c :: cs => pat.isPrefixOf (c :: cs) || contains pat cs

/-- Direction of a management channel, chosen by the name of its port (runtime.py:277-280): `true` is
runtime_to_service. -/
def routeUp (port : String) : Option Bool :=
  if contains "runtime_to_service".toList port.toList then some true
  else if contains "service_to_runtime".toList port.toList then some false
  else none

/-! ## Channel map -/

section ChannelMap
variable {Port Pl : Type} [DecidableEq Port]

/-- Pairs of connected ports (channel_map.py:98-113): `srcs p` are the out and ref ports of process `p`, `dsts`
is `get_dst_ports`, `owner` the process of a port. -/
def portPairs (procs : List Nat) (srcs : Nat → List Port) (dsts : Port → List Port) (owner : Port → Nat) :
    List (Port × Port) :=
  procs.flatMap fun p => (srcs p).flatMap fun s => ((dsts s).filter fun d => owner d ∈ procs).map fun d => (s, d)

/-- `from_proc_groups` (channel_map.py:68-93): a dictionary from pairs to payloads. -/
def fromGroups (pl : Pl) (pairs : List (Port × Port)) : List ((Port × Port) × Pl) :=
  pairs.foldl (fun m k => dictSet k pl m) []

/-- `set_port_initializer` (channel_map.py:120-127); `none` is AssertionError. -/
def setInit (m : List (Port × Pl)) (port : Port) (i : Pl) : Option (List (Port × Pl)) :=
  if port ∈ m.map Prod.fst then none else some (m ++ [(port, i)])

/-- `ChannelMapUpdater.add_port_pair` (channel_map_updater.py:55-59). -/
def addPortPair (pl : Pl) (m : List ((Port × Port) × Pl)) (k : Port × Port) : List ((Port × Port) × Pl) :=
  dictSet k pl m

/-- `ChannelMapUpdater.add_port_pairs` (channel_map_updater.py:61-62): `dict.fromkeys` is a class method, it
returns a new dictionary which is dropped. -/
def addPortPairs (pl : Pl) (m : List ((Port × Port) × Pl)) (ks : List (Port × Port)) : List ((Port × Port) × Pl) :=
  let _new := fromGroups pl ks
  m

/-- `add_src_ports` (channel_map_updater.py:33-42): `isSrc` tells whether a port is a source port. -/
def addSrcPorts (pl : Pl) (dsts : Port → List Port) (isSrc : Port → Bool) (m : List ((Port × Port) × Pl))
    (srcs : List Port) : List ((Port × Port) × Pl) :=
  srcs.foldl (fun m s => ((dsts s).filter fun d => !isSrc d).foldl (fun m d => addPortPair pl m (s, d)) m) m

/-- `add_dst_ports` (channel_map_updater.py:44-53). -/
def addDstPorts (pl : Pl) (srcsOf : Port → List Port) (isDst : Port → Bool) (m : List ((Port × Port) × Pl))
    (dsts : List Port) : List ((Port × Port) × Pl) :=
  dsts.foldl (fun m d => ((srcsOf d).filter fun s => !isDst s).foldl (fun m s => addPortPair pl m (s, d)) m) m

end ChannelMap

end Verif.Compiler
