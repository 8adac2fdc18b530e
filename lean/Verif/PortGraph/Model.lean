import Verif.VirtualPorts.Model

/-!
# Model of the port graph

`src/lava/magma/core/process/ports/ports.py`: creating and connecting ports. Exceptions are values; a call that
raises keeps the mutations it made before. Not modelled: the `connection_configs` dictionaries (only the
length of the list of configurations matters for the connection lists), names and parent processes.
-/

namespace Verif.PortGraph

/-- Port classes (ports.py:425, 482, 551, 720, 820, 899, 934, 983). -/
inductive Kind where
  | out | inp | ref | var | ivar | reshape | transpose | concat
deriving DecidableEq, Repr

/-- `isinstance(p, AbstractIOPort)`. -/
def Kind.isIO : Kind → Bool | .out | .inp => true | _ => false
/-- `isinstance(p, AbstractRVPort)`. -/
def Kind.isRV : Kind → Bool | .ref | .var | .ivar => true | _ => false
/-- `isinstance(p, VarPort)`; ImplicitVarPort is a subclass (ports.py:820). -/
def Kind.isVar : Kind → Bool | .var | .ivar => true | _ => false
/-- `isinstance(p, AbstractSrcPort)` (ports.py:425, 551). -/
def Kind.isSrc : Kind → Bool | .out | .ref => true | _ => false
/-- `isinstance(p, AbstractDstPort)` (ports.py:482, 720). -/
def Kind.isDst : Kind → Bool | .inp | .var | .ivar => true | _ => false
/-- `isinstance(p, AbstractVirtualPort)`. -/
def Kind.isVirtual : Kind → Bool | .reshape | .transpose | .concat => true | _ => false
/-- `isinstance(p, c)` for the class `c` of another port. -/
def Kind.isInstance (k c : Kind) : Bool := k == c || (k == .ivar && c == .var)

/-- A port (ports.py:75-79). -/
structure Port where
  kind : Kind
  shape : List Nat
  ins : List Nat
  outs : List Nat

/-- All ports created so far; ports are numbered in order of creation. -/
structure G where
  next : Nat
  port : Nat → Port

/-- No port yet. -/
def G.empty : G := { next := 0, port := fun _ => { kind := .out, shape := [], ins := [], outs := [] } }

/-- Change the incoming connections of one port. -/
def G.setIns (g : G) (p : Nat) (l : List Nat) : G :=
  { g with port := fun q => if q = p then { g.port q with ins := l } else g.port q }

/-- Change the outgoing connections of one port. -/
def G.setOuts (g : G) (p : Nat) (l : List Nat) : G :=
  { g with port := fun q => if q = p then { g.port q with outs := l } else g.port q }

/-- Constructor of a port: no connections (ports.py:75-79). -/
def G.new (g : G) (kind : Kind) (shape : List Nat) : G :=
  { next := g.next + 1
    port := fun q => if q = g.next then { kind := kind, shape := shape, ins := [], outs := [] } else g.port q }

/-- `_validate_ports` (ports.py:81-106): true if nothing is raised; `ports[0]` of an empty list raises. -/
def validate (g : G) (self : Nat) (ports : List Nat) (ty : Kind → Bool) (sameShape sameType : Bool) : Bool :=
  match ports with
  | [] => false
  | first :: _ => ports.all fun p =>
      ty (g.port p).kind && (!sameType || (g.port p).kind.isInstance (g.port first).kind) &&
      (!sameShape || (g.port self).shape == (g.port p).shape)

/-- `is_disjoint` (ports.py:28-30). -/
def disjoint (a b : List Nat) : Bool := a.all fun x => !b.contains x

/-- `_add_inputs` (ports.py:108-113): the flag says whether DuplicateConnectionError was raised. -/
def addInputs (g : G) (p : Nat) (inputs : List Nat) : G × Bool :=
  if disjoint (g.port p).ins inputs then (g.setIns p ((g.port p).ins ++ inputs), false) else (g, true)

/-- `_add_outputs` (ports.py:115-120). -/
def addOutputs (g : G) (p : Nat) (outputs : List Nat) : G × Bool :=
  if disjoint (g.port p).outs outputs then (g.setOuts p ((g.port p).outs ++ outputs), false) else (g, true)

/-- `connection_configs * len(ports)` if there is one configuration for several ports, then
`zip(ports, connection_configs)` (ports.py:139-145): the ports that are really visited. `n` is the number
of configurations. -/
def zipPorts (ports : List Nat) (n : Nat) : List Nat :=
  if n = 1 ∧ ports.length > 1 then ports else ports.take n

/-- `for p, _ in zip(..): p._add_inputs([self])` (ports.py:141-142). -/
def loopInputs (g : G) (self : Nat) : List Nat → G × Bool
  | [] => (g, false)
  | p :: ps =>
    match addInputs g p [self] with
    | (g', true) => (g', true)
    | (g', false) => loopInputs g' self ps

/-- `for p, _ in zip(..): p._add_outputs([self])` (ports.py:167-168). -/
def loopOutputs (g : G) (self : Nat) : List Nat → G × Bool
  | [] => (g, false)
  | p :: ps =>
    match addOutputs g p [self] with
    | (g', true) => (g', true)
    | (g', false) => loopOutputs g' self ps

/-- `_connect_forward` (ports.py:122-145). `n` is the length of the list of configurations. -/
def connectForward (g : G) (self : Nat) (ports : List Nat) (ty : Kind → Bool) (n : Nat)
    (sameShape : Bool := true) (sameType : Bool := true) : G × Bool :=
  if validate g self ports ty sameShape sameType then
    match addOutputs g self ports with
    | (g', true) => (g', true)
    | (g', false) => loopInputs g' self (zipPorts ports n)
  else (g, true)

/-- `_connect_backward` (ports.py:147-171). -/
def connectBackward (g : G) (self : Nat) (ports : List Nat) (ty : Kind → Bool) (n : Nat)
    (sameShape : Bool := true) (sameType : Bool := true) : G × Bool :=
  if validate g self ports ty sameShape sameType then
    match addInputs g self ports with
    | (g', true) => (g', true)
    | (g', false) => loopOutputs g' self (zipPorts ports n)
  else (g, true)

/-- `get_src_ports` (ports.py:173-185); `none` is RecursionError at recursion limit `lim`. -/
def srcPorts (g : G) (inclSelf : Bool) : Nat → Nat → Option (List Nat)
  | 0, _ => none
  | lim + 1, p =>
    match (g.port p).ins with
    | [] => some (if inclSelf then [p] else [])
    | ins => ins.foldlM (fun acc q => (srcPorts g true lim q).map (acc ++ ·)) []

/-- `get_dst_ports` (ports.py:291-303). -/
def dstPorts (g : G) (inclSelf : Bool) : Nat → Nat → Option (List Nat)
  | 0, _ => none
  | lim + 1, p =>
    match (g.port p).outs with
    | [] => some (if inclSelf then [p] else [])
    | outs => outs.foldlM (fun acc q => (dstPorts g true lim q).map (acc ++ ·)) []

/-- Argument of `connect`: one port or a list of ports. -/
inductive Arg where
  | one (p : Nat) | many (ps : List Nat)

/-- `to_list` (ports.py:21-25). -/
def Arg.toList : Arg → List Nat | .one p => [p] | .many ps => ps
/-- `isinstance(ports, AbstractSrcPort)` on the raw argument: false for a list. -/
def Arg.isSrc (g : G) : Arg → Bool | .one p => (g.port p).kind.isSrc | .many _ => false
/-- `isinstance(ports, AbstractDstPort)` on the raw argument. -/
def Arg.isDst (g : G) : Arg → Bool | .one p => (g.port p).kind.isDst | .many _ => false

/-- The test "currently only 1:1 connections are supported" of RefPort and VarPort (ports.py:585-594,
622-630, 762-770, 798-806): true if it raises (also if the search itself fails). -/
def refuses (g : G) (lim self : Nat) (arg : Arg) : Bool :=
  arg.toList.length > 1 ||
  (match dstPorts g false lim self with
   | none => true
   | some d =>
     (decide (d.length > 0) && !arg.isSrc g) ||
     (match srcPorts g false lim self with
      | none => true
      | some s => decide (s.length > 0) && !arg.isDst g))

/-- Which ports a virtual port may connect to, by the class of its parent port (ports.py:856-870); a missing
or illegal parent raises (no port is allowed). -/
def virtualType (g : G) (lim self : Nat) : Kind → Bool :=
  match srcPorts g false lim self with
  | none => fun _ => false
  | some [] => fun _ => false
  | some (parent :: _) =>
    match (g.port parent).kind with
    | .out => Kind.isIO
    | .inp => fun k => k == .inp
    | .ref => Kind.isRV
    | .var | .ivar => Kind.isVar
    | _ => fun _ => false

/-- `connect` of the class of `self`: OutPort (ports.py:446-462), InPort (516-531), RefPort (571-606),
VarPort (748-781), AbstractVirtualPort (843-874). The flag says whether something was raised. -/
def connect (g : G) (lim self : Nat) (arg : Arg) (n : Nat) : G × Bool :=
  match (g.port self).kind with
  | .out => connectForward g self arg.toList Kind.isIO n
  | .inp => connectForward g self arg.toList (fun k => k == .inp) n
  | .ref =>
    if refuses g lim self arg then (g, true)
    else if arg.toList.all fun p => (g.port p).kind.isRV then connectForward g self arg.toList Kind.isRV n
    else (g, true)
  | .var | .ivar =>
    if refuses g lim self arg then (g, true)
    else if arg.toList.all fun p => (g.port p).kind.isVar then connectForward g self arg.toList Kind.isVar n
    else (g, true)
  | _ => connectForward g self arg.toList (virtualType g lim self) n

/-- `connect_from`: OutPort (ports.py:464-479), InPort (533-548), RefPort (608-641), VarPort (783-817).
Virtual ports have no such method. -/
def connectFrom (g : G) (lim self : Nat) (arg : Arg) (n : Nat) : G × Bool :=
  match (g.port self).kind with
  | .out => connectBackward g self arg.toList (fun k => k == .out) n
  | .inp => connectBackward g self arg.toList Kind.isIO n
  | .ref =>
    if refuses g lim self arg then (g, true)
    else if arg.toList.all fun p => (g.port p).kind == .ref then
      connectBackward g self arg.toList (fun k => k == .ref) n
    else (g, true)
  | .var | .ivar =>
    if refuses g lim self arg then (g, true)
    else if arg.toList.all fun p => (g.port p).kind.isRV then connectBackward g self arg.toList Kind.isRV n
    else (g, true)
  | _ => (g, true)

/-- `RefPort.connect_var` for one Var of the given shape in another process (ports.py:643-691). The test that
the Var is shareable and in another process is not modelled. -/
def connectVar (g : G) (lim self : Nat) (varShape : List Nat) (n : Nat) : G × Bool :=
  if (g.port self).kind ≠ .ref then (g, true)
  else if refuses g lim self (.many [self]) then (g, true)   -- a Var is neither Src nor Dst, like a list
  else connect (g.new .ivar varShape) lim self (.many [g.next]) n

/-- `reshape` (ports.py:305-322). -/
def reshape (g : G) (self : Nat) (newShape : List Nat) : G × Bool :=
  match VirtualPorts.reshape (g.port self).shape newShape with
  | none => (g, true)
  | some vp => connectForward (g.new .reshape vp.shape) self [g.next] (fun _ => true) 1 (sameShape := false)

/-- `transpose` (ports.py:356-391). -/
def transpose (g : G) (self : Nat) (axes : Option (List Int)) : G × Bool :=
  match VirtualPorts.transpose (g.port self).shape axes with
  | none => (g, true)
  | some vp => connectForward (g.new .transpose vp.shape) self [g.next] (fun _ => true) 1 (sameShape := false)

/-- Class demanded of the ports to concatenate (ports.py:349-352). -/
def concatType (g : G) (self : Nat) : Kind → Bool :=
  if (g.port self).kind.isIO then Kind.isIO else Kind.isRV

/-- `concat_with` (ports.py:330-354) and the constructor of ConcatPort (ports.py:942-948). The type check of
ConcatPort's ports is `AbstractPort`; all must be instances of the class of the first. -/
def concatWith (g : G) (self : Nat) (arg : Arg) (axis : Int) : G × Bool :=
  let ports := self :: arg.toList
  if !validate g self ports (concatType g self) false false then (g, true)
  else match VirtualPorts.concatShape (ports.map fun p => (g.port p).shape) axis with
    | .ok shape => connectBackward (g.new .concat shape) g.next ports (fun _ => true) 1 (sameShape := false)
    | _ => (g, true)

/-- User calls. -/
inductive Op where
  | new (kind : Kind) (shape : List Nat)
  | connect (self : Nat) (arg : Arg) (n : Nat)
  | connectFrom (self : Nat) (arg : Arg) (n : Nat)
  | connectVar (self : Nat) (varShape : List Nat) (n : Nat)
  | reshape (self : Nat) (newShape : List Nat)
  | transpose (self : Nat) (axes : Option (List Int))
  | concatWith (self : Nat) (arg : Arg) (axis : Int)

/-- Ports mentioned by a call. -/
def Op.mentions : Op → List Nat
  | .new .. => []
  | .connect s a _ => s :: a.toList
  | .connectFrom s a _ => s :: a.toList
  | .connectVar s .. => [s]
  | .reshape s _ => [s]
  | .transpose s _ => [s]
  | .concatWith s a _ => s :: a.toList

/-- One call. A call that mentions a port that does not exist cannot be written; it does nothing here. -/
def step (lim : Nat) (g : G) (op : Op) : G × Bool :=
  if op.mentions.all (· < g.next) then
    match op with
    | .new k s => if k.isVirtual || k == .ivar then (g, true) else (g.new k s, false)
    | .connect s a n => connect g lim s a n
    | .connectFrom s a n => connectFrom g lim s a n
    | .connectVar s v n => connectVar g lim s v n
    | .reshape s x => reshape g s x
    | .transpose s x => transpose g s x
    | .concatWith s a x => concatWith g s a x
  else (g, true)

/-- A program of calls; every exception is caught by the caller, who goes on. -/
def run (lim : Nat) (g : G) (ops : List Op) : G := ops.foldl (fun g op => (step lim g op).1) g

end Verif.PortGraph
