/-!
# Model of the building of Python process models

`src/lava/magma/compiler/builders/py_builder.py`, `src/lava/magma/compiler/builders/interfaces.py`,
`src/lava/magma/compiler/subcompilers/py/pyproc_compiler.py` and the end of `Runtime.initialize`
(`src/lava/magma/runtime/runtime.py`).
-/

namespace Verif.Builder

/-! ## Names -/

/-- What a class attribute of a process model is. -/
inductive Attr where
  /-- a `LavaPyType` -/
  | lava
  /-- a method or any other class attribute -/
  | other
deriving DecidableEq

inductive Err where
  | assertion | attribute | index
deriving DecidableEq

/-- The members of a process (names), without implicit VarPorts. -/
structure Proc where
  vars : List String
  inPorts : List String
  outPorts : List String
  refPorts : List String
  varPorts : List String

/-- The process model class: `dir(cls)` with the kind of every attribute. -/
abbrev Cls := List (String × Attr)

def Cls.get (c : Cls) (n : String) : Option Attr := (c.find? fun x => decide (x.1 = n)).map (·.2)

/-- `get_port_dtype` (subcompilers/channel_builders_factory.py:209-228) for a port that is not a VarPort. -/
def portDtype (c : Cls) (n : String) : Except Err Unit :=
  match c.get n with
  | none => .error .assertion
  | some .other => .error .attribute
  | some .lava => .ok ()

/-- `_check_members_exist` (builders/interfaces.py:79-102): `hasattr`. -/
def checkMembers (c : Cls) : List String → Except Err Unit
  | [] => .ok ()
  | n :: l => if (c.get n).isSome then checkMembers c l else .error .assertion

def checkPorts (c : Cls) : List String → Except Err Unit
  | [] => .ok ()
  | n :: l =>
    match portDtype c n with
    | .ok _ => checkPorts c l
    | .error e => .error e

/-- `check_all_vars_and_ports_set` (py_builder.py:74-95). -/
def checkAll (p : Proc) : Cls → Except Err Unit
  | [] => .ok ()
  | (n, a) :: l =>
    if a = .lava ∧ n ∉ p.vars ∧ n ∉ p.inPorts ++ p.outPorts ∧ n ∉ p.refPorts ∧ n ∉ p.varPorts then .error .assertion
    else checkAll p l

/-- `_create_builder_for_process` (pyproc_compiler.py:118-151): the port initializers ask for the types of the ports (VarPorts: of their
Var), then the builder checks the members; VarPorts are not checked (py_builder.py:160-171). -/
def createBuilder (c : Cls) (p : Proc) (varOf : String → String) : Except Err Unit :=
  match checkPorts c (p.inPorts ++ p.outPorts ++ p.refPorts ++ p.varPorts.map varOf) with
  | .error e => .error e
  | .ok _ =>
    match checkMembers c p.vars with
    | .error e => .error e
    | .ok _ => checkAll p c

/-! ## The configuration of the connections of an OutPort -/

/-- pyproc_compiler.py:217-233: the configuration taken for OutPort number `k` of a process, whose connections have the given
configurations; `dflt` is a new `ConnectionConfig()`. -/
def outConfig {γ : Type} (dflt : γ) (configs : List γ) (k : Nat) : Except Err γ :=
  match configs with
  | [] => .ok dflt
  | c :: cs =>
    match (c :: cs)[k]? with
    | some x => .ok x
    | none => .error .index

/-! ## Initial values -/

/-- An array: its shape and the entry at every index. -/
structure Arr (α : Type) where
  shape : List Nat
  entry : List Nat → α

/-- numpy, assignment from an array of more dimensions: leading ones are dropped. -/
def stripOnes (n : Nat) : List Nat → List Nat
  | [] => []
  | d :: ds => if n < (d :: ds).length ∧ d = 1 then stripOnes n ds else d :: ds

/-- Same number of dimensions, each equal or 1 on the side of the value. -/
def compat : List Nat → List Nat → Bool
  | [], [] => true
  | v :: vs, t :: ts => (decide (v = t) || decide (v = 1)) && compat vs ts
  | _, _ => false

/-- `var = np.ndarray(v.shape, lt.d_type); var[:] = v.value` (py_builder.py:401-403) with the conversion `cast` to the type; `none`: numpy
raises. `var[:]` of an array without dimensions is an IndexError. -/
def initArray {α β : Type} (cast : α → β) (shape : List Nat) (v : Arr α) : Option (Arr β) :=
  if shape = [] then none
  else if (stripOnes shape.length v.shape).length ≤ shape.length ∧
      compat (stripOnes shape.length v.shape) (shape.drop (shape.length - (stripOnes shape.length v.shape).length)) = true then
    some { shape := shape
           entry := fun idx => cast (v.entry (List.replicate (v.shape.length - (stripOnes shape.length v.shape).length) 0 ++
             List.zipWith (fun d i => if d = 1 then 0 else i) (stripOnes shape.length v.shape)
               (idx.drop (shape.length - (stripOnes shape.length v.shape).length)))) }
  else none

/-! ## Errors while building -/

/-- `initialize` waiting for the answers of the models (runtime.py:168-174), while the models are built in other processes
(`target_fn`, runtime.py:96-106). `outcome i` is what the building of model `i` answers: `none` if it succeeded. -/
structure Boot (ε : Type) where
  answered : Nat → Bool
  /-- index of the queue that is read next -/
  pos : Nat
  raised : Option ε

def Boot.start (ε : Type) : Boot ε := { answered := fun _ => false, pos := 0, raised := none }

/-- `some i`: model `i` puts its answer; `none`: the runtime tries to read the next queue. -/
def Boot.step {ε : Type} (n : Nat) (outcome : Nat → Option ε) (s : Boot ε) : Option Nat → Boot ε
  | some i => { s with answered := fun j => if j = i then true else s.answered j }
  | none =>
    if s.raised.isNone ∧ s.pos < n ∧ s.answered s.pos then
      match outcome s.pos with
      | none => { s with pos := s.pos + 1 }
      | some e => { s with raised := some e }
    else s

def Boot.exec {ε : Type} (n : Nat) (outcome : Nat → Option ε) (s : Boot ε) (l : List (Option Nat)) : Boot ε :=
  l.foldl (Boot.step n outcome) s

end Verif.Builder
