/-!
# Model of the Python ports

`src/lava/magma/core/model/py/ports.py`. A tensor is a function from its flat index to its value (shapes are
equal on both ends of a channel; broadcasting is not modelled). Channels are FIFO queues (proved of the
channel implementation in C01); a `recv` on an empty queue blocks.
-/

namespace Verif.PyPorts

/-- A tensor of a fixed shape. -/
abbrev Vec := Nat → Int

/-- One csp port of a PyInPort: the queue of its channel and the transform functions of the virtual ports
on the way, `VirtualPortTransformer._csp_port_to_fp` (ports.py:155-164). -/
structure In where
  queue : List Vec
  funcs : List (Vec → Vec)

/-- `_get_transform` (ports.py:171-210): reduce with `lambda f, g: lambda data: g(f(data))`. -/
def compose (fs : List (Vec → Vec)) : Vec → Vec :=
  fs.foldl (fun f g => fun data => g (f data)) (fun h => h)

/-- The fold of `PyInPortVectorDense.recv` (ports.py:333-351): `none` if it blocks. -/
def recvFrom (acc : Vec) : List In → Option (Vec × List In)
  | [] => some (acc, [])
  | p :: ps =>
    match p.queue with
    | [] => none
    | x :: q =>
      match recvFrom (fun i => acc i + compose p.funcs x i) ps with
      | none => none
      | some (v, ps') => some (v, { p with queue := q } :: ps')

/-- `PyInPortVectorDense.recv` (ports.py:333-351). -/
def recv (ps : List In) : Option (Vec × List In) := recvFrom (fun _ => 0) ps

/-- `PyInPortVectorDense.peek` (ports.py:353-369): the code is identical to `recv`, including `port.recv()`. -/
def peek (ps : List In) : Option (Vec × List In) := recvFrom (fun _ => 0) ps

/-- `PyInPort.probe` (ports.py:312-327). -/
def probe (ps : List In) : Bool := ps.foldl (fun acc p => acc && !p.queue.isEmpty) true

/-- `PyOutPortVectorDense.send` (ports.py:486-497). -/
def sendAll (ps : List In) (x : Vec) : List In := ps.map fun p => { p with queue := p.queue ++ [x] }

/-! ## Sparse ports -/

/-- `ndarray.resize(size)`: cut or fill with zeros. -/
def resize (k : Nat) (l : List Int) : List Int := l.take k ++ List.replicate (k - l.length) 0

/-- The loop of `PyOutPortVectorSparse.send` (ports.py:503-522) over csp ports with static message size;
`sizes` are the sizes of the ports' shapes. The three arrays are resized *in place*, so what one port
gets depends on the ports before it. Result: the three messages sent on each port. -/
def sparseSend (len data idx : List Int) : List Nat → List (List (List Int))
  | [] => []
  | k :: ks =>
    let len := resize k len
    let data := resize k data
    let idx := resize k idx
    [len, data, idx] :: sparseSend len data idx ks

/-- `PyOutPortVectorSparse.send(data, indices)`. -/
def sparseSendAll (data idx : List Int) (sizes : List Nat) : List (List (List Int)) :=
  sparseSend [(data.length : Int)] data idx sizes

/-- `PyInPortVectorSparse.recv` (ports.py:375-381) from a channel: data, index, rest of the channel. -/
def sparseRecv : List (List Int) → Option ((List Int × List Int) × List (List Int))
  | l :: d :: i :: rest =>
    match l with
    | [] => none
    | n :: _ => some ((d.take n.toNat, i.take n.toNat), rest)
  | _ => none

/-! ## RefPort and VarPort -/

/-- What the user's process model does with its RefPort. -/
inductive Op (V : Type) where
  | read | write (v : V)
deriving Repr

/-- Messages on the request channel (ports.py:547-551): a header or data. -/
inductive Msg (V : Type) where
  | get | set | data (v : V)

/-- Where the RefPort side is inside the current operation. -/
inductive RefPc (V : Type) where
  | idle
  /-- `write`: header sent, data not yet (ports.py:737-738) -/
  | writing (v : V)
  /-- `read`: header sent, waiting for the answer (ports.py:716-718) -/
  | reading

/-- State of a RefPort, a VarPort and the two channels between them. -/
structure St (V : Type) where
  prog : List (Op V)
  pc : RefPc V
  req : List (Msg V)
  rsp : List V
  /-- value of the linked Var -/
  var : V
  /-- VarPort has read a SET header and waits for the data (ports.py:911-914) -/
  setting : Bool
  /-- results of the completed reads, oldest first -/
  results : List V
  /-- `ValueError` in `service`, or data where a header is expected -/
  failed : Bool

variable {V : Type}

/-- Atomic steps of the two parties. `fwd` is the transformer of the VarPort, `bwd` that of the RefPort. -/
inductive Step (fwd bwd : V → V) : St V → St V → Prop where
  /-- `write`: send header (ports.py:737) -/
  | writeHeader {s ops v} : s.prog = .write v :: ops → s.pc = .idle →
      Step fwd bwd s { s with prog := ops, pc := .writing v, req := s.req ++ [.set] }
  /-- `write`: send data (ports.py:738) -/
  | writeData {s v} : s.pc = .writing v →
      Step fwd bwd s { s with pc := .idle, req := s.req ++ [.data v] }
  /-- `read`: send header (ports.py:713-716) -/
  | readHeader {s ops} : s.prog = .read :: ops → s.pc = .idle →
      Step fwd bwd s { s with prog := ops, pc := .reading, req := s.req ++ [.get] }
  /-- `read`: receive the answer (ports.py:717-718) -/
  | readAnswer {s v rest} : s.pc = .reading → s.rsp = v :: rest →
      Step fwd bwd s { s with pc := .idle, rsp := rest, results := s.results ++ [bwd v] }
  /-- `service`, header GET (ports.py:916-918) -/
  | serveGet {s rest} : s.setting = false → s.req = .get :: rest →
      Step fwd bwd s { s with req := rest, rsp := s.rsp ++ [s.var] }
  /-- `service`, header SET (ports.py:908-911) -/
  | serveSet {s rest} : s.setting = false → s.req = .set :: rest →
      Step fwd bwd s { s with req := rest, setting := true }
  /-- `service`, data of a SET (ports.py:912-915) -/
  | serveData {s v rest} : s.setting = true → s.req = .data v :: rest →
      Step fwd bwd s { s with req := rest, setting := false, var := fwd v }
  /-- `service`, data where a header is expected (ports.py:919-920) -/
  | serveBad {s v rest} : s.setting = false → s.req = .data v :: rest →
      Step fwd bwd s { s with req := rest, failed := true }
  /-- `service`, header where data is expected -/
  | serveBadHeader {s m rest} : s.setting = true → s.req = m :: rest → (∀ v, m ≠ .data v) →
      Step fwd bwd s { s with req := rest, failed := true }

/-- Any number of steps. -/
inductive Steps (fwd bwd : V → V) : St V → St V → Prop where
  | refl (s) : Steps fwd bwd s s
  | tail {s t u} : Steps fwd bwd s t → Step fwd bwd t u → Steps fwd bwd s u

/-- Start: program, initial value of the Var. -/
def start (prog : List (Op V)) (v0 : V) : St V :=
  { prog := prog, pc := .idle, req := [], rsp := [], var := v0, setting := false, results := [], failed := false }

/-- Specification: results of the reads of a program executed directly on the variable. -/
def specReads (fwd bwd : V → V) : V → List (Op V) → List V
  | _, [] => []
  | cur, .read :: ops => bwd cur :: specReads fwd bwd cur ops
  | _, .write v :: ops => specReads fwd bwd (fwd v) ops

/-- Specification: final value of the variable. -/
def specVar (fwd : V → V) : V → List (Op V) → V
  | cur, [] => cur
  | cur, .read :: ops => specVar fwd cur ops
  | _, .write v :: ops => specVar fwd (fwd v) ops

end Verif.PyPorts
