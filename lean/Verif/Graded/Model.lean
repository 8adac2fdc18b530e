import Verif.System.Blocks
import Verif.Neurons.Model
import Verif.Dense.Props
import Verif.Networks.Props
import Verif.Graded.InvSqrt
import Mathlib.Data.Rat.Floor

/-!
# Networks of graded vectors

`src/lava/networks/gradedvecnetwork.py`, `src/lava/networks/network.py` and the processes they are made of, as block diagrams
(`Verif.System.Blocks`). A vector is a function of the index; sizes appear where the code uses them (number of inputs of a connection).
Integers are unbounded.
-/

namespace Verif.Graded

open Verif.Dense (Vec Mat)
open Verif.System (Diagram)

/-- The processes of graded-vector networks. -/
inductive Node where
  /-- `source.RingBuffer` (io/source.py:37-43, 55-62) inside an `InputVec` (gradedvecnetwork.py:34-58): `data t` is sent in step `t` -/
  | input (data : Nat → Vec)
  /-- `GradedVec` (graded/models.py:18-40) -/
  | graded (vth : Int)
  /-- `GradedReluVec` (graded/models.py:55-77) -/
  | relu (vth : Int)
  /-- `ProdNeuron` (prodneuron/models.py:28-38), in-ports 0 and 1 -/
  | prod (vth : Int) (exp : Nat)
  /-- `Dense` or `Sparse` -/
  | conn (par : Verif.Dense.Par) (weights : Mat)
  /-- `NormVecDelay` (graded/models.py:109-128): in-ports 0 and 1, out-ports 0 (`s_out`) and 1 (`s2_out`) -/
  | norm (vth : Int)
  /-- `InvSqrt` of shape (1,) (graded/models.py:242-254) -/
  | isq
  /-- `sink.RingBuffer` inside an `OutputVec` (gradedvecnetwork.py:65-107) -/
  | sink

def Node.isConn : Node → Bool
  | .conn _ _ => true
  | _ => false

/-- Variables of a process: steps done, what its in-ports have received in this step, and its Vars. -/
structure NodeSt where
  t : Nat
  in1 : Vec
  in2 : Vec
  v : Vec
  ns : Nat → Verif.Neurons.NSt
  conn : Verif.Dense.St

/-- Initial values of the Vars (graded/process.py:61, 100, 156-157; dense/process.py:77-79). -/
def Node.start : Node → NodeSt
  | .conn _ w => ⟨0, fun _ => 0, fun _ => 0, fun _ => 0, fun _ => ⟨0, 0⟩, Verif.Dense.init w⟩
  | _ => ⟨0, fun _ => 0, fun _ => 0, fun _ => 0, fun _ => ⟨0, 0⟩, Verif.Dense.init (fun _ _ => 0)⟩

/-- Receiving: messages of the channels of one in-port are added (core/model/py/ports.py:333-351, C15). -/
def Node.absorb (_ : Node) (s : NodeSt) (port : Nat) (msg : Vec) : NodeSt :=
  if port = 0 then ⟨s.t, fun i => s.in1 i + msg i, s.in2, s.v, s.ns, s.conn⟩
  else ⟨s.t, s.in1, fun i => s.in2 i + msg i, s.v, s.ns, s.conn⟩

/-- What is sent on an out-port. -/
def Node.emit : Node → NodeSt → Nat → Vec
  | .input data, s, _ => data s.t
  | .graded vth, s, _ => fun i => (Verif.Neurons.gradedStep vth (s.v i) (s.in1 i)).2
  | .relu vth, s, _ => fun i => (Verif.Neurons.reluStep vth (s.v i) (s.in1 i)).2
  | .prod vth exp, s, _ => fun i => Verif.Neurons.prodStep vth exp (s.in1 i) (s.in2 i)
  | .conn par _, s, _ => (Verif.Dense.runSpk par s.conn s.in1).2
  | .norm vth, s, port => fun i =>
    if port = 0 then (Verif.Neurons.normStep vth (s.ns i) (s.in1 i) (s.in2 i)).2.1
    else (Verif.Neurons.normStep vth (s.ns i) (s.in1 i) (s.in2 i)).2.2
  | .isq, s, _ => fun i => if i = 0 then invSqrtSpk (s.in1 0).toNat else 0
  | .sink, _, _ => fun _ => 0

/-- The end of a time step: the new values of the Vars. -/
def Node.tick : Node → NodeSt → NodeSt
  | .graded vth, s =>
    ⟨s.t + 1, fun _ => 0, fun _ => 0, fun i => (Verif.Neurons.gradedStep vth (s.v i) (s.in1 i)).1, s.ns, s.conn⟩
  | .relu vth, s =>
    ⟨s.t + 1, fun _ => 0, fun _ => 0, fun i => (Verif.Neurons.reluStep vth (s.v i) (s.in1 i)).1, s.ns, s.conn⟩
  | .conn par _, s => ⟨s.t + 1, fun _ => 0, fun _ => 0, s.v, s.ns, (Verif.Dense.runSpk par s.conn s.in1).1⟩
  | .norm vth, s =>
    ⟨s.t + 1, fun _ => 0, fun _ => 0, s.v, fun i => (Verif.Neurons.normStep vth (s.ns i) (s.in1 i) (s.in2 i)).1, s.conn⟩
  | _, s => ⟨s.t + 1, fun _ => 0, fun _ => 0, s.v, s.ns, s.conn⟩

/-- A network: its processes and channels. `edges` lists the channels as (sender, out-port, receiver, in-port). -/
structure Wiring where
  n : Nat
  node : Nat → Node
  edges : List (Nat × Nat × Nat × Nat)

def Wiring.edge (w : Wiring) (c : Nat) : Nat × Nat × Nat × Nat := w.edges.getD c (0, 0, 0, 0)

/-- The block diagram of a network, run for `T` steps. Every process uses its channels in the order of `edges`; the order does not
matter for what is computed because receiving adds. -/
def Wiring.diagram (w : Wiring) (T : Nat) (cap : Nat → Nat) : Diagram NodeSt Vec where
  n := w.n
  m := w.edges.length
  T := T
  cap := cap
  src := fun c => (w.edge c).1
  outPort := fun c => (w.edge c).2.1
  dst := fun c => (w.edge c).2.2.1
  inPort := fun c => (w.edge c).2.2.2
  ins := fun p => (List.range w.edges.length).filter fun c => (w.edge c).2.2.1 = p
  outs := fun p => (List.range w.edges.length).filter fun c => (w.edge c).1 = p
  sendFirst := fun p => (w.node p).isConn
  init := fun p => (w.node p).start
  absorb := fun p => (w.node p).absorb
  emit := fun p => (w.node p).emit
  tick := fun p => (w.node p).tick

/-! ### Matrices -/

/-- `astype(int)` of a float: towards zero. -/
def toZero (x : ℚ) : Int := if 0 ≤ x then ⌊x⌋ else ⌈x⌉

/-- The entries of a matrix, row by row. -/
def entries {α : Type} (nOut nIn : Nat) (w : Nat → Nat → α) : List α :=
  (List.range nOut).flatMap fun i => (List.range nIn).map fun j => w i j

/-- The integer weights that `GradedDense` and `GradedSparse` hand to the connection: `weights * 2 ** exp`
(gradedvecnetwork.py:240, 274), cast to integers by the builder (py_builder.py:402-403) or by `clip_weights` (weightutils.py:275). -/
def fixedWeights (exp : Nat) (W : Nat → Nat → ℚ) : Mat := fun i j => toZero (W i j * 2 ^ exp)

/-- `GradedDense(weights, exp)` (gradedvecnetwork.py:218-248): `num_message_bits = 24`, 8 weight bits, exponent `-exp`; the sign mode
is derived from the integer weights (dense/models.py:84-85). -/
def gradedDense (nOut nIn exp : Nat) (W : Nat → Nat → ℚ) : Node :=
  .conn { nIn := nIn, graded := true, weightExp := -(exp : Int),
          signMode := Verif.Weights.determineSignMode (entries nOut nIn (fixedWeights exp W)), numWeightBits := 8 }
    (fixedWeights exp W)

/-- The sign mode of a sparse connection is derived from the weights before they are cast (sparse/models.py:84-85; the builder does not
cast sparse matrices, py_builder.py:406-411). -/
def signModeQ (ws : List ℚ) : Verif.Weights.SignMode :=
  if ∀ x ∈ ws, 0 ≤ x then .excitatory else if ∀ x ∈ ws, x ≤ 0 then .inhibitory else .mixed

/-- `GradedSparse(weights, exp)` (gradedvecnetwork.py:251-281). -/
def gradedSparse (nOut nIn exp : Nat) (W : Nat → Nat → ℚ) : Node :=
  .conn { nIn := nIn, graded := true, weightExp := -(exp : Int), signMode := signModeQ (entries nOut nIn W), numWeightBits := 8 }
    (fixedWeights exp W)

/-- `GradedSparse(weights=np.eye(n))` (networks/network.py:101-102, gradedvecnetwork.py:161-165), with the default exponent 7. -/
def identity (n : Nat) : Node := gradedSparse n n 7 fun i j => if i = j then 1 else 0

/-! ### Networks from the algebraic syntax -/

/-- The processes behind network objects and connections of `Verif.Networks`: object `p < N` is `node p`; connection number `k`, if it
goes through an identity synapse, adds process `N + k` (networks/network.py:94-105). `dim p` is the size of vector `p`. -/
def connEdges (N : Nat) (x : Verif.Networks.Conn × Nat) : List (Nat × Nat × Nat × Nat) :=
  if x.1.viaIdentity then [(x.1.src, 0, N + x.2, 0), (N + x.2, 0, x.1.dst, 0)] else [(x.1.src, 0, x.1.dst, 0)]

def wiringOf (N : Nat) (node : Nat → Node) (dim : Nat → Nat) (conns : List Verif.Networks.Conn) : Wiring where
  n := N + conns.length
  node := fun p => if p < N then node p else identity (dim ((conns.map (·.dst)).getD (p - N) 0))
  edges := conns.zipIdx.flatMap (connEdges N)

/-- `GradedVec.__mul__` (gradedvecnetwork.py:156-171) on the vectors `a` and `b` of size `n`: new processes from `N` on - the product
layer `N` with threshold 1, the identity connections `N + 1` (from `a`), `N + 2` (from `b`) and `N + 3` (the result). -/
def mulNodes (N n exp : Nat) (p : Nat) : Node := if p = N then .prod 1 exp else identity n

def mulEdges (N a b : Nat) : List (Nat × Nat × Nat × Nat) :=
  [(a, 0, N + 1, 0), (b, 0, N + 2, 0), (N + 1, 0, N, 0), (N + 2, 0, N, 1), (N, 0, N + 3, 0)]

/-! ### NormalizeNet -/

/-- A `Dense` of ones with exponent 0 and graded messages (gradedvecnetwork.py:303-312). -/
def onesDense (nOut nIn : Nat) : Node :=
  .conn { nIn := nIn, graded := true, weightExp := 0,
          signMode := Verif.Weights.determineSignMode (entries nOut nIn fun _ _ => 1), numWeightBits := 8 } fun _ _ => 1

/-- `NormalizeNet(shape=(n,))` (gradedvecnetwork.py:284-324) fed by an input and read by an output: 0 input, 1 `NormVecDelay`,
2 `vfp_dense`, 3 `InvSqrt`, 4 `fpv_dense`, 5 output. `exp` is not used by the models. -/
def normNet (n : Nat) (data : Nat → Vec) : Wiring where
  n := 6
  node := fun p =>
    if p = 0 then .input data else if p = 1 then .norm 1 else if p = 2 then onesDense 1 n else if p = 3 then .isq
    else if p = 4 then onesDense n 1 else .sink
  edges := [(0, 0, 1, 0), (1, 1, 2, 0), (2, 0, 3, 0), (3, 0, 4, 0), (4, 0, 1, 1), (1, 0, 5, 0)]

end Verif.Graded
