import Verif.Neurons.Float
import Verif.Dense.Model

/-!
# Networks of LIF populations and Dense connections, in both precisions

Synchronous equations of a network of `LIF` and `Dense` processes (`src/lava/proc/lif/models.py`, `src/lava/proc/dense/models.py`); that
a lava network computes its synchronous equations for every schedule is C79. A step of the network is: every `Dense` sends its buffer,
every population adds up what it receives (fan-in, `src/lava/magma/core/model/py/ports.py:346-362`), updates its neurons and sends its
spikes, and every `Dense` puts the product with the spikes of its source population into its buffer.
-/

namespace Verif.SpikeNet

open Verif.Neurons

/-- A `Dense` connection between two populations: parameters and weights of the fixed-point process, weights of the floating-point
process. -/
structure Conn where
  src : Nat
  dst : Nat
  par : Dense.Par
  w : Dense.Mat
  wf : Nat → Nat → ℚ

/-- A network: parameters and threshold of each neuron of each population, connections. Populations may have different sizes; neurons that
are not connected do not matter. -/
structure Net where
  lif : Nat → Nat → LIF.Par
  vth : Nat → Nat → Int
  conns : List Conn

/-- Spikes as they are sent: 0 or 1 (lif/models.py:206-216 sends the boolean vector). -/
def spikeVec (s : Nat → Bool) : Dense.Vec := fun j => if s j then 1 else 0

/-! ### Fixed point -/

/-- State: neurons of each population, and the connections' states in the order of `conns`. -/
structure FixSt where
  pop : Nat → Nat → LIF.Obj
  conn : List Dense.St

/-- What neuron `i` of population `q` receives: the external input and the buffers of all connections to the population
(`PyInPortVectorDense.recv`, ports.py:346-362; lif/models.py:199). -/
def fixIn (net : Net) (s : FixSt) (ext : Nat → Nat → Int) (q i : Nat) : Int :=
  ext q i + ((net.conns.zip s.conn).map fun cs => if cs.1.dst = q then cs.2.aBuff i else 0).sum

/-- One neuron in one step (lif/models.py:194-216). -/
def fixNeuron (net : Net) (s : FixSt) (ext : Nat → Nat → Int) (q i : Nat) : LIF.Obj × Bool :=
  LIF.runSpk (net.lif q i) (net.vth q i) (s.pop q i) (fixIn net s ext q i)

/-- One step of the network; the connections get the spikes of this step (dense/models.py:77-107). -/
def fixStep (net : Net) (s : FixSt) (ext : Nat → Nat → Int) : FixSt :=
  { pop := fun q i => (fixNeuron net s ext q i).1
    conn := (net.conns.zip s.conn).map fun cs =>
      (Dense.runSpk cs.1.par cs.2 (spikeVec fun j => (fixNeuron net s ext cs.1.src j).2)).1 }

/-- All states zero, buffers zero, weights not yet prepared. -/
def fixInit (net : Net) : FixSt :=
  { pop := fun _ _ => ⟨⟨0, 0⟩, none⟩, conn := net.conns.map fun c => Dense.init c.w }

def fixAt (net : Net) (ext : Nat → Nat → Nat → Int) : Nat → FixSt
  | 0 => fixInit net
  | t + 1 => fixStep net (fixAt net ext t) (ext t)

/-- Does neuron `i` of population `q` spike in step `t`? -/
def fixSpike (net : Net) (ext : Nat → Nat → Nat → Int) (t q i : Nat) : Bool := (fixNeuron net (fixAt net ext t) (ext t) q i).2

/-! ### Floating point -/

structure FltSt where
  pop : Nat → Nat → FLSt
  conn : List (Nat → ℚ)

/-- `AbstractPyDenseModelFloat.run_spk` for binary spikes (dense/models.py:37-47): the new buffer. -/
def fltDense (c : Conn) (s : Nat → Bool) : Nat → ℚ := fun i =>
  ∑ j ∈ (Finset.range c.par.nIn).filter (fun j => s j = true), c.wf i j

def fltIn (net : Net) (s : FltSt) (ext : Nat → Nat → Int) (q i : Nat) : ℚ :=
  ext q i + ((net.conns.zip s.conn).map fun cs => if cs.1.dst = q then cs.2 i else 0).sum

/-- The floating-point parameters of a neuron: decays divided by 4096 (the current decay one unit larger), bias by 64. -/
def fltPar (net : Net) (q i : Nat) : FLPar :=
  { du := (((net.lif q i).du : ℚ) + 1) / 4096, dv := ((net.lif q i).dv : ℚ) / 4096,
    bias := (LIF.effBias (net.lif q i).biasMant (net.lif q i).biasExp : ℚ) / 64, vth := net.vth q i }

def fltNeuron (net : Net) (s : FltSt) (ext : Nat → Nat → Int) (q i : Nat) : FLSt × Bool :=
  flStep (fltPar net q i) (s.pop q i) (fltIn net s ext q i)

def fltStep (net : Net) (s : FltSt) (ext : Nat → Nat → Int) : FltSt :=
  { pop := fun q i => (fltNeuron net s ext q i).1
    conn := net.conns.map fun c => fltDense c fun j => (fltNeuron net s ext c.src j).2 }

def fltInit (net : Net) : FltSt := { pop := fun _ _ => ⟨0, 0⟩, conn := net.conns.map fun _ => fun _ => 0 }

def fltAt (net : Net) (ext : Nat → Nat → Nat → Int) : Nat → FltSt
  | 0 => fltInit net
  | t + 1 => fltStep net (fltAt net ext t) (ext t)

def fltSpike (net : Net) (ext : Nat → Nat → Nat → Int) (t q i : Nat) : Bool := (fltNeuron net (fltAt net ext t) (ext t) q i).2

/-- Current and voltage of a neuron in step `t` before the threshold is applied. -/
def fltPre (net : Net) (ext : Nat → Nat → Nat → Int) (t q i : Nat) : FLSt :=
  flSub (fltPar net q i) ((fltAt net ext t).pop q i) (fltIn net (fltAt net ext t) (ext t) q i)

end Verif.SpikeNet
