import Verif.SDN.Model
import Mathlib.Algebra.BigOperators.Group.Finset.Basic
import Mathlib.Algebra.BigOperators.Ring.Finset
import Mathlib.Algebra.BigOperators.Intervals
import Mathlib.Algebra.Order.BigOperators.Group.Finset

/-!
# Model of the S4D processes

`src/lava/proc/s4d/models.py`, `src/lava/proc/s4d/process.py`. The neuron models are elementwise: one element is modelled, over any commutative ring
(complex numbers for `S4d`) with exact arithmetic. The layer is modelled as vectors in lockstep: what a process sends in a time step is received in the
same time step, and a `Sparse` process sends what it computed in the step before.
-/

namespace Verif.S4D

open Verif.SDN

section Lin
variable {K R : Type} [CommRing K]

/-- `S4dModel.run_spk` (s4d/models.py:56-80) over a sequence of inputs: everything sent; `re` is `np.real`. -/
def s4dRun (re : K → R) (a b c : K) : K → List K → List R
  | _, [] => []
  | s, u :: us =>
    let s' := s * a + u * b
    re (c * s' * 2) :: s4dRun re a b c s' us

end Lin

section Delta
variable {α : Type} [CommRing α] [LinearOrder α]

/-- Parameters of one SigmaS4dDelta neuron. -/
structure NPar (α : Type) where
  vth : α
  a : α
  b : α
  c : α

/-- State of one SigmaS4dDelta neuron (s4d/models.py:84-101, 163-180). -/
structure NSt (α : Type) where
  sigma : α
  s4 : α
  d : DSt α

/-- All Vars start at zero (s4d/process.py:143-154, sdn/process.py). -/
def initN : NSt α := { sigma := 0, s4 := 0, d := initD }

/-- `AbstractSigmaDeltaModel.dynamics` (sdn/models.py:150-156) with `activation_dynamics` of s4d/models.py:125-160; `cum_error` is false (default of
the SigmaDelta process). -/
def nStep (p : NPar α) (s : NSt α) (x : α) : NSt α × α :=
  let sg := x + s.sigma
  let s4 := s.s4 * p.a + sg * p.b
  let r := deltaStep ⟨p.vth, false⟩ s.d (p.c * s4 * 2)
  ({ sigma := sg, s4 := s4, d := r.1 }, r.2)

/-- State before step `t` on the input stream `x`. -/
def nState (p : NPar α) (x : Nat → α) : Nat → NSt α
  | 0 => initN
  | t + 1 => (nStep p (nState p x t) (x t)).1

/-- What is sent in step `t`. -/
def nSent (p : NPar α) (x : Nat → α) (t : Nat) : α := (nStep p (nState p x t) (x t)).2

/-! ## The layer -/

/-- `np.kron(np.eye(n), np.ones(d))` (s4d/process.py:207): row `i`, column `r`. -/
def connW (d : Nat) (i r : Nat) : α := if r / d = i then 1 else 0

/-- State of the layer: the buffers of the two Sparse processes and the neurons (s4d/models.py:211-228). -/
structure LSt (α : Type) where
  buf1 : Nat → α
  neu : Nat → NSt α
  buf2 : Nat → α

def initL : LSt α := { buf1 := fun _ => 0, neu := fun _ => initN, buf2 := fun _ => 0 }

/-- One time step of Sparse → SigmaS4dDelta → Sparse (s4d/models.py:211-228; sparse/models.py:37-48 with graded spikes): the new state and what leaves the
layer. `n` is `shape[0]`; neuron `r` has the parameters `p r`. -/
def lStep (n d : Nat) (p : Nat → NPar α) (s : LSt α) (x : Nat → α) : LSt α × (Nat → α) :=
  let sent := fun r => (nStep (p r) (s.neu r) (s.buf1 r)).2
  ({ buf1 := fun r => ∑ i ∈ Finset.range n, connW d i r * x i
     neu := fun r => (nStep (p r) (s.neu r) (s.buf1 r)).1
     buf2 := fun i => ∑ r ∈ Finset.range (n * d), connW d i r * sent r }, s.buf2)

def lState (n d : Nat) (p : Nat → NPar α) (x : Nat → Nat → α) : Nat → LSt α
  | 0 => initL
  | t + 1 => (lStep n d p (lState n d p x t) (x t)).1

/-- What leaves the layer in step `t`. -/
def lSent (n d : Nat) (p : Nat → NPar α) (x : Nat → Nat → α) (t : Nat) : Nat → α := (lStep n d p (lState n d p x t) (x t)).2

end Delta

end Verif.S4D
