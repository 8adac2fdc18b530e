import Mathlib.Algebra.Order.Ring.Int
import Mathlib.Algebra.Order.Ring.Rat
import Mathlib.Algebra.BigOperators.Group.List.Basic
import Mathlib.Algebra.Order.Group.Abs
import Mathlib.Tactic.Ring
import Mathlib.Tactic.NormNum
import Mathlib.Tactic.Linarith
import Mathlib.Tactic.LinearCombination
import Mathlib.Algebra.Ring.Divisibility.Basic
import Mathlib.Tactic.Positivity

/-!
# Model of the sigma-delta processes

`src/lava/proc/sdn/models.py`, `src/lava/proc/sdn/process.py`. The code is elementwise: one element is modelled. The common
dynamics are written over any ordered commutative ring: `Int` for the fixed-point models (no 32-bit overflow) and `Rat` for
the floating-point models (exact arithmetic).
-/

namespace Verif.SDN

section Generic
variable {α : Type} [CommRing α] [LinearOrder α]

/-- Parameters used by `delta_dynamics` (sdn/models.py:60-70). -/
structure DPar (α : Type) where
  vth : α
  cum : Bool

/-- State of the delta encoder (sdn/models.py:64-67). -/
structure DSt (α : Type) where
  act : α
  residue : α
  error : α
deriving DecidableEq

/-- The Vars start at zero (sdn/process.py:105-108, 186-189). -/
def initD : DSt α := { act := 0, residue := 0, error := 0 }

/-- `np.where(np.abs(x) >= vth, delta, 0)` (sdn/models.py:89-92, 95-98). -/
def gate (vth x delta : α) : α := if vth ≤ |x| then delta else 0

/-- `self.error *= 1 - (np.abs(s_out) > 0)` (sdn/models.py:93). -/
def resetErr (err sOut : α) : α := if |sOut| > 0 then 0 else err

/-- `delta_dynamics` (sdn/models.py:72-100) followed by `self.act = act` (sdn/models.py:154, 201, 230). -/
def deltaStep (p : DPar α) (s : DSt α) (actNew : α) : DSt α × α :=
  let delta := actNew - s.act + s.residue
  if p.cum then
    let err := s.error + delta
    let out := gate p.vth err delta
    ({ act := actNew, residue := delta - out, error := resetErr err out }, out)
  else
    let out := gate p.vth delta delta
    ({ act := actNew, residue := delta - out, error := s.error }, out)

/-- `PyDeltaModelFloat.run_spk` over a sequence of inputs (sdn/models.py:197-202): everything sent. -/
def deltaRun (p : DPar α) : DSt α → List α → DSt α × List α
  | s, [] => (s, [])
  | s, a :: as =>
    let r := deltaStep p s a
    let q := deltaRun p r.1 as
    (q.1, r.2 :: q.2)

/-- `AbstractSigmaModel.run_spk` over a sequence of inputs (sdn/models.py:39-57): the sigma values sent. -/
def sigmaRun : α → List α → List α
  | _, [] => []
  | sg, a :: as => (a + sg) :: sigmaRun (a + sg) as

/-- `activation_dynamics` (sdn/models.py:121-148): UNIT (`false`) or RELU (`true`). -/
def activation (relu : Bool) (bias sg : α) : α := if relu then max (sg + bias) 0 else sg + bias

/-- Sigma-delta neuron state. -/
structure SDSt (α : Type) where
  sigma : α
  d : DSt α

def initSD : SDSt α := { sigma := 0, d := initD }

/-- `AbstractSigmaDeltaModel.dynamics` (sdn/models.py:150-156). -/
def sdStep (p : DPar α) (relu : Bool) (bias : α) (s : SDSt α) (a : α) : SDSt α × α :=
  let sg := a + s.sigma
  let r := deltaStep p s.d (activation relu bias sg)
  ({ sigma := sg, d := r.1 }, r.2)

/-- `PySigmaDeltaModelFloat.run_spk` over a sequence of inputs (sdn/models.py:253-257). -/
def sdRun (p : DPar α) (relu : Bool) (bias : α) : SDSt α → List α → SDSt α × List α
  | s, [] => (s, [])
  | s, a :: as =>
    let r := sdStep p relu bias s a
    let q := sdRun p relu bias r.1 as
    (q.1, r.2 :: q.2)

end Generic

/-! ## Fixed point -/

/-- Arithmetic right shift. -/
def shr (x : Int) (e : Nat) : Int := x / 2 ^ e

/-- `PyDeltaModelFixed.run_spk` over a sequence of inputs (sdn/models.py:223-231). -/
def deltaFixedRun (p : DPar Int) (spikeExp stateExp : Nat) : DSt Int → List Int → DSt Int × List Int
  | s, [] => (s, [])
  | s, a :: as =>
    let r := deltaStep p s (a * 2 ^ (spikeExp + stateExp))
    let q := deltaFixedRun p spikeExp stateExp r.1 as
    (q.1, shr r.2 stateExp :: q.2)

/-- `PySigmaDeltaModelFixed.run_spk` over a sequence of inputs (sdn/models.py:279-284). -/
def sdFixedRun (p : DPar Int) (relu : Bool) (bias : Int) (stateExp : Nat) : SDSt Int → List Int → SDSt Int × List Int
  | s, [] => (s, [])
  | s, a :: as =>
    let r := sdStep p relu bias s a
    let q := sdFixedRun p relu bias stateExp r.1 as
    (q.1, shr r.2 stateExp :: q.2)

/-- State of the corrected model: `sigma`, `act`. -/
structure CSt where
  sigma : Int
  act : Int

/-- `PySigmaDeltaModelFixedCorrected.run_spk` (sdn/models.py:306-316). -/
def corrStep (vth : Int) (relu : Bool) (bias : Int) (stateExp : Nat) (s : CSt) (a : Int) : CSt × Int :=
  let sg := a + s.sigma
  let delta := activation relu bias sg - s.act
  let out := shr (gate vth delta delta) stateExp
  ({ sigma := sg, act := s.act + out * 2 ^ stateExp }, out)

/-- The same over a sequence of inputs. -/
def corrRun (vth : Int) (relu : Bool) (bias : Int) (stateExp : Nat) : CSt → List Int → CSt × List Int
  | s, [] => (s, [])
  | s, a :: as =>
    let r := corrStep vth relu bias stateExp s a
    let q := corrRun vth relu bias stateExp r.1 as
    (q.1, r.2 :: q.2)

end Verif.SDN
