import Mathlib.Algebra.Order.Ring.Rat
import Mathlib.Tactic.Ring
import Mathlib.Tactic.NormNum
import Mathlib.Tactic.Linarith
import Mathlib.Tactic.Positivity

/-!
# Model of the leaky-integrate-and-fire neurons

`src/lava/proc/lif/models.py`. The code is elementwise, so one neuron is modelled. The fixed-point code computes in
int64/int32 and never leaves that range for the inputs considered; integers are unbounded here. The floating-point
models are over the rationals.
-/

namespace Verif.LIF

/-- `max_uv_val = 2 ** 23` (lif/models.py:101-102). -/
def maxUV : Int := 2 ^ 23

/-- `np.sign(x) * np.right_shift(np.abs(x), 12)` (lif/models.py:150-153, 181-184): shift of the magnitude. -/
def shrMag (x : Int) : Int := x.sign * ((x.natAbs / 4096 : Nat) : Int)

/-- Decay by a constant in units of 1/4096 (lif/models.py:149-153, 180-184). -/
def decay (x c : Int) : Int := shrMag (x * (4096 - c))

/-- `scale_bias` (lif/models.py:110-122). -/
def effBias (mant exp : Int) : Int := if exp ≥ 0 then mant * 2 ^ exp.toNat else mant / 2 ^ (-exp).toNat

structure Par where
  du : Int
  dv : Int
  biasMant : Int
  biasExp : Int

structure St where
  u : Int
  v : Int
deriving DecidableEq

/-- First `np.where` of the wrap-around of the current (lif/models.py:161-165). -/
def wrapHi (x : Int) : Int := if x > maxUV then x - 2 * maxUV else x

/-- Second `np.where` of the wrap-around (lif/models.py:166-171). -/
def wrapCurr (x : Int) : Int := if wrapHi x ≤ -maxUV then x + 2 * maxUV else wrapHi x

def clip (lo hi x : Int) : Int := min (max x lo) hi

/-- `subthr_dynamics` (lif/models.py:138-186), `ds_offset = 1`, `dm_offset = 0` (lif/models.py:94-95). -/
def subthr (p : Par) (s : St) (a : Int) : St :=
  let u := wrapCurr (decay s.u (p.du + 1) + a * 2 ^ 6)
  let v := clip (-maxUV + 1) (maxUV - 1) (decay s.v p.dv + u + effBias p.biasMant p.biasExp)
  { u := u, v := v }

/-- `PyLifModelBitAcc`: `spiking_activation` and `reset_voltage` (lif/models.py:188-192, 276-278), with the scaled threshold
`eff`. -/
def spikeReset (eff : Int) (s : St) : St × Bool :=
  let spk := decide (s.v > eff)
  ({ s with v := if spk then 0 else s.v }, spk)

/-- The model object: state, and the threshold as scaled at the first step (lif/models.py:207-208, 268-274). -/
structure Obj where
  st : St
  eff : Option Int

/-- `run_spk` of `PyLifModelBitAcc` (lif/models.py:194-216): `vth` is the current value of the variable. -/
def runSpk (p : Par) (vth : Int) (o : Obj) (a : Int) : Obj × Bool :=
  let eff := o.eff.getD (vth * 2 ^ 6)
  let r := spikeReset eff (subthr p o.st a)
  ({ st := r.1, eff := some eff }, r.2)

/-- A run over a sequence of inputs. -/
def runAll (p : Par) (vth : Int) : Obj → List Int → Obj × List Bool
  | o, [] => (o, [])
  | o, a :: as =>
    let r := runSpk p vth o a
    let q := runAll p vth r.1 as
    (q.1, r.2 :: q.2)

/-- `PyTernLifModelFixed` (lif/models.py:328-342): spike value and reset, thresholds already scaled. -/
def ternSpike (lo hi : Int) (s : St) : St × Int :=
  let k : Int := (-1) * (if s.v < lo then 1 else 0) + (if s.v > hi then 1 else 0)
  ({ s with v := if k ≠ 0 then 0 else s.v }, k)

/-- `PyLifResetModelBitAcc.run_spk` (lif/models.py:426-449) at time step `t`; interval and offset as in lines 411-412. -/
def resetRunSpk (p : Par) (eff : Int) (interval offset : Nat) (s : St) (t : Nat) (a : Int) : St × Bool :=
  let s0 : St := if t % interval = offset % interval then { u := 0, v := 0 } else s
  spikeReset eff (subthr p s0 a)

/-- Run from time step `t`. -/
def resetRun (p : Par) (eff : Int) (interval offset : Nat) : St → Nat → List Int → St × List Bool
  | s, _, [] => (s, [])
  | s, t, a :: as =>
    let r := resetRunSpk p eff interval offset s t a
    let q := resetRun p eff interval offset r.1 (t + 1) as
    (q.1, r.2 :: q.2)

/-! ## Refractory neuron (floating point) -/

structure RPar where
  du : Rat
  dv : Rat
  bias : Rat
  vth : Rat
  period : Nat

structure RSt where
  u : Rat
  v : Rat
  /-- `refractory_period_end` -/
  stop : Nat

/-- `PyLifRefractoryModelFloat.run_spk` at time step `t` (lif/models.py:472-502). -/
def refrStep (p : RPar) (s : RSt) (t : Nat) (a : Rat) : RSt × Bool :=
  let u := s.u * (1 - p.du) + a
  let v := if s.stop < t then s.v * (1 - p.dv) + (u + p.bias) else s.v
  let spk := decide (v > p.vth)
  ({ u := u, v := if spk then 0 else v, stop := if spk then t + p.period else s.stop }, spk)

/-- State before step `t` (steps are numbered from 1) on the input train `a`. -/
def refrAt (p : RPar) (s : RSt) (a : Nat → Rat) : Nat → RSt
  | 0 => s
  | t + 1 => (refrStep p (refrAt p s a t) (t + 1) (a (t + 1))).1

/-- Whether the neuron spikes in step `t ≥ 1`. -/
def refrSpike (p : RPar) (s : RSt) (a : Nat → Rat) (t : Nat) : Bool := (refrStep p (refrAt p s a (t - 1)) t (a t)).2

end Verif.LIF
