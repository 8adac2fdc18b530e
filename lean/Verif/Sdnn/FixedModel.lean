import Verif.Sdnn.Spec
import Verif.Dense.Model

/-!
# Sigma-delta networks: the processes in fixed point

Source, `Delta` (`PyDeltaModelFixed`), layers of `Dense` (`PyDenseModelBitAcc`, graded spikes) and `SigmaDelta` (`PySigmaDeltaModelFixedCorrected`), `Dense`, `Sigma`, sink. Unbounded integers (the
floating-point models are in `Verif.Sdnn.Model`).
-/

namespace Verif.Sdnn

open Verif.Snn (Proc Kind Vars connProc sourceProc sinkProc noProc)
open Verif.SDN (DPar SDSt deltaStep corrStep shr)

abbrev IVars := Vars (SDSt Int) Dense.St Int

/-- A layer: parameters and weights of its `Dense`, and `bias`, `vth`, `act_mode`, `spike_exp`, `state_exp` of its `SigmaDelta` (or `Delta`, which has `cum_error`) as given by the user. -/
structure FLayer where
  rows : Nat
  par : Dense.Par
  w : Dense.Mat
  bias : Nat → Int
  vth : Nat → Int
  cum : Bool
  relu : Bool
  spikeExp : Nat
  stateExp : Nat

/-- `vth * (1 << (spike_exp + state_exp))` (sdn/process.py:98, 174). -/
def FLayer.thr (l : FLayer) (i : Nat) : Int := l.vth i * 2 ^ (l.spikeExp + l.stateExp)

/-- `bias * (1 << (spike_exp + state_exp))` (sdn/process.py:175). -/
def FLayer.off (l : FLayer) (i : Nat) : Int := l.bias i * 2 ^ (l.spikeExp + l.stateExp)

/-- `Delta` with `PyDeltaModelFixed` (sdn/models.py:205-231). -/
def deltaFix (l : FLayer) : Proc IVars (Nat → Int) Int :=
  gradedProc l.rows fun i s a =>
    ({ s with d := (deltaStep ⟨l.thr i, l.cum⟩ s.d (a * 2 ^ (l.spikeExp + l.stateExp))).1 }, shr (deltaStep ⟨l.thr i, l.cum⟩ s.d (a * 2 ^ (l.spikeExp + l.stateExp))).2 l.stateExp)

/-- `SigmaDelta` with `PySigmaDeltaModelFixedCorrected` (sdn/models.py:287-316). -/
def sdFix (l : FLayer) : Proc IVars (Nat → Int) Int :=
  gradedProc l.rows fun i s a =>
    ({ sigma := (corrStep (l.thr i) l.relu (l.off i) l.stateExp ⟨s.sigma, s.d.act⟩ a).1.sigma, d := { s.d with act := (corrStep (l.thr i) l.relu (l.off i) l.stateExp ⟨s.sigma, s.d.act⟩ a).1.act } },
      (corrStep (l.thr i) l.relu (l.off i) l.stateExp ⟨s.sigma, s.d.act⟩ a).2)

/-- `Dense` with `PyDenseModelBitAcc` (dense/models.py:58-107). -/
def denseFixed (l : FLayer) : Proc IVars (Nat → Int) Int :=
  connProc l.rows (Dense.init l.w) Dense.St.aBuff (fun st s => (Dense.runSpk l.par st s).1) (fun st j x => { st with aBuff := fun i => if i = j then x else st.aBuff i })

/-- The processes of a network of `L` layers, as `chain`. -/
def fixChain (L : Nat) (lay : Nat → FLayer) (len buf : Nat) (data : Nat → Nat → Int) (p : Nat) : Proc IVars (Nat → Int) Int :=
  if p = 0 then sourceProc (lay 0).rows len data
  else if p = 1 then deltaFix (lay 0)
  else if p < 2 * L + 3 then (if p % 2 = 0 then denseFixed (lay (p / 2)) else sdFix (lay (p / 2)))
  else if p = 2 * L + 3 then sigmaProc (lay (L + 1)).rows
  else if p = 2 * L + 4 then sinkProc (lay (L + 1)).rows buf
  else noProc

namespace Spec

/-- The weights used by a `Dense` process: those it has prepared in its first step, times `2 ^ weight_exp`. -/
def weight (l : FLayer) (i j : Nat) : ℚ := Dense.prepared l.par l.w i j * 2 ^ l.par.weightExp.toNat

/-- The artificial neural network in the units of the spikes: the input is multiplied by `2 ^ spike_exp`, the output of a layer divided by `2 ^ state_exp`. -/
def fixForward (lay : Nat → FLayer) (x : Nat → Int) : Nat → Nat → ℚ
  | 0, i => x i * 2 ^ (lay 0).spikeExp
  | k + 1, i =>
    let z := (∑ j ∈ Finset.range (lay (k + 1)).par.nIn, weight (lay (k + 1)) i j * fixForward lay x k j) + (lay (k + 1)).bias i * 2 ^ ((lay (k + 1)).spikeExp + (lay (k + 1)).stateExp)
    (if (lay (k + 1)).relu then max z 0 else z) / 2 ^ (lay (k + 1)).stateExp

def fixOutput (L : Nat) (lay : Nat → FLayer) (x : Nat → Int) (i : Nat) : ℚ := ∑ j ∈ Finset.range (lay (L + 1)).par.nIn, weight (lay (L + 1)) i j * fixForward lay x L j

/-- Errors: the encoder keeps back its threshold, a neuron its threshold or the bits that are shifted out; errors of the layer before are multiplied by the weights. -/
def fixSlack (lay : Nat → FLayer) : Nat → Nat → ℚ
  | 0, i => (if (lay 0).cum then 2 else 1) * (lay 0).vth i * 2 ^ (lay 0).spikeExp
  | k + 1, i =>
    ((∑ j ∈ Finset.range (lay (k + 1)).par.nIn, |weight (lay (k + 1)) i j| * fixSlack lay k j) +
      max ((lay (k + 1)).vth i * 2 ^ ((lay (k + 1)).spikeExp + (lay (k + 1)).stateExp) : ℚ) (2 ^ (lay (k + 1)).stateExp)) / 2 ^ (lay (k + 1)).stateExp

def fixOutSlack (L : Nat) (lay : Nat → FLayer) (i : Nat) : ℚ := ∑ j ∈ Finset.range (lay (L + 1)).par.nIn, |weight (lay (L + 1)) i j| * fixSlack lay L j

/-- As `table`. -/
def fixTable (rows buf T : Nat) (v : Nat → Nat → Int) : List Int := (List.range (rows * buf)).map fun j => if j % buf < T then v (j % buf) (j / buf) else 0

end Spec

end Verif.Sdnn
