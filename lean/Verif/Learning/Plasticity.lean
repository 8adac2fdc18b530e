import Verif.Learning.Equation
import Verif.Weights.Model
import Mathlib.Data.Rat.Floor
import Mathlib.Algebra.Order.Floor.Ring
import Mathlib.Algebra.Order.Archimedean.Basic

/-!
# Bit-approximate learning connection

Models `LearningConnectionModelBitApproximate`
(`src/lava/magma/core/model/py/connection.py:89-1172`), `stochastic_round`
(`src/lava/magma/core/learning/utils.py:9-29`) and `LearningRuleApplierBitApprox`
(`src/lava/magma/core/learning/learning_rule_applier.py:175-328`).

All operations of that class act elementwise on the numpy arrays, so the model follows one synapse
with its pre- and post-synaptic neuron.  Random numbers are inputs.  `np.exp(-1 / tau)` is a
rational parameter `decay`; for `tau = 0` the history is filled with zeros, which is `decay = 0`.
Floating-point products are exact.  The three-factor rules (`Loihi3FLearningRule`), which overwrite
the post-synaptic traces with received values, and the sparse-matrix branches are not modelled.
-/

namespace Verif.Learning

open Verif.Weights (SignMode clipWeight)

/-- `np.clip` (lower bound first, then upper bound). -/
def clipI (lo hi x : Int) : Int := min (max x lo) hi

/-- `stochastic_round` for an integer value (core/learning/utils.py:9-29). -/
def stochRound (v : Int) (rnd prob : ℚ) : Int := if rnd < prob then v + 1 else v

/-- Configuration of one trace: integer and fractional part of the impulse
(connection.py:650-672) and the decay factor per step. -/
structure TrCfg where
  imp : Int
  frac : Int
  decay : ℚ

/-- `_add_impulse` (connection.py:905-934): add, round stochastically, clip to 7 bits. -/
def addImpulse (c : TrCfg) (rnd : Int) (tr : Int) : Int :=
  clipI 0 (2 ^ 7 - 1) (stochRound (tr + c.imp) rnd c.frac)

/-- `_decay_trace` over one step (connection.py:873-902): the product is split into floor and
fractional part and rounded stochastically. -/
def decayTrace (c : TrCfg) (rnd : ℚ) (tr : Int) : Int :=
  stochRound ⌊c.decay * tr⌋ rnd (c.decay * tr - ⌊c.decay * tr⌋)

/-- One row of the history: decay, then add the impulse if the recorded spike time is this step
(connection.py:840-869). -/
def histStep (c : TrCfg) (rndD : ℚ) (rndI : Int) (spiked : Bool) (tr : Int) : Int :=
  if spiked then addImpulse c rndI (decayTrace c rndD tr) else decayTrace c rndD tr

/-- `_compute_trace_histories` for one trace (connection.py:799-871): the value after `t` steps of
the epoch; the random numbers are the same for the whole epoch. -/
def hist (c : TrCfg) (rndD : ℚ) (rndI : Int) (tSpike : Nat) (tr : Int) : Nat → Int
  | 0 => tr
  | t + 1 => histStep c rndD rndI (tSpike == t + 1) (hist c rndD rndI tSpike tr t)

/-- `GradedSpikeCfg` (constants.py:91-96). -/
inductive Graded
  | regular | overwrite | addSat | addNoSat
  deriving DecidableEq, Repr

/-- `np.round(activations / 2).astype(np.uint8)` for a non-negative payload (connection.py:722):
round half to even, then keep 8 bits. -/
def scaledAct (a : Nat) : Int :=
  ((if a % 4 = 3 then a / 2 + 1 else a / 2) % 256 : Nat)

/-- Parameters of the connection. -/
structure Cfg where
  tEpoch : Nat
  graded : Graded
  cx1 : TrCfg
  cx2 : TrCfg
  cy1 : TrCfg
  cy2 : TrCfg
  cy3 : TrCfg
  mode : SignMode
  dw : Option (List Product)
  dd : Option (List Product)
  dt : Option (List Product)
  dec : Option Nat

/-- State of one synapse: traces, within-epoch spike times, synaptic variables `weights`, `tag_2`
(`d`) and `tag_1` (`t`). -/
structure St where
  x1 : Int
  x2 : Int
  y1 : Int
  y2 : Int
  y3 : Int
  tx : Nat
  ty : Nat
  w : Int
  d : Int
  t : Int
  deriving DecidableEq

/-- What arrives in one step: the pre-synaptic payload (0 is no spike), the post-synaptic spike, and
the random numbers drawn in this step. -/
structure Inp where
  pre : Nat
  post : Bool
  rndPost : Int
  xDecay : ℚ
  xImp : Int
  yDecay : ℚ
  yImp : Int
  rndW : ℚ

/-- The random numbers are in the ranges of the generators (random.py:41-51, 78-88): floats in `[0,1)`,
integers in `[0, 2^7)`. -/
structure Inp.ok (i : Inp) : Prop where
  a : 0 ≤ i.xDecay
  b : 0 ≤ i.yDecay
  c : 0 ≤ i.rndW
  d : 0 ≤ i.rndPost ∧ i.rndPost < 2 ^ 7
  e : 0 ≤ i.xImp ∧ i.xImp < 2 ^ 7
  f : 0 ≤ i.yImp ∧ i.yImp < 2 ^ 7

/-- `_within_epoch_time_step` (connection.py:367-382). -/
def withinEpoch (tEpoch time : Nat) : Nat :=
  if time % tEpoch = 0 then tEpoch else time % tEpoch

/-- `lrn_guard` (connection.py:428-429). -/
def lrnGuard (tEpoch time : Nat) : Bool := time % tEpoch == 0

/-- Second and later spikes of an epoch (connection.py:719, 776). -/
def multi (tSpike : Nat) (spiked : Bool) : Bool := decide (0 < tSpike) && spiked

/-- The overflow index of mode `ADD_WITHOUT_SATURATION` (connection.py:745-751). -/
def overflow (x1 : Int) (a : Nat) : Bool := decide (127 < (x1 + scaledAct a) % 256)

/-- New `x1` of `_process_pre_spikes` (connection.py:727-751); sums are cut to 8 bits. -/
def preX1 (c : Cfg) (s : St) (a : Nat) : Int :=
  match c.graded with
  | .regular => if multi s.tx (decide (0 < a)) then addImpulse c.cx1 0 s.x1 else s.x1
  | .overwrite => if 0 < a then scaledAct a else s.x1
  | .addSat => clipI 0 127 ((s.x1 + scaledAct a) % 256)
  | .addNoSat =>
    if overflow s.x1 a then (s.x1 + scaledAct a) % 256 - 127 else (s.x1 + scaledAct a) % 256

/-- Whether the spike updates `x2` and its time is recorded (connection.py:724-725, 745-751): in mode
`ADD_WITHOUT_SATURATION` only spikes that overflow `x1` count. -/
def counted (c : Cfg) (s : St) (a : Nat) : Bool :=
  match c.graded with
  | .addNoSat => decide (0 < a) && overflow s.x1 a
  | _ => decide (0 < a)

/-- `_process_pre_spikes` (connection.py:694-761); the impulse is added with random number 0. -/
def preSpike (c : Cfg) (time : Nat) (s : St) (a : Nat) : St :=
  { s with
    x1 := preX1 c s a
    x2 := if multi s.tx (counted c s a) then addImpulse c.cx2 0 s.x2 else s.x2
    tx := if counted c s a then withinEpoch c.tEpoch time else s.tx }

/-- `_process_post_spikes` (connection.py:763-788). -/
def postSpike (c : Cfg) (time : Nat) (s : St) (i : Inp) : St :=
  { s with
    y1 := if multi s.ty i.post then addImpulse c.cy1 i.rndPost s.y1 else s.y1
    y2 := if multi s.ty i.post then addImpulse c.cy2 i.rndPost s.y2 else s.y2
    y3 := if multi s.ty i.post then addImpulse c.cy3 i.rndPost s.y3 else s.y3
    ty := if i.post then withinEpoch c.tEpoch time else s.ty }

/-- `recv_traces` for a two-factor rule (connection.py:384-414). -/
def recvTraces (c : Cfg) (time : Nat) (s : St) (i : Inp) : St :=
  postSpike c time (preSpike c time s i.pre) i

/-- Trace value at step `t` of the epoch. -/
def traceAt (c : Cfg) (s : St) (i : Inp) (t : Nat) : V → Int
  | .x1 => hist c.cx1 i.xDecay i.xImp s.tx s.x1 t
  | .x2 => hist c.cx2 i.xDecay i.xImp s.tx s.x2 t
  | .y1 => hist c.cy1 i.yDecay i.yImp s.ty s.y1 t
  | .y2 => hist c.cy2 i.yDecay i.yImp s.ty s.y2 t
  | .y3 => hist c.cy3 i.yDecay i.yImp s.ty s.y3 t
  | .w => s.w
  | .d => s.d
  | .t => s.t

/-- The step at which traces are read for a dependency (connection.py:474-525): the recorded spike
time for `x0`, `y0`, the end of the epoch for `u`. -/
def readTime (c : Cfg) (s : St) : Dep → Nat
  | .x0 => s.tx
  | .y0 => s.ty
  | .u => c.tEpoch

/-- The value of `u` (connection.py:1009-1021): 1 in every `2^k`-th epoch, 0 otherwise and when no
rule uses `u_k`. -/
def uVal (c : Cfg) (time : Nat) : Int :=
  match c.dec with
  | none => 0
  | some k => if (time / c.tEpoch) % 2 ^ k = 0 then 1 else 0

/-- Values of the dependencies (connection.py:443-445, 1000-1021). -/
def depVal (c : Cfg) (time : Nat) (s : St) : Dep → Int
  | .x0 => if 0 < s.tx then 1 else 0
  | .y0 => if 0 < s.ty then 1 else 0
  | .u => uVal c time

/-- What the applier sees of one synapse (`applier_args`, connection.py:975-1026). -/
structure IEnv where
  dep : Dep → Int
  val : Dep → V → Int

/-- `_extract_applier_args` (connection.py:975-1026). -/
def applierArgs (c : Cfg) (time : Nat) (s : St) (i : Inp) : IEnv :=
  ⟨depVal c time s, fun d v => traceAt c s i (readTime c s d) v⟩

/-- `FACTOR_TO_WIDTH_DICT` (constants.py:60-72). -/
def factorWidth : FVar → Nat
  | .x0 => 1
  | .y0 => 1
  | .v .x1 | .v .x2 | .v .y1 | .v .y2 | .v .y3 => 7
  | .v .w | .v .d | .v .t => 9

/-- Value of a state variable of a factor. -/
def IEnv.fvar (env : IEnv) (d : Dep) : FVar → Int
  | .x0 => env.dep .x0
  | .y0 => env.dep .y0
  | .v v => env.val d v

/-- `_compute_factor` (learning_rule_applier.py:192-241). -/
def factorRaw (env : IEnv) (d : Dep) (f : Factor) : ℚ :=
  if f.isSgn then signQ ((env.fvar d f.var : ℚ) + f.const.getD 0)
  else (env.fvar d f.var : ℚ) + f.const.getD 0

/-- Truncation toward zero, `astype(np.int32)` of a float. -/
def truncQ (q : ℚ) : Int := if q < 0 then ⌈q⌉ else ⌊q⌋

/-- Saturation and conversion of a factor (learning_rule_applier.py:294-300). -/
def factorVal (env : IEnv) (d : Dep) (f : Factor) : Int :=
  truncQ (min (max (factorRaw env d f) (-(2 ^ factorWidth f.var : ℚ)))
    (2 ^ factorWidth f.var - 1))

/-- Wrap-around of 32-bit multiplication. -/
def wrap32 (x : Int) : Int := (x + 2 ^ 31) % 2 ^ 32 - 2 ^ 31

/-- The multiplications of one product (learning_rule_applier.py:274-307), in 32-bit arithmetic. -/
def mac (env : IEnv) (p : Product) : Int :=
  wrap32 ((p.factors.foldl (fun acc f => wrap32 (acc * factorVal env p.dep f))
    (wrap32 (env.dep p.dep))) * p.m)

/-- `factor_width_sum` (learning_rule_applier.py:280-304). -/
def widthSum (p : Product) : Nat := (p.factors.map fun f => factorWidth f.var).sum + 4

/-- Lower bound of the accumulator, `-(2 ** 15) - 1` (learning_rule_applier.py:317-326). -/
def accLo : Int := -(2 ^ 15) - 1

/-- Upper bound of the accumulator. -/
def accHi : Int := 2 ^ 15 - 1

/-- The value of one product before saturation (learning_rule_applier.py:309-315): right shift back
to 15 bits, left shift by the stored exponent. -/
def shifted (env : IEnv) (p : Product) : Int :=
  mac env p / 2 ^ (widthSum p - 15) * 2 ^ p.sexp.toNat

/-- One turn of the loop of `LearningRuleApplierBitApprox.apply`
(learning_rule_applier.py:272-326). -/
def applyProduct (env : IEnv) (acc : Int) (p : Product) : Int :=
  clipI accLo accHi (acc + clipI accLo accHi (shifted env p))

/-- `LearningRuleApplierBitApprox.apply` (learning_rule_applier.py:243-328). -/
def applyRule (env : IEnv) (acc : Int) (ps : List Product) : Int :=
  ps.foldl (applyProduct env) acc

/-- `_stochastic_round_synaptic_variable` followed by `>> shift` (connection.py:1073-1111, 967-970):
`exp_mant` and `2^shift` are both 128. -/
def roundAcc (rnd : ℚ) (acc : Int) : Int :=
  stochRound ⌊(acc : ℚ) / 128⌋ rnd ((acc : ℚ) / 128 - ⌊(acc : ℚ) / 128⌋) * 128 / 128

/-- `_saturate_synaptic_variable_accumulator` for weights (connection.py:1049-1055).  Sign mode
`NULL` makes the code fail; the theorems exclude it. -/
def satAccW (m : SignMode) (acc : Int) : Int :=
  match m with
  | .excitatory => max 0 acc
  | .inhibitory => min 0 acc
  | _ => acc

/-- New weight (connection.py:936-973, 1113-1141). -/
def learnW (c : Cfg) (env : IEnv) (rnd : ℚ) (w : Int) : Int :=
  match c.dw with
  | none => w
  | some ps => clipWeight (roundAcc rnd (satAccW c.mode (applyRule env (w * 128) ps))) c.mode 8 false

/-- New `tag_2` (connection.py:1057-1062, 1142-1154), dense case. -/
def learnD (c : Cfg) (env : IEnv) (rnd : ℚ) (d : Int) : Int :=
  match c.dd with
  | none => d
  | some ps => clipI 0 (2 ^ 8 - 1) (roundAcc rnd (max 0 (applyRule env (d * 128) ps)))

/-- New `tag_1` (connection.py:1063-1065, 1155-1167), dense case. -/
def learnT (c : Cfg) (env : IEnv) (rnd : ℚ) (t : Int) : Int :=
  match c.dt with
  | none => t
  | some ps => clipI (-(2 ^ 8) - 1) (2 ^ 8 - 1) (roundAcc rnd (applyRule env (t * 128) ps))

/-- `run_lrn` (connection.py:431-437): the arguments are extracted before any synaptic variable is
changed, traces advance to the end of the epoch, spike times are reset. -/
def runLrn (c : Cfg) (time : Nat) (s : St) (i : Inp) : St :=
  { x1 := traceAt c s i c.tEpoch .x1
    x2 := traceAt c s i c.tEpoch .x2
    y1 := traceAt c s i c.tEpoch .y1
    y2 := traceAt c s i c.tEpoch .y2
    y3 := traceAt c s i c.tEpoch .y3
    tx := 0
    ty := 0
    w := learnW c (applierArgs c time s i) i.rndW s.w
    d := learnD c (applierArgs c time s i) i.rndW s.d
    t := learnT c (applierArgs c time s i) i.rndW s.t }

/-- One time step: spiking phase, then the learning phase if its guard holds
(connection.py:384-437; model.py:392-400, 438-439). -/
def step (c : Cfg) (time : Nat) (s : St) (i : Inp) : St :=
  if lrnGuard c.tEpoch time then runLrn c time (recvTraces c time s i) i
  else recvTraces c time s i

/-- State after the first `n` steps; the time step is 1 in the first one. -/
def run (c : Cfg) (s : St) (inp : Nat → Inp) : Nat → St
  | 0 => s
  | n + 1 => step c (n + 1) (run c s inp n) (inp (n + 1))

end Verif.Learning
