import Verif.Learning.Plasticity
import Mathlib.Algebra.Order.Field.Basic
import Mathlib.Data.Rat.Cast.CharZero
import Mathlib.Data.Int.Log
import Mathlib.Data.Nat.Digits.Lemmas

/-!
# Model of floating-point learning connections

`LearningConnectionModelFloat` (magma/core/model/py/connection.py:1175-1566) with its base class, for one synapse of a dense connection, and the literals made by
`float_to_literal` (magma/core/learning/utils.py:52-78). Numbers are elements of any linearly ordered field with exact arithmetic; `none` is NaN. Not modelled:
rounding of floats, infinities, sparse connections.
-/

namespace Verif.Learning

open Verif.Weights (SignMode)

section
variable {K : Type} [Field K] [LinearOrder K]

/-- Sum and product with NaN. -/
def nanAdd (a b : Option K) : Option K := a.bind fun x => b.map (x + ·)

def nanMul (a b : Option K) : Option K := a.bind fun x => b.map (x * ·)

/-- One trace: the impulse and `exp(-1 / tau)`, `none` if `tau` is 0 (connection.py:1271-1294, 1426-1447). -/
structure FTr (K : Type) where
  imp : K
  decay : Option K

/-- `_compute_trace_histories` for one trace and one neuron (connection.py:1370-1424): value after `t` steps of the epoch. Rows are filled with NaN and only
rows of traces with `tau != 0` are overwritten. -/
def fhist (c : FTr K) (tSpike : Nat) (tr : Option K) : Nat → Option K
  | 0 => tr
  | t + 1 =>
    let v := c.decay.bind fun d => (fhist c tSpike tr t).map (d * ·)
    if tSpike = t + 1 then v.map (· + c.imp) else v

/-- Parameters of the connection; `two` says that the rule is a `Loihi2FLearningRule`. -/
structure FCfg (K : Type) where
  tEpoch : Nat
  graded : Graded
  two : Bool
  cx1 : FTr K
  cx2 : FTr K
  cy1 : FTr K
  cy2 : FTr K
  cy3 : FTr K
  mode : SignMode
  dw : Option (List Product)
  dd : Option (List Product)
  dt : Option (List Product)
  dec : Option Nat

/-- State of one synapse: traces, spike times, `weights`, `tag_2` (`d`), `tag_1` (`t`). -/
structure FSt (K : Type) where
  x1 : Option K
  x2 : Option K
  y1 : Option K
  y2 : Option K
  y3 : Option K
  tx : Nat
  ty : Nat
  w : Option K
  d : Option K
  t : Option K
  deriving DecidableEq

/-- What arrives in one step: the pre-synaptic payload (0 is no spike), the post-synaptic spike and, for three-factor rules, the post-synaptic traces. -/
structure FInp (K : Type) where
  pre : K
  post : Bool
  y1 : K
  y2 : K
  y3 : K

/-- Impulse of the second and later spikes of an epoch (connection.py:1326, 1330-1331, 1342, 1361-1365). -/
def bump (c : FTr K) (tSpike : Nat) (spiked : Bool) (tr : Option K) : Option K :=
  if multi tSpike spiked then tr.map (· + c.imp) else tr

/-- `_process_pre_spikes` (connection.py:1302-1345). -/
def fPre (c : FCfg K) (time : Nat) (s : FSt K) (a : K) : FSt K :=
  { s with
    x1 := match c.graded with
      | .regular => bump c.cx1 s.tx (decide (a ≠ 0)) s.x1
      | .overwrite => if a ≠ 0 then some (a / 2) else s.x1
      | .addSat | .addNoSat => s.x1.map (· + a / 2)
    x2 := bump c.cx2 s.tx (decide (a ≠ 0)) s.x2
    tx := if a ≠ 0 then withinEpoch c.tEpoch time else s.tx }

/-- `_process_post_spikes` (connection.py:1347-1368). -/
def fPost (c : FCfg K) (time : Nat) (s : FSt K) (post : Bool) : FSt K :=
  { s with
    y1 := bump c.cy1 s.ty post s.y1
    y2 := bump c.cy2 s.ty post s.y2
    y3 := bump c.cy3 s.ty post s.y3
    ty := if post then withinEpoch c.tEpoch time else s.ty }

/-- `recv_traces` (connection.py:384-414): a three-factor rule takes over the traces of the post-synaptic neuron. -/
def fRecv (c : FCfg K) (time : Nat) (s : FSt K) (i : FInp K) : FSt K :=
  let r := fPost c time (fPre c time s i.pre) i.post
  if c.two then r else { r with y1 := some i.y1, y2 := some i.y2, y3 := some i.y3 }

/-- Trace value at step `t` of the epoch. -/
def fTraceAt (c : FCfg K) (s : FSt K) (t : Nat) : V → Option K
  | .x1 => fhist c.cx1 s.tx s.x1 t
  | .x2 => fhist c.cx2 s.tx s.x2 t
  | .y1 => fhist c.cy1 s.ty s.y1 t
  | .y2 => fhist c.cy2 s.ty s.y2 t
  | .y3 => fhist c.cy3 s.ty s.y3 t
  | .w => s.w
  | .d => s.d
  | .t => s.t

/-- The step at which traces are read (connection.py:474-525). -/
def fReadTime (c : FCfg K) (s : FSt K) : Dep → Nat
  | .x0 => s.tx
  | .y0 => s.ty
  | .u => c.tEpoch

/-- Values of the dependencies (connection.py:443-445, 1497-1511). -/
def fDep (c : FCfg K) (time : Nat) (s : FSt K) : Dep → K
  | .x0 => if 0 < s.tx then 1 else 0
  | .y0 => if 0 < s.ty then 1 else 0
  | .u => match c.dec with
    | none => 0
    | some k => if (time / c.tEpoch) % 2 ^ k = 0 then 1 else 0

/-- `np.sign`. -/
def signK (x : K) : K := if 0 < x then 1 else if x < 0 then -1 else 0

/-- A factor (learning_rule_applier.py:107-142). -/
def fFactor (c : FCfg K) (time : Nat) (s : FSt K) (d : Dep) (f : Factor) : Option K :=
  let v := match f.var with
    | .x0 => some (fDep c time s .x0)
    | .y0 => some (fDep c time s .y0)
    | .v v => fTraceAt c s (fReadTime c s d) v
  let v := v.map (· + ((f.const.getD 0 : ℚ) : K))
  if f.isSgn then v.map signK else v

/-- A product (learning_rule_applier.py:74-97). -/
def fProduct (c : FCfg K) (time : Nat) (s : FSt K) (p : Product) : Option K :=
  (p.factors.map (fFactor c time s p.dep)).foldl nanMul (some ((p.m : K) * 2 ^ (p.sexp - 7) * fDep c time s p.dep))

/-- `LearningRuleApplierFloat.apply` (learning_rule_applier.py:144-172). -/
def fApply (c : FCfg K) (time : Nat) (s : FSt K) (ps : List Product) (v : Option K) : Option K :=
  nanAdd v ((ps.map (fProduct c time s)).foldl nanAdd (some 0))

/-- `_saturate_synaptic_variable` for weights (connection.py:1524-1549). -/
def fSatW (m : SignMode) (v : Option K) : Option K :=
  match m with
  | .excitatory => v.map (max 0)
  | .inhibitory => v.map (min 0)
  | _ => v

/-- `run_lrn` (connection.py:431-437, 451-466, 1449-1468): the y traces of a three-factor rule are left alone. -/
def fLrn (c : FCfg K) (time : Nat) (s : FSt K) : FSt K :=
  { x1 := fTraceAt c s c.tEpoch .x1
    x2 := fTraceAt c s c.tEpoch .x2
    y1 := if c.two then fTraceAt c s c.tEpoch .y1 else s.y1
    y2 := if c.two then fTraceAt c s c.tEpoch .y2 else s.y2
    y3 := if c.two then fTraceAt c s c.tEpoch .y3 else s.y3
    tx := 0
    ty := 0
    w := match c.dw with
      | none => s.w
      | some ps => fSatW c.mode (fApply c time s ps s.w)
    d := match c.dd with
      | none => s.d
      | some ps => (fApply c time s ps s.d).map (max 0)
    t := match c.dt with
      | none => s.t
      | some ps => fApply c time s ps s.t }

/-- One time step (connection.py:384-437, model.py:392-400). -/
def fStep (c : FCfg K) (time : Nat) (s : FSt K) (i : FInp K) : FSt K :=
  if lrnGuard c.tEpoch time then fLrn c time (fRecv c time s i) else fRecv c time s i

/-- State after the first `n` steps; the time step is 1 in the first one. -/
def fRun (c : FCfg K) (s : FSt K) (inp : Nat → FInp K) : Nat → FSt K
  | 0 => s
  | n + 1 => fStep c (n + 1) (fRun c s inp n) (inp (n + 1))

end

/-! ## Literals of learning parameters -/

/-- `int(np.round(np.log2(r)))` for positive `r`: the integer nearest to the logarithm, decided without logarithms. The logarithm of a rational is never half way
between two integers. -/
def roundLog2 (r : ℚ) : Int := if 2 ^ (2 * Int.log 2 r + 1) < r ^ 2 then Int.log 2 r + 1 else Int.log 2 r

/-- `float_to_literal` (core/learning/utils.py:52-78): sign, mantissa and exponent of the text; `none` is the text `0`, an exponent `none` is the text without power. -/
def floatToLiteral (p : ℚ) : Option (Int × Option Int) :=
  if p = 0 then none else
  let sign : Int := if p < 0 then -1 else 1
  let mant : Int := max ⌊|p|⌋ 1
  let rem := |p| / mant
  if rem = 1 then some (sign * mant, none) else some (sign * mant, some (roundLog2 rem))

/-- Decimal text of a number, as written by an f-string. -/
def natText (n : Nat) : List Char := if n = 0 then ['0'] else (Nat.digits 10 n).reverse.map fun d => Char.ofNat (48 + d)

def intText (z : Int) : List Char := (if z < 0 then ['-'] else []) ++ natText z.natAbs

/-- The text made by `float_to_literal` (core/learning/utils.py:74-78). -/
def litText : Option (Int × Option Int) → List Char
  | none => ['0']
  | some (m, none) => '(' :: (intText m ++ [')'])
  | some (m, some e) => '(' :: (intText m ++ (") * 2 ^ ".toList ++ intText e))

/-- `dw` of `STDPLoihi` (proc/learning_rules/stdp_learning_rule.py:48-49). -/
def stdpText (lr aMinus aPlus : Option (Int × Option Int)) : List Char :=
  litText lr ++ (" * ".toList ++ (litText aMinus ++ (" * x0 * y1 +".toList ++ (litText lr ++ (" * ".toList ++ (litText aPlus ++ " * y0 * x1".toList))))))

/-- `dt` of `RewardModulatedSTDP` (proc/learning_rules/r_stdp_learning_rule.py:70-72). -/
def rstdpDt (lr aMinus aPlus elig : Option (Int × Option Int)) : List Char :=
  litText lr ++ (" * ".toList ++ (litText aMinus ++ (" * x0 * y1 + ".toList ++ (litText lr ++ (" * ".toList ++ (litText aPlus ++
    (" * y0 * x1 - u0 * t * ".toList ++ litText elig)))))))

/-- `dw` of `RewardModulatedSTDP` (r_stdp_learning_rule.py:75). -/
def rstdpDw : List Char := " u0 * t * y2 ".toList

end Verif.Learning
