import Verif.Learning.ThreeFactor

/-!
# The learning connection as array code

`LearningConnectionModelBitApproximate` (`src/lava/magma/core/model/py/connection.py:384-1172`) and `LearningRuleApplierBitApprox`
(`src/lava/magma/core/learning/learning_rule_applier.py:175-328`) as they are written: on whole numpy arrays, with boolean and integer index
arrays, `diagonal`, transposition and broadcasting. `Plasticity.lean` and `ThreeFactor.lean` follow a single synapse.

Vectors are lists, two-dimensional arrays carry their shape, histories are lists of lists of lists. `none` is an exception of numpy (shapes that
cannot be broadcast). Dense connections only; entries are unbounded integers except where the single-synapse model wraps them.
-/

namespace Verif.Learning

open Verif.Weights (SignMode clipWeight)

/-! ## numpy -/

/-- A two-dimensional array with its shape; entries outside do not matter. -/
structure Arr where
  r : Nat
  c : Nat
  at_ : Nat → Nat → Int

/-- Broadcasting of one dimension. -/
def bcDim (a b : Nat) : Option Nat := if a = b then some a else if a = 1 then some b else if b = 1 then some a else none

/-- The index used in a dimension of size `n`. -/
def bcIdx (n i : Nat) : Nat := if n = 1 then 0 else i

/-- A binary operation with broadcasting. -/
def Arr.bc (f : Int → Int → Int) (a b : Arr) : Option Arr :=
  (bcDim a.r b.r).bind fun r => (bcDim a.c b.c).map fun c =>
    ⟨r, c, fun i j => f (a.at_ (bcIdx a.r i) (bcIdx a.c j)) (b.at_ (bcIdx b.r i) (bcIdx b.c j))⟩

/-- An operation in place: the result must have the shape of the first operand. -/
def Arr.inplace (f : Int → Int → Int) (a b : Arr) : Option Arr :=
  (a.bc f b).bind fun x => if x.r = a.r ∧ x.c = a.c then some x else none

/-- An elementwise operation. -/
def Arr.map (f : Int → Int) (a : Arr) : Arr := ⟨a.r, a.c, fun i j => f (a.at_ i j)⟩

/-- `np.full`. -/
def Arr.full (r c : Nat) (x : Int) : Arr := ⟨r, c, fun _ _ => x⟩

/-- `v[np.newaxis, :]`. -/
def Arr.row (v : List Int) : Arr := ⟨1, v.length, fun _ j => v.getD j 0⟩

/-- `v[:, np.newaxis]`. -/
def Arr.col (v : List Int) : Arr := ⟨v.length, 1, fun i _ => v.getD i 0⟩

/-- Rows as a two-dimensional array with `c` columns. -/
def Arr.ofRows (c : Nat) (m : List (List Int)) : Arr := ⟨m.length, c, fun i j => (m.getD i []).getD j 0⟩

/-- `.T`. -/
def Arr.T (a : Arr) : Arr := ⟨a.c, a.r, fun i j => a.at_ j i⟩

/-- `.diagonal()` of rows. -/
def diagonal (m : List (List Int)) : List Int := (List.range m.length).map fun k => (m.getD k []).getD k 0

/-- `np.where(mask)[0]`, also the meaning of a boolean index. -/
def whereIdx (mask : List Bool) : List Nat := (List.range mask.length).filter fun k => mask.getD k false

/-- `v[ids]`. -/
def takeIdx {α : Type} (z : α) (ids : List Nat) (v : List α) : List α := ids.map fun k => v.getD k z

/-- `v[ids] = vals`. -/
def putIdx {α : Type} (ids : List Nat) (vals : List α) (v : List α) : List α :=
  (ids.zip vals).foldl (fun v p => v.set p.1 p.2) v

/-! ## The connection -/

/-- Parameters of a trace as the process model keeps them (connection.py:618-672). -/
structure TrPar where
  imp : Int
  frac : Int
  tau : ℚ

/-- Parameters of the connection; `e tau` stands for `np.exp(-1 / tau)`, `post` and `pre` are the two sizes of `weights`. -/
structure MCfg where
  post : Nat
  pre : Nat
  tEpoch : Nat
  graded : Graded
  e : ℚ → ℚ
  x1 : TrPar
  x2 : TrPar
  y1 : TrPar
  y2 : TrPar
  y3 : TrPar
  mode : SignMode
  dw : Option (List Product)
  dd : Option (List Product)
  dt : Option (List Product)
  dec : Option Nat

/-- State: traces and within-epoch spike times per neuron, synaptic variables per synapse. -/
structure MSt where
  x1 : List Int
  x2 : List Int
  y1 : List Int
  y2 : List Int
  y3 : List Int
  tx : List Nat
  ty : List Nat
  w : Arr
  d : Arr
  t : Arr

/-- What arrives in one step and the random numbers, which are scalars (random.py:41-51, 78-88). -/
structure MInp where
  pre : List Nat
  post : List Bool
  rndPost : Int
  xDecay : ℚ
  xImp : Int
  yDecay : ℚ
  yImp : Int
  rndW : ℚ

/-- The values at the ports `s_in_y1`, `s_in_y2`, `s_in_y3` for a three-factor rule, none for a two-factor rule. -/
structure MRcv where
  y1 : List Int
  y2 : List Int
  y3 : List Int

/-- `_add_impulse` (connection.py:905-934) on a vector. -/
def addImpulseV (p : TrPar) (rnd : Int) (v : List Int) : List Int :=
  v.map fun tr => clipI 0 (2 ^ 7 - 1) (stochRound (tr + p.imp) rnd p.frac)

/-- `v[ids] = self._add_impulse(v[ids], ...)`. -/
def impulseAt (p : TrPar) (rnd : Int) (ids : List Nat) (v : List Int) : List Int :=
  putIdx ids (addImpulseV p rnd (takeIdx 0 ids v)) v

/-- `(t_spike > 0) & spiked` (connection.py:719, 776). -/
def multiV (t : List Nat) (spiked : List Bool) : List Bool := List.zipWith (fun t s => decide (0 < t) && s) t spiked

/-- `sums` of the additive graded modes (connection.py:740). -/
def sumsV (x1 : List Int) (s : List Nat) : List Int := List.zipWith (fun x a => (x + scaledAct a) % 256) x1 s

/-- `_process_pre_spikes` (connection.py:694-761). -/
def preSpikeM (c : MCfg) (time : Nat) (s : MSt) (sIn : List Nat) : MSt :=
  let spiked := sIn.map fun a => decide (0 < a)
  let multi := multiV s.tx spiked
  let scaled := sIn.map scaledAct
  let sums := sumsV s.x1 sIn
  let over := sums.map fun x => decide (127 < x)
  let x1 := match c.graded with
    | .regular => impulseAt c.x1 0 (whereIdx multi) s.x1
    | .overwrite => putIdx (whereIdx spiked) (takeIdx 0 (whereIdx spiked) scaled) s.x1
    | .addSat => sums.map (clipI 0 127)
    | .addNoSat => putIdx (whereIdx over) ((takeIdx 0 (whereIdx over) sums).map (· - 127)) sums
  let updT := match c.graded with
    | .addNoSat => List.zipWith (· && ·) spiked over
    | _ => spiked
  let updX2 := match c.graded with
    | .addNoSat => List.zipWith (· && ·) multi over
    | _ => multi
  { s with
    x1 := x1
    x2 := impulseAt c.x2 0 (whereIdx updX2) s.x2
    tx := putIdx (whereIdx updT) ((whereIdx updT).map fun _ => withinEpoch c.tEpoch time) s.tx }

/-- `_process_post_spikes` (connection.py:763-788). -/
def postSpikeM (c : MCfg) (time : Nat) (s : MSt) (i : MInp) : MSt :=
  let multi := multiV s.ty i.post
  { s with
    y1 := impulseAt c.y1 i.rndPost (whereIdx multi) s.y1
    y2 := impulseAt c.y2 i.rndPost (whereIdx multi) s.y2
    y3 := impulseAt c.y3 i.rndPost (whereIdx multi) s.y3
    ty := putIdx (whereIdx i.post) ((whereIdx i.post).map fun _ => withinEpoch c.tEpoch time) s.ty }

/-- `recv_traces` (connection.py:384-414). -/
def recvTracesM (c : MCfg) (time : Nat) (s : MSt) (i : MInp) (r : Option MRcv) : MSt :=
  let s' := postSpikeM c time (preSpikeM c time s i.pre) i
  match r with
  | none => s'
  | some r => { s' with y1 := r.y1, y2 := r.y2, y3 := r.y3 }

/-- One turn of the loop of `_compute_trace_histories` for the rows of one side (connection.py:840-869): rows with a time constant other than 0
are decayed into rows of zeros (`_decay_trace`, connection.py:873-902), then impulses are added in the columns of the neurons that spiked. -/
def histRow (e : ℚ → ℚ) (ps : List TrPar) (rndD : ℚ) (rndI : Int) (ids : List Nat) (rows : List (List Int)) : List (List Int) :=
  let live := whereIdx (ps.map fun p => decide (p.tau ≠ 0))
  let zeros := rows.map fun v => v.map fun _ => (0 : Int)
  let decayed := List.zipWith (fun (v : List Int) tau => v.map fun (tr : Int) =>
      stochRound ⌊e tau * (tr : ℚ)⌋ rndD (e tau * (tr : ℚ) - ⌊e tau * (tr : ℚ)⌋)) (takeIdx [] live rows) (takeIdx 0 live (ps.map (·.tau)))
  List.zipWith (fun v p => impulseAt p rndI ids v) (putIdx live decayed zeros) ps

/-- `_compute_trace_histories` for one side (connection.py:799-871): rows after `t` steps of the epoch. -/
def histM (e : ℚ → ℚ) (ps : List TrPar) (rndD : ℚ) (rndI : Int) (tSpike : List Nat) (rows : List (List Int)) : Nat → List (List Int)
  | 0 => rows
  | t + 1 => histRow e ps rndD rndI (whereIdx (tSpike.map fun k => k == t + 1)) (histM e ps rndD rndI tSpike rows t)

/-- Both histories, `x_traces_history` and `y_traces_history`. -/
structure Hist where
  x : Nat → List (List Int)
  y : Nat → List (List Int)

/-- `_compute_trace_histories` (connection.py:799-871). -/
def histories (c : MCfg) (s : MSt) (i : MInp) : Hist :=
  ⟨histM c.e [c.x1, c.x2] i.xDecay i.xImp s.tx [s.x1, s.x2], histM c.e [c.y1, c.y2, c.y3] i.yDecay i.yImp s.ty [s.y1, s.y2, s.y3]⟩

/-- `history[times, k]` for an index array `times` (connection.py:496-516). -/
def pick (h : Nat → List (List Int)) (times : List Nat) (k : Nat) : List (List Int) := times.map fun t => (h t).getD k []

/-- Row of a trace in its history. -/
def rowOf : V → Nat
  | .x1 | .y1 => 0
  | .x2 | .y2 => 1
  | _ => 2

/-- Whether a trace is pre-synaptic. -/
def isX : V → Bool
  | .x1 | .x2 => true
  | _ => false

/-- The arrays the applier works with: `x0`, `y0`, `u`, the evaluated traces and the synaptic variables. -/
structure MEnv where
  dep : Dep → Arr
  val : Dep → V → Arr

/-- `_extract_applier_evaluated_traces` (connection.py:474-525) for a trace. -/
def evaluated (c : MCfg) (s : MSt) (h : Hist) (d : Dep) (v : V) : Arr :=
  match d with
  | .x0 => if isX v then .row (diagonal (pick h.x s.tx (rowOf v))) else (Arr.ofRows c.post (pick h.y s.tx (rowOf v))).T
  | .y0 => if isX v then .ofRows c.pre (pick h.x s.ty (rowOf v)) else .col (diagonal (pick h.y s.ty (rowOf v)))
  | .u => if isX v then .row ((h.x c.tEpoch).getD (rowOf v) []) else .col ((h.y c.tEpoch).getD (rowOf v) [])

/-- `_extract_applier_args` (connection.py:975-1026). -/
def applierArgsM (c : MCfg) (time : Nat) (s : MSt) (h : Hist) : MEnv where
  dep := fun
    | .x0 => .row (s.tx.map fun t => if 0 < t then 1 else 0)
    | .y0 => .col (s.ty.map fun t => if 0 < t then 1 else 0)
    | .u => .full 1 1 (match c.dec with
      | none => 0
      | some k => if (time / c.tEpoch) % 2 ^ k = 0 then 1 else 0)
  val := fun d v =>
    match v with
    | .w => s.w
    | .d => s.d
    | .t => s.t
    | v => evaluated c s h d v

/-- The array of a factor (`_compute_factor`, learning_rule_applier.py:192-241). -/
def MEnv.fvar (env : MEnv) (d : Dep) : FVar → Arr
  | .x0 => env.dep .x0
  | .y0 => env.dep .y0
  | .v v => env.val d v

/-- Constant, sign, saturation and conversion of a factor, elementwise (learning_rule_applier.py:206-241, 294-300). -/
def facFn (f : Factor) (z : Int) : Int :=
  truncQ (min (max (if f.isSgn then signQ ((z : ℚ) + f.const.getD 0) else (z : ℚ) + f.const.getD 0) (-(2 ^ factorWidth f.var : ℚ)))
    (2 ^ factorWidth f.var - 1))

/-- Multiplication of 32-bit arrays in place. -/
def imul (a b : Arr) : Option Arr := a.inplace (fun x y => wrap32 (x * y)) b

/-- The multiplications of one product (learning_rule_applier.py:274-307). -/
def macM (c : MCfg) (env : MEnv) (p : Product) : Option Arr :=
  (imul (.full c.post c.pre 1) (env.dep p.dep)).bind fun a =>
  (p.factors.foldlM (fun acc f => imul acc ((env.fvar p.dep f.var).map (facFn f))) a).map fun a =>
    a.map fun x => wrap32 (x * p.m)

/-- One turn of the loop of `apply` (learning_rule_applier.py:272-326). -/
def applyProductM (c : MCfg) (env : MEnv) (acc : Arr) (p : Product) : Option Arr :=
  (macM c env p).bind fun m =>
    (acc.bc (· + ·) (m.map fun x => clipI accLo accHi (x / 2 ^ (widthSum p - 15) * 2 ^ p.sexp.toNat))).map fun a => a.map (clipI accLo accHi)

/-- `LearningRuleApplierBitApprox.apply` (learning_rule_applier.py:243-328). -/
def applyRuleM (c : MCfg) (env : MEnv) (acc : Arr) (ps : List Product) : Option Arr := ps.foldlM (applyProductM c env) acc

/-- One synaptic variable in `_apply_learning_rules` (connection.py:949-973): `sat` is the saturation of the accumulator, `clip` the last one. -/
def learnM (c : MCfg) (env : MEnv) (rnd : ℚ) (sat clip : Int → Int) (rule : Option (List Product)) (v : Arr) : Option Arr :=
  match rule with
  | none => some v
  | some ps => (applyRuleM c env (v.map (· * 128)) ps).map fun a => ((a.map sat).map (roundAcc rnd)).map clip

/-- `run_lrn` (connection.py:431-437, 451-466). -/
def runLrnM (c : MCfg) (time : Nat) (s : MSt) (i : MInp) (three : Bool) : Option MSt :=
  let h := histories c s i
  let env := applierArgsM c time s h
  (learnM c env i.rndW (satAccW c.mode) (fun x => clipWeight x c.mode 8 false) c.dw s.w).bind fun w =>
  (learnM c env i.rndW (max 0) (clipI 0 (2 ^ 8 - 1)) c.dd s.d).bind fun d =>
  (learnM c env i.rndW id (clipI (-(2 ^ 8) - 1) (2 ^ 8 - 1)) c.dt s.t).map fun t =>
    { x1 := (h.x c.tEpoch).getD 0 []
      x2 := (h.x c.tEpoch).getD 1 []
      y1 := if three then s.y1 else (h.y c.tEpoch).getD 0 []
      y2 := if three then s.y2 else (h.y c.tEpoch).getD 1 []
      y3 := if three then s.y3 else (h.y c.tEpoch).getD 2 []
      tx := s.tx.map fun _ => 0
      ty := s.ty.map fun _ => 0
      w := w
      d := d
      t := t }

/-- One time step (connection.py:384-437). -/
def stepM (c : MCfg) (time : Nat) (s : MSt) (i : MInp) (r : Option MRcv) : Option MSt :=
  let s' := recvTracesM c time s i r
  if time % c.tEpoch == 0 then runLrnM c time s' i r.isSome else some s'

/-- The first `n` steps. -/
def runM (c : MCfg) (s : MSt) (inp : Nat → MInp) (rcv : Nat → Option MRcv) : Nat → Option MSt
  | 0 => some s
  | n + 1 => (runM c s inp rcv n).bind fun s' => stepM c (n + 1) s' (inp (n + 1)) (rcv (n + 1))

end Verif.Learning
