import Verif.Plastic.Model
import Verif.Learning.Matrix
import Verif.Dense.Model

/-!
# LearningDense in fixed point as a process of a network

`PyLearningDenseModelBitApproximate` (`proc/dense/models.py:145-192`): the array code of `Verif.Learning.Matrix` with the ports and Vars of the process. The other processes of the network are arbitrary; their
Vars have values in `Y`.
-/

namespace Verif.Plastic

open Verif.Learning (MCfg MSt MInp MRcv Arr preSpikeM postSpikeM runLrnM)
open Verif.Weights (truncWeight)

/-- The random numbers of one time step (`_update_trace_randoms`, `_update_synaptic_variable_random`, magma/core/model/py/connection.py:384-414, 431-432, 674-692). -/
structure Draw where
  rndPost : Int
  xDecay : ℚ
  xImp : Int
  yDecay : ℚ
  yImp : Int
  rndW : ℚ

/-- The random numbers together with the spikes of a step. -/
def Draw.inp (d : Draw) (pre : List Nat) (post : List Bool) : MInp := ⟨pre, post, d.rndPost, d.xDecay, d.xImp, d.yDecay, d.yImp, d.rndW⟩

/-- Parameters of the process: those of the learning engine, whether the rule is a three-factor rule, whether `num_message_bits > 0`, `weight_exp`, `num_weight_bits`, and the random numbers of every time
step. -/
structure LPar where
  cfg : MCfg
  three : Bool
  msg : Bool
  weightExp : Int
  bits : Int
  rnd : Nat → Draw

/-- Vars of a process: of a learning connection (time step, `weights_set`, `a_buff`, arrays of the learning engine), or of another process. `crashed` is a learning connection that has raised an exception. -/
inductive LVars (Y : Type) where
  | learn (time : Nat) (set : Bool) (buf : Nat → Int) (s : MSt)
  | crashed
  | other (y : Y)

/-- `s_in` as `recv_traces` gets it (dense/models.py:177-183): payloads, or 1 for every spike. Simplification: payloads below 0 count as no spike. -/
def preOf (c : LPar) (a : Nat → Int) : List Nat := (List.range c.cfg.pre).map fun j => if c.msg then (a j).toNat else if a j ≠ 0 then 1 else 0

/-- `s_in_bap.recv().astype(bool)` (connection.py:399, 402). -/
def postOf (c : LPar) (a : Nat → Int) : List Bool := (List.range c.cfg.post).map fun i => decide (a i ≠ 0)

/-- A message to `s_in_y1`, `s_in_y2` or `s_in_y3` (connection.py:403-405). -/
def traceOf (c : LPar) (a : Nat → Int) : List Int := (List.range c.cfg.post).map a

/-- The arrays of the learning engine when the process is made (magma/core/process/connection.py:76-95): zeros, and the weights. -/
def freshM (c : MCfg) (w : Nat → Nat → Int) : MSt where
  x1 := List.replicate c.pre 0
  x2 := List.replicate c.pre 0
  y1 := List.replicate c.post 0
  y2 := List.replicate c.post 0
  y3 := List.replicate c.post 0
  tx := List.replicate c.pre 0
  ty := List.replicate c.post 0
  w := ⟨c.post, c.pre, w⟩
  d := .full c.post c.pre 0
  t := .full c.post c.pre 0

/-- `truncate_weights` (dense/models.py:165-171). -/
def truncM (c : LPar) (s : MSt) : MSt := { s with w := s.w.map fun x => truncWeight x c.cfg.mode c.bits 8 }

/-- `LearningDense` with `PyLearningDenseModelBitApproximate` (dense/models.py:145-192): in the first step the weights are truncated (162-171); `a_out.send(a_buff)` (176), `s_in.recv()`, new buffer (177-189),
`recv_traces` (connection.py:384-414); `lrn_guard` and `run_lrn` (connection.py:428-437). `three` decides which ports are used. Var 0 is `weights`, Var 1 is `a_buff`.
Simplification: `on_var_update` (connection.py:152-175), called after every write, stores the trace parameters again; they stay the same if and only if they are integers (C105), which is assumed here. -/
def bitLearn {Y : Type} (c : LPar) (w0 : Nat → Nat → Int) : Proc (LVars Y) (Nat → Int) Int where
  late := false
  ins := if c.three then ["s_in", "s_in_bap", "s_in_y1", "s_in_y2", "s_in_y3"] else ["s_in", "s_in_bap"]
  outs := ["a_out"]
  init := .learn 0 false (fun _ => 0) (freshM c.cfg w0)
  begin_ s := match s with
    | .learn t b buf s => .learn (t + 1) true buf (if b then s else truncM c s)
    | s => s
  absorb s x a := match s with
    | .learn t b buf s =>
      if x = "s_in" then .learn t b (fun i => Dense.shiftExp c.weightExp (Dense.accum c.cfg.pre c.msg s.w.at_ a i)) (preSpikeM c.cfg t s (preOf c a))
      else if x = "s_in_bap" then .learn t b buf (postSpikeM c.cfg t s ((c.rnd t).inp [] (postOf c a)))
      else if x = "s_in_y1" then .learn t b buf { s with y1 := traceOf c a }
      else if x = "s_in_y2" then .learn t b buf { s with y2 := traceOf c a }
      else .learn t b buf { s with y3 := traceOf c a }
    | s => s
  out s _ := match s with
    | .learn _ _ buf _ => buf
    | _ => fun _ => 0
  guard s := match s with
    | .learn t _ _ _ => Learning.lrnGuard c.cfg.tEpoch t
    | _ => false
  learn s := match s with
    | .learn t b buf s => match runLrnM c.cfg t s ((c.rnd t).inp [] []) c.three with
      | some s' => .learn t b buf s'
      | none => .crashed
    | s => s
  vsize x := if x = 0 then c.cfg.post * c.cfg.pre else c.cfg.post
  peek s x k := match s with
    | .learn _ _ buf s => if x = 0 then s.w.at_ (k / c.cfg.pre) (k % c.cfg.pre) else buf k
    | _ => 0
  poke s x k v := match s with
    | .learn t b buf s =>
      if x = 0 then .learn t b buf { s with w := { s.w with at_ := fun i j => if i = k / c.cfg.pre ∧ j = k % c.cfg.pre then v else s.w.at_ i j } }
      else .learn t b (fun i => if i = k then v else buf i) s
    | s => s

/-- Another process in this network. -/
def other {Y : Type} (Q : Proc Y (Nat → Int) Int) : Proc (LVars Y) (Nat → Int) Int where
  late := Q.late
  ins := Q.ins
  outs := Q.outs
  init := .other Q.init
  begin_ s := match s with | .other y => .other (Q.begin_ y) | s => s
  absorb s x a := match s with | .other y => .other (Q.absorb y x a) | s => s
  out s x := match s with | .other y => Q.out y x | _ => fun _ => 0
  guard s := match s with | .other y => Q.guard y | _ => false
  learn s := match s with | .other y => .other (Q.learn y) | s => s
  vsize := Q.vsize
  peek s x k := match s with | .other y => Q.peek y x k | _ => 0
  poke s x k v := match s with | .other y => .other (Q.poke y x k v) | s => s

end Verif.Plastic
