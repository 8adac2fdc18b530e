import Verif.Plastic.Model
import Verif.Snn.Loihi
import Verif.Learning.FloatArray
import Verif.Learning.FloatRule

/-!
# LIF, Dense, LearningDense and ring buffers as processes of a network, in floating point

The models of `Verif.Neurons.Float`, `Verif.Snn.Loihi`, `Verif.Learning.FloatArray` and `Verif.IO.Model` with their ports and Vars. Numbers are rational; a NaN weight (which `FArr` can have) counts as 0 when
activations are computed; the theorems are about rules whose weights are numbers.
-/

namespace Verif.Plastic

open Verif.Neurons (FLSt FLPar flStep)
open Verif.Learning (FCfg FArr fPreA fPostA fLrnA)
open Verif.Snn (accumFlt)

/-- Vars of a process: of the neurons of a population with the spikes it is about to send, the buffer of a connection, time step, buffer and learning state of a learning connection, time step and
columns of a ring buffer. -/
inductive Vars where
  | pop (o : Nat → FLSt) (spk : Nat → Bool)
  | dense (buf : Nat → ℚ)
  | learn (time : Nat) (buf : Nat → ℚ) (s : FArr ℚ)
  | ring (t : Nat) (data : Nat → Nat → ℚ)

/-- `LIF` with `PyLifModelFloat` (lif/models.py:27-69, 219-237): `a_in.recv()`, update, `s_out.send(..)`. -/
def lifProc (size : Nat) (par : Nat → FLPar) : Proc Vars (Nat → ℚ) ℚ where
  late := true
  ins := ["a_in"]
  outs := ["s_out"]
  init := .pop (fun _ => ⟨0, 0⟩) fun _ => false
  begin_ s := s
  absorb s _ a := match s with
    | .pop o _ => .pop (fun i => (flStep (par i) (o i) (a i)).1) fun i => (flStep (par i) (o i) (a i)).2
    | s => s
  out s _ := match s with
    | .pop _ spk => fun i => if spk i then 1 else 0
    | _ => fun _ => 0
  guard _ := false
  learn s := s
  vsize _ := size
  peek s x j := match s with | .pop o _ => if x = 0 then (o j).u else (o j).v | _ => 0
  poke s x j w := match s with
    | .pop o spk => .pop (fun i => if i = j then (if x = 0 then { o i with u := w } else { o i with v := w }) else o i) spk
    | s => s

/-- `Dense` with `PyDenseModelFloat` (dense/models.py:23-55), `num_message_bits = 0`. -/
def denseProc (size nIn : Nat) (w : Nat → Nat → ℚ) : Proc Vars (Nat → ℚ) ℚ where
  late := false
  ins := ["s_in"]
  outs := ["a_out"]
  init := .dense fun _ => 0
  begin_ s := s
  absorb s _ a := match s with
    | .dense _ => .dense (accumFlt nIn false w a)
    | s => s
  out s _ := match s with
    | .dense b => b
    | _ => fun _ => 0
  guard _ := false
  learn s := s
  vsize _ := size
  peek s _ j := match s with | .dense b => b j | _ => 0
  poke s _ j x := match s with | .dense b => .dense fun i => if i = j then x else b i | s => s

/-- `LearningDense` with `PyLearningDenseModelFloat` (dense/models.py:116-142), `num_message_bits = 0`: `a_out.send(a_buff)`, `s_in.recv()`, new buffer, `recv_traces` (connection.py:384-414), which
receives on `s_in_bap` and, for rules that are not two-factor rules, on three more ports; `lrn_guard` and `run_lrn` (connection.py:428-437). Traces, spike times and tags are 0 at first
(magma/core/process/connection.py:76-95). Var 0 is `weights`, Var 1 is `a_buff`. -/
def learnProc (size nIn : Nat) (w : Nat → Nat → ℚ) (c : FCfg ℚ) : Proc Vars (Nat → ℚ) ℚ where
  late := false
  ins := if c.two then ["s_in", "s_in_bap"] else ["s_in", "s_in_bap", "s_in_y1", "s_in_y2", "s_in_y3"]
  outs := ["a_out"]
  init := .learn 0 (fun _ => 0)
    { x1 := fun _ => some 0, x2 := fun _ => some 0, tx := fun _ => 0, y1 := fun _ => some 0, y2 := fun _ => some 0, y3 := fun _ => some 0, ty := fun _ => 0,
      w := fun i j => some (w i j), d := fun _ _ => some 0, t := fun _ _ => some 0 }
  begin_ s := match s with
    | .learn t b s => .learn (t + 1) b s
    | s => s
  absorb s x a := match s with
    | .learn t b s =>
      if x = "s_in" then .learn t (accumFlt nIn false (fun i j => (s.w i j).getD 0) a) (fPreA c t s fun j => if a j ≠ 0 then 1 else 0)
      else if x = "s_in_bap" then .learn t b (fPostA c t s fun i => decide (a i ≠ 0))
      else if x = "s_in_y1" then .learn t b { s with y1 := fun i => some (a i) }
      else if x = "s_in_y2" then .learn t b { s with y2 := fun i => some (a i) }
      else .learn t b { s with y3 := fun i => some (a i) }
    | s => s
  out s _ := match s with
    | .learn _ b _ => b
    | _ => fun _ => 0
  guard s := match s with
    | .learn t _ _ => Learning.lrnGuard c.tEpoch t
    | _ => false
  learn s := match s with
    | .learn t b s => .learn t b (fLrnA c t s)
    | s => s
  vsize x := if x = 0 then size * nIn else size
  peek s x k := match s with
    | .learn _ b s => if x = 0 then (s.w (k / nIn) (k % nIn)).getD 0 else b k
    | _ => 0
  poke s x k v := match s with
    | .learn t b s => if x = 0 then .learn t b { s with w := fun i j => if i = k / nIn ∧ j = k % nIn then some v else s.w i j }
      else .learn t (fun i => if i = k then v else b i) s
    | s => s

/-- `time_step += 1` of a ring buffer (core/model/py/model.py:385-387). -/
def ringTick (s : Vars) : Vars := match s with | .ring t d => .ring (t + 1) d | s => s

/-- Items of `data` in C order: row `j / len`, column `j % len`. -/
def ringPeek (len : Nat) (s : Vars) (j : Nat) : ℚ := match s with | .ring _ d => d (j % len) (j / len) | _ => 0

def ringPoke (len : Nat) (s : Vars) (j : Nat) (w : ℚ) : Vars :=
  match s with | .ring t d => .ring t fun k i => if k = j % len ∧ i = j / len then w else d k i | s => s

/-- `source.RingBuffer` (io/source.py:28-43). -/
def sourceProc (rows len : Nat) (data : Nat → Nat → ℚ) : Proc Vars (Nat → ℚ) ℚ where
  late := false
  ins := []
  outs := ["s_out"]
  init := .ring 0 data
  begin_ := ringTick
  absorb s _ _ := s
  out s _ := match s with | .ring t d => IO.sourceSend d len t | _ => fun _ => 0
  guard _ := false
  learn s := s
  vsize _ := rows * len
  peek s _ j := ringPeek len s j
  poke s _ j w := ringPoke len s j w

/-- `sink.RingBuffer` (io/sink.py:16-52). -/
def sinkProc (rows len : Nat) : Proc Vars (Nat → ℚ) ℚ where
  late := false
  ins := ["a_in"]
  outs := []
  init := .ring 0 fun _ _ => 0
  begin_ := ringTick
  absorb s _ a := match s with | .ring t d => .ring t (IO.upd d ((t - 1) % len) a) | s => s
  out _ _ := fun _ => 0
  guard _ := false
  learn s := s
  vsize _ := rows * len
  peek s _ j := ringPeek len s j
  poke s _ j w := ringPoke len s j w

/-- No process. -/
def noProc : Proc Vars (Nat → ℚ) ℚ where
  late := false
  ins := []
  outs := []
  init := .ring 0 fun _ _ => 0
  begin_ s := s
  absorb s _ _ := s
  out _ _ := fun _ => 0
  guard _ := false
  learn s := s
  vsize _ := 0
  peek _ _ _ := 0
  poke s _ _ _ := s

/-- An STDP rule as its user gives it, `STDPLoihi(learning_rate, A_plus, A_minus, ..)` (proc/learning_rules/stdp_learning_rule.py:35-62), the configuration of the process model made from it, and
`exp(-1 / tau)` of both traces. -/
structure Rule where
  cfg : FCfg ℚ
  lr : ℚ
  aMinus : ℚ
  aPlus : ℚ
  dx : ℚ
  dy : ℚ

/-- A connection: `Dense` if there is no rule, `LearningDense` otherwise. -/
structure PConn where
  src : Nat
  dst : Nat
  nIn : Nat
  w0 : Nat → Nat → ℚ
  rule : Option Rule

/-- A network of LIF populations. -/
structure PNet where
  lif : Nat → Nat → FLPar
  conns : List PConn

/-- The process of a connection. -/
def connOf (size : Nat → Nat) (k : PConn) : Proc Vars (Nat → ℚ) ℚ :=
  match k.rule with
  | none => denseProc (size k.dst) k.nIn k.w0
  | some r => learnProc (size k.dst) k.nIn k.w0 r.cfg

def connAt (net : PNet) (size : Nat → Nat) (c : Nat) : Proc Vars (Nat → ℚ) ℚ :=
  match net.conns[c]? with | some k => connOf size k | none => noProc

/-- The processes: `np` populations, the connections, a source and a sink for every population. -/
def procs (net : PNet) (np : Nat) (size : Nat → Nat) (len buf : Nat) (data : Nat → Nat → Nat → ℚ) (p : Nat) : Proc Vars (Nat → ℚ) ℚ :=
  if p < np then lifProc (size p) (net.lif p)
  else if p < np + net.conns.length then connAt net size (p - np)
  else if p < np + net.conns.length + np then sourceProc (size (p - (np + net.conns.length))) len (data (p - (np + net.conns.length)))
  else if p < np + net.conns.length + np + np then sinkProc (size (p - (np + net.conns.length + np))) buf
  else noProc

end Verif.Plastic
