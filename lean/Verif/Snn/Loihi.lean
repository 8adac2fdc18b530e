import Verif.Snn.Model
import Verif.SpikeNet.Model
import Verif.IO.Model

/-!
# LIF, Dense and ring buffers as processes of a network

The models of `Verif.LIF.Model`, `Verif.Neurons.Float`, `Verif.Dense.Model` and `Verif.IO.Model` with their ports and Vars.
-/

namespace Verif.Snn

open Verif.SpikeNet (Net Conn)
open Verif.Neurons (FLSt FLPar flStep)

/-- Vars of a process: those of the neurons of a population (`N` each), of a connection, or of a ring buffer (time step and columns of `data`). -/
inductive Vars (N C R : Type) where
  | pop (o : Nat → N)
  | conn (st : C)
  | ring (t : Nat) (data : Nat → Nat → R)

variable {N C R : Type} [Zero R] [One R]

/-- A population of `size` neurons: `a_in.recv()`, update of every neuron, `s_out.send(..)` of the spikes (lif/models.py:58-69, 194-216). `pk` and `po` read and write Var `x` (a number per neuron). -/
def popProc (size : Nat) (init : Nat → N) (step : Nat → N → R → N × Bool) (pk : N → Nat → R) (po : N → Nat → R → N) : Proc (Vars N C R) (Nat → R) R where
  kind := .neuron
  init := .pop init
  begin_ s := s
  fire s a := match s with
    | .pop o => (.pop fun i => (step i (o i) (a i)).1, fun i => if (step i (o i) (a i)).2 then 1 else 0)
    | s => (s, fun _ => 0)
  out _ := fun _ => 0
  absorb s _ := s
  vsize _ := size
  peek s x j := match s with | .pop o => pk (o j) x | _ => 0
  poke s x j w := match s with | .pop o => .pop fun i => if i = j then po (o i) x w else o i | s => s

/-- A connection: `a_out.send(a_buff)`, `s_in.recv()`, the new buffer (dense/models.py:37-47, 77-107). Its Var is the buffer. -/
def connProc (size : Nat) (init : C) (buf : C → Nat → R) (abs : C → (Nat → R) → C) (po : C → Nat → R → C) : Proc (Vars N C R) (Nat → R) R where
  kind := .synapse
  init := .conn init
  begin_ s := s
  fire s _ := (s, fun _ => 0)
  out s := match s with | .conn st => buf st | _ => fun _ => 0
  absorb s a := match s with | .conn st => .conn (abs st a) | s => s
  vsize _ := size
  peek s _ j := match s with | .conn st => buf st j | _ => 0
  poke s _ j w := match s with | .conn st => .conn (po st j w) | s => s

/-- Items of `data` in C order: row `j / len`, column `j % len`. -/
def ringPeek (len : Nat) (s : Vars N C R) (j : Nat) : R := match s with | .ring _ d => d (j % len) (j / len) | _ => 0

def ringPoke (len : Nat) (s : Vars N C R) (j : Nat) (w : R) : Vars N C R :=
  match s with | .ring t d => .ring t fun k i => if k = j % len ∧ i = j / len then w else d k i | s => s

/-- `time_step += 1` (core/model/py/model.py:385-387). -/
def ringTick (s : Vars N C R) : Vars N C R := match s with | .ring t d => .ring (t + 1) d | s => s

/-- `source.RingBuffer` (io/source.py:28-43): `s_out.send(data[..., (time_step - 1) % buffer])`. -/
def sourceProc (rows len : Nat) (data : Nat → Nat → R) : Proc (Vars N C R) (Nat → R) R where
  kind := .source
  init := .ring 0 data
  begin_ := ringTick
  fire s _ := (s, fun _ => 0)
  out s := match s with | .ring t d => IO.sourceSend d len t | _ => fun _ => 0
  absorb s _ := s
  vsize _ := rows * len
  peek s _ j := ringPeek len s j
  poke s _ j w := ringPoke len s j w

/-- `sink.RingBuffer` (io/sink.py:16-52): `data[..., (time_step - 1) % buffer] = a_in.recv()`. -/
def sinkProc (rows len : Nat) : Proc (Vars N C R) (Nat → R) R where
  kind := .sink
  init := .ring 0 fun _ _ => 0
  begin_ := ringTick
  fire s _ := (s, fun _ => 0)
  out _ := fun _ => 0
  absorb s a := match s with | .ring t d => .ring t (IO.upd d ((t - 1) % len) a) | s => s
  vsize _ := rows * len
  peek s _ j := ringPeek len s j
  poke s _ j w := ringPoke len s j w

/-- No process. -/
def noProc : Proc (Vars N C R) (Nat → R) R where
  kind := .silent
  init := .ring 0 fun _ _ => 0
  begin_ s := s
  fire s _ := (s, fun _ => 0)
  out _ := fun _ => 0
  absorb s _ := s
  vsize _ := 0
  peek _ _ _ := 0
  poke s _ _ _ := s

/-! ### Fixed point -/

abbrev FixVars := Vars LIF.Obj Dense.St Int

/-- `LIF` with `PyLifModelBitAcc` (lif/models.py:81-278). Var 0 is `u`, Var 1 is `v`. -/
def lifFix (size : Nat) (par : Nat → LIF.Par) (vth : Nat → Int) : Proc FixVars (Nat → Int) Int :=
  popProc size (fun _ => ⟨⟨0, 0⟩, none⟩) (fun i o a => LIF.runSpk (par i) (vth i) o a) (fun o x => if x = 0 then o.st.u else o.st.v)
    (fun o x w => if x = 0 then { o with st := { o.st with u := w } } else { o with st := { o.st with v := w } })

/-- `Dense` with `PyDenseModelBitAcc` (dense/models.py:58-107). -/
def denseFix (size : Nat) (par : Dense.Par) (w : Dense.Mat) : Proc FixVars (Nat → Int) Int :=
  connProc size (Dense.init w) Dense.St.aBuff (fun st s => (Dense.runSpk par st s).1) (fun st j x => { st with aBuff := fun i => if i = j then x else st.aBuff i })

/-! ### Floating point -/

abbrev FltVars := Vars FLSt (Nat → ℚ) ℚ

/-- `LIF` with `PyLifModelFloat` (lif/models.py:27-69, 219-237). -/
def lifFlt (size : Nat) (par : Nat → FLPar) : Proc FltVars (Nat → ℚ) ℚ :=
  popProc size (fun _ => ⟨0, 0⟩) (fun i o a => flStep (par i) o a) (fun o x => if x = 0 then o.u else o.v) (fun o x w => if x = 0 then { o with u := w } else { o with v := w })

/-- `AbstractPyDenseModelFloat.run_spk` (dense/models.py:42-47): the new buffer. -/
def accumFlt (nIn : Nat) (graded : Bool) (w : Nat → Nat → ℚ) (s : Nat → ℚ) : Nat → ℚ := fun i =>
  if graded then ∑ j ∈ Finset.range nIn, w i j * s j else ∑ j ∈ (Finset.range nIn).filter (fun j => s j ≠ 0), w i j

/-- `Dense` with `PyDenseModelFloat` (dense/models.py:23-55). -/
def denseFlt (size nIn : Nat) (graded : Bool) (w : Nat → Nat → ℚ) : Proc FltVars (Nat → ℚ) ℚ :=
  connProc size (fun _ => 0) id (fun _ s => accumFlt nIn graded w s) (fun b j x => fun i => if i = j then x else b i)

/-! ### A network of populations with sources and sinks -/

/-- `np` populations, `nc` connections, a source and a sink for every population. -/
def arranged (np nc : Nat) (pop conn src snk : Nat → Proc (Vars N C R) (Nat → R) R) (p : Nat) : Proc (Vars N C R) (Nat → R) R :=
  if p < np then pop p else if p < np + nc then conn (p - np) else if p < np + nc + np then src (p - (np + nc))
  else if p < np + nc + np + np then snk (p - (np + nc + np)) else noProc

/-- The process of connection `c` (dense/process.py). -/
def fixConn (net : Net) (size : Nat → Nat) (c : Nat) : Proc FixVars (Nat → Int) Int :=
  match net.conns[c]? with | some k => denseFix (size k.dst) k.par k.w | none => noProc

/-- ... in floating point. -/
def fltConn (net : Net) (size : Nat → Nat) (c : Nat) : Proc FltVars (Nat → ℚ) ℚ :=
  match net.conns[c]? with | some k => denseFlt (size k.dst) k.par.nIn k.par.graded k.wf | none => noProc

/-- The processes of a network of LIF populations (sizes `size`) and Dense connections with the run configuration `fixed_pt`; `data q k` is column `k` of the source of population `q` (a multiple of
`len` steps repeats), sinks have `buf` columns. -/
def fixProcs (net : Net) (np : Nat) (size : Nat → Nat) (len buf : Nat) (data : Nat → Nat → Nat → Int) : Nat → Proc FixVars (Nat → Int) Int :=
  arranged np net.conns.length (fun q => lifFix (size q) (net.lif q) (net.vth q))
    (fixConn net size)
    (fun q => sourceProc (size q) len (data q)) (fun q => sinkProc (size q) buf)

/-- The same network with the run configuration `floating_pt`. -/
def fltProcs (net : Net) (np : Nat) (size : Nat → Nat) (len buf : Nat) (data : Nat → Nat → Nat → Int) : Nat → Proc FltVars (Nat → ℚ) ℚ :=
  arranged np net.conns.length (fun q => lifFlt (size q) (SpikeNet.fltPar net q))
    (fltConn net size)
    (fun q => sourceProc (size q) len fun k i => (data q k i : ℚ)) (fun q => sinkProc (size q) buf)

end Verif.Snn
