import Verif.Wiring.Props
import Verif.EndToEnd.Props

/-!
# A network of process models, wired by the runtime and executed

The pieces of the whole way from connections to results: the runtime builds one channel per connection and hands its ends to the ports of the process models
(`Verif.Wiring.Model`), the process models use these ports in `run_spk`, and host, services and process models run concurrently (`Verif.EndToEnd.Model`). Here
the code of a process model is written in terms of its ports; `recv` of an InPort and `send` of an OutPort are loops over the CSP ports that the builder has put into
them. The result is a system in the sense of `Verif.EndToEnd.Model`, so everything said there about simplifications applies.
-/

namespace Verif.Wired

open Verif.Wiring (Port End Builders ioEnds trOf)
open Verif.System (Op)

/-- A use of a port in `run_spk`. -/
inductive POp where
  /-- `self.name.recv()` of a `PyInPortVectorDense` -/
  | recv (name : String)
  /-- `self.name.send(..)` of a `PyOutPortVectorDense` -/
  | send (name : String)
deriving DecidableEq, Repr

/-- A Python process model: its Vars have values in `S`. `run_spk` uses ports in a fixed order (as the models of proc/lif/models.py:58-69, proc/dense/models.py:77-107);
the rest is arbitrary code on the Vars. The other methods are those of `PyLoihiProcessModel` (core/model/py/model.py:268-448). -/
structure PM (S V W : Type) where
  init : S
  /-- code of `run_spk` before the first use of a port, with `time_step += 1` (model.py:385-387) -/
  start : S → S
  ops : List POp
  /-- what is sent on an OutPort -/
  value : S → String → V
  /-- what is done with data received on an InPort, up to the next use of a port -/
  store : S → String → V → S
  /-- code of `run_spk` after the last use of a port -/
  finish : S → S
  preGuard : S → Bool
  lrnGuard : S → Bool
  postGuard : S → Bool
  runPre : S → S
  runLrn : S → S
  runPost : S → S
  vsize : Nat → Nat
  peek : S → Nat → Nat → W
  poke : S → Nat → Nat → W → S
  updated : S → S

/-- Steps of `recv` and `send`: `np.zeros(..)`, `acc + transform(port.recv(), port)`, the return of `recv`, `csp_port.send(data)`
(core/model/py/ports.py:333-351, 486-497). -/
inductive Micro where
  | zero
  | add (e : End)
  | put (name : String)
  | out (name : String) (e : End)
deriving DecidableEq, Repr

/-- The code of a port operation of process `p`: loops over the CSP ports of the port. -/
def unfoldOp (b : Builders) (p : Nat) : POp → List Micro
  | .recv x => .zero :: (ioEnds b ⟨p, x, .inp⟩).map .add ++ [.put x]
  | .send x => (ioEnds b ⟨p, x, .out⟩).map (.out x)

def micros (b : Builders) (p : Nat) (ops : List POp) : List Micro := ops.flatMap (unfoldOp b p)

/-- The channel operation of a step. -/
def chanOp : Micro → List Op
  | .add e => [.rcv e.chan]
  | .out _ e => [.snd e.chan]
  | _ => []

/-- State of a process model within `run_spk`: its Vars, the sum in `recv`, the steps since the last reception and those to come. Between time steps the last two are
empty. -/
structure Task (S V : Type) where
  vars : S
  acc : V
  rest : List Micro

variable {S V W : Type} [Add V] [Zero V]

/-- What is sent on channel `c`: run up to the corresponding `csp_port.send`. -/
def emitM (P : PM S V W) (c : Nat) : List Micro → S → V → V
  | [], s, _ => P.value s ""
  | .zero :: r, s, _ => emitM P c r s 0
  | .put x :: r, s, a => emitM P c r (P.store s x a) a
  | .out x e :: r, s, a => if e.chan = c then P.value s x else emitM P c r s a
  | .add _ :: _, s, _ => P.value s ""

/-- Reception: run up to the next `port.recv` and add the transformed data. -/
def absorbM (P : PM S V W) (tr : End → V → V) (v : V) : List Micro → S → V → Task S V
  | [], s, a => ⟨s, a, []⟩
  | .zero :: r, s, _ => absorbM P tr v r s 0
  | .put x :: r, s, a => absorbM P tr v r (P.store s x a) a
  | .out _ _ :: r, s, a => absorbM P tr v r s a
  | .add e :: r, s, a => ⟨s, a + tr e v, r⟩

/-- Run to the end of `run_spk`. -/
def finishM (P : PM S V W) : List Micro → S → V → S
  | [], s, _ => P.finish s
  | .zero :: r, s, _ => finishM P r s 0
  | .put x :: r, s, a => finishM P r (P.store s x a) a
  | .out _ _ :: r, s, a => finishM P r s a
  | .add _ :: r, s, a => finishM P r s a

/-- A network as it is executed: process models, services (see `EndToEnd.Sys`), capacities of the channels. -/
structure Platform (S V W : Type) where
  n : Nat
  pm : Nat → PM S V W
  k : Nat
  svc : Nat → Nat
  pms : Nat → List Nat
  cap : Nat → Nat

/-- Apply a method to the Vars. -/
def Task.on (f : S → S) (t : Task S V) : Task S V := { t with vars := f t.vars }

/-- The system that is executed when the process builders hold the CSP ports `b` and the ports have the transformation functions `funcs`. -/
def sys (x : Platform S V W) (b : Builders) (funcs : Port → List (List Char × List (V → V))) : EndToEnd.Sys (Task S V) V W where
  n := x.n
  k := x.k
  svc := x.svc
  pms := x.pms
  cap := x.cap
  init p := ⟨(x.pm p).init, 0, []⟩
  start p t := ⟨(x.pm p).start t.vars, 0, micros b p (x.pm p).ops⟩
  body p := (micros b p (x.pm p).ops).flatMap chanOp
  emit p t c := emitM (x.pm p) c t.rest t.vars t.acc
  absorb p t _ v := absorbM (x.pm p) (fun e => trOf b funcs ⟨p, e.name, .inp⟩ e) v t.rest t.vars t.acc
  tick p t := ⟨finishM (x.pm p) t.rest t.vars t.acc, 0, []⟩
  preGuard p t := (x.pm p).preGuard t.vars
  lrnGuard p t := (x.pm p).lrnGuard t.vars
  postGuard p t := (x.pm p).postGuard t.vars
  runPre p := Task.on (x.pm p).runPre
  runLrn p := Task.on (x.pm p).runLrn
  runPost p := Task.on (x.pm p).runPost
  vsize p := (x.pm p).vsize
  peek p t := (x.pm p).peek t.vars
  poke p t y j w := t.on fun s => (x.pm p).poke s y j w
  updated p := Task.on (x.pm p).updated

end Verif.Wired
