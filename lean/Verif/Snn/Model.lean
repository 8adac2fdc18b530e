import Verif.Wired.Theorems

/-!
# Processes of a spiking network

The process models of `src/lava/proc` use their ports in one of four ways. Neurons (`proc/lif/models.py:194-216`, `proc/sdn/models.py`, `proc/rf/models.py`, ..) receive
on `a_in`, compute and send on `s_out`. Connections (`proc/dense/models.py:77-107`, `proc/sparse/models.py:77-107`, `proc/conv/models.py:52-85`) send what they have computed
in the step before on `a_out`, then receive on `s_in` and compute what is sent next. Sources (`proc/io/source.py:75-83`) send on `s_out`. Sinks (`proc/io/sink.py:66-76`)
receive on `a_in`.
-/

namespace Verif.Snn

open Verif.Wired (PM POp Platform)

/-- How the ports are used. `silent` is a process that uses none. -/
inductive Kind where
  | neuron
  | synapse
  | source
  | sink
  | silent
deriving DecidableEq, Repr

/-- A process model; its Vars have values in `X`. `begin_` is `time_step += 1` (core/model/py/model.py:385-387) and the code of `run_spk` before the first use of a port;
`fire` is the code of a neuron between `recv` and `send`; `out` is what a connection or a source sends; `absorb` is what a connection or a sink does with what it receives. -/
structure Proc (X V W : Type) where
  kind : Kind
  init : X
  begin_ : X → X
  fire : X → V → X × V
  out : X → V
  absorb : X → V → X
  vsize : Nat → Nat
  peek : X → Nat → Nat → W
  poke : X → Nat → Nat → W → X

variable {X V W : Type}

/-- `run_spk` as a sequence of port operations. -/
def Kind.ops : Kind → List POp
  | .neuron => [.recv "a_in", .send "s_out"]
  | .synapse => [.send "a_out", .recv "s_in"]
  | .source => [.send "s_out"]
  | .sink => [.recv "a_in"]
  | .silent => []

/-- The process model with its port operations. None of these models has a learning or management phase (the guards of core/model/py/model.py:290-330 return False), and
`on_var_update` does nothing (model.py:255-258). -/
def Proc.pm [Zero V] (P : Proc X V W) : PM (X × V) V W where
  init := (P.init, 0)
  start s := (P.begin_ s.1, s.2)
  ops := P.kind.ops
  value s _ := if P.kind = .neuron then s.2 else P.out s.1
  store s _ v := if P.kind = .neuron then P.fire s.1 v else (P.absorb s.1 v, s.2)
  finish s := s
  preGuard _ := false
  lrnGuard _ := false
  postGuard _ := false
  runPre s := s
  runLrn s := s
  runPost s := s
  vsize := P.vsize
  peek s := P.peek s.1
  poke s x j w := (P.poke s.1 x j w, s.2)
  updated s := s

/-- The platform on which the network runs. -/
def platform [Zero V] (n : Nat) (P : Nat → Proc X V W) (k : Nat) (svc : Nat → Nat) (pms : Nat → List Nat) (cap : Nat → Nat) : Platform (X × V) V W where
  n := n
  pm p := (P p).pm
  k := k
  svc := svc
  pms := pms
  cap := cap

end Verif.Snn
