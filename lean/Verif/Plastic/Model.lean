import Verif.Wired.Theorems

/-!
# Processes of a network that learns

As `Verif.Snn.Model`, for process models with any number of ports and with a learning phase. In a time step a process model either receives on all its InPorts and then sends on all its OutPorts
(neurons, `proc/lif/models.py:194-216`), or it sends what it has computed before and then receives (connections, `proc/dense/models.py:129-142, 158-190`, with
`recv_traces`, `magma/core/model/py/connection.py:384-414`; sources and sinks of `proc/io`).
-/

namespace Verif.Plastic

open Verif.Wired (PM POp Platform)

/-- A process model; its Vars have values in `X`. `late` says that it receives before it sends. `begin_` is `time_step += 1` (core/model/py/model.py:385-387) and the code of `run_spk` before the first use
of a port; `absorb` is what is done with what is received on a port, `out` what is sent; `guard` and `learn` are `lrn_guard` and `run_lrn` (connection.py:428-437). -/
structure Proc (X V W : Type) where
  late : Bool
  ins : List String
  outs : List String
  init : X
  begin_ : X → X
  absorb : X → String → V → X
  out : X → String → V
  guard : X → Bool
  learn : X → X
  vsize : Nat → Nat
  peek : X → Nat → Nat → W
  poke : X → Nat → Nat → W → X

variable {X V W : Type}

/-- `run_spk` as a sequence of port operations. -/
def Proc.ops (P : Proc X V W) : List POp := if P.late then P.ins.map .recv ++ P.outs.map .send else P.outs.map .send ++ P.ins.map .recv

/-- The process model with its port operations. It has no management phases (`pre_guard` and `post_guard` of core/model/py/model.py:290-330 return False), and `on_var_update` does nothing
(model.py:255-258). -/
def Proc.pm (P : Proc X V W) : PM X V W where
  init := P.init
  start := P.begin_
  ops := P.ops
  value := P.out
  store := P.absorb
  finish s := s
  preGuard _ := false
  lrnGuard := P.guard
  postGuard _ := false
  runPre s := s
  runLrn := P.learn
  runPost s := s
  vsize := P.vsize
  peek := P.peek
  poke := P.poke
  updated s := s

/-- The platform on which the network runs. -/
def platform (n : Nat) (P : Nat → Proc X V W) (k : Nat) (svc : Nat → Nat) (pms : Nat → List Nat) (cap : Nat → Nat) : Platform X V W where
  n := n
  pm p := (P p).pm
  k := k
  svc := svc
  pms := pms
  cap := cap

end Verif.Plastic
