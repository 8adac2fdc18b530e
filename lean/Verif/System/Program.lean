import Verif.System.Props
import Mathlib.Data.List.Infix
import Mathlib.Data.List.Nodup

/-!
# Time-stepped process models

A process model on the Loihi protocol runs the same straight-line code in every time step: `run_spk` receives from
its in-ports and sends to its out-ports in a fixed order (for instance proc/dense/models.py:77-107: send, then receive;
proc/lif/models.py:58-69: receive, then send). The order of the channel operations is the *body* of the process; what
is sent and what is done with received data is arbitrary, deterministic code on the process's own state. Ports with several
channels contribute one operation per channel (core/model/py/ports.py:333-351, 486-497).

Process models whose operations depend on data, on VarPorts or on `probe` are not covered.
-/

namespace Verif.System

/-- A channel operation in the code of a time step. -/
inductive Op where
  | snd (c : Nat)
  | rcv (c : Nat)
deriving DecidableEq, Repr

/-- `n` processes, each running its body `T` times. -/
structure Prog (D V : Type) where
  n : Nat
  T : Nat
  body : Nat → List Op
  /-- initial state of a process (the values of its Vars) -/
  d0 : Nat → D
  /-- what is sent on a channel in a state -/
  emit : Nat → D → Nat → V
  /-- effect of receiving a message from a channel -/
  absorb : Nat → D → Nat → V → D
  /-- computation at the end of a time step -/
  tick : Nat → D → D
  cap : Nat → Nat

/-- State of one process: completed time steps, the rest of the current one, its variables. -/
structure PS (D : Type) where
  t : Nat
  rest : List Op
  data : D

variable {D V : Type}

/-- The next action of a process. -/
def Prog.view (P : Prog D V) (p : Nat) (q : PS D) : Act (PS D) V :=
  if p < P.n ∧ q.t < P.T then
    match q.rest with
    | [] => .tau { t := q.t + 1, rest := P.body p, data := P.tick p q.data }
    | .snd c :: r => .send c (P.emit p q.data c) { q with rest := r }
    | .rcv c :: r => .recv c fun v => { q with rest := r, data := P.absorb p q.data c v }
  else .halt

/-- The network of the processes. -/
def Prog.net (P : Prog D V) : Net (PS D) V := { view := P.view, cap := P.cap }

/-- All channels are empty at the start. -/
def Prog.init (P : Prog D V) : St (PS D) V :=
  { q := fun p => { t := 0, rest := P.body p, data := P.d0 p }, chan := fun _ => [], hist := fun _ => [] }

/-- A channel is in use if some process sends or receives on it. -/
def Prog.Used (P : Prog D V) (c : Nat) : Prop := ∃ p, p < P.n ∧ (Op.snd c ∈ P.body p ∨ Op.rcv c ∈ P.body p)

/-- Wiring: every channel in use goes from one process to one process, each uses it once per time step, and it holds at
least one message. -/
structure Wired (P : Prog D V) (w r : Nat → Nat) : Prop where
  nodup : ∀ p, (P.body p).Nodup
  snd : ∀ p c, Op.snd c ∈ P.body p → w c = p
  rcv : ∀ p c, Op.rcv c ∈ P.body p → r c = p
  both : ∀ c, P.Used c → w c < P.n ∧ r c < P.n ∧ Op.snd c ∈ P.body (w c) ∧ Op.rcv c ∈ P.body (r c)
  cap : ∀ c, P.Used c → 1 ≤ P.cap c

/-- `a` comes before `b` in a list. -/
def Precedes (l : List Op) (a b : Op) : Prop := ∃ x y z, l = x ++ a :: (y ++ b :: z)

/-- A circular wait: a set of channels each of whose senders first wants a message from a channel of the set. -/
def CircularWait (P : Prog D V) (w : Nat → Nat) (K : Nat → Prop) : Prop :=
  (∃ c, K c) ∧ ∀ c, K c → P.Used c ∧ ∃ c', K c' ∧ Precedes (P.body (w c)) (.rcv c') (.snd c)

end Verif.System
