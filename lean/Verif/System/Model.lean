/-!
# Networks of process models as concurrent programs

A running Lava program is a set of operating system processes (process models and runtime services) which
communicate by blocking `send` and `recv` on channels. A channel has one sender and one receiver
(pypychannel.py:355-405: a pair of CspSendPort and CspRecvPort over one piece of shared memory), keeps the order
and holds a bounded number of messages (proved from the code in `Verif.Channel`, C01-C03; here a channel is the
bounded FIFO queue those theorems establish).

A process is a deterministic automaton: in every state it has finished, computes, or is at one channel operation.
Fan-in and fan-out are sequences of such operations: `PyInPortVectorDense.recv` receives from its channels one
after the other (core/model/py/ports.py:333-351), `PyOutPortVectorDense.send` sends on its channels one after
the other (ports.py:486-497). The branching `CspSelector.select` and the non-blocking `probe` are not
expressible here; process models without VarPorts select on one channel only (model.py:236-238), which is a
blocking receive.
-/

namespace Verif.System

/-- What a process does next in a state. -/
inductive Act (Q V : Type) where
  /-- the process has finished -/
  | halt
  /-- local computation -/
  | tau (q : Q)
  /-- `send` on channel `c` (pypychannel.py:130-144); `q` is the state after it returned -/
  | send (c : Nat) (v : V) (q : Q)
  /-- `recv` on channel `c` (pypychannel.py:293-302) -/
  | recv (c : Nat) (k : V → Q)

/-- A network: the behaviour of every process and the capacity of every channel. -/
structure Net (Q V : Type) where
  view : Nat → Q → Act Q V
  cap : Nat → Nat

/-- A state of the network: the state of every process and the messages in every channel, with the history of
everything that was ever sent on a channel. -/
structure St (Q V : Type) where
  q : Nat → Q
  chan : Nat → List V
  hist : Nat → List V

variable {Q V : Type}

/-- Update of one entry. -/
def upd {α : Type} (f : Nat → α) (i : Nat) (x : α) : Nat → α := fun j => if j = i then x else f j

/-- One atomic step of process `p`; `none` if it has finished or is blocked. -/
def step (n : Net Q V) (s : St Q V) (p : Nat) : Option (St Q V) :=
  match n.view p (s.q p) with
  | .halt => none
  | .tau q => some { s with q := upd s.q p q }
  | .send c v q =>
    if (s.chan c).length < n.cap c then
      some { q := upd s.q p q, chan := upd s.chan c (s.chan c ++ [v]), hist := upd s.hist c (s.hist c ++ [v]) }
    else none
  | .recv c k =>
    match s.chan c with
    | [] => none
    | v :: r => some { s with q := upd s.q p (k v), chan := upd s.chan c r }

/-- A schedule: whoever is listed tries to do a step; a process that cannot waits. -/
def exec (n : Net Q V) (s : St Q V) : List Nat → St Q V
  | [] => s
  | p :: ps => exec n ((step n s p).getD s) ps

/-- Nobody can do a step. -/
def Stuck (n : Net Q V) (s : St Q V) : Prop := ∀ p, step n s p = none

/-- Everybody has finished. -/
def AllHalted (n : Net Q V) (s : St Q V) : Prop := ∀ p, n.view p (s.q p) = .halt

/-- Channels have one sender and one receiver (pypychannel.py:355-405): in a state, whoever is at an operation on a
channel is its sender or receiver. -/
structure OwnedAt (n : Net Q V) (writer reader : Nat → Nat) (s : St Q V) : Prop where
  send : ∀ p c v q', n.view p (s.q p) = .send c v q' → writer c = p
  recv : ∀ p c k, n.view p (s.q p) = .recv c k → reader c = p

/-- ... in every state reachable from `s`. -/
def Owned (n : Net Q V) (writer reader : Nat → Nat) (s : St Q V) : Prop := ∀ l, OwnedAt n writer reader (exec n s l)

end Verif.System
