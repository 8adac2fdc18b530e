import Verif.Trains.Props
import Verif.Pipe.Props

/-!
# Reference: a network as equations, with Vars that are written between runs

As `Trains.Spec`; the Vars of a process on its own can be overwritten between two time steps.
-/

namespace Verif.Trains.Spec

open Verif.PortGraph (G)
open Verif.EndToEnd (Call Res)
open Verif.Snn (Proc)
open Verif.Snn.Spec (pokes)

variable {X V W : Type} [AddCommMonoid V]

/-- Values for Vars, to be written in this order. -/
abbrev Writes (W : Type) := List (Nat × List W)

def overwrite (P : Proc X V W) (l : Writes W) (s : X) : X := l.foldl (fun s w => pokes P w.1 0 w.2 s) s

/-- One time step of a process on its own. -/
def oneStep (P : Proc X V W) (s : X) (a : V) : X :=
  match P.kind with
  | .neuron => (P.fire (P.begin_ s) a).1
  | .synapse => P.absorb (P.begin_ s) a
  | .sink => P.absorb (P.begin_ s) a
  | _ => P.begin_ s

/-- What it sends in this step. -/
def oneSent (P : Proc X V W) (s : X) (a : V) : Option V :=
  match P.kind with
  | .neuron => some (P.fire (P.begin_ s) a).2
  | .synapse => some (P.out (P.begin_ s))
  | .source => some (P.out (P.begin_ s))
  | _ => none

/-- Its Vars after `t` time steps, if it receives `a u` in step `u` (0-based) and `w u` is written after `u` steps (the writes after the last step included). -/
def stateWith (P : Proc X V W) (w : Nat → Writes W) (a : Nat → V) : Nat → X
  | 0 => overwrite P (w 0) P.init
  | t + 1 => overwrite P (w (t + 1)) (oneStep P (stateWith P w a t) (a t))

def sentWith (P : Proc X V W) (w : Nat → Writes W) (a : Nat → V) (t : Nat) : Option V := oneSent P (stateWith P w a t) (a t)

/-- The number of time steps of a program. -/
def steps : List (Call W) → Nat
  | [] => 0
  | .run k :: cs => k + steps cs
  | _ :: cs => steps cs

/-- `run` has been called. -/
def started : List (Call W) → Bool
  | [] => false
  | .run _ :: _ => true
  | _ :: cs => started cs

/-- What a program, begun after `t` steps, writes to process `p` after `u` steps. Calls of `set` before the first `run` write nothing. -/
def writesFrom (p : Nat) : Bool → Nat → List (Call W) → Nat → Writes W
  | _, _, [], _ => []
  | _, t, .run k :: cs, u => writesFrom p true (t + k) cs u
  | true, t, .set q x ws :: cs, u => (if q = p ∧ u = t then [(x, ws)] else []) ++ writesFrom p true t cs u
  | b, t, _ :: cs, u => writesFrom p b t cs u

def writes (prog : List (Call W)) (p : Nat) : Nat → Writes W := writesFrom p false 0 prog

/-- The equations: everybody sends its answer to what it receives. -/
def SolvesWith (g : G) (n : Nat) (own : Nat → Nat) (name : Nat → String) (P : Nat → Proc X V W) (w : Nat → Nat → Writes W) (y : Nat → Nat → V) : Prop :=
  ∀ p t v, p < n → sentWith (P p) (w p) (received g n own name P y p) t = some v → y p t = v

/-- What the rest of a program shows after the calls `done`, if process `p` receives `r p t` in step `t`: each `get` shows a Var of the process on its own, with the writes that have been made so far. -/
def shownWith (P : Nat → Proc X V W) (r : Nat → Nat → V) : List (Call W) → List (Call W) → List (Res W)
  | _, [] => [.stopped]
  | done, .run k :: cs => .ran :: shownWith P r (done ++ [.run k]) cs
  | done, .get p x :: cs =>
    (if started done then .value ((List.range ((P p).vsize x)).map ((P p).peek (stateWith (P p) (writes done p) (r p) (steps done)) x)) else .notStarted) ::
      shownWith P r (done ++ [.get p x]) cs
  | done, .set p x ws :: cs => (if started done then .wasSet else .notStarted) :: shownWith P r (done ++ [.set p x ws]) cs

end Verif.Trains.Spec

namespace Verif.Pipe.Spec

open Verif.Snn (Proc)
open Verif.Trains.Spec (Writes sentWith)

variable {X V W : Type} [AddCommMonoid V]

/-- `train` with writes. -/
def trainWith (P : Nat → Proc X V W) (w : Nat → Nat → Writes W) : Nat → Nat → V
  | 0 => fun t => (sentWith (P 0) (w 0) (fun _ => 0) t).getD 0
  | p + 1 => fun t => (sentWith (P (p + 1)) (w (p + 1)) (trainWith P w p) t).getD 0

def incomingWith (P : Nat → Proc X V W) (w : Nat → Nat → Writes W) : Nat → Nat → V
  | 0 => fun _ => 0
  | p + 1 => trainWith P w p

end Verif.Pipe.Spec
