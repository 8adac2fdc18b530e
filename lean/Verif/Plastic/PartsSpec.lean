import Verif.Plastic.Props
import Verif.Trains.Writes

/-!
# Reference: a network that learns as equations

As `Trains.Spec`, for processes with any number of ports and a learning phase. Each process on its own answers what it receives on its InPorts; a network is a system of equations between what is sent. There
is no order of events and no network state.
-/

namespace Verif.Plastic.Spec

open Verif.PortGraph (G)
open Verif.EndToEnd (Call Res)
open Verif.Wired.Spec (linkedSum)
open Verif.Trains.Spec (Writes steps started writes)

variable {X V W : Type} [AddCommMonoid V]

def overwrite (P : Proc X V W) (l : Writes W) (s : X) : X := l.foldl (fun s w => pokes P w.1 0 w.2 s) s

/-- One time step of a process on its own that receives `a x` on InPort `x`: it receives, and then learns if it wants to. -/
def oneStep (P : Proc X V W) (s : X) (a : String → V) : X :=
  if P.guard (received P a (P.begin_ s)) = true then P.learn (received P a (P.begin_ s)) else received P a (P.begin_ s)

/-- What it sends on OutPort `x` in this step: after it has received, or before. -/
def oneSent (P : Proc X V W) (s : X) (a : String → V) (x : String) : V :=
  if P.late = true then P.out (received P a (P.begin_ s)) x else P.out (P.begin_ s) x

/-- Its Vars after `t` time steps, if it receives `a u x` on InPort `x` in step `u` (0-based) and `w u` is written after `u` steps (the writes after the last step included). -/
def stateWith (P : Proc X V W) (w : Nat → Writes W) (a : Nat → String → V) : Nat → X
  | 0 => overwrite P (w 0) P.init
  | t + 1 => overwrite P (w (t + 1)) (oneStep P (stateWith P w a t) (a t))

/-- What process `p` receives in step `t`, if `y q x t` is what process `q` sends on OutPort `x` in step `t`. -/
noncomputable def heard (g : G) (n : Nat) (own : Nat → Nat) (name : Nat → String) (y : Nat → String → Nat → V) (p t : Nat) (x : String) : V :=
  linkedSum g n own name (fun o => y o.proc o.name t) p x

/-- The equations: everybody sends its answer to what it receives. -/
def SolvesWith (g : G) (n : Nat) (own : Nat → Nat) (name : Nat → String) (P : Nat → Proc X V W) (w : Nat → Nat → Writes W) (y : Nat → String → Nat → V) : Prop :=
  ∀ p x t, p < n → y p x t = oneSent (P p) (stateWith (P p) (w p) (heard g n own name y p) t) (heard g n own name y p t) x

/-- What the rest of a program shows after the calls `done`, if process `p` receives `r p t x` on InPort `x` in step `t`. -/
def shown (P : Nat → Proc X V W) (r : Nat → Nat → String → V) : List (Call W) → List (Call W) → List (Res W)
  | _, [] => [.stopped]
  | done, .run k :: cs => .ran :: shown P r (done ++ [.run k]) cs
  | done, .get p x :: cs =>
    (if started done then .value ((List.range ((P p).vsize x)).map ((P p).peek (stateWith (P p) (writes done p) (r p) (steps done)) x)) else .notStarted) ::
      shown P r (done ++ [.get p x]) cs
  | done, .set p x ws :: cs => (if started done then .wasSet else .notStarted) :: shown P r (done ++ [.set p x ws]) cs

end Verif.Plastic.Spec
