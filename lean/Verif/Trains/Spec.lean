import Verif.Swap.Trains

/-!
# Reference: a network as equations between the answers of its parts

`Swap.Spec.sentAt P a t` is what process `P`, on its own, sends in step `t` if it receives `a u` in step `u`; `Swap.Spec.stateAt` are its Vars. A network is described by saying that everybody answers
to the sum of what is sent to it.
-/

namespace Verif.Trains.Spec

open Verif.Wired.Spec (linkedSum)
open Verif.PortGraph (G)
open Verif.EndToEnd (Call Res)
open Verif.Snn (Proc Kind)
open Verif.Swap.Spec (stateAt sentAt)

variable {X V W : Type} [AddCommMonoid V]

/-- The InPort of a connection is `s_in`, those of neurons and sinks are `a_in`. -/
def inName : Kind → String
  | .synapse => "s_in"
  | _ => "a_in"

/-- What process `p` receives in step `t` if each process `q` sends `y q t`: the sum over all OutPorts linked to its InPort. -/
noncomputable def received (g : G) (n : Nat) (own : Nat → Nat) (name : Nat → String) (P : Nat → Proc X V W) (y : Nat → Nat → V) (p t : Nat) : V :=
  linkedSum g n own name (fun o => y o.proc t) p (inName (P p).kind)

/-- The equations: everybody sends its answer to what it receives. -/
def Solves (g : G) (n : Nat) (own : Nat → Nat) (name : Nat → String) (P : Nat → Proc X V W) (y : Nat → Nat → V) : Prop :=
  ∀ p t v, p < n → sentAt (P p) (received g n own name P y p) t = some v → y p t = v

/-- What a program of `run` and `get` calls shows if process `p` receives `r p t` in step `t`; the flag says whether `run` has been called, the number counts the steps done. -/
def shown (P : Nat → Proc X V W) (r : Nat → Nat → V) : Bool → Nat → List (Call W) → List (Res W)
  | _, _, [] => [.stopped]
  | _, t, .run k :: cs => .ran :: shown P r true (t + k) cs
  | true, t, .get p x :: cs => .value ((List.range ((P p).vsize x)).map ((P p).peek (stateAt (P p) (r p) t) x)) :: shown P r true t cs
  | true, t, .set _ _ _ :: cs => .wasSet :: shown P r true t cs
  | false, t, .get _ _ :: cs => .notStarted :: shown P r false t cs
  | false, t, .set _ _ _ :: cs => .notStarted :: shown P r false t cs

end Verif.Trains.Spec
