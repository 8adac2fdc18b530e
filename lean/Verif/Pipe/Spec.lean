import Verif.Trains.Props
import Verif.Trains.Lif

/-!
# Reference: a chain of processes

Process `p + 1` gets its input from process `p` and from nobody else.
-/

namespace Verif.Pipe.Spec

open Verif.PortGraph (G)
open Verif.Snn (Proc Kind)
open Verif.Snn.Spec (Feeds)
open Verif.Swap.Spec (sentAt)
open Verif.Trains.Spec (inName)

variable {X V W : Type} [AddCommMonoid V]

/-- The processes `0, .., n - 1` form a chain that begins with a source; two neurons do not follow each other. -/
structure Chain (g : G) (n : Nat) (own : Nat → Nat) (name : Nat → String) (P : Nat → Proc X V W) : Prop where
  first : (P 0).kind = .source
  feeds : ∀ p, p + 1 < n → ∀ r, Feeds g n own name r (p + 1) (inName (P (p + 1)).kind) ↔ r = p
  turns : ∀ p, p + 1 < n → (P (p + 1)).kind = .neuron → (P p).kind ≠ .neuron

/-- What process `p` sends in each step: its own answer to what process `p - 1` sends. -/
def train (P : Nat → Proc X V W) : Nat → Nat → V
  | 0 => fun t => (sentAt (P 0) (fun _ => 0) t).getD 0
  | p + 1 => fun t => (sentAt (P (p + 1)) (train P p) t).getD 0

/-- What process `p` receives in each step. -/
def incoming (P : Nat → Proc X V W) : Nat → Nat → V
  | 0 => fun _ => 0
  | p + 1 => train P p

end Verif.Pipe.Spec
