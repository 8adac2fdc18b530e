import Verif.Plastic.Model
import Verif.Snn.Spikes

/-!
# Reference: a simulation of the network step by step

One time step of the whole network as a function; no channels, no schedules, no phases, no services.
-/

namespace Verif.Plastic.Spec

open Verif.Wired.Spec (linkedSum Linked)
open Verif.Wiring (Port)
open Verif.EndToEnd (Call Res)
open Verif.PortGraph (G)

variable {X V W : Type} [AddCommMonoid V]

/-- A process receives `inp x` on each of its InPorts `x`, one after the other. -/
def received (P : Proc X V W) (inp : String → V) (s : X) : X := P.ins.foldl (fun s x => P.absorb s x (inp x)) s

/-- What those who send first send in a step that begins in state `σ`. -/
def early (P : Nat → Proc X V W) (σ : Nat → X) (o : Port) : V :=
  if (P o.proc).late = true then 0 else (P o.proc).out ((P o.proc).begin_ (σ o.proc)) o.name

/-- What everybody sends in this step: those who receive first receive what the others have sent. -/
noncomputable def sent (g : G) (n : Nat) (own : Nat → Nat) (name : Nat → String) (P : Nat → Proc X V W) (σ : Nat → X) (o : Port) : V :=
  if (P o.proc).late = true then
    (P o.proc).out (received (P o.proc) (linkedSum g n own name (early P σ) o.proc) ((P o.proc).begin_ (σ o.proc))) o.name
  else early P σ o

/-- Process `p` after it has received everything sent in this step. -/
noncomputable def informed (g : G) (n : Nat) (own : Nat → Nat) (name : Nat → String) (P : Nat → Proc X V W) (σ : Nat → X) (p : Nat) : X :=
  received (P p) (linkedSum g n own name (sent g n own name P σ) p) ((P p).begin_ (σ p))

/-- State of process `p` after the step: it learns if it wants to. -/
noncomputable def next (g : G) (n : Nat) (own : Nat → Nat) (name : Nat → String) (P : Nat → Proc X V W) (σ : Nat → X) (p : Nat) : X :=
  if p < n then
    if (P p).guard (informed g n own name P σ p) = true then (P p).learn (informed g n own name P σ p) else informed g n own name P σ p
  else σ p

/-- Overwrite the items of Var `x` from `j` on. -/
def pokes (P : Proc X V W) (x : Nat) : Nat → List W → X → X
  | _, [], s => s
  | j, w :: ws, s => pokes P x (j + 1) ws (P.poke s x j w)

/-- What a program of calls shows, given what one step of the network does; the flag says whether `run` has been called before. -/
def results (P : Nat → Proc X V W) (step : (Nat → X) → Nat → X) : Bool → (Nat → X) → List (Call W) → List (Res W)
  | _, _, [] => [.stopped]
  | _, σ, .run k :: cs => .ran :: results P step true (step^[k] σ) cs
  | true, σ, .get p x :: cs => .value ((List.range ((P p).vsize x)).map ((P p).peek (σ p) x)) :: results P step true σ cs
  | true, σ, .set p x ws :: cs => .wasSet :: results P step true (fun q => if q = p then pokes (P p) x 0 ws (σ p) else σ q) cs
  | false, σ, .get _ _ :: cs => .notStarted :: results P step false σ cs
  | false, σ, .set _ _ _ :: cs => .notStarted :: results P step false σ cs

/-- Those who receive first get their input from those who send first. -/
def Fed (g : G) (n : Nat) (own : Nat → Nat) (name : Nat → String) (P : Nat → Proc X V W) : Prop :=
  ∀ p o x, p < n → (P p).late = true → Linked g n own name o p x → (P (own o)).late = false

/-- The processes `P` have been connected by the calls and compiled (as `Snn.Spec.Deployed`). -/
structure Deployed (lim : Nat) (calls : List PortGraph.Op) (n : Nat) (P : Nat → Proc X V W) (k : Nat) (svc : Nat → Nat) (pms : Nat → List Nat) (cap : Nat → Nat)
    (own : Nat → Nat) (name : Nat → String) (outs : Nat → List Nat) (procs : List Nat) (has : Nat → String → Bool) (b : Wiring.Builders) : Prop where
  good : ∀ op ∈ calls, op.Good
  hosted : Wired.Spec.Hosted (platform n P k svc pms cap)
  all : ∀ p, p ∈ procs ↔ p < n
  script : Wired.Spec.Script (PortGraph.run lim G.empty calls) n own name outs fun p => (P p).pm
  found : ∀ p, p < n → ∀ s ∈ outs p, ∃ l, PortGraph.dstPorts (PortGraph.run lim G.empty calls) false lim s = some l
  built : Wiring.buildChannels has (Wired.connections (PortGraph.run lim G.empty calls) lim procs outs own name) = some b

end Verif.Plastic.Spec
