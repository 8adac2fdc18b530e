import Verif.Snn.Model

/-!
# Reference: a simulation of the network step by step

One time step of the whole network as a function; no channels, no schedules, no phases.
-/

namespace Verif.Snn.Spec

open Verif.Wired.Spec (linkedSum Linked)
open Verif.Wiring (Port)
open Verif.EndToEnd (Call Res)
open Verif.PortGraph (G)

variable {X V W : Type} [AddCommMonoid V]

/-- What connections and sources send in a step that begins in state `σ`. -/
def early (P : Nat → Proc X V W) (σ : Nat → X) (o : Port) : V :=
  if (P o.proc).kind = .neuron then 0 else (P o.proc).out ((P o.proc).begin_ (σ o.proc))

/-- A neuron in this step: it receives the sum of what the connections and sources linked to its `a_in` send. -/
noncomputable def fired (g : G) (n : Nat) (own : Nat → Nat) (name : Nat → String) (P : Nat → Proc X V W) (σ : Nat → X) (p : Nat) : X × V :=
  (P p).fire ((P p).begin_ (σ p)) (linkedSum g n own name (early P σ) p "a_in")

/-- What everybody sends in this step. -/
noncomputable def sent (g : G) (n : Nat) (own : Nat → Nat) (name : Nat → String) (P : Nat → Proc X V W) (σ : Nat → X) (o : Port) : V :=
  if (P o.proc).kind = .neuron then (fired g n own name P σ o.proc).2 else early P σ o

/-- State of process `p` after the step. -/
noncomputable def next (g : G) (n : Nat) (own : Nat → Nat) (name : Nat → String) (P : Nat → Proc X V W) (σ : Nat → X) (p : Nat) : X :=
  if p < n then
    match (P p).kind with
    | .neuron => (fired g n own name P σ p).1
    | .synapse => (P p).absorb ((P p).begin_ (σ p)) (linkedSum g n own name (sent g n own name P σ) p "s_in")
    | .sink => (P p).absorb ((P p).begin_ (σ p)) (linkedSum g n own name (sent g n own name P σ) p "a_in")
    | _ => (P p).begin_ (σ p)
  else σ p

/-- Overwrite the items of Var `x` from `j` on. -/
def pokes (P : Proc X V W) (x : Nat) : Nat → List W → X → X
  | _, [], s => s
  | j, w :: ws, s => pokes P x (j + 1) ws (P.poke s x j w)

/-- What a program of calls shows, given what one step of the network does; the flag says whether `run` has been called before. -/
def results (P : Nat → Proc X V W) (step : (Nat → X) → Nat → X) : Bool → (Nat → X) → List (Call W) → List (Res W)
  | _, _, [] => [.stopped]
  | _, σ, .run k :: cs => .ran :: results P step true (step^[k] σ) cs
  | true, σ, .get p x :: cs => .value ((List.range ((P p).vsize x)).map ((P p).peek (σ p) x)) :: results P step true σ cs
  | true, σ, .set p x ws :: cs => .wasSet :: results P step true (fun q => if q = p then pokes (P p) x 0 ws (σ p) else σ q) cs
  | false, σ, .get _ _ :: cs => .notStarted :: results P step false σ cs
  | false, σ, .set _ _ _ :: cs => .notStarted :: results P step false σ cs

/-- Neurons get their input from connections and sources. -/
def Fed (g : G) (n : Nat) (own : Nat → Nat) (name : Nat → String) (P : Nat → Proc X V W) : Prop :=
  ∀ p o, p < n → (P p).kind = .neuron → Linked g n own name o p "a_in" → (P (own o)).kind ≠ .neuron

/-- Under every schedule the calls of a program show a prefix of `log`; an execution that cannot go on has shown all of it and everybody has finished; schedules that let everybody
do a step again and again get there. -/
def Gives {S : Type} (x : Wired.Platform S V W) (b : Wiring.Builders) (prog : List (Call W)) (log : List (Res W)) : Prop :=
  (∀ l, EndToEnd.seen (System.exec (EndToEnd.net (Wired.sys x b fun _ => [])) (EndToEnd.initial (Wired.sys x b fun _ => []) prog) l) <+: log) ∧
  (∀ l, System.Stuck (EndToEnd.net (Wired.sys x b fun _ => [])) (System.exec (EndToEnd.net (Wired.sys x b fun _ => [])) (EndToEnd.initial (Wired.sys x b fun _ => []) prog) l) →
    EndToEnd.seen (System.exec (EndToEnd.net (Wired.sys x b fun _ => [])) (EndToEnd.initial (Wired.sys x b fun _ => []) prog) l) = log ∧
    System.AllHalted (EndToEnd.net (Wired.sys x b fun _ => [])) (System.exec (EndToEnd.net (Wired.sys x b fun _ => [])) (EndToEnd.initial (Wired.sys x b fun _ => []) prog) l)) ∧
  ∃ N, ∀ rounds : List (List Nat), (∀ rd ∈ rounds, ∀ a, a ≤ 2 * (x.n + x.k) → a ∈ rd) → N ≤ rounds.length →
    EndToEnd.seen (System.exec (EndToEnd.net (Wired.sys x b fun _ => [])) (EndToEnd.initial (Wired.sys x b fun _ => []) prog) rounds.flatten) = log ∧
    System.AllHalted (EndToEnd.net (Wired.sys x b fun _ => [])) (System.exec (EndToEnd.net (Wired.sys x b fun _ => [])) (EndToEnd.initial (Wired.sys x b fun _ => []) prog) rounds.flatten)

/-- The processes `P` have been connected by the calls and compiled: ports belong to processes and have names (`Wired.Spec.Script`), the compiler has found the destinations of all OutPorts, the processes
are hosted by runtime services, and the channels have been built. -/
structure Deployed (lim : Nat) (calls : List PortGraph.Op) (n : Nat) (P : Nat → Proc X V W) (k : Nat) (svc : Nat → Nat) (pms : Nat → List Nat) (cap : Nat → Nat)
    (own : Nat → Nat) (name : Nat → String) (outs : Nat → List Nat) (procs : List Nat) (has : Nat → String → Bool) (b : Wiring.Builders) : Prop where
  good : ∀ op ∈ calls, op.Good
  hosted : Wired.Spec.Hosted (platform n P k svc pms cap)
  all : ∀ p, p ∈ procs ↔ p < n
  script : Wired.Spec.Script (PortGraph.run lim G.empty calls) n own name outs fun p => (P p).pm
  found : ∀ p, p < n → ∀ s ∈ outs p, ∃ l, PortGraph.dstPorts (PortGraph.run lim G.empty calls) false lim s = some l
  built : Wiring.buildChannels has (Wired.connections (PortGraph.run lim G.empty calls) lim procs outs own name) = some b

end Verif.Snn.Spec
