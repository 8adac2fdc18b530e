import Verif.Wired.Model

/-!
# Reference: what a network with given connections means

No channels, no schedules, no services' messages: in a time step every OutPort has one value, an InPort receives the sum of the (transformed) values of the OutPorts connected
to it, an InPort without connections receives zero.
-/

namespace Verif.Wired.Spec

open Verif.Wiring (Port)
open Verif.EndToEnd (Call Res)

variable {S V W : Type} [Add V] [Zero V]

/-- OutPorts connected to `q`, in the order of the connections. -/
def sources (conns : List (Port × Port)) (q : Port) : List Port := (conns.filter fun x => x.2 = q).map Prod.fst

/-- What arrives at `q` when OutPort `o` sends `w o` and `tr o q` is what the virtual ports between them do. -/
def arrives (conns : List (Port × Port)) (tr : Port → Port → V → V) (w : Port → V) (q : Port) : V :=
  (sources conns q).foldl (fun a o => a + tr o q (w o)) 0

/-- Vars of a process after some of its port operations, if it receives `inp x` on InPort `x`. -/
def after (P : PM S V W) (inp : String → V) : List POp → S → S
  | [], s => s
  | .send _ :: l, s => after P inp l s
  | .recv x :: l, s => after P inp l (P.store s x (inp x))

/-- What process `p` receives. -/
def inputs (conns : List (Port × Port)) (tr : Port → Port → V → V) (w : Port → V) (p : Nat) (x : String) : V :=
  arrives conns tr w ⟨p, x, .inp⟩

/-- A network as its user knows it. `inp w p x` is what InPort `x` of process `p` receives when the OutPorts send the values `w`; `group p` are the processes in the same
synchronisation domain as `p`. -/
structure Network (S V W : Type) where
  n : Nat
  pm : Nat → PM S V W
  inp : (Port → V) → Nat → String → V
  group : Nat → List Nat

/-- `w` solves the equations of a time step from the values `σ` of the Vars: every OutPort sends what its process computes from what it has received before. -/
def Values (N : Network S V W) (σ : Nat → S) (w : Port → V) : Prop :=
  ∀ p y l r, p < N.n → (N.pm p).ops = l ++ .send y :: r →
    w ⟨p, y, .out⟩ = (N.pm p).value (after (N.pm p) (N.inp w p) l ((N.pm p).start (σ p))) y

/-- Vars after the spiking phase. -/
def spiked (N : Network S V W) (w : Port → V) (σ : Nat → S) (p : Nat) : S :=
  if p < N.n then (N.pm p).finish (after (N.pm p) (N.inp w p) (N.pm p).ops ((N.pm p).start (σ p))) else σ p

/-- Some process of the group satisfies a guard. -/
def anyOf (group : List Nat) (g : Nat → S → Bool) (σ : Nat → S) : Bool := group.any fun p => g p (σ p)

/-- All processes of the group execute a guarded method if `b`. -/
def phase (group : List Nat) (b : Bool) (g : Nat → S → Bool) (f : Nat → S → S) (σ : Nat → S) (p : Nat) : S :=
  if b = true ∧ p ∈ group ∧ g p (σ p) = true then f p (σ p) else σ p

/-- The management and learning phases of the processes of one service, entered on request: pre-learning if some process has both guards, learning if some process has
the learning guard; post-learning if some process has the post guard and not the learning guard, or has the post guard after learning. -/
def managed (pm : Nat → PM S V W) (group : List Nat) (σ : Nat → S) : Nat → S :=
  phase group (anyOf group (fun p s => !(pm p).lrnGuard s && (pm p).postGuard s) σ ||
      (anyOf group (fun p => (pm p).lrnGuard) σ && anyOf group (fun p => (pm p).postGuard)
        (phase group (anyOf group (fun p => (pm p).lrnGuard) σ) (fun p => (pm p).lrnGuard) (fun p => (pm p).runLrn)
          (phase group (anyOf group (fun p s => (pm p).lrnGuard s && (pm p).preGuard s) σ) (fun p => (pm p).preGuard) (fun p => (pm p).runPre) σ))))
    (fun p => (pm p).postGuard) (fun p => (pm p).runPost)
    (phase group (anyOf group (fun p => (pm p).lrnGuard) σ) (fun p => (pm p).lrnGuard) (fun p => (pm p).runLrn)
      (phase group (anyOf group (fun p s => (pm p).lrnGuard s && (pm p).preGuard s) σ) (fun p => (pm p).preGuard) (fun p => (pm p).runPre) σ))

/-- One time step. -/
def OneStep (N : Network S V W) (σ σ' : Nat → S) : Prop :=
  ∃ w, Values N σ w ∧
    ∀ p, σ' p = if p < N.n then managed N.pm (N.group p) (spiked N w σ) p else σ p

/-- `k` time steps. -/
def Steps (N : Network S V W) : Nat → (Nat → S) → (Nat → S) → Prop
  | 0, σ, σ' => σ' = σ
  | k + 1, σ, σ' => ∃ τ, OneStep N σ τ ∧ Steps N k τ σ'

/-- Overwrite the items from `j` on. -/
def pokes (P : PM S V W) (x : Nat) : Nat → List W → S → S
  | _, [], s => s
  | j, w :: ws, s => pokes P x (j + 1) ws (P.poke s x j w)

/-- What a user sees of a program of calls that ends with `stop`, from the values `σ`; the flag says whether something has been run before. -/
inductive Shows (N : Network S V W) : Bool → (Nat → S) → List (Call W) → List (Res W) → Prop where
  | stop (σ) : Shows N true σ [] [.stopped]
  | run {b σ σ' k cs l} : Steps N k σ σ' → Shows N true σ' cs l → Shows N b σ (.run k :: cs) (.ran :: l)
  | get {σ p x cs l} : Shows N true σ cs l →
      Shows N true σ (.get p x :: cs) (.value ((List.range ((N.pm p).vsize x)).map ((N.pm p).peek (σ p) x)) :: l)
  | set {σ p x ws cs l} : Shows N true (fun q => if q = p then (N.pm p).updated (pokes (N.pm p) x 0 ws (σ p)) else σ q) cs l →
      Shows N true σ (.set p x ws :: cs) (.wasSet :: l)
  | getEarly {σ p x cs l} : Shows N false σ cs l → Shows N false σ (.get p x :: cs) (.notStarted :: l)
  | setEarly {σ p x ws cs l} : Shows N false σ cs l → Shows N false σ (.set p x ws :: cs) (.notStarted :: l)

/-- A process has at most one port of a name and uses each of its ports at most once per time step; a connection goes from an OutPort to an InPort of processes of the network, each connected
port is used, and no connection is listed twice. -/
structure Regular (n : Nat) (pm : Nat → PM S V W) (conns : List (Port × Port)) (kd : Nat → String → Wiring.PKind) : Prop where
  once : ∀ p, (pm p).ops.Nodup
  recvs : ∀ p x, POp.recv x ∈ (pm p).ops → kd p x = .inp
  sends : ∀ p y, POp.send y ∈ (pm p).ops → kd p y = .out
  nodup : conns.Nodup
  conn : ∀ o q, (o, q) ∈ conns → o.kind = .out ∧ q.kind = .inp ∧ o.proc < n ∧ q.proc < n ∧
    POp.send o.name ∈ (pm o.proc).ops ∧ POp.recv q.name ∈ (pm q.proc).ops

/-- In process `p` the InPort `x` is received from before the OutPort `y` is sent to. -/
def Before (P : PM S V W) (x y : String) : Prop := ∃ a b c, P.ops = a ++ .recv x :: (b ++ .send y :: c)

/-- No connections that wait for each other in a circle: there is no (non-empty) set of connections such that the sender of each first wants a message of another one. -/
def NoCircle (pm : Nat → PM S V W) (conns : List (Port × Port)) : Prop :=
  ¬ ∃ K : Port × Port → Prop, (∃ c, K c) ∧ ∀ c, K c → c ∈ conns ∧
    ∃ c', K c' ∧ c'.2.proc = c.1.proc ∧ Before (pm c.1.proc) c'.2.name c.1.name

/-- Every process belongs to one existing service, channels hold at least one message. -/
structure Hosted (x : Platform S V W) : Prop where
  cap : ∀ c, 1 ≤ x.cap c
  svc : ∀ p, p < x.n → x.svc p < x.k
  pms : ∀ i, (x.pms i).Nodup ∧ ∀ p, p ∈ x.pms i ↔ p < x.n ∧ x.svc p = i

/-- Programs considered: they refer to existing processes, do not write more items than a Var has, and run something before they stop. -/
structure Proper (n : Nat) (pm : Nat → PM S V W) (prog : List (Call W)) : Prop where
  gets : ∀ p x, .get p x ∈ prog → p < n
  sets : ∀ p x ws, .set p x ws ∈ prog → p < n ∧ ws.length ≤ (pm p).vsize x
  runs : ∃ k, .run k ∈ prog

end Verif.Wired.Spec
