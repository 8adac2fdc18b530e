import Verif.EndToEnd.Model

/-!
# Reference: what a program of calls means

No channels, services or schedules: a network is the list of the Var values of its processes, a time step is the solution of the synchronous
equations followed by the learning phases, a run is a number of time steps.
-/

namespace Verif.EndToEnd

open Verif.System (Op Precedes)

variable {S V W : Type}

/-- State of process `p` after the operations `ops`, when `h c` is the message of this time step on channel `c`. -/
def after (y : Sys S V W) (h : Nat → V) (p : Nat) : List Op → S → S
  | [], s => s
  | .snd _ :: l, s => after y h p l s
  | .rcv c :: l, s => after y h p l (y.absorb p s c (h c))

/-- The messages of one time step: each is what its sender computes from its state and the messages it has received before in this
step. -/
def Messages (y : Sys S V W) (σ : Nat → S) (h : Nat → V) : Prop :=
  ∀ p c x z, p < y.n → y.body p = x ++ .snd c :: z → h c = y.emit p (after y h p x (y.start p (σ p))) c

/-- State after the spiking phase. -/
def spiked (y : Sys S V W) (h : Nat → V) (σ : Nat → S) (p : Nat) : S :=
  if p < y.n then y.tick p (after y h p (y.body p) (y.start p (σ p))) else σ p

/-- Does a process model of service `i` satisfy a guard? -/
def anyOf (y : Sys S V W) (i : Nat) (g : Nat → S → Bool) (σ : Nat → S) : Bool := (y.pms i).any fun p => g p (σ p)

/-- A phase of service `i` is entered if `b`; all its models take part. -/
def phaseIf (y : Sys S V W) (i : Nat) (b : Bool) (f : Nat → S → S) (σ : Nat → S) (p : Nat) : S :=
  if b = true ∧ p ∈ y.pms i then f p (σ p) else σ p

/-- The management and learning phases of service `i` after the spiking phase. The pre-learning phase is entered if some model has both
guards, the learning phase if some model has the learning guard after the spiking phase, the post-learning phase if some model has the post
guard and no learning guard after the spiking phase, or has the post guard after the learning phase. In a phase a model does something if its
own guard holds then. -/
def managed (y : Sys S V W) (i : Nat) (σ : Nat → S) : Nat → S :=
  phaseIf y i (anyOf y i (fun p s => !y.lrnGuard p s && y.postGuard p s) σ ||
      (anyOf y i y.lrnGuard σ && anyOf y i y.postGuard
        (phaseIf y i (anyOf y i y.lrnGuard σ) (doLrn y)
          (phaseIf y i (anyOf y i (fun p s => y.lrnGuard p s && y.preGuard p s) σ) (doPre y) σ)))) (doPost y)
    (phaseIf y i (anyOf y i y.lrnGuard σ) (doLrn y)
      (phaseIf y i (anyOf y i (fun p s => y.lrnGuard p s && y.preGuard p s) σ) (doPre y) σ))

/-- One time step: spiking phase of all process models, then the other phases of every service. -/
def OneStep (y : Sys S V W) (σ σ' : Nat → S) : Prop :=
  ∃ h, Messages y σ h ∧ ∀ p, σ' p = if p < y.n then managed y (y.svc p) (spiked y h σ) p else σ p

/-- `n` time steps. -/
def StepsTo (y : Sys S V W) : Nat → (Nat → S) → (Nat → S) → Prop
  | 0, σ, σ' => σ' = σ
  | n + 1, σ, σ' => ∃ τ, OneStep y σ τ ∧ StepsTo y n τ σ'

/-- Overwrite the items from `j` on. -/
def pokes (y : Sys S V W) (p x : Nat) : Nat → List W → S → S
  | _, [], s => s
  | j, w :: ws, s => pokes y p x (j + 1) ws (y.poke p s x j w)

/-- Meaning of a program of calls, from the values `σ`: what the user sees. -/
inductive Means (y : Sys S V W) : Bool → (Nat → S) → List (Call W) → List (Res W) → Prop where
  | stop (σ) : Means y true σ [] [.stopped]
  | run {b σ σ' n cs l} : StepsTo y n σ σ' → Means y true σ' cs l → Means y b σ (.run n :: cs) (.ran :: l)
  | get {σ p x cs l} : Means y true σ cs l →
      Means y true σ (.get p x :: cs) (.value ((List.range (y.vsize p x)).map (y.peek p (σ p) x)) :: l)
  | set {σ p x ws cs l} : Means y true (fun q => if q = p then y.updated p (pokes y p x 0 ws (σ p)) else σ q) cs l →
      Means y true σ (.set p x ws :: cs) (.wasSet :: l)
  | getEarly {σ p x cs l} : Means y false σ cs l → Means y false σ (.get p x :: cs) (.notStarted :: l)
  | setEarly {σ p x ws cs l} : Means y false σ cs l → Means y false σ (.set p x ws :: cs) (.notStarted :: l)

/-- Ids exist, and a value has no more items than its Var. The code does not check the latter (variable.py:131-164); `C96_witness_oversize` shows
what happens then. -/
def Valid (y : Sys S V W) : Call W → Prop
  | .run _ => True
  | .get p _ => p < y.n
  | .set p x ws => p < y.n ∧ ws.length ≤ y.vsize p x

/-- Programs considered: calls refer to existing Vars, and something is run before `stop`. -/
structure Proper (y : Sys S V W) (prog : List (Call W)) : Prop where
  valid : ∀ c ∈ prog, Valid y c
  runs : ∃ n, .run n ∈ prog

/-- The system is wired as the builder does it (C31, C88): every data channel has one sender and one receiver, each uses it once per time step;
every process model belongs to one service; every channel holds at least one message. -/
structure WF (y : Sys S V W) (src dst : Nat → Nat) : Prop where
  nodup : ∀ p, (y.body p).Nodup
  snd : ∀ p c, p < y.n → Op.snd c ∈ y.body p → src c = p ∧ dst c < y.n ∧ Op.rcv c ∈ y.body (dst c)
  rcv : ∀ p c, p < y.n → Op.rcv c ∈ y.body p → dst c = p ∧ src c < y.n ∧ Op.snd c ∈ y.body (src c)
  cap : ∀ c, 1 ≤ y.cap c
  svc : ∀ p, p < y.n → y.svc p < y.k
  pms : ∀ i, (y.pms i).Nodup ∧ ∀ p, p ∈ y.pms i ↔ p < y.n ∧ y.svc p = i

/-- No circle of processes each of which wants a message from the one before it first. -/
def NoCircle (y : Sys S V W) (src : Nat → Nat) : Prop :=
  ¬ ∃ K : Nat → Prop, (∃ c, K c) ∧ ∀ c, K c → src c < y.n ∧ Op.snd c ∈ y.body (src c) ∧
    ∃ c', K c' ∧ Precedes (y.body (src c)) (.rcv c') (.snd c)

end Verif.EndToEnd
