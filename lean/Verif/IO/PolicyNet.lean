import Mathlib.Algebra.BigOperators.Group.List.Basic

/-!
# C126: applications that talk to a running network without ever blocking it

As in C101 (`Verif.IO.Interactive`), an application calls `Injector.send`, `Extractor.receive`, `run` and `wait` while the network
runs in other operating system processes – now with any channel configuration (io/utils.py:14-209) on either side, and with pipes as
they are: an item that was sent is in flight until the callback thread of the receiving port announces it
(pypychannel.py:262-270), and the slot of an item that was received is given back only when the callback thread of the sending port
has seen the acknowledgement (pypychannel.py:110-118). Exact arithmetic on the data (the ports are of type float).
-/

namespace Verif.IO.PolicyNet

/-- A channel configuration (`ChannelConfig`, io/utils.py:194-209) -/
structure Pol where
  /-- `SendFull.NON_BLOCKING_DROP` (else `BLOCKING`) -/
  drop : Bool
  /-- `ReceiveEmpty.NON_BLOCKING_ZEROS` (else `BLOCKING`) -/
  zeros : Bool
  /-- `ReceiveNotEmpty.ACCUMULATE` (else `FIFO`) -/
  accumulate : Bool
deriving DecidableEq

/-! ### Pipes -/

/-- `vis`: what `_queue.qsize()` counts, oldest first; `flight`: sent and not yet announced; `acks`: received, slot not yet given back. -/
structure Pipe (X : Type) where
  vis : List X
  flight : List X
  acks : Nat
deriving DecidableEq

def empty (X : Type) : Pipe X := { vis := [], flight := [], acks := 0 }

/-- `CspSendPort.probe` (pypychannel.py:120-128): a slot is free -/
def Pipe.free {X : Type} (q : Pipe X) (cap : Nat) : Bool := decide (q.vis.length + q.flight.length + q.acks < cap)

/-- `CspSendPort.send` when a slot is free (pypychannel.py:130-144) -/
def Pipe.put {X : Type} (q : Pipe X) (x : X) : Pipe X := { q with flight := q.flight ++ [x] }

/-- The callback thread of the receiving port announces the oldest item (pypychannel.py:262-270). -/
def Pipe.announce {X : Type} (q : Pipe X) : Option (Pipe X) :=
  match q.flight with
  | [] => none
  | x :: r => some { q with vis := q.vis ++ [x], flight := r }

/-- The callback thread of the sending port gives a slot back (pypychannel.py:110-118). -/
def Pipe.giveBack {X : Type} (q : Pipe X) : Option (Pipe X) :=
  match q.acks with
  | 0 => none
  | a + 1 => some { q with acks := a }

/-- A receiving call: dispatch on `qsize` (injector.py:113-127, extractor.py:91-104), then one of `receive_empty_*` (io/utils.py:77-116)
or `receive_not_empty_*` (io/utils.py:137-187). `waiting`: the call has found the pipe empty before and blocks in
`receive_empty_blocking`, which takes one item whatever `accumulate` says. `none`: it blocks. -/
def Pipe.take {X : Type} [Zero X] [Add X] (p : Pol) (waiting : Bool) (q : Pipe X) : Option (X × Pipe X) :=
  match q.vis with
  | [] => if p.zeros && !waiting then some (0, q) else none
  | x :: r =>
    if p.accumulate && !waiting then
      some ((x :: r).foldl (· + ·) 0, { q with vis := [], acks := q.acks + (x :: r).length })
    else some (x, { q with vis := r, acks := q.acks + 1 })

/-! ### The system -/

/-- What the application does next (as in C101). -/
inductive Op (X : Type) where
  /-- `Injector.send(x)` (injector.py:72-92) -/
  | send (x : X)
  /-- `Extractor.receive()` (extractor.py:78-107) -/
  | recv
  /-- `run(RunSteps(n, blocking=False))` (runtime.py:433-436) -/
  | start (n : Nat)
  /-- `wait()` (runtime.py:449-452) -/
  | wait
deriving DecidableEq

/-- A network between an Injector and an Extractor, with its two pipes and channel configurations. -/
structure Net (D X Y : Type) where
  /-- buffer sizes of Injector and Extractor -/
  capIn : Nat
  capOut : Nat
  /-- channel configurations of Injector and Extractor -/
  inj : Pol
  ext : Pol
  /-- one time step with the input of this step, and what the Extractor is given -/
  F : D → X → D
  G : D → Y
  d0 : D
  /-- the output of a time step depends on the input of the same time step -/
  instant : Bool

structure St (D X Y : Type) where
  prog : List (Op X)
  pin : Pipe X
  pout : Pipe Y
  /-- completed time steps, and the number of time steps of all runs started -/
  k : Nat
  total : Nat
  /-- where each run ends, and how many responses were taken -/
  ends : List Nat
  waits : Nat
  d : D
  /-- in the current time step: the input of the Injector's model; whether the Extractor's model has done its part -/
  cur : Option X
  ext : Bool
  /-- a receiving call of the Injector's model, of the application, blocks in `receive_empty_blocking` -/
  wInj : Bool
  wApp : Bool
  /-- what `receive` returned, in order -/
  log : List Y
  /-- history: the items handed to `send` and whether the pipe took them (else: dropped with a warning) -/
  offers : List (X × Bool)
  /-- history: the inputs of the time steps so far -/
  fed : List X
  /-- history: the outputs of the time steps so far and whether the pipe took them -/
  emits : List (Y × Bool)

variable {D X Y : Type} [AddMonoid X] [AddMonoid Y]

def init (n : Net D X Y) (p : List (Op X)) : St D X Y :=
  { prog := p, pin := empty X, pout := empty Y, k := 0, total := 0, ends := [], waits := 0, d := n.d0, cur := none, ext := false,
    wInj := false, wApp := false, log := [], offers := [], fed := [], emits := [] }

/-- Who does a step: the application, the models of Injector and Extractor, the end of the time step, and the four callback threads of
the two pipes. -/
inductive Who where
  | app | inj | ext | sync | inAnn | inBack | outAnn | outBack
deriving DecidableEq

/-- The Extractor's model sends the output of the time step (extractor.py:124-126, io/utils.py:25-57). -/
def emit (n : Net D X Y) (s : St D X Y) (y : Y) : Option (St D X Y) :=
  if s.pout.free n.capOut then some { s with pout := s.pout.put y, ext := true, emits := s.emits ++ [(y, true)] }
  else if n.ext.drop then some { s with ext := true, emits := s.emits ++ [(y, false)] }
  else none

/-- One atomic step; `none` if that party has to wait. -/
def step (n : Net D X Y) (s : St D X Y) : Who → Option (St D X Y)
  | .app =>
    match s.prog with
    | [] => none
    | .send x :: p =>
      -- injector.py:86-87 → io/utils.py:25-57
      if s.pin.free n.capIn then some { s with prog := p, pin := s.pin.put x, offers := s.offers ++ [(x, true)] }
      else if n.inj.drop then some { s with prog := p, offers := s.offers ++ [(x, false)] }
      else none
    | .recv :: p =>
      -- extractor.py:91-107
      match s.pout.take n.ext s.wApp with
      | some (y, q) => some { s with prog := p, pout := q, wApp := false, log := s.log ++ [y] }
      | none => if s.wApp then none else some { s with wApp := true }
    | .start m :: p => some { s with prog := p, total := s.total + m, ends := s.ends ++ [s.total + m] }
    | .wait :: p =>
      match s.ends[s.waits]? with
      | none => none
      | some e => if e ≤ s.k then some { s with prog := p, waits := s.waits + 1 } else none
  | .inj =>
    -- injector.py:113-127 `PyLoihiInjectorModel.run_spk`
    if s.k < s.total ∧ s.cur = none then
      match s.pin.take n.inj s.wInj with
      | some (x, q) => some { s with pin := q, wInj := false, cur := some x, fed := s.fed ++ [x] }
      | none => if s.wInj then none else some { s with wInj := true }
    else none
  | .ext =>
    -- extractor.py:124-126 `PyLoihiExtractorModel.run_spk`
    if s.k < s.total ∧ s.ext = false then
      if n.instant then
        match s.cur with
        | some x => emit n s (n.G (n.F s.d x))
        | none => none
      else emit n s (n.G s.d)
    else none
  | .sync =>
    -- everybody has completed the time step
    match s.cur with
    | some x => if s.ext = true then some { s with d := n.F s.d x, k := s.k + 1, cur := none, ext := false } else none
    | none => none
  | .inAnn => s.pin.announce.map fun q => { s with pin := q }
  | .inBack => s.pin.giveBack.map fun q => { s with pin := q }
  | .outAnn => s.pout.announce.map fun q => { s with pout := q }
  | .outBack => s.pout.giveBack.map fun q => { s with pout := q }

/-- A schedule; whoever cannot do a step waits. -/
def exec (n : Net D X Y) (s : St D X Y) : List Who → St D X Y
  | [] => s
  | a :: as => exec n ((step n s a).getD s) as

/-- Nobody can do a step. -/
def Stuck (n : Net D X Y) (s : St D X Y) : Prop := ∀ a, step n s a = none

/-! ### Specification -/

/-- The items a program sends, in order. -/
def sends : List (Op X) → List X
  | [] => []
  | .send x :: p => x :: sends p
  | _ :: p => sends p

/-- The number of time steps a program starts. -/
def stepsIn : List (Op X) → Nat
  | [] => 0
  | .start m :: p => m + stepsIn p
  | _ :: p => stepsIn p

/-- Every `wait` comes after the start of the run it waits for; `o` runs are not waited for yet. -/
def WaitsAfter (o : Nat) : List (Op X) → Prop
  | [] => True
  | .start _ :: p => WaitsAfter (o + 1) p
  | .wait :: p => 0 < o ∧ WaitsAfter (o - 1) p
  | _ :: p => WaitsAfter o p

/-- The output of time step `t` (0-based) if the inputs of the time steps are `xs`, as a function. -/
def output (n : Net D X Y) (xs : List X) (t : Nat) : Y :=
  n.G ((xs.take (if n.instant then t + 1 else t)).foldl n.F n.d0)

/-- The items a pipe took. -/
def taken {Z : Type} (l : List (Z × Bool)) : List Z := (l.filter (·.2)).map (·.1)

/-- How the results `res` of the receiving calls come from the items `acc` put into a pipe, `rest` of which are still in it: every call
returns the sum of a group of consecutive items, the groups follow each other, and together with what is left they are all the items.
FIFO: at most one item at a time. Blocking: at least one. -/
def Grouped {Z : Type} [AddMonoid Z] (p : Pol) (acc : List Z) (res : List Z) (rest : List Z) : Prop :=
  ∃ gs : List (List Z), gs.map List.sum = res ∧ gs.flatten ++ rest = acc ∧
    (p.accumulate = false → ∀ g ∈ gs, g.length ≤ 1) ∧ (p.zeros = false → ∀ g ∈ gs, g ≠ [])

end Verif.IO.PolicyNet
