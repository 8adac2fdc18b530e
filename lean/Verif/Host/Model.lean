/-!
# Model of the host runtime

`src/lava/magma/runtime/runtime.py`: `start`/`_run` (410-447), `_get_resp_for_run` (368-408), `wait` (449-452), `stop` (485-507),
`get_var` (573-627), `set_var` (516-571), together with any number of runtime services. A service is reduced to what C06-C08 prove of
`LoihiPyRuntimeService`: it executes the commands of its channel in order, a run of `n` steps is `n` steps followed by one DONE, and a
STOP that becomes visible while it runs makes it abandon the run without DONE (runtime_service.py:368-386).

The host is one thread; every send, receive, probe and select is one atomic step. Channels are FIFO queues (C01) without bound.
The data of all process models of a service is one value of an arbitrary type; a get reads it, a set overwrites it (tokens of
single items are in `Verif.VarAccess`). `select` may return any channel with data; it returns the first such one, so this
allows more executions than the code.

Not modelled: `pause` (C09), requests of process models for pause or stop, errors raised in process models, compilation.
-/

namespace Verif.Host

/-- Commands to a service (mgmt_token_enums.py:38-55; a non-negative number is a run). -/
inductive Cmd (D : Type) where
  | run (n : Nat) | get | set (v : D) | stop
deriving DecidableEq, Repr

/-- Responses of a service (mgmt_token_enums.py:58-75), and data. -/
inductive Rsp (D : Type) where
  | done | val (v : D) | setComplete | terminated
deriving DecidableEq, Repr

inductive Mode where
  | idle
  /-- in a run, with so many steps left -/
  | busy (left : Nat)
  /-- returned from `run` -/
  | dead
deriving DecidableEq, Repr

/-- A runtime service with its two channels to and from the host. -/
structure Svc (D : Type) where
  mode : Mode
  inq : List (Cmd D)
  outq : List (Rsp D)
  d : D
  stopping : Bool
deriving DecidableEq, Repr

/-- Calls of the user. -/
inductive Call (D : Type) where
  /-- `run(condition=RunSteps(num_steps=n, blocking=b))` -/
  | run (n : Nat) (blocking : Bool)
  | wait
  /-- `get` of a Var of service `i` -/
  | get (i : Nat)
  | set (i : Nat) (v : D)
  | stop
deriving DecidableEq, Repr

/-- What the user sees of a call. -/
inductive Res (D : Type) where
  /-- a blocking run or wait returned; the list is the data of all services at that moment -/
  | returned (ds : List D)
  /-- a non-blocking run returned -/
  | started
  /-- a wait with nothing to wait for -/
  | nothing
  /-- get or set refused with a warning, as the execution is going on (runtime.py:518-521, 575-578) -/
  | refused
  /-- get or set raised as the runtime was not started (runtime.py:571, 627) -/
  | notStarted
  | value (v : D)
  /-- a response of a run was taken for the data of a get -/
  | garbage
  | setOk
  | stopped
deriving DecidableEq, Repr

/-- Where the host thread is. -/
inductive Pc (D : Type) where
  /-- before the next call -/
  | ready
  /-- in the loop that sends the number of steps, next to service `i` (runtime.py:435-436) -/
  | sendRun (n : Nat) (b : Bool) (i : Nat)
  /-- in `_get_resp_for_run` with `len(rsps) = got` -/
  | collect (got : Nat)
  | awaitVal (i : Nat)
  | awaitSet (i : Nat)
  | sendStop (i : Nat)
  /-- waiting for TERMINATED of service `i` (runtime.py:491-492) -/
  | stopRecv (i : Nat)
  /-- before the `probe` of runtime.py:494, after a response that is not TERMINATED -/
  | stopProbe (i : Nat)
  /-- joining the operating system processes (runtime.py:498, 504-505; multiprocessing.py:127-132) -/
  | joining
  /-- RuntimeError -/
  | failed
deriving DecidableEq, Repr

structure St (D : Type) where
  svc : Nat → Svc D
  prog : List (Call D)
  pc : Pc D
  /-- `_is_running` -/
  running : Bool
  /-- `_is_started` -/
  started : Bool
  log : List (Res D)

variable {D : Type}

/-- Update of one entry. -/
def upd {α : Type} (f : Nat → α) (i : Nat) (x : α) : Nat → α := fun j => if j = i then x else f j

/-- One step of a service (runtime_service.py:303-388, reduced by C06-C08); `tick` is one time step of its process models. -/
def svcStep (tick : D → D) (s : Svc D) : Option (Svc D) :=
  match s.mode with
  | .dead => none
  | .busy (k + 1) => some { s with mode := .busy k, d := tick s.d }
  | .busy 0 => some { s with mode := .idle, outq := s.outq ++ if s.stopping then [] else [.done] }
  | .idle =>
    match s.inq with
    | [] => none
    | .run n :: r => some { s with mode := .busy n, inq := r }
    | .get :: r => some { s with inq := r, outq := s.outq ++ [.val s.d] }
    | .set v :: r => some { s with inq := r, outq := s.outq ++ [.setComplete], d := v }
    | .stop :: r => some { s with inq := r, outq := s.outq ++ [.terminated], mode := .dead }

/-- A running service sees a STOP at the head of its channel (runtime_service.py:368-372) and leaves the run. -/
def svcPeek (s : Svc D) : Option (Svc D) :=
  match s.mode, s.inq with
  | .busy _, .stop :: _ => some { s with mode := .idle, stopping := true }
  | _, _ => none

/-- A command is sent to a service. -/
def push (s : Svc D) (c : Cmd D) : Svc D := { s with inq := s.inq ++ [c] }

/-- Data of all services. -/
def datas (S : Nat) (svc : Nat → Svc D) : List D := (List.range S).map fun i => (svc i).d

/-- All operating system processes have ended (multiprocessing.py:127-132). -/
def allDead (S : Nat) (svc : Nat → Svc D) : Bool := (List.range S).all fun i => match (svc i).mode with
  | .dead => true
  | _ => false

/-- A call returns. Model only. -/
def St.ret (s : St D) (r : Res D) : St D := { s with pc := .ready, log := s.log ++ [r] }

/-- Begin of a call: `start` and `_run` (runtime.py:410-447), `wait` (449-452), `get_var` (573-600), `set_var` (516-565),
`stop` (485-490). -/
def call (c : Call D) (s : St D) : St D :=
  match c with
  | .run n b => { s with started := true, running := true, pc := .sendRun n b 0 }
  | .wait => if s.running then { s with pc := .collect 0 } else s.ret .nothing
  | .get i =>
    if s.running then s.ret .refused
    else if s.started then { s with svc := upd s.svc i (push (s.svc i) .get), pc := .awaitVal i }
    else s.ret .notStarted
  | .set i v =>
    if s.running then s.ret .refused
    else if s.started then { s with svc := upd s.svc i (push (s.svc i) (.set v)), pc := .awaitSet i }
    else s.ret .notStarted
  | .stop => if s.started then { s with pc := .sendStop 0 } else { s with pc := .joining }

/-- One step of the host in `_run`, `_get_resp_for_run`, `get_var`, `set_var` and `stop` (runtime.py:368-627); `j` is the choice of
`select`. -/
def hostStep (S : Nat) (s : St D) (j : Nat) : Option (St D) :=
  match s.pc with
  | .ready =>
    match s.prog with
    | [] => none
    | c :: p => some (call c { s with prog := p })
  | .sendRun n b i =>
    if i < S then some { s with svc := upd s.svc i (push (s.svc i) (.run n)), pc := .sendRun n b (i + 1) }
    else if b then some { s with pc := .collect 0 } else some (s.ret .started)
  | .collect got =>
    if j < S then
      match (s.svc j).outq with
      | [] => none
      | .done :: r =>
        let s := { s with svc := upd s.svc j { s.svc j with outq := r } }
        if got + 1 = S then some ({ s with running := false }.ret (.returned (datas S s.svc)))
        else some { s with pc := .collect (got + 1) }
      | _ :: r => some { s with svc := upd s.svc j { s.svc j with outq := r }, pc := .failed }
    else none
  | .awaitVal i =>
    match (s.svc i).outq with
    | [] => none
    | .val v :: r => some ({ s with svc := upd s.svc i { s.svc i with outq := r } }.ret (.value v))
    | _ :: r => some ({ s with svc := upd s.svc i { s.svc i with outq := r } }.ret .garbage)
  | .awaitSet i =>
    match (s.svc i).outq with
    | [] => none
    | .setComplete :: r => some ({ s with svc := upd s.svc i { s.svc i with outq := r } }.ret .setOk)
    | _ :: r => some { s with svc := upd s.svc i { s.svc i with outq := r }, pc := .failed }
  | .sendStop i =>
    if i < S then some { s with svc := upd s.svc i (push (s.svc i) .stop), pc := .sendStop (i + 1) }
    else some { s with pc := .stopRecv 0 }
  | .stopRecv i =>
    if i < S then
      match (s.svc i).outq with
      | [] => none
      | .terminated :: r => some { s with svc := upd s.svc i { s.svc i with outq := r }, pc := .stopRecv (i + 1) }
      | _ :: r => some { s with svc := upd s.svc i { s.svc i with outq := r }, pc := .stopProbe i }
    else some { s with pc := .joining }
  | .stopProbe i =>
    match (s.svc i).outq with
    | .terminated :: r => some { s with svc := upd s.svc i { s.svc i with outq := r }, pc := .stopRecv (i + 1) }
    | _ :: r => some { s with svc := upd s.svc i { s.svc i with outq := r }, pc := .failed }
    | [] => some { s with pc := .failed }
  | .joining =>
    if allDead S s.svc then some ({ s with running := false, started := false }.ret .stopped) else none
  | .failed => none

/-- Who does the next step. -/
inductive Lbl where
  | host (j : Nat) | svc (i : Nat) | peek (i : Nat)
deriving DecidableEq, Repr

def step (S : Nat) (tick : Nat → D → D) (s : St D) : Lbl → Option (St D)
  | .host j => hostStep S s j
  | .svc i => if i < S then (svcStep (tick i) (s.svc i)).map fun x => { s with svc := upd s.svc i x } else none
  | .peek i => if i < S then (svcPeek (s.svc i)).map fun x => { s with svc := upd s.svc i x } else none

def exec (S : Nat) (tick : Nat → D → D) (s : St D) : List Lbl → St D
  | [] => s
  | l :: ls => exec S tick ((step S tick s l).getD s) ls

/-- After `initialize` (runtime.py:158-177). -/
def init (d : Nat → D) (prog : List (Call D)) : St D :=
  { svc := fun i => { mode := .idle, inq := [], outq := [], d := d i, stopping := false }, prog := prog, pc := .ready,
    running := false, started := false, log := [] }

end Verif.Host
