/-!
# Model of the host runtime with continuous runs and pauses

`src/lava/magma/runtime/runtime.py`: `start`/`_run` (410-447), `_get_resp_for_run` (368-408), `wait` (449-452), `pause` (454-483), `stop` (485-507),
`set_var` (516-571), `get_var` (573-627), together with any number of services `LoihiPyRuntimeService`
(runtime_services/runtime_service.py:291-388). This extends `Verif.Host` by `RunContinuous`, `pause` and the attributes of a service that a pause changes.

The host is one thread; every send, receive, probe and select is one atomic step, and so is a time step of a service together with the probe of its command
channel that follows (a probe earlier in the same time step has the same effect: the attributes it sets are read before the next time step, and the probe at the end
sees the command too). Channels are FIFO queues (C01) without bound. The data of all process models of a service is one value of an arbitrary type.
`RunContinuous` is `sys.maxsize` steps in the code and endless here.

Not modelled: requests of process models for pause or stop, errors raised in process models.
-/

namespace Verif.Pause

/-- Commands to a service (mgmt_token_enums.py:38-55); `run none` is a continuous run. -/
inductive Cmd (D : Type) where
  | run (n : Option Nat) | get | set (v : D) | pause | stop
deriving DecidableEq, Repr

/-- Responses of a service (mgmt_token_enums.py:58-75), and data. -/
inductive Rsp (D : Type) where
  | done | val (v : D) | setComplete | paused | terminated
deriving DecidableEq, Repr

inductive Mode where
  | idle
  /-- in a run, with so many steps left; `none` in a continuous run -/
  | busy (left : Option Nat)
  /-- returned from `run` -/
  | dead
deriving DecidableEq, Repr

/-- A runtime service with its two channels to and from the host, and its attributes (runtime_service.py:153-162). -/
structure Svc (D : Type) where
  mode : Mode
  inq : List (Cmd D)
  outq : List (Rsp D)
  d : D
  pausing : Bool
  stopping : Bool
  reqPause : Bool
  reqStop : Bool
deriving DecidableEq, Repr

variable {D : Type}

/-- Probe for a pause or stop command (runtime_service.py:368-375). -/
def probe (s : Svc D) : Svc D :=
  match s.inq with
  | .stop :: _ => { s with stopping := true, reqStop := true }
  | .pause :: _ => { s with pausing := true, reqPause := true }
  | _ => s

/-- One step of a service (runtime_service.py:301-388). `tick` is one time step of its process models. In a run: a pending pause or stop ends it (205-210, 335-348;
as these attributes are set by `probe` only, no request is sent to the host); after the last step the host phase follows (212-213), with a probe, and the DONE
is sent unless the service is pausing or stopping (380-386); else there is another time step. -/
def svcStep (tick : D → D) (s : Svc D) : Option (Svc D) :=
  match s.mode with
  | .dead => none
  | .busy left =>
    if s.reqPause then some { s with mode := .idle, reqPause := false }
    else if s.reqStop then some { s with mode := .idle, reqStop := false }
    else match left with
      | none => some (probe { s with d := tick s.d })
      | some (k + 1) => some (probe { s with mode := .busy (some k), d := tick s.d })
      | some 0 =>
        let t := probe s
        some { t with mode := .idle, outq := t.outq ++ if t.pausing || t.stopping then [] else [.done] }
  | .idle =>
    match s.inq with
    | [] => none
    | .run n :: r => some { s with mode := .busy n, inq := r }
    | .get :: r => some { s with inq := r, outq := s.outq ++ [.val s.d] }
    | .set v :: r => some { s with inq := r, outq := s.outq ++ [.setComplete], d := v }
    | .pause :: r => some { s with inq := r, outq := s.outq ++ [.paused] }
    | .stop :: r => some { s with inq := r, outq := s.outq ++ [.terminated], mode := .dead }

/-- Calls of the user. -/
inductive Call (D : Type) where
  /-- `run(condition=RunSteps(num_steps=n, blocking=b))` -/
  | run (n : Nat) (blocking : Bool)
  /-- `run(condition=RunContinuous())` -/
  | cont
  | wait
  | pause
  /-- `get` of a Var of service `i` -/
  | get (i : Nat)
  | set (i : Nat) (v : D)
  | stop
deriving DecidableEq, Repr

/-- What the user sees of a call. -/
inductive Res (D : Type) where
  /-- a blocking run or wait returned; the list is the data of all services at that moment -/
  | returned (ds : List D)
  /-- a non-blocking run returned -/
  | started
  /-- a wait or pause with nothing to wait for -/
  | nothing
  /-- a pause returned; the list is the data of all services at that moment -/
  | paused (ds : List D)
  /-- get or set refused with a warning, as the execution is going on (runtime.py:518-521, 575-578) -/
  | refused
  /-- get or set raised as the runtime was not started (runtime.py:571, 627) -/
  | notStarted
  | value (v : D)
  /-- a response of a run was taken for the data of a get -/
  | garbage
  | setOk
  | stopped
deriving DecidableEq, Repr

/-- Where the host thread is. -/
inductive Pc where
  /-- before the next call -/
  | ready
  /-- in the loop that sends the number of steps, next to service `i` (runtime.py:435-436, 441-442) -/
  | sendRun (n : Option Nat) (b : Bool) (i : Nat)
  /-- in `_get_resp_for_run` with `len(rsps) = got` -/
  | collect (got : Nat)
  | awaitVal (i : Nat)
  | awaitSet (i : Nat)
  | sendPause (i : Nat)
  /-- waiting for PAUSED of service `i` (runtime.py:459-460) -/
  | pauseRecv (i : Nat)
  /-- before the `probe` of runtime.py:477, after a response that is not PAUSED -/
  | pauseProbe (i : Nat)
  | sendStop (i : Nat)
  /-- waiting for TERMINATED of service `i` (runtime.py:491-492) -/
  | stopRecv (i : Nat)
  /-- before the `probe` of runtime.py:494, after a response that is not TERMINATED -/
  | stopProbe (i : Nat)
  /-- joining the operating system processes (runtime.py:498, 504-505; multiprocessing.py:127-132) -/
  | joining
  /-- RuntimeError -/
  | failed
deriving DecidableEq, Repr

structure St (D : Type) where
  svc : Nat → Svc D
  prog : List (Call D)
  pc : Pc
  /-- `_is_running` -/
  running : Bool
  /-- `_is_started` -/
  started : Bool
  log : List (Res D)

/-- Update of one entry. -/
def upd {α : Type} (f : Nat → α) (i : Nat) (x : α) : Nat → α := fun j => if j = i then x else f j

/-- A command is sent to a service. -/
def push (s : Svc D) (c : Cmd D) : Svc D := { s with inq := s.inq ++ [c] }

/-- The response `x :: r` of a service is received. -/
def pop (s : St D) (i : Nat) (r : List (Rsp D)) : St D := { s with svc := upd s.svc i { s.svc i with outq := r } }

/-- Data of all services. -/
def datas (S : Nat) (svc : Nat → Svc D) : List D := (List.range S).map fun i => (svc i).d

/-- All operating system processes have ended (multiprocessing.py:127-132). -/
def allDead (S : Nat) (svc : Nat → Svc D) : Bool := (List.range S).all fun i => decide ((svc i).mode = .dead)

/-- A call returns. Model only. -/
def St.ret (s : St D) (r : Res D) : St D := { s with pc := .ready, log := s.log ++ [r] }

/-- Begin of a call: `start` and `_run` (runtime.py:410-447), `wait` (449-452), `pause` (454-456), `get_var` (573-600), `set_var` (516-565), `stop` (485-490). -/
def call (c : Call D) (s : St D) : St D :=
  match c with
  | .run n b => { s with started := true, running := true, pc := .sendRun (some n) b 0 }
  | .cont => { s with started := true, running := true, pc := .sendRun none false 0 }
  | .wait => if s.running then { s with pc := .collect 0 } else s.ret .nothing
  | .pause => if s.running then { s with pc := .sendPause 0 } else s.ret .nothing
  | .get i =>
    if s.running then s.ret .refused
    else if s.started then { s with svc := upd s.svc i (push (s.svc i) .get), pc := .awaitVal i }
    else s.ret .notStarted
  | .set i v =>
    if s.running then s.ret .refused
    else if s.started then { s with svc := upd s.svc i (push (s.svc i) (.set v)), pc := .awaitSet i }
    else s.ret .notStarted
  | .stop => if s.started then { s with pc := .sendStop 0 } else { s with pc := .joining }

/-- One step of the host (runtime.py:368-627); `j` is the choice of `select`. -/
def hostStep (S : Nat) (s : St D) (j : Nat) : Option (St D) :=
  match s.pc with
  | .ready =>
    match s.prog with
    | [] => none
    | c :: p => some (call c { s with prog := p })
  | .sendRun n b i =>
    if i < S then some { s with svc := upd s.svc i (push (s.svc i) (.run n)), pc := .sendRun n b (i + 1) }
    else if b then some { s with pc := .collect 0 } else some (s.ret .started)
  | .collect got =>
    if j < S then
      match (s.svc j).outq with
      | [] => none
      | .done :: r =>
        if got + 1 = S then some ({ pop s j r with running := false }.ret (.returned (datas S (pop s j r).svc)))
        else some { pop s j r with pc := .collect (got + 1) }
      | _ :: r => some { pop s j r with pc := .failed }
    else none
  | .awaitVal i =>
    match (s.svc i).outq with
    | [] => none
    | .val v :: r => some ((pop s i r).ret (.value v))
    | _ :: r => some ((pop s i r).ret .garbage)
  | .awaitSet i =>
    match (s.svc i).outq with
    | [] => none
    | .setComplete :: r => some ((pop s i r).ret .setOk)
    | _ :: r => some { pop s i r with pc := .failed }
  | .sendPause i =>
    if i < S then some { s with svc := upd s.svc i (push (s.svc i) .pause), pc := .sendPause (i + 1) }
    else some { s with pc := .pauseRecv 0 }
  | .pauseRecv i =>
    if i < S then
      match (s.svc i).outq with
      | [] => none
      | .paused :: r => some { pop s i r with pc := .pauseRecv (i + 1) }
      | _ :: r => some { pop s i r with pc := .pauseProbe i }
    else some ({ s with running := false }.ret (.paused (datas S s.svc)))
  | .pauseProbe i =>
    match (s.svc i).outq with
    | .paused :: r => some { pop s i r with pc := .pauseRecv (i + 1) }
    | _ :: r => some { pop s i r with pc := .failed }
    | [] => some { s with pc := .failed }
  | .sendStop i =>
    if i < S then some { s with svc := upd s.svc i (push (s.svc i) .stop), pc := .sendStop (i + 1) }
    else some { s with pc := .stopRecv 0 }
  | .stopRecv i =>
    if i < S then
      match (s.svc i).outq with
      | [] => none
      | .terminated :: r => some { pop s i r with pc := .stopRecv (i + 1) }
      | _ :: r => some { pop s i r with pc := .stopProbe i }
    else some { s with pc := .joining }
  | .stopProbe i =>
    match (s.svc i).outq with
    | .terminated :: r => some { pop s i r with pc := .stopRecv (i + 1) }
    | _ :: r => some { pop s i r with pc := .failed }
    | [] => some { s with pc := .failed }
  | .joining =>
    if allDead S s.svc then some ({ s with running := false, started := false }.ret .stopped) else none
  | .failed => none

/-- Who does the next step. -/
inductive Lbl where
  | host (j : Nat) | svc (i : Nat)
deriving DecidableEq, Repr

def step (S : Nat) (tick : Nat → D → D) (s : St D) : Lbl → Option (St D)
  | .host j => hostStep S s j
  | .svc i => if i < S then (svcStep (tick i) (s.svc i)).map fun x => { s with svc := upd s.svc i x } else none

def exec (S : Nat) (tick : Nat → D → D) (s : St D) : List Lbl → St D
  | [] => s
  | l :: ls => exec S tick ((step S tick s l).getD s) ls

/-- After `initialize` (runtime.py:158-177). -/
def init (d : Nat → D) (prog : List (Call D)) : St D :=
  { svc := fun i => { mode := .idle, inq := [], outq := [], d := d i, pausing := false, stopping := false, reqPause := false, reqStop := false }, prog := prog,
    pc := .ready, running := false, started := false, log := [] }

end Verif.Pause
