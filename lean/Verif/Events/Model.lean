/-!
# Model of the host runtime with requests and errors of process models

`src/lava/magma/runtime/runtime.py`: `start`/`_run` (410-447), `_get_resp_for_run` (368-408), `wait` (449-452), `pause` (454-483), `stop` (485-507),
`set_var` (516-571), `get_var` (573-627), together with any number of services `LoihiPyRuntimeService`
(runtime_services/runtime_service.py:291-388). This extends `Verif.Pause` by what happens when process models request a pause or stop, raise an exception, or
never answer.

The host is one thread; every send, receive, probe and select is one atomic step, and so is a time step of a service together with the probe of its command
channel that follows. Channels are FIFO queues (C01) without bound. The data of all process models of a service is one value of an arbitrary type.
`RunContinuous` is `sys.maxsize` steps in the code and endless here.
-/

namespace Verif.Events

/-- What the process models of a service do besides computing in a time step (model/py/model.py:360-379, 381-448, 228-232): any of them requests a pause, any of them
requests a stop, so many of them raise an exception. -/
structure Ev where
  pause : Bool
  stop : Bool
  errs : Nat
deriving DecidableEq, Repr

/-- Commands to a service (mgmt_token_enums.py:38-55); `run none` is a continuous run. -/
inductive Cmd (D : Type) where
  | run (n : Option Nat) | get | set (v : D) | pause | stop
deriving DecidableEq, Repr

/-- Responses of a service (mgmt_token_enums.py:58-75), and data. -/
inductive Rsp (D : Type) where
  | done | val (v : D) | setComplete | paused | terminated | reqPause | reqStop | error
deriving DecidableEq, Repr

inductive Mode where
  | idle
  /-- in a run, with so many steps left; `none` in a continuous run -/
  | busy (left : Option Nat)
  /-- returned from `run`; all its process models have ended, or will without further messages -/
  | dead
deriving DecidableEq, Repr

/-- A runtime service with its two channels to and from the host, and its attributes (runtime_service.py:153-162). -/
structure Svc (D : Type) where
  mode : Mode
  inq : List (Cmd D)
  outq : List (Rsp D)
  d : D
  pausing : Bool
  stopping : Bool
  reqPause : Bool
  reqStop : Bool
  /-- number of its process models that ended with an exception -/
  errs : Nat
deriving DecidableEq, Repr

variable {D : Type}

/-- Probe for a pause or stop command (runtime_service.py:368-375). -/
def probe (s : Svc D) : Svc D :=
  match s.inq with
  | .stop :: _ => { s with stopping := true, reqStop := true }
  | .pause :: _ => { s with pausing := true, reqPause := true }
  | _ => s

/-- The end of a run of a service: DONE is sent after the last time step unless the service is pausing or stopping (runtime_service.py:380-386). -/
def doneMsg (s : Svc D) (last : Bool) : List (Rsp D) := if s.pausing || s.stopping then [] else if last then [.done] else []

/-- One time step of the process models and the collection of their responses (runtime_service.py:221-255, 351-375), `r` is what the process models did, `left` the number
of steps left afterwards. -/
def timeStep (s : Svc D) (left : Option Nat) (r : D × Ev) : Svc D :=
  if r.2.errs ≠ 0 then { s with mode := .dead, outq := s.outq ++ [.error], d := r.1, errs := r.2.errs }
  else probe { s with mode := .busy left, d := r.1, reqPause := s.reqPause || r.2.pause, reqStop := s.reqStop || r.2.stop }

/-- One step of a service (runtime_service.py:301-388). `tick` is one time step of its process models, `none` if one of them never answers (`_get_pm_resp`, 225-232,
waits for all). In a run: a pending pause or stop ends it (205-210, 335-348); after the last step the host phase follows (212-213). -/
def svcStep (tick : D → Option (D × Ev)) (s : Svc D) : Option (Svc D) :=
  match s.mode with
  | .dead => none
  | .busy left =>
    if s.reqPause then
      some { s with mode := .idle, reqPause := false, outq := s.outq ++ (if s.pausing then [] else [.reqPause]) ++ doneMsg s (left = some 0) }
    else if s.reqStop then
      some { s with mode := .idle, reqStop := false, outq := s.outq ++ (if s.stopping then [] else [.reqStop]) ++ doneMsg s (left = some 0) }
    else match left with
      | none => (tick s.d).map (timeStep s none)
      | some (k + 1) => (tick s.d).map (timeStep s (some k))
      | some 0 => some { probe s with mode := .idle, outq := s.outq ++ doneMsg (probe s) true }
  | .idle =>
    match s.inq with
    | [] => none
    | .run n :: r => some { s with mode := .busy n, inq := r }
    | .get :: r => some { s with inq := r, outq := s.outq ++ [.val s.d] }
    | .set v :: r => some { s with inq := r, outq := s.outq ++ [.setComplete], d := v }
    | .pause :: r => some { s with inq := r, outq := s.outq ++ [.paused] }
    | .stop :: r => some { s with inq := r, outq := s.outq ++ [.terminated], mode := .dead }

/-- Calls of the user. -/
inductive Call (D : Type) where
  /-- `run(condition=RunSteps(num_steps=n, blocking=b))` -/
  | run (n : Nat) (blocking : Bool)
  /-- `run(condition=RunContinuous())` -/
  | cont
  | wait
  | pause
  /-- `get` of a Var of service `i` -/
  | get (i : Nat)
  | set (i : Nat) (v : D)
  | stop
deriving DecidableEq, Repr

/-- What the user sees of a call. -/
inductive Res (D : Type) where
  /-- a blocking run, wait or pause returned; the list is the data of all services at that moment -/
  | returned (ds : List D)
  /-- a non-blocking run returned -/
  | started
  /-- a wait or pause with nothing to wait for -/
  | nothing
  /-- get or set refused with a warning, as the execution is going on (runtime.py:518-521, 575-578) -/
  | refused
  /-- get or set raised as the runtime was not started (runtime.py:571, 627) -/
  | notStarted
  | value (v : D)
  /-- a response of a run was taken for the data of a get -/
  | garbage
  | setOk
  /-- a stop, or a run or wait in which a process model requested a stop, returned -/
  | stopped
  /-- RuntimeError: so many exceptions occurred (runtime.py:391-404) -/
  | raised (n : Nat)
  /-- RuntimeError as an unexpected response arrived; the model ends here -/
  | protocol
deriving DecidableEq, Repr

/-- Where the host thread is. -/
inductive Pc where
  /-- before the next call -/
  | ready
  /-- in the loop that sends the number of steps, next to service `i` (runtime.py:435-436, 441-442) -/
  | sendRun (n : Option Nat) (b : Bool) (i : Nat)
  /-- in `_get_resp_for_run` with `len(rsps) = got` -/
  | collect (got : Nat)
  /-- joining all actors after an ERROR (runtime.py:391-400) -/
  | joinErr
  | awaitVal (i : Nat)
  | awaitSet (i : Nat)
  | sendPause (i : Nat)
  /-- waiting for PAUSED of service `i` (runtime.py:459-460) -/
  | pauseRecv (i : Nat)
  /-- before the `probe` of runtime.py:477, after a response that is not PAUSED or ERROR -/
  | pauseProbe (i : Nat)
  /-- joining all actors after an ERROR in `pause` (runtime.py:462-471) -/
  | pauseJoin
  | sendStop (i : Nat)
  /-- waiting for TERMINATED of service `i` (runtime.py:491-492) -/
  | stopRecv (i : Nat)
  /-- before the `probe` of runtime.py:494, after a response that is not TERMINATED -/
  | stopProbe (i : Nat)
  /-- joining the operating system processes (runtime.py:498, 504-505; multiprocessing.py:127-132) -/
  | joining
  /-- after a RuntimeError for an unexpected response -/
  | failed
deriving DecidableEq, Repr

structure St (D : Type) where
  svc : Nat → Svc D
  prog : List (Call D)
  pc : Pc
  /-- `_is_running` -/
  running : Bool
  /-- `_is_started` -/
  started : Bool
  log : List (Res D)

/-- Update of one entry. -/
def upd {α : Type} (f : Nat → α) (i : Nat) (x : α) : Nat → α := fun j => if j = i then x else f j

/-- A command is sent to a service. -/
def push (s : Svc D) (c : Cmd D) : Svc D := { s with inq := s.inq ++ [c] }

/-- The response `x :: r` of a service is received. -/
def pop (s : St D) (i : Nat) (r : List (Rsp D)) : St D := { s with svc := upd s.svc i { s.svc i with outq := r } }

/-- Data of all services. -/
def datas (S : Nat) (svc : Nat → Svc D) : List D := (List.range S).map fun i => (svc i).d

/-- All operating system processes have ended (multiprocessing.py:127-132). -/
def allDead (S : Nat) (svc : Nat → Svc D) : Bool := (List.range S).all fun i => decide ((svc i).mode = .dead)

/-- Number of actors with an exception (runtime.py:393-400). -/
def allErrs (S : Nat) (svc : Nat → Svc D) : Nat := ((List.range S).map fun i => (svc i).errs).sum

/-- A call returns. Model only. -/
def St.ret (s : St D) (r : Res D) : St D := { s with pc := .ready, log := s.log ++ [r] }

/-- RuntimeError for an unexpected response. -/
def St.fail (s : St D) : St D := { s with pc := .failed, log := s.log ++ [.protocol] }

/-- Begin of a call: `start` and `_run` (runtime.py:410-447), `wait` (449-452), `pause` (454-456), `get_var` (573-600), `set_var` (516-565), `stop` (485-490). -/
def call (c : Call D) (s : St D) : St D :=
  match c with
  | .run n b => { s with started := true, running := true, pc := .sendRun (some n) b 0 }
  | .cont => { s with started := true, running := true, pc := .sendRun none false 0 }
  | .wait => if s.running then { s with pc := .collect 0 } else s.ret .nothing
  | .pause => if s.running then { s with pc := .sendPause 0 } else s.ret .nothing
  | .get i =>
    if s.running then s.ret .refused
    else if s.started then { s with svc := upd s.svc i (push (s.svc i) .get), pc := .awaitVal i }
    else s.ret .notStarted
  | .set i v =>
    if s.running then s.ret .refused
    else if s.started then { s with svc := upd s.svc i (push (s.svc i) (.set v)), pc := .awaitSet i }
    else s.ret .notStarted
  | .stop => if s.started then { s with pc := .sendStop 0 } else { s with pc := .joining }

/-- One step of the host (runtime.py:368-627); `j` is the choice of `select`. -/
def hostStep (S : Nat) (s : St D) (j : Nat) : Option (St D) :=
  match s.pc with
  | .ready =>
    match s.prog with
    | [] => none
    | c :: p => some (call c { s with prog := p })
  | .sendRun n b i =>
    if i < S then some { s with svc := upd s.svc i (push (s.svc i) (.run n)), pc := .sendRun n b (i + 1) }
    else if b then some { s with pc := .collect 0 } else some (s.ret .started)
  | .collect got =>
    if j < S then
      match (s.svc j).outq with
      | [] => none
      | .reqPause :: r => some { pop s j r with pc := .sendPause 0 }
      | .reqStop :: r => some { pop s j r with pc := .sendStop 0 }
      | .error :: r => some { pop s j r with pc := .joinErr }
      | .done :: r =>
        if got + 1 = S then some ({ pop s j r with running := false }.ret (.returned (datas S (pop s j r).svc)))
        else some { pop s j r with pc := .collect (got + 1) }
      | _ :: r => some (pop s j r).fail
    else none
  | .joinErr => if allDead S s.svc then some (s.ret (.raised (allErrs S s.svc))) else none
  | .awaitVal i =>
    match (s.svc i).outq with
    | [] => none
    | .val v :: r => some ((pop s i r).ret (.value v))
    | _ :: r => some ((pop s i r).ret .garbage)
  | .awaitSet i =>
    match (s.svc i).outq with
    | [] => none
    | .setComplete :: r => some ((pop s i r).ret .setOk)
    | _ :: r => some (pop s i r).fail
  | .sendPause i =>
    if i < S then some { s with svc := upd s.svc i (push (s.svc i) .pause), pc := .sendPause (i + 1) }
    else some { s with pc := .pauseRecv 0 }
  | .pauseRecv i =>
    if i < S then
      match (s.svc i).outq with
      | [] => none
      | .paused :: r => some { pop s i r with pc := .pauseRecv (i + 1) }
      | .error :: r => some { pop s i r with pc := .pauseJoin }
      | _ :: r => some { pop s i r with pc := .pauseProbe i }
    else some ({ s with running := false }.ret (.returned (datas S s.svc)))
  | .pauseProbe i =>
    match (s.svc i).outq with
    | .paused :: r => some { pop s i r with pc := .pauseRecv (i + 1) }
    | _ :: r => some (pop s i r).fail
    | [] => some s.fail
  | .pauseJoin => if allDead S s.svc then some { s with pc := .sendStop 0 } else none
  | .sendStop i =>
    if i < S then some { s with svc := upd s.svc i (push (s.svc i) .stop), pc := .sendStop (i + 1) }
    else some { s with pc := .stopRecv 0 }
  | .stopRecv i =>
    if i < S then
      match (s.svc i).outq with
      | [] => none
      | .terminated :: r => some { pop s i r with pc := .stopRecv (i + 1) }
      | _ :: r => some { pop s i r with pc := .stopProbe i }
    else some { s with pc := .joining }
  | .stopProbe i =>
    match (s.svc i).outq with
    | .terminated :: r => some { pop s i r with pc := .stopRecv (i + 1) }
    | _ :: r => some (pop s i r).fail
    | [] => some s.fail
  | .joining =>
    if allDead S s.svc then some ({ s with running := false, started := false }.ret .stopped) else none
  | .failed => none

/-- Who does the next step. -/
inductive Lbl where
  | host (j : Nat) | svc (i : Nat)
deriving DecidableEq, Repr

def step (S : Nat) (tick : Nat → D → Option (D × Ev)) (s : St D) : Lbl → Option (St D)
  | .host j => hostStep S s j
  | .svc i => if i < S then (svcStep (tick i) (s.svc i)).map fun x => { s with svc := upd s.svc i x } else none

def exec (S : Nat) (tick : Nat → D → Option (D × Ev)) (s : St D) : List Lbl → St D
  | [] => s
  | l :: ls => exec S tick ((step S tick s l).getD s) ls

/-- After `initialize` (runtime.py:158-177). -/
def init (d : Nat → D) (prog : List (Call D)) : St D :=
  { svc := fun i => { mode := .idle, inq := [], outq := [], d := d i, pausing := false, stopping := false, reqPause := false, reqStop := false, errs := 0 },
    prog := prog, pc := .ready, running := false, started := false, log := [] }

end Verif.Events
