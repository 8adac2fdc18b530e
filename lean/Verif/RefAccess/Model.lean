import Verif.RefAccess.Confluence
import Verif.EndToEnd.Model

/-!
# Process models that access each other's Vars through RefPorts

The runtime service and its `PyLoihiProcessModel`s (core/model/py/model.py, runtime/runtime_services/runtime_service.py), some of which
own VarPorts and some of which use RefPorts (core/model/py/ports.py).

A process model executes the method of a phase when it gets the command of its service; while it does so it serves no
VarPort. Between commands it waits for the next command and, in some phases only, for requests on its VarPorts.

Simplifications.
* One runtime service; its commands of the host are a list of runs (`RunSteps`), one after the other. Pause, stop, get and set are left out
  (C06-C12, C80, C89-C91).
* The method of a phase is a program over the ports (`Prog`): it does anything it likes between port operations. A `write` puts one
  message `set v` on the channel; the code sends a header and then the value, and the VarPort takes both (ports.py:737-738, 911-915).
* Serving a `read` takes the request and sends the value in one step: the requester is waiting for it, with an empty channel.
* `select` prefers VarPorts to commands (model.py:510 inserts them in front), but sees a message only when the receiving thread has
  noticed it (pypychannel.py:267-275). Here it may choose any channel that holds a message: all its real choices and possibly more.
* Values pass through the ports unchanged (transformations of virtual ports are C19).
-/

namespace Verif.RefAccess

open Verif.EndToEnd (Phase Flags noFlags nextPhase)

/-- What a method of a process model does on its ports, and its Vars when it returns. RefPorts are numbered over all
processes, and so are channels between OutPorts and InPorts. -/
inductive Prog (S V : Type) where
  /-- return, with these values of the Vars of the own process -/
  | ret (s : S)
  /-- `PyRefPort.read` (ports.py:703-722) -/
  | read (e : Nat) (k : V → Prog S V)
  /-- `PyRefPort.write` (ports.py:724-738) -/
  | write (e : Nat) (v : V) (k : Prog S V)
  /-- `PyOutPort.send` on one channel (ports.py:486-497) -/
  | send (c : Nat) (v : V) (k : Prog S V)
  /-- `PyInPort.recv` on one channel (ports.py:333-351) -/
  | recv (c : Nat) (k : V → Prog S V)

/-- `PyRefPort.wait` is a `read` whose result is not used (ports.py:681-697). -/
def Prog.wait {S V : Type} (e : Nat) (k : Prog S V) : Prog S V := .read e fun _ => k

/-- Channels (`csp_ports` of ports, ports.py:486-497; those of the service, model.py:89-92). -/
inductive Ch where
  /-- between an OutPort and an InPort -/
  | data (c : Nat)
  /-- from RefPort `e` to its VarPort -/
  | req (e : Nat)
  /-- from the VarPort to RefPort `e` -/
  | rep (e : Nat)
  /-- `service_to_process`, `process_to_service` of model `i` -/
  | cmd (i : Nat)
  | rsp (i : Nat)
deriving DecidableEq, Repr

/-- Messages. -/
inductive Msg (V : Type) where
  | data (v : V)
  /-- VarPortCmd (ports.py:547-551) -/
  | get
  | set (v : V)
  | phase (ph : Phase)
  /-- responses (model.py:312-335) -/
  | done | reqPre | reqLrn | reqPost
deriving DecidableEq, Repr

/-- The system: process models with their methods and guards (model.py:336-380) and ports (core/process/ports/ports.py:551-556). -/
structure Sys (S V : Type) where
  /-- number of process models -/
  n : Nat
  /-- number of RefPorts -/
  ne : Nat
  /-- the model that has RefPort `e`, the model whose Var it refers to -/
  src : Nat → Nat
  dst : Nat → Nat
  /-- value of the Var behind RefPort `e`, and its change (`getattr`, `setattr`, ports.py:915-917) -/
  rd : Nat → S → V
  wr : Nat → V → S → S
  cap : Ch → Nat
  init : Nat → S
  /-- `run_spk` (with `time_step += 1`), `run_pre_mgmt`, `run_lrn`, `run_post_mgmt` -/
  spk : Nat → S → Prog S V
  pre : Nat → S → Prog S V
  lrn : Nat → S → Prog S V
  post : Nat → S → Prog S V
  preGuard : Nat → S → Bool
  lrnGuard : Nat → S → Bool
  postGuard : Nat → S → Bool

variable {S V : Type}

/-- What a process model executes on a command: `_spike`, `_pre_mgmt`, `_lrn`, `_post_mgmt` (model.py:381-448). -/
def Sys.body (y : Sys S V) (i : Nat) (ph : Phase) (s : S) : Prog S V :=
  match ph with
  | .spk => y.spk i s
  | .pre => if y.preGuard i s then y.pre i s else .ret s
  | .lrn => if y.lrnGuard i s then y.lrn i s else .ret s
  | .post => if y.postGuard i s then y.post i s else .ret s
  | .host => .ret s

/-- What it answers after it (model.py:392-407, 419, 431, 443-448). -/
def Sys.respOf (y : Sys S V) (i : Nat) (ph : Phase) (s : S) : Msg V :=
  match ph with
  | .spk =>
    if y.lrnGuard i s && y.preGuard i s then .reqPre
    else if y.lrnGuard i s then .reqLrn
    else if y.postGuard i s then .reqPost
    else .done
  | .pre => .reqLrn
  | .lrn => if y.postGuard i s then .reqPost else .done
  | .post => .done
  | .host => .done

/-- Phases in which a waiting process model polls its VarPorts (model.py:499-503). -/
def polled : Phase → Bool
  | .pre => true
  | .post => true
  | .host => true
  | _ => false

/-- Position of a process model. -/
inductive Pc (S V : Type) where
  /-- in `select` (model.py:236-238) -/
  | idle
  /-- in the method of a phase -/
  | run (p : Prog S V)
  /-- in `read`, the request has been sent (ports.py:716-717) -/
  | await (e : Nat) (k : V → Prog S V)
  /-- an exception was raised -/
  | failed

/-- State of a process model: its Vars, `self.phase`, its position (model.py:285-288). -/
structure Mdl (S V : Type) where
  s : S
  ph : Phase
  pc : Pc S V

/-- Code of process model `i`. Action 0 is the next command or the next operation, action `e + 1` serves the VarPort of
RefPort `e` (`run` and `_handle_var_port`, model.py:203-238; ports.py:895-920). -/
def mdlView (y : Sys S V) (i : Nat) (m : Mdl S V) (a : Nat) : Act Ch (Mdl S V) (Msg V) :=
  match m.pc, a with
  | .idle, 0 => .recv (.cmd i) fun x =>
      match x with
      | .phase .host => ({ m with ph := .host }, none)
      | .phase ph => (⟨m.s, ph, .run (y.body i ph m.s)⟩, none)
      | _ => ({ m with pc := .failed }, none)
  | .idle, e + 1 =>
      if e < y.ne ∧ y.dst e = i ∧ polled m.ph = true then .recv (.req e) fun x =>
        match x with
        | .get => (m, some (.rep e, .data (y.rd e m.s)))
        | .set v => ({ m with s := y.wr e v m.s }, none)
        | _ => ({ m with pc := .failed }, none)
      else .none
  | .run (.ret s), 0 => .go (⟨s, m.ph, .idle⟩, some (.rsp i, y.respOf i m.ph s))
  | .run (.read e k), 0 => .go ({ m with pc := .await e k }, some (.req e, .get))
  | .run (.write e v k), 0 => .go ({ m with pc := .run k }, some (.req e, .set v))
  | .run (.send c v k), 0 => .go ({ m with pc := .run k }, some (.data c, .data v))
  | .run (.recv c k), 0 => .recv (.data c) fun x =>
      match x with
      | .data v => ({ m with pc := .run (k v) }, none)
      | _ => ({ m with pc := .failed }, none)
  | .await e k, 0 => .recv (.rep e) fun x =>
      match x with
      | .data v => ({ m with pc := .run (k v) }, none)
      | _ => ({ m with pc := .failed }, none)
  | .failed, _ => .none
  | .run _, _ + 1 => .none
  | .await _ _, _ + 1 => .none

/-- Position of the service. -/
inductive SvcPc where
  /-- waiting for the next run (runtime_service.py:304-306) -/
  | idle
  /-- head of the inner loop: `t` steps to do, `cur` done (333-339) -/
  | top (t cur : Nat)
  /-- `_send_pm_cmd`: models still to be informed (216-219) -/
  | sendPh (ph : Phase) (rest : List Nat) (t cur : Nat)
  /-- `_get_pm_resp`: models still to respond (221-255) -/
  | collect (ph : Phase) (rest : List Nat) (t cur : Nat)
deriving DecidableEq, Repr

/-- State of the service: position, requests, runs still to come (runtime_service.py:153-162). -/
structure Svc where
  pc : SvcPc
  f : Flags
  runs : List Nat
deriving DecidableEq, Repr

/-- Effect of one response on the flags (runtime_service.py:231-254). -/
def addReq (f : Flags) (m : Msg V) : Flags :=
  match m with
  | .reqPre => { f with pre := true }
  | .reqPost => { f with post := true }
  | .reqLrn => { f with lrn := true }
  | _ => f

/-- Code of the service: `run` (runtime_service.py:291-388). -/
def svcView (y : Sys S V) (x : Svc) : Act Ch Svc (Msg V) :=
  match x.pc with
  | .idle =>
    match x.runs with
    | [] => .none
    | t :: ts => .go (⟨.top t 0, x.f, ts⟩, none)
  | .top t cur =>
    .go (⟨.sendPh (nextPhase x.f (cur == t)).1 (List.range y.n) t (if (nextPhase x.f (cur == t)).1 = .spk then cur + 1 else cur),
      (nextPhase x.f (cur == t)).2, x.runs⟩, none)
  | .sendPh ph (i :: rest) t cur => .go ({ x with pc := .sendPh ph rest t cur }, some (.cmd i, .phase ph))
  | .sendPh ph [] t cur => .go ({ x with pc := if ph = .host then .idle else .collect ph (List.range y.n) t cur }, none)
  | .collect ph (i :: rest) t cur => .recv (.rsp i) fun m => (⟨.collect ph rest t cur, addReq x.f m, x.runs⟩, none)
  | .collect _ [] t cur => .go ({ x with pc := .top t cur }, none)

/-- Processes of the network: one operating system process each (message_infrastructure/multiprocessing.py:57-72). -/
inductive Proc (S V : Type) where
  | svc (x : Svc)
  | mdl (m : Mdl S V)

def mapAct {Q Q' : Type} (g : Q → Q') : Act Ch Q (Msg V) → Act Ch Q' (Msg V)
  | .none => .none
  | .go r => .go (g r.1, r.2)
  | .recv c k => .recv c fun m => (g (k m).1, (k m).2)

/-- Process 0 is the service, process `i + 1` is process model `i`. -/
def view (y : Sys S V) (p : Nat) (q : Proc S V) (a : Nat) : Act Ch (Proc S V) (Msg V) :=
  match p, q with
  | 0, .svc x => if a = 0 then mapAct .svc (svcView y x) else .none
  | i + 1, .mdl m => if i < y.n then mapAct .mdl (mdlView y i m a) else .none
  | _, _ => .none

def net (y : Sys S V) : Net Ch (Proc S V) (Msg V) := ⟨view y, y.cap⟩

/-- The start: all models wait for the first command, `self.phase` is SPK (model.py:288); runs to be done. -/
def initial (y : Sys S V) (runs : List Nat) : St Ch (Proc S V) (Msg V) where
  q p := match p with
    | 0 => .svc ⟨.idle, noFlags, runs⟩
    | i + 1 => .mdl ⟨y.init i, .spk, .idle⟩
  chan _ := []

end Verif.RefAccess
