/-!
# Model of the Loihi runtime service and the phase handlers of Python process models

Models `src/lava/magma/runtime/runtime_services/runtime_service.py`, class `LoihiPyRuntimeService`
(147-388), and `src/lava/magma/core/model/py/model.py`, class `PyLoihiProcessModel` (the command handlers
`_spike`, `_pre_mgmt`, `_lrn`, `_post_mgmt`, 381-448).

The process models of the domain are an environment: what every process model answers in time step `t` and
phase `p` is an arbitrary function (`Guards` of every model, may change from phase to phase).
The runtime is a sequence of commands; whether a PAUSE/STOP is already visible to `probe`/`peek` at the
end of an iteration of the inner loop is an arbitrary function of the iteration.
-/

namespace Verif.RuntimeService

/-- `LoihiPyRuntimeService.Phase` (runtime_service.py:164-169). -/
inductive Phase where
  | spk | pre | lrn | post | host
deriving DecidableEq, Repr

/-- Phase numbers as sent over the channel (runtime_service.py:164-169). -/
def Phase.num : Phase → Nat
  | .spk => 1 | .pre => 2 | .lrn => 3 | .post => 4 | .host => 5

/-- `PMResponse` (runtime_service.py:171-189). -/
inductive Resp where
  | done | terminated | error | paused | reqPre | reqLrn | reqPost | reqPause | reqStop
deriving DecidableEq, Repr

/-- Answers of one process model's user code in one phase: the guards, whether it asks for pause/stop,
whether its code raises. -/
structure Guards where
  pre : Bool
  lrn : Bool
  post : Bool
  pauseReq : Bool
  stopReq : Bool
  raises : Bool
deriving DecidableEq, Repr

/-- Command handlers of a process model: whether the user method of the phase is executed, and the
response sent (model.py `_spike` 381-407, `_pre_mgmt` 409-419, `_post_mgmt` 421-431, `_lrn` 433-448,
`_handle_pause_or_stop_req` 471-479; exceptions: `run` 207-239). -/
def pmHandle (p : Phase) (g : Guards) : Bool × Resp :=
  let ran := match p with
    | .spk => true
    | .pre => g.pre
    | .lrn => g.lrn
    | .post => g.post
    | .host => false
  let resp :=
    if g.raises then .error
    else if g.pauseReq then .reqPause
    else if g.stopReq then .reqStop
    else match p with
      | .spk =>
        if g.lrn && g.pre then .reqPre
        else if g.lrn then .reqLrn
        else if g.post then .reqPost
        else .done
      | .pre => .reqLrn
      | .lrn => if g.post then .reqPost else .done
      | .post => .done
      | .host => .done
  (ran, resp)

/-- Attributes of the service that survive from command to command (runtime_service.py:150-162). -/
structure Svc where
  reqPre : Bool := false
  reqLrn : Bool := false
  reqPost : Bool := false
  reqPause : Bool := false
  reqStop : Bool := false
  error : Bool := false
  pausing : Bool := false
  stopping : Bool := false
deriving DecidableEq, Repr

/-- Result of `_next_phase`. -/
inductive Next where
  | phase (p : Phase) | pause | stop
deriving DecidableEq, Repr

/-- `_next_phase` (runtime_service.py:191-214). -/
def nextPhase (s : Svc) (last : Bool) : Next × Svc :=
  if s.reqPre then (.phase .pre, { s with reqPre := false })
  else if s.reqLrn then (.phase .lrn, { s with reqLrn := false })
  else if s.reqPost then (.phase .post, { s with reqPost := false })
  else if s.reqPause then (.pause, { s with reqPause := false })
  else if s.reqStop then (.stop, { s with reqStop := false })
  else if last then (.phase .host, s)
  else (.phase .spk, s)

/-- `_get_pm_resp` (runtime_service.py:221-255): flags raised by the responses of all models. -/
def collect (s : Svc) (rs : List Resp) : Svc :=
  rs.foldl (fun s r => match r with
    | .error => { s with error := true }
    | .reqPre => { s with reqPre := true }
    | .reqLrn => { s with reqLrn := true }
    | .reqPost => { s with reqPost := true }
    | .reqPause => { s with reqPause := true }
    | .reqStop => { s with reqStop := true }
    | _ => s) s

/-- Responses of the service to the runtime (`MGMT_RESPONSE`, mgmt_token_enums.py:58-75). -/
inductive Out where
  | done | error | paused | terminated | reqPause | reqStop
deriving DecidableEq, Repr

/-- A command of the runtime that may be visible while running (runtime_service.py:368-375). -/
inductive Peek where
  | nothing | pause | stop
deriving DecidableEq, Repr

/-- How the inner loop was left. -/
inductive Status where
  | running | finished | crashed
deriving DecidableEq, Repr

/-- State of the inner loop of `run` (runtime_service.py:323-379). -/
structure Loop where
  svc : Svc
  /-- `curr_time_step` -/
  curr : Nat
  /-- `is_last_ts` of the latest iteration -/
  last : Bool
  /-- number of iterations done -/
  iter : Nat
  /-- phase commands sent to all process models, oldest first, with the time step of this run they
  belong to -/
  sent : List (Nat × Phase)
  /-- responses sent to the runtime by this command -/
  out : List Out
  status : Status

/-- Environment of one run command: the answers of the process models and the visible commands. -/
structure Env where
  /-- number of process models -/
  models : Nat
  /-- guards of model `m` in step `t` of this run (1-based), phase `p` -/
  guards : Nat → Nat → Phase → Guards
  /-- command visible to `probe`/`peek` at the end of iteration `k` -/
  peek : Nat → Peek

/-- Responses of all models (runtime_service.py:221-231). -/
def Env.resps (e : Env) (t : Nat) (p : Phase) : List Resp :=
  (List.range e.models).map fun m => (pmHandle p (e.guards m t p)).2

/-- One iteration of the inner loop (runtime_service.py:329-379), for `run(n)`. -/
def iterate (e : Env) (n : Nat) (l : Loop) : Loop :=
  let last := decide (l.curr = n)
  let (next, svc) := nextPhase l.svc last
  let l := { l with svc := svc, last := last, iter := l.iter + 1 }
  match next with
  | .stop =>
    { l with out := if svc.stopping then l.out else l.out ++ [.reqStop], status := .finished }
  | .pause =>
    { l with out := if svc.pausing then l.out else l.out ++ [.reqPause], status := .finished }
  | .phase p =>
    let curr := if p = .spk then l.curr + 1 else l.curr
    let l := { l with curr := curr, sent := l.sent ++ [(curr, p)] }
    let svc := if p = .host then l.svc else collect l.svc (e.resps curr p)
    if p ≠ .host ∧ svc.error = true then
      -- forward the error, stop all process models, leave `run` for good
      { l with svc := svc, out := l.out ++ [.error], status := .crashed }
    else
      let svc := match e.peek l.iter with
        | .nothing => svc
        | .stop => { svc with stopping := true, reqStop := true }
        | .pause => { svc with pausing := true, reqPause := true }
      { l with svc := svc, status := if p = .host then .finished else .running }

/-- The inner loop with fuel (a fuel that suffices is part of the theorems). -/
def loop (e : Env) (n : Nat) : Nat → Loop → Loop
  | 0, l => l
  | fuel + 1, l =>
    match l.status with
    | .running => loop e n fuel (iterate e n l)
    | _ => l

/-- State at the start of a run command (runtime_service.py:323-328). -/
def start (s : Svc) : Loop :=
  { svc := s, curr := 0, last := false, iter := 0, sent := [], out := [], status := .running }

/-- End of a run command (runtime_service.py:380-386): no DONE while `pausing`/`stopping`. -/
def finish (l : Loop) : Loop :=
  match l.status with
  | .finished =>
    if l.svc.pausing || l.svc.stopping then l
    else if l.last then { l with out := l.out ++ [.done] } else l
  | _ => l

/-- A complete `run(n)` command. `4 * n + 1` iterations always suffice, see `C06_terminates`. -/
def runCmd (e : Env) (n : Nat) (s : Svc) : Loop :=
  finish (loop e n (4 * n + 2) (start s))

/-- Clean service state: no pending request of any kind. -/
def Svc.clean (s : Svc) : Prop := s = {}

instance (s : Svc) : Decidable s.clean := inferInstanceAs (Decidable (s = {}))

/-! ## Commands of the runtime -/

/-- Commands accepted by the outer loop (runtime_service.py:303-328). -/
inductive Cmd where
  | run (n : Nat) (e : Env)
  | get | set | pause | stop

/-- What the process models see, and what the runtime sees. -/
inductive Ev where
  | phase (p : Phase) | get | set | pause | stop
  | rsp (o : Out)
deriving DecidableEq

/-- State of the outer loop. -/
structure Outer where
  svc : Svc
  /-- the local variable `phase` is HOST whenever the outer loop is at its top -/
  hostPhase : Bool
  evs : List Ev
  /-- the service has returned from `run` -/
  terminated : Bool
  /-- `ValueError("Wrong Phase ...")` was raised -/
  wrongPhase : Bool

def outerInit : Outer :=
  { svc := {}, hostPhase := true, evs := [], terminated := false, wrongPhase := false }

/-- One command (runtime_service.py:303-388): STOP 308-310, PAUSE 311-313, GET/SET 314-321. -/
def serve (o : Outer) (c : Cmd) : Outer :=
  if o.terminated then o
  else match c with
  | .stop => { o with evs := o.evs ++ [.stop, .rsp .terminated], terminated := true }
  | .pause => { o with evs := o.evs ++ [.pause, .rsp .paused] }
  | .get => if o.hostPhase then { o with evs := o.evs ++ [.get] }
            else { o with wrongPhase := true, terminated := true }
  | .set => if o.hostPhase then { o with evs := o.evs ++ [.set] }
            else { o with wrongPhase := true, terminated := true }
  | .run n e =>
    let l : Loop := runCmd e n o.svc
    let evs := o.evs ++ l.sent.map (fun x => Ev.phase x.2) ++ l.out.map Ev.rsp
    match l.status with
    | .crashed => { o with svc := l.svc, evs := evs ++ [.stop], terminated := true, hostPhase := false }
    -- both `break`s set or leave `phase = HOST`
    | _ => { o with svc := l.svc, evs := evs, hostPhase := decide (l.status = .finished) }

def serveAll (o : Outer) (cs : List Cmd) : Outer := cs.foldl serve o

end Verif.RuntimeService
