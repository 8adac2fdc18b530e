import Verif.System.Program

/-!
# Host, runtime services and process models as one concurrent program

Everything that runs when a user executes a network on the CPU: the host (`runtime/runtime.py`), any number of
`LoihiPyRuntimeService` (`runtime/runtime_services/runtime_service.py`) and the `PyLoihiProcessModel`s of each of them
(`core/model/py/model.py`), connected by command, response and data channels. Every process is sequential code with blocking
`send` and `recv`; the whole is a network in the sense of `Verif.System.Model`.

Simplifications.
* The services' `select` on the single channel from the runtime followed by `recv` (runtime_service.py:304-307) is one receive. The
  `probe` for PAUSE/STOP within a run (368-375) is left out: in the programs considered here the host sends nothing while a run is
  going on, because all runs are blocking (non-blocking runs, pause and stop within a run are C80, C89).
* The host receives DONE of the services in their order; the code selects whichever is ready (runtime.py:372-407). All it does with them
  is to count them (C80 has the selection).
* `_get_pm_resp` sets the request flags after all responses have been received; here the flag is set when a response is received.
* Process models have no VarPorts and use their data ports in `run_spk` only, in a fixed order; they request neither pause nor stop and
  raise no exceptions (C90, C91). `advance_to_time_step` has no effect on the channels here (runtime.py knows it for other backends).
* A Var is an array whose items are sent one by one; conversions of single items are C10, C12.
-/

namespace Verif.EndToEnd

open Verif.System (Op Act Net St upd)

/-- Phases of the Loihi protocol (runtime_service.py:164-169, model.py:288-296). -/
inductive Phase where
  | spk | pre | lrn | post | host
deriving DecidableEq, Repr

/-- Messages. -/
inductive Msg (V W : Type) where
  /-- on a data channel -/
  | data (v : V)
  /-- number of steps to run (mgmt_token_enums.py:45-46) -/
  | steps (n : Nat)
  | stopCmd | getCmd | setCmd
  /-- id of a process model, id of a Var, number of items -/
  | num (n : Nat)
  /-- one item of a Var -/
  | item (w : W)
  | phase (ph : Phase)
  | done | reqPre | reqLrn | reqPost | terminated | setComplete
deriving DecidableEq, Repr

/-- What a user asks for. The program ends with a call of `stop`. -/
inductive Call (W : Type) where
  /-- `run(RunSteps(num_steps=n), run_cfg)` -/
  | run (n : Nat)
  /-- `get` of Var `x` of process `p` -/
  | get (p x : Nat)
  /-- `set` of Var `x` of process `p`, items in C order -/
  | set (p x : Nat) (ws : List W)
deriving DecidableEq, Repr

/-- What a user sees of a call. -/
inductive Res (W : Type) where
  | ran | value (ws : List W) | wasSet | notStarted | stopped
deriving DecidableEq, Repr

/-- The system: process models with their code, their services. `n` process models, `k` services; `pms i` are the models of service `i` in the
order of the service's ports, `svc p` is the service of a model. -/
structure Sys (S V W : Type) where
  n : Nat
  k : Nat
  svc : Nat → Nat
  pms : Nat → List Nat
  /-- capacity of channels, see `dataCh` and below -/
  cap : Nat → Nat
  /-- values of the Vars at the start -/
  init : Nat → S
  /-- what `run_spk` does before its first port operation, with `time_step += 1` (model.py:385-387) -/
  start : Nat → S → S
  /-- port operations of `run_spk` in their order -/
  body : Nat → List Op
  emit : Nat → S → Nat → V
  absorb : Nat → S → Nat → V → S
  /-- the rest of `run_spk` -/
  tick : Nat → S → S
  preGuard : Nat → S → Bool
  lrnGuard : Nat → S → Bool
  postGuard : Nat → S → Bool
  runPre : Nat → S → S
  runLrn : Nat → S → S
  runPost : Nat → S → S
  /-- number of items of a Var, read an item, overwrite an item, `on_var_update` -/
  vsize : Nat → Nat → Nat
  peek : Nat → S → Nat → Nat → W
  poke : Nat → S → Nat → Nat → W → S
  updated : Nat → S → S

/-! ### Channels -/

/-- Data channel `c`. -/
def dataCh (c : Nat) : Nat := 5 * c
/-- `service_to_process` of model `p`. -/
def cmdCh (p : Nat) : Nat := 5 * p + 1
/-- `process_to_service` of model `p`. -/
def rspCh (p : Nat) : Nat := 5 * p + 2
/-- `runtime_to_service` of service `i`. -/
def toSvc (i : Nat) : Nat := 5 * i + 3
/-- `service_to_runtime` of service `i`. -/
def fromSvc (i : Nat) : Nat := 5 * i + 4

/-! ### The host -/

/-- Position of the host in its code. -/
inductive HostPc (V W : Type) where
  /-- before the next call -/
  | next
  /-- runtime.py:433-436 -/
  | runSend (n : Nat) (rest : List Nat)
  /-- runtime.py:372-407 -/
  | runWait (rest : List Nat)
  /-- runtime.py:597-600: messages still to be sent to service `i` -/
  | getSend (i : Nat) (ms : List (Msg V W))
  /-- runtime.py:604 -/
  | getNum (i : Nat)
  /-- runtime.py:609-616: items still to be received -/
  | getItems (i left : Nat) (acc : List W)
  /-- runtime.py:544-565 -/
  | setSend (i : Nat) (ms : List (Msg V W))
  /-- runtime.py:566-569 -/
  | setWait (i : Nat)
  /-- runtime.py:489-490 -/
  | stopSend (rest : List Nat)
  /-- runtime.py:491-496 -/
  | stopWait (rest : List Nat)
  | finished
  /-- `stop` before any run: the host waits for processes that never end (runtime.py:502-505) -/
  | hung
  /-- an exception was raised -/
  | failed
deriving DecidableEq, Repr

structure HostSt (V W : Type) where
  pc : HostPc V W
  calls : List (Call W)
  started : Bool
  log : List (Res W)
deriving DecidableEq, Repr

variable {S V W : Type}

/-- The code of the host: `start`/`_run` (runtime.py:410-447), `get_var` (573-627), `set_var` (516-571), `stop` (485-507). -/
def hostView (y : Sys S V W) (h : HostSt V W) : Act (HostSt V W) (Msg V W) :=
  match h.pc with
  | .next =>
    match h.calls with
    | [] => .tau { h with pc := if h.started then .stopSend (List.range y.k) else .hung }
    | .run n :: cs => .tau { h with pc := .runSend n (List.range y.k), calls := cs, started := true }
    | .get p x :: cs =>
      if h.started then .tau { h with pc := .getSend (y.svc p) [.getCmd, .num p, .num x], calls := cs }
      else .tau { h with calls := cs, log := h.log ++ [.notStarted] }
    | .set p x ws :: cs =>
      if h.started then
        .tau { h with pc := .setSend (y.svc p) ([.setCmd, .num p, .num x, .num ws.length] ++ ws.map .item), calls := cs }
      else .tau { h with calls := cs, log := h.log ++ [.notStarted] }
  | .runSend n (i :: is) => .send (toSvc i) (.steps n) { h with pc := .runSend n is }
  | .runSend _ [] => .tau { h with pc := .runWait (List.range y.k) }
  | .runWait (i :: is) => .recv (fromSvc i) fun m =>
      match m with
      | .done => { h with pc := .runWait is }
      | _ => { h with pc := .failed }
  | .runWait [] => .tau { h with pc := .next, log := h.log ++ [.ran] }
  | .getSend i (m :: ms) => .send (toSvc i) m { h with pc := .getSend i ms }
  | .getSend i [] => .tau { h with pc := .getNum i }
  | .getNum i => .recv (fromSvc i) fun m =>
      match m with
      | .num k => { h with pc := .getItems i k [] }
      | _ => { h with pc := .failed }
  | .getItems i (k + 1) acc => .recv (fromSvc i) fun m =>
      match m with
      | .item w => { h with pc := .getItems i k (acc ++ [w]) }
      | _ => { h with pc := .failed }
  | .getItems _ 0 acc => .tau { h with pc := .next, log := h.log ++ [.value acc] }
  | .setSend i (m :: ms) => .send (toSvc i) m { h with pc := .setSend i ms }
  | .setSend i [] => .tau { h with pc := .setWait i }
  | .setWait i => .recv (fromSvc i) fun m =>
      match m with
      | .setComplete => { h with pc := .next, log := h.log ++ [.wasSet] }
      | _ => { h with pc := .failed }
  | .stopSend (i :: is) => .send (toSvc i) .stopCmd { h with pc := .stopSend is }
  | .stopSend [] => .tau { h with pc := .stopWait (List.range y.k) }
  | .stopWait (i :: is) => .recv (fromSvc i) fun m =>
      match m with
      | .terminated => { h with pc := .stopWait is }
      | _ => { h with pc := .failed }
  | .stopWait [] => .tau { h with pc := .finished, log := h.log ++ [.stopped] }
  | .finished => .halt
  | .hung => .halt
  | .failed => .halt

/-! ### A runtime service -/

/-- Position of a service in its code. -/
inductive SvcPc (V W : Type) where
  /-- runtime_service.py:304-306 -/
  | idle
  /-- head of the inner loop: `n` steps to do, `cur` done (333-339) -/
  | top (n cur : Nat)
  /-- `_send_pm_cmd`: models still to be informed (222-225) -/
  | sendPh (ph : Phase) (rest : List Nat) (n cur : Nat)
  /-- `_get_pm_resp`: models still to respond (227-236) -/
  | collect (rest : List Nat) (n cur : Nat)
  /-- 387-389 -/
  | runDone
  /-- `_handle_get_set`, GET (128-135) -/
  | getP | getX (p : Nat) | getReq (p : Nat) (ms : List (Msg V W))
  /-- `_relay_to_runtime_data_given_model_id` (92-103) -/
  | getNum (p : Nat) | getNumRelay (p j : Nat) | getItem (p left : Nat) | getRelay (p left : Nat) (m : Msg V W)
  /-- `_handle_get_set`, SET (136-144) -/
  | setP | setX (p : Nat) | setReq (p : Nat) (ms : List (Msg V W))
  /-- `_relay_to_pm_data_given_model_id` (105-118) -/
  | setNum (p : Nat) | setNumRelay (p j : Nat) | setItem (p left : Nat) | setRelay (p left : Nat) (m : Msg V W)
  | setRsp (p : Nat) | setRspRelay (m : Msg V W)
  /-- `_handle_stop` (282-293) -/
  | stopSend (rest : List Nat) | stopWait (rest : List Nat) | stopDone
  | dead
  /-- an exception was raised -/
  | failed
deriving DecidableEq, Repr

/-- Requests of the process models (runtime_service.py:180-189). -/
structure Flags where
  pre : Bool
  lrn : Bool
  post : Bool
deriving DecidableEq, Repr

def noFlags : Flags := ⟨false, false, false⟩

structure SvcSt (V W : Type) where
  pc : SvcPc V W
  f : Flags
deriving DecidableEq, Repr

/-- `_next_phase` (runtime_service.py:191-214) without pause and stop: the next phase, and the flags after it. -/
def nextPhase (f : Flags) (last : Bool) : Phase × Flags :=
  if f.pre then (.pre, { f with pre := false })
  else if f.lrn then (.lrn, { f with lrn := false })
  else if f.post then (.post, { f with post := false })
  else if last then (.host, f)
  else (.spk, f)

/-- Effect of one response on the flags (runtime_service.py:231-254). -/
def addReq (f : Flags) (m : Msg V W) : Flags :=
  match m with
  | .reqPre => { f with pre := true }
  | .reqPost => { f with post := true }
  | .reqLrn => { f with lrn := true }
  | _ => f

/-- The code of service `i`: `run` (runtime_service.py:291-388). -/
def svcView (y : Sys S V W) (i : Nat) (s : SvcSt V W) : Act (SvcSt V W) (Msg V W) :=
  match s.pc with
  | .idle => .recv (toSvc i) fun m =>
      match m with
      | .stopCmd => { s with pc := .stopSend (y.pms i) }
      | .getCmd => { s with pc := .getP }
      | .setCmd => { s with pc := .setP }
      | .steps n => { s with pc := .top n 0 }
      | _ => { s with pc := .failed }
  | .top n cur =>
    let r := nextPhase s.f (cur == n)
    .tau ⟨.sendPh r.1 (y.pms i) n (if r.1 = .spk then cur + 1 else cur), r.2⟩
  | .sendPh ph (p :: ps) n cur => .send (cmdCh p) (.phase ph) { s with pc := .sendPh ph ps n cur }
  | .sendPh ph [] n cur => .tau { s with pc := if ph = .host then .runDone else .collect (y.pms i) n cur }
  | .collect (p :: ps) n cur => .recv (rspCh p) fun m => ⟨.collect ps n cur, addReq s.f m⟩
  | .collect [] n cur => .tau { s with pc := .top n cur }
  | .runDone => .send (fromSvc i) .done { s with pc := .idle }
  | .getP => .recv (toSvc i) fun m =>
      match m with
      | .num p => if p ∈ y.pms i then { s with pc := .getX p } else { s with pc := .failed }
      | _ => { s with pc := .failed }
  | .getX p => .recv (toSvc i) fun m => { s with pc := .getReq p [.getCmd, m] }
  | .getReq p (m :: ms) => .send (cmdCh p) m { s with pc := .getReq p ms }
  | .getReq p [] => .tau { s with pc := .getNum p }
  | .getNum p => .recv (rspCh p) fun m =>
      match m with
      | .num j => { s with pc := .getNumRelay p j }
      | _ => { s with pc := .failed }
  | .getNumRelay p j => .send (fromSvc i) (.num j) { s with pc := .getItem p j }
  | .getItem p (j + 1) => .recv (rspCh p) fun m => { s with pc := .getRelay p j m }
  | .getItem _ 0 => .tau { s with pc := .idle }
  | .getRelay p j m => .send (fromSvc i) m { s with pc := .getItem p j }
  | .setP => .recv (toSvc i) fun m =>
      match m with
      | .num p => if p ∈ y.pms i then { s with pc := .setX p } else { s with pc := .failed }
      | _ => { s with pc := .failed }
  | .setX p => .recv (toSvc i) fun m => { s with pc := .setReq p [.setCmd, m] }
  | .setReq p (m :: ms) => .send (cmdCh p) m { s with pc := .setReq p ms }
  | .setReq p [] => .tau { s with pc := .setNum p }
  | .setNum p => .recv (toSvc i) fun m =>
      match m with
      | .num j => { s with pc := .setNumRelay p j }
      | _ => { s with pc := .failed }
  | .setNumRelay p j => .send (cmdCh p) (.num j) { s with pc := .setItem p j }
  | .setItem p (j + 1) => .recv (toSvc i) fun m => { s with pc := .setRelay p j m }
  | .setItem p 0 => .tau { s with pc := .setRsp p }
  | .setRelay p j m => .send (cmdCh p) m { s with pc := .setItem p j }
  | .setRsp p => .recv (rspCh p) fun m => { s with pc := .setRspRelay m }
  | .setRspRelay m => .send (fromSvc i) m { s with pc := .idle }
  | .stopSend (p :: ps) => .send (cmdCh p) .stopCmd { s with pc := .stopSend ps }
  | .stopSend [] => .tau { s with pc := .stopWait (y.pms i) }
  | .stopWait (p :: ps) => .recv (rspCh p) fun m =>
      match m with
      | .terminated => { s with pc := .stopWait ps }
      | _ => { s with pc := .failed }
  | .stopWait [] => .tau { s with pc := .stopDone }
  | .stopDone => .send (fromSvc i) .terminated { s with pc := .dead }
  | .dead => .halt
  | .failed => .halt

/-! ### A process model -/

/-- Position of a process model in its code. -/
inductive MdlPc (V W : Type) where
  /-- model.py:214-215 -/
  | idle
  /-- in `run_spk`: port operations still to do -/
  | spk (rest : List Op)
  /-- messages still to be sent to the service before the command is complete -/
  | sending (ms : List (Msg V W))
  /-- `_get_var` (model.py:109-140) -/
  | getX
  /-- `_set_var` (model.py:142-201): waiting for the id, for the number of items, for items -/
  | setX | setNum (x : Nat) | setItems (x j left : Nat)
  /-- after SET_COMPLETE (model.py:171) -/
  | updating
  /-- `_stop` (model.py:456-463) -/
  | stopping
  | dead
  | failed
deriving DecidableEq, Repr

structure MdlSt (S V W : Type) where
  pc : MdlPc V W
  data : S

/-- Response at the end of the spiking phase (model.py:392-407). -/
def spkResp (y : Sys S V W) (p : Nat) (s : S) : Msg V W :=
  if y.lrnGuard p s && y.preGuard p s then .reqPre
  else if y.lrnGuard p s then .reqLrn
  else if y.postGuard p s then .reqPost
  else .done

/-- `_pre_mgmt`, `_lrn`, `_post_mgmt` (model.py:409-448): state afterwards. -/
def doPre (y : Sys S V W) (p : Nat) (s : S) : S := if y.preGuard p s then y.runPre p s else s
def doLrn (y : Sys S V W) (p : Nat) (s : S) : S := if y.lrnGuard p s then y.runLrn p s else s
def doPost (y : Sys S V W) (p : Nat) (s : S) : S := if y.postGuard p s then y.runPost p s else s

/-- The code of process model `p`: `run` (model.py:207-238) and the command handlers. -/
def mdlView (y : Sys S V W) (p : Nat) (s : MdlSt S V W) : Act (MdlSt S V W) (Msg V W) :=
  match s.pc with
  | .idle => .recv (cmdCh p) fun m =>
      match m with
      | .phase .spk => ⟨.spk (y.body p), y.start p s.data⟩
      | .phase .pre => ⟨.sending [.reqLrn], doPre y p s.data⟩
      | .phase .lrn => ⟨.sending [if y.postGuard p (doLrn y p s.data) then .reqPost else .done], doLrn y p s.data⟩
      | .phase .post => ⟨.sending [.done], doPost y p s.data⟩
      | .phase .host => s
      | .getCmd => ⟨.getX, s.data⟩
      | .setCmd => ⟨.setX, s.data⟩
      | .stopCmd => ⟨.stopping, s.data⟩
      | _ => ⟨.failed, s.data⟩
  | .spk (.snd c :: r) => .send (dataCh c) (.data (y.emit p s.data c)) ⟨.spk r, s.data⟩
  | .spk (.rcv c :: r) => .recv (dataCh c) fun m =>
      match m with
      | .data v => ⟨.spk r, y.absorb p s.data c v⟩
      | _ => ⟨.failed, s.data⟩
  | .spk [] => .tau ⟨.sending [spkResp y p (y.tick p s.data)], y.tick p s.data⟩
  | .sending (m :: ms) => .send (rspCh p) m ⟨.sending ms, s.data⟩
  | .sending [] => .tau ⟨.idle, s.data⟩
  | .getX => .recv (cmdCh p) fun m =>
      match m with
      | .num x => ⟨.sending (.num (y.vsize p x) :: (List.range (y.vsize p x)).map fun j => .item (y.peek p s.data x j)), s.data⟩
      | _ => ⟨.failed, s.data⟩
  | .setX => .recv (cmdCh p) fun m =>
      match m with
      | .num x => ⟨.setNum x, s.data⟩
      | _ => ⟨.failed, s.data⟩
  | .setNum x => .recv (cmdCh p) fun m =>
      match m with
      | .num k => ⟨.setItems x 0 k, s.data⟩
      | _ => ⟨.failed, s.data⟩
  | .setItems x j left =>
    if j < y.vsize p x ∧ left ≠ 0 then
      .recv (cmdCh p) fun m =>
        match m with
        | .item w => ⟨.setItems x (j + 1) (left - 1), y.poke p s.data x j w⟩
        | _ => ⟨.failed, s.data⟩
    else .send (rspCh p) .setComplete ⟨.updating, s.data⟩
  | .updating => .tau ⟨.idle, y.updated p s.data⟩
  | .stopping => .send (rspCh p) .terminated ⟨.dead, s.data⟩
  | .dead => .halt
  | .failed => .halt

/-! ### The network -/

inductive Proc (S V W : Type) where
  | host (h : HostSt V W)
  | svc (s : SvcSt V W)
  | mdl (m : MdlSt S V W)

/-- Replace the states of an action. -/
def mapAct {A B M : Type} (f : A → B) : Act A M → Act B M
  | .halt => .halt
  | .tau q => .tau (f q)
  | .send c v q => .send c v (f q)
  | .recv c k => .recv c fun v => f (k v)

/-- Process 0 is the host, process `2 i + 1` is service `i`, process `2 p + 2` is process model `p`. -/
def view (y : Sys S V W) (a : Nat) : Proc S V W → Act (Proc S V W) (Msg V W)
  | .host h => if a = 0 then mapAct .host (hostView y h) else .halt
  | .svc s => if a % 2 = 1 ∧ a / 2 < y.k then mapAct .svc (svcView y (a / 2) s) else .halt
  | .mdl m => if a ≠ 0 ∧ a % 2 = 0 ∧ a / 2 - 1 < y.n then mapAct .mdl (mdlView y (a / 2 - 1) m) else .halt

def net (y : Sys S V W) : Net (Proc S V W) (Msg V W) := { view := view y, cap := y.cap }

/-- The start: every process model and every service waits for a command, channels are empty. -/
def initial (y : Sys S V W) (prog : List (Call W)) : St (Proc S V W) (Msg V W) where
  q := fun a =>
    if a = 0 then .host ⟨.next, prog, false, []⟩
    else if a % 2 = 1 then .svc ⟨.idle, noFlags⟩
    else .mdl ⟨.idle, y.init (a / 2 - 1)⟩
  chan := fun _ => []
  hist := fun _ => []

/-- What the user has seen after a schedule. -/
def seen (s : St (Proc S V W) (Msg V W)) : List (Res W) :=
  match s.q 0 with
  | .host h => h.log
  | _ => []

end Verif.EndToEnd
