/-!
# Model of asynchronous execution

`PyLoihiModelToPyAsyncModel` (model.py:687-777): a Loihi process model wrapped as an asynchronous one, and
`AsyncPyRuntimeService` (runtime_service.py:391-525), the service that runs asynchronous models.
The bodies of the user's methods are not modelled; their guards are an arbitrary function of the time step.
-/

namespace Verif.AsyncModel

/-- Calls of the user's methods, with the time step in which they are made. -/
inductive Call where
  | pre (t : Nat) | spk (t : Nat) | post (t : Nat)
deriving DecidableEq, Repr

/-- Guards of the wrapped model. -/
structure Guard where
  pre : Nat → Bool
  post : Nat → Bool

/-- Calls made in time step `t` (model.py:756-760). -/
def stepCalls (g : Guard) (t : Nat) : List Call :=
  (if g.pre t then [.pre t] else []) ++ [.spk t] ++ (if g.post t then [.post t] else [])

/-- State of the wrapped model. -/
structure St where
  /-- `self.time_step`, initially 1 (model.py:751) -/
  time : Nat
  calls : List Call
deriving DecidableEq, Repr

def init : St := { time := 1, calls := [] }

/-- `while self.time_step != self.num_steps + 1` (model.py:753-765), at most `fuel` turns.
The flag says whether the loop has ended. -/
def runAsync (g : Guard) (num : Nat) : Nat → St → Bool × St
  | 0, s => (s.time == num + 1, s)
  | fuel + 1, s =>
    if s.time = num + 1 then (true, s)
    else runAsync g num fuel { time := s.time + 1, calls := s.calls ++ stepCalls g s.time }

/-! ## The service -/

/-- Answers of an asynchronous model (model.py:558-574, `_run_async` 603-617). -/
inductive Resp where
  | done | error | reqPause | reqStop
deriving DecidableEq, Repr

/-- What the service sends to the runtime. -/
inductive Out where
  | done | reqStop | reqPause | error
deriving DecidableEq, Repr

/-- Attributes of the service (runtime_service.py:394-399). -/
structure Svc where
  reqStop : Bool := false
  reqPause : Bool := false
  error : Bool := false
  running : Bool := false
deriving DecidableEq, Repr

/-- The flags are raised, never lowered (runtime_service.py:496-508). -/
def collect (s : Svc) (rs : List Resp) : Svc :=
  rs.foldl (fun s r => match r with
    | .reqPause => { s with reqPause := true }
    | .reqStop => { s with reqStop := true }
    | .error => { s with error := true }
    | .done => s) s

/-- Handling of the responses to a run command (runtime_service.py:493-520). -/
def handleResps (s : Svc) (rs : List Resp) : Svc × List Out :=
  let s := collect s rs
  ({ s with running := false },
   (if rs.all (· == .done) then [.done] else []) ++ (if s.reqStop then [.reqStop] else []) ++
   (if s.reqPause then [.reqPause] else []) ++ (if s.error then [.error] else []))

/-- A run command and the answers of all models to it (runtime_service.py:485-492, 493-520). -/
def serveRuns (s : Svc) (runs : List (List Resp)) : Svc × List (List Out) :=
  runs.foldl (fun (acc : Svc × List (List Out)) rs =>
    let r := handleResps acc.1 rs
    (r.1, acc.2 ++ [r.2])) (s, [])

end Verif.AsyncModel
