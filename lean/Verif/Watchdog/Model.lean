/-!
# Watchdogs of blocked ports

`compiler/channels/watchdog.py`: `Watchdog`, `EventCompletionMonitor`, `WatchdogManager.stop`, used by the ports of the channels
(compiler/channels/pypychannel.py:134, 147, 297, 305).

Simplifications. One monitor process with its queue and timeout (there are two, for long and short timeouts, with disjoint sets of watchdogs;
`stop` joins both). Time is a number of ticks, the timeout `T` a whole number of them. An event is Python's `threading.Event` held by the manager
process: `wait` returns at once if the flag is set, is woken by every `set`, also if the flag is cleared again before the waiter runs, and times out
otherwise. The operations of one port method follow each other. What a port does between `__enter__` and `__exit__` is not modelled: it may
take any time. Not modelled: operations after the manager process is shut down.
-/

namespace Verif.Watchdog

/-- The `with self._io_watchdog` statement of a port method: outside, after `event.clear()`, after `queue.put` (watchdog.py:78-87). -/
inductive Op where
  | idle
  | cleared
  | running
deriving DecidableEq, Repr

/-- `event_monitor` (watchdog.py:45-54): before `wait`, in `wait` since a time, after a `wait` that timed out, ended. -/
inductive Stage where
  | ready
  | waiting (since : Nat)
  | expired
  | done
deriving DecidableEq, Repr

/-- `monitor` (watchdog.py:29-43): in the loop, joining its threads, ended. -/
inductive Mon where
  | loop
  | joining
  | ended
deriving DecidableEq, Repr

/-- Watchdogs are numbered. `flag`: the events; `queue`: `none` is the stopping criterion; `threads`: those of the monitor with the watchdog whose
event they wait for. -/
structure St where
  now : Nat
  flag : Nat → Bool
  op : Nat → Op
  queue : List (Option Nat)
  threads : List (Nat × Stage)
  mon : Mon
  stopping : Bool

/-- A new manager: events are not set, nothing is queued (watchdog.py:136-159). -/
def init : St := ⟨0, fun _ => false, fun _ => .idle, [], [], .loop, false⟩

/-- What can happen. `clear`, `put`, `exit`: the port method with watchdog `w`; `take`: the monitor gets an entry; `wait`, `expire`, `print`: a thread
(its position); `join`: the monitor has joined all threads; `stop`: `WatchdogManager.stop` puts `None`; `tick`: time passes. -/
inductive Act where
  | clear (w : Nat)
  | put (w : Nat)
  | exit (w : Nat)
  | take
  | wait (i : Nat)
  | expire (i : Nat)
  | print (i w : Nat)
  | join
  | stop
  | tick
deriving DecidableEq, Repr

def upd {α : Type} (f : Nat → α) (w : Nat) (a : α) : Nat → α := fun v => if v = w then a else f v

/-- `Event.set` wakes the threads that wait for the event. -/
def wake (w : Nat) (t : Nat × Stage) : Nat × Stage :=
  match t with
  | (v, .waiting s) => if v = w then (v, .done) else (v, .waiting s)
  | t => t

/-- `Watchdog.__enter__`, first statement (watchdog.py:80). -/
def doClear (s : St) (w : Nat) : Option St :=
  if s.op w = .idle then some { s with flag := upd s.flag w false, op := upd s.op w .cleared } else none

/-- `Watchdog.__enter__`, `queue.put` (watchdog.py:81-82). -/
def doPut (s : St) (w : Nat) : Option St :=
  if s.op w = .cleared then some { s with queue := s.queue ++ [some w], op := upd s.op w .running } else none

/-- `Watchdog.__exit__`, also after an exception (watchdog.py:85-87). -/
def doExit (s : St) (w : Nat) : Option St :=
  if s.op w = .running then
    some { s with flag := upd s.flag w true, op := upd s.op w .idle, threads := s.threads.map (wake w) } else none

/-- One turn of the loop of `monitor` (watchdog.py:32-40). -/
def doTake (s : St) : Option St :=
  if s.mon = .loop then
    match s.queue with
    | [] => none
    | none :: q => some { s with queue := q, mon := .joining }
    | some w :: q => some { s with queue := q, threads := s.threads ++ [(w, .ready)] }
  else none

/-- Entering `event.wait(timeout)` (watchdog.py:48). -/
def doWait (s : St) (i : Nat) : Option St :=
  match s.threads[i]? with
  | some (w, .ready) => some { s with threads := s.threads.set i (w, if s.flag w then .done else .waiting s.now) }
  | _ => none

/-- `event.wait(timeout)` returns `False` (watchdog.py:48). -/
def doExpire (T : Nat) (s : St) (i : Nat) : Option St :=
  match s.threads[i]? with
  | some (w, .waiting t) => if t + T ≤ s.now then some { s with threads := s.threads.set i (w, .expired) } else none
  | _ => none

/-- "Blocked on ..." (watchdog.py:49-52). -/
def doPrint (s : St) (i w : Nat) : Option St :=
  match s.threads[i]? with
  | some (v, .expired) => if v = w then some { s with threads := s.threads.set i (v, .ready) } else none
  | _ => none

/-- `for t in threads: t.join()` comes to its end (watchdog.py:42-43). -/
def doJoin (s : St) : Option St :=
  if s.mon = .joining ∧ ∀ t ∈ s.threads, t.2 = .done then some { s with mon := .ended } else none

/-- One step. `stop` is called once: afterwards `_mp_manager` is `None` (watchdog.py:161-170). -/
def step (T : Nat) (s : St) : Act → Option St
  | .clear w => doClear s w
  | .put w => doPut s w
  | .exit w => doExit s w
  | .take => doTake s
  | .wait i => doWait s i
  | .expire i => doExpire T s i
  | .print i w => doPrint s i w
  | .join => doJoin s
  | .stop => if s.stopping then none else some { s with queue := s.queue ++ [none], stopping := true }
  | .tick => some { s with now := s.now + 1 }

/-- An execution. -/
def exec (T : Nat) : St → List Act → Option St
  | s, [] => some s
  | s, a :: l => match step T s a with
    | some s' => exec T s' l
    | none => none

end Verif.Watchdog
