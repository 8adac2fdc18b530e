/-!
# Model of `CspSelector.select` together with the receive callbacks

Models `src/lava/magma/compiler/channels/pypychannel.py`: `CspSelector` (309-351),
`CspRecvPort._req_callback` (262-270), `probe` (272-277), and the queue side of `recv` (288-297).

One application thread calls `select` on channels `0 .. n-1` (in this order) and `recv`; every channel has its
own `_req_callback` thread.  The ring buffer contents are irrelevant here (see `Verif.Channel`), a channel is
reduced to its `req` semaphore and its queue length.  Every access to shared state is one atomic step.

The two flags of `Cfg` fuse two adjacent steps of the callback thread into one.  The real code is
`real n` (both `false`); the flags exist to show *which* race each failure needs.
-/

namespace Verif.Selector

structure Cfg where
  /-- number of channels passed to `select` -/
  n : Nat
  /-- pretend `not_empty = self.probe(); self._queue.put_nowait(0)` (265-266) were one atomic step -/
  atomicPut : Bool
  /-- pretend `if self.observer and not not_empty: self.observer()` (267-268) read `self.observer` once -/
  atomicCall : Bool

/-- The code as it is. -/
def real (n : Nat) : Cfg := { n := n, atomicPut := false, atomicCall := false }

/-- Program counter of a `_req_callback` thread (pypychannel.py:267-275). -/
inductive CPc where
  /-- line 264: `req.acquire()` -/
  | wait
  /-- line 265 is next -/
  | taken
  /-- line 266 is next; `ne` is the local variable `not_empty` -/
  | probed (ne : Bool)
  /-- line 267 is next -/
  | check (ne : Bool)
  /-- line 267 evaluated to true, line 268 loads `self.observer` again and calls it -/
  | call
  /-- inside `CspSelector._changed` (319-321), waiting for the lock of the condition variable -/
  | notify
  /-- the thread died with `TypeError: 'NoneType' object is not callable` -/
  | dead
deriving DecidableEq

structure Chan where
  /-- pending `req.release()` calls of the sender -/
  req : Nat
  /-- `_queue.qsize()` -/
  queue : Nat
  /-- `self.observer is not None` -/
  obs : Bool
  cb : CPc
deriving DecidableEq

/-- Program counter of the selecting application thread (pypychannel.py:334-352). -/
inductive SPc where
  | idle
  /-- holds the lock, `_set_observer(channel_actions, self._changed)`, channel `k` is next -/
  | setObs (k : Nat)
  /-- holds the lock, about to evaluate `channel.probe()` of channel `k` -/
  | scan (k : Nat)
  /-- holds the lock, clearing observers, channel `k` is next, will run the action of channel `i` -/
  | unset (k i : Nat)
  /-- asleep in `self._cv.wait()`, lock released -/
  | waiting
  /-- notified, has to take the lock again -/
  | woken
deriving DecidableEq

structure St where
  chan : Nat → Chan
  sel : SPc
  /-- history: channels whose action was run by `select`, most recent first -/
  results : List Nat

def init : St :=
  { chan := fun _ => { req := 0, queue := 0, obs := false, cb := .wait }, sel := .idle, results := [] }

inductive Lbl where
  /-- the remote sender of channel `i` completes a send (`req.release()`) -/
  | arrive (i : Nat)
  /-- next step of the callback thread of channel `i` -/
  | cb (i : Nat)
  /-- the application calls `select` -/
  | select
  /-- next step of the selecting thread inside `select` -/
  | sel
  /-- the application calls `recv` on channel `i` outside `select` -/
  | recv (i : Nat)
deriving DecidableEq

/-- The condition's lock is held by the selecting thread. -/
def SPc.locked : SPc → Bool
  | .setObs _ | .scan _ | .unset _ _ => true
  | _ => false

def upd (f : Nat → Chan) (i : Nat) (c : Chan) : Nat → Chan := fun j => if j = i then c else f j

/-- One step of the callback thread of channel `i` (pypychannel.py:267-275, 323-325). -/
def cbStep (c : Cfg) (s : St) (i : Nat) : St :=
  let ch := s.chan i
  match ch.cb with
  | .wait =>
    if 0 < ch.req then { s with chan := upd s.chan i { ch with req := ch.req - 1, cb := .taken } } else s
  | .taken =>
    if c.atomicPut then
      { s with chan := upd s.chan i { ch with queue := ch.queue + 1, cb := .check (decide (0 < ch.queue)) } }
    else { s with chan := upd s.chan i { ch with cb := .probed (decide (0 < ch.queue)) } }
  | .probed ne => { s with chan := upd s.chan i { ch with queue := ch.queue + 1, cb := .check ne } }
  | .check ne =>
    if ch.obs && !ne then
      { s with chan := upd s.chan i { ch with cb := if c.atomicCall then .notify else .call } }
    else { s with chan := upd s.chan i { ch with cb := .wait } }
  | .call => { s with chan := upd s.chan i { ch with cb := if ch.obs then .notify else .dead } }
  | .notify =>
    if s.sel.locked then s
    else { s with chan := upd s.chan i { ch with cb := .wait },
                  sel := if s.sel = .waiting then .woken else s.sel }
  | .dead => s

/-- One step of the selecting thread inside `select` (pypychannel.py:334-352). -/
def selStep (c : Cfg) (s : St) : St :=
  match s.sel with
  | .idle => s
  | .setObs k =>
    if k < c.n then { s with chan := upd s.chan k { s.chan k with obs := true }, sel := .setObs (k + 1) }
    else { s with sel := .scan 0 }
  | .scan k =>
    if k < c.n then
      if 0 < (s.chan k).queue then { s with sel := .unset 0 k } else { s with sel := .scan (k + 1) }
    else { s with sel := .waiting }
  | .unset k i =>
    if k < c.n then { s with chan := upd s.chan k { s.chan k with obs := false }, sel := .unset (k + 1) i }
    else { s with sel := .idle, results := i :: s.results }
  | .waiting => s
  | .woken => { s with sel := .scan 0 }

def step (c : Cfg) (s : St) : Lbl → St
  | .arrive i => { s with chan := upd s.chan i { s.chan i with req := (s.chan i).req + 1 } }
  | .cb i => cbStep c s i
  | .select => if s.sel = .idle then { s with sel := .setObs 0 } else s
  | .sel => selStep c s
  | .recv i =>
    if s.sel = .idle ∧ 0 < (s.chan i).queue then
      { s with chan := upd s.chan i { s.chan i with queue := (s.chan i).queue - 1 } }
    else s

def runFrom (c : Cfg) (s : St) (sched : List Lbl) : St := sched.foldl (step c) s
def run (c : Cfg) (sched : List Lbl) : St := runFrom c init sched

end Verif.Selector
