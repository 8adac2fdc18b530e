/-!
# Model of the Python-to-Python channel

Models `src/lava/magma/compiler/channels/pypychannel.py`, classes `CspSendPort` (36-153),
`CspRecvQueue` (156-187), `CspRecvPort` (190-311) and `PyPyChannel` (355-405).

A channel is driven by four threads:

* the application thread of the sender, calling `send` / `probe`,
* the sender's `_ack_callback` thread,
* the application thread of the receiver, calling `recv` / `peek` / `probe`,
* the receiver's `_req_callback` thread.

Every Python statement that touches state shared between threads is one atomic step here; the copy of an
array into / out of shared memory is done element by element, one step per element, so that torn
reads/writes are representable.  A schedule is any list of labels; a label whose step is not enabled
(the thread is elsewhere, or would block) leaves the state unchanged.

Simplifications: `join` (shutdown), watchdogs and the selector's `observer` hook are left out here
(the selector is modelled in `Verif.Selector`).  An array of any shape is its flat list of `len` elements.
-/

namespace Verif.Channel

/-- An array payload, flattened (pypychannel.py:29-33 `Proto`: shape, dtype). -/
abbrev Payload := List Int

/-- Where the sending application thread is inside `send`/`probe` (pypychannel.py:120-144). -/
inductive SPc where
  /-- not inside a channel call -/
  | idle
  /-- inside `send` after `_semaphore.acquire()`, `k` elements of `d` are copied to the slot -/
  | writing (d : Payload) (k : Nat)
  /-- inside `probe` between the successful non-blocking acquire and the release (line 121-123) -/
  | probing
deriving DecidableEq

/-- Where the `_ack_callback` thread is (pypychannel.py:110-118). -/
inductive APc where
  /-- blocked in / about to call `ack.acquire()` -/
  | wait
  /-- took an ack, about to call `self.probe()` -/
  | taken
  /-- inside `probe`, holding one semaphore unit -/
  | holding
  /-- about to call `self._semaphore.release()` -/
  | release
deriving DecidableEq

/-- Where the `_req_callback` thread is (pypychannel.py:267-275). -/
inductive QPc where
  | wait
  /-- took a request, about to call `put_nowait` -/
  | taken
deriving DecidableEq

/-- Where the receiving application thread is (pypychannel.py:284-302). -/
inductive RPc where
  | idle
  /-- inside `recv` after `_queue.get()`; `acc` are the elements copied so far -/
  | copying (acc : Payload)
  /-- inside `peek` after `_queue.get(peek=True)` -/
  | peeking (acc : Payload)
deriving DecidableEq

/-- Shared and thread-local state of one channel. -/
structure St where
  /-- shared memory: slot → element → value (`_array`, pypychannel.py:91-100, 248-257) -/
  mem : Nat → Nat → Int
  /-- sender's `_idx` -/
  sIdx : Nat
  /-- receiver's `_idx` -/
  rIdx : Nat
  /-- value of the sender's `BoundedSemaphore(size)` -/
  sem : Nat
  /-- value of the `req` semaphore -/
  req : Nat
  /-- value of the `ack` semaphore -/
  ack : Nat
  /-- `_queue.qsize()` -/
  queue : Nat
  sPc : SPc
  aPc : APc
  qPc : QPc
  rPc : RPc
  /-- a callback thread died with an exception (`queue.Full` or `ValueError`) -/
  crashed : Bool
  /-- history: payloads accepted by `send` (after acquire), oldest first -/
  sent : List Payload
  /-- history: number of `send` calls that completed -/
  sendsDone : Nat
  /-- history: results of completed `recv` calls -/
  recvd : List Payload
  /-- history: results of `peek`, with the number of `recv` calls completed before it -/
  peeks : List (Nat × Payload)
  /-- history: results of the sender's `probe`, most recent first -/
  sProbes : List Bool
  /-- history: number of `send` calls rejected by the shape check -/
  rejected : Nat

/-- State after construction and `start()` (pypychannel.py:89-108, 243-265, 386-394). -/
def init (size : Nat) : St :=
  { mem := fun _ _ => 0, sIdx := 0, rIdx := 0, sem := size, req := 0, ack := 0, queue := 0,
    sPc := .idle, aPc := .wait, qPc := .wait, rPc := .idle, crashed := false,
    sent := [], sendsDone := 0, recvd := [], peeks := [], sProbes := [], rejected := 0 }

/-- One atomic action of one of the four threads. -/
inductive Lbl where
  /-- sender calls `send(d)`: shape check and semaphore acquire -/
  | sendStart (d : Payload)
  /-- sender copies one element into the slot -/
  | sendWrite
  /-- sender advances `_idx` and releases `req` -/
  | sendDone
  /-- sender calls `probe()`: the non-blocking acquire -/
  | sProbe
  /-- sender's `probe()` releases again and returns True -/
  | sProbeRel
  | ackTake | ackProbe | ackProbeRel | ackRelease
  | reqTake | reqPut
  /-- receiver calls `recv()`: `_queue.get()` -/
  | recvStart
  /-- receiver copies one element -/
  | recvCopy
  /-- receiver advances `_idx`, releases `ack`, returns -/
  | recvDone
  /-- receiver calls `peek()` -/
  | peekStart
  | peekDone
deriving DecidableEq

/-- Labels of the sender's application thread. -/
def Lbl.isSender : Lbl → Bool
  | .sendStart _ | .sendWrite | .sendDone | .sProbe | .sProbeRel => true
  | _ => false

/-- Labels of the receiver's application thread. -/
def Lbl.isReceiver : Lbl → Bool
  | .recvStart | .recvCopy | .recvDone | .peekStart | .peekDone => true
  | _ => false

/-- Labels of the two callback threads. -/
def Lbl.isBackground : Lbl → Bool
  | .ackTake | .ackProbe | .ackProbeRel | .ackRelease | .reqTake | .reqPut => true
  | _ => false

/-- `self._array[i][j] = x` on shared memory (pypychannel.py:142). -/
def setMem (m : Nat → Nat → Int) (i j : Nat) (x : Int) : Nat → Nat → Int :=
  fun i' j' => if i' = i ∧ j' = j then x else m i' j'

/-- One atomic step; `size` slots of `len` elements. Disabled labels do nothing. -/
def step (size len : Nat) (s : St) : Lbl → St
  -- send, pypychannel.py:130-141: shape check, then `self._semaphore.acquire()` (blocks at 0)
  | .sendStart d =>
    if s.sPc = .idle then
      if d.length ≠ len then { s with rejected := s.rejected + 1 }
      else if 0 < s.sem then
        { s with sem := s.sem - 1, sPc := .writing d 0, sent := s.sent ++ [d] }
      else s
    else s
  -- pypychannel.py:142 `self._array[self._idx][:] = data[:]`, one element
  | .sendWrite =>
    match s.sPc with
    | .writing d k =>
      if k < len then
        { s with mem := setMem s.mem s.sIdx k (d.getD k 0), sPc := .writing d (k + 1) }
      else s
    | _ => s
  -- pypychannel.py:143-144 `self._idx = (self._idx + 1) % self._size; self._req.release()`
  | .sendDone =>
    match s.sPc with
    | .writing _ k =>
      if k = len then
        { s with sIdx := (s.sIdx + 1) % size, req := s.req + 1, sPc := .idle,
                 sendsDone := s.sendsDone + 1 }
      else s
    | _ => s
  -- probe, pypychannel.py:120-128: non-blocking acquire; on failure returns False
  | .sProbe =>
    if s.sPc = .idle then
      if 0 < s.sem then { s with sem := s.sem - 1, sPc := .probing }
      else { s with sProbes := false :: s.sProbes }
    else s
  -- probe: release again, return True
  | .sProbeRel =>
    if s.sPc = .probing then
      if s.sem < size then
        { s with sem := s.sem + 1, sPc := .idle, sProbes := true :: s.sProbes }
      else { s with crashed := true }
    else s
  -- _ack_callback, pypychannel.py:112 `ack.acquire()`
  | .ackTake =>
    if s.aPc = .wait ∧ 0 < s.ack then { s with ack := s.ack - 1, aPc := .taken } else s
  -- _ack_callback, pypychannel.py:113 `not_full = self.probe()`
  | .ackProbe =>
    if s.aPc = .taken then
      if 0 < s.sem then { s with sem := s.sem - 1, aPc := .holding }
      else { s with aPc := .release }
    else s
  | .ackProbeRel =>
    if s.aPc = .holding then
      if s.sem < size then { s with sem := s.sem + 1, aPc := .release }
      else { s with crashed := true }
    else s
  -- _ack_callback, pypychannel.py:114 `self._semaphore.release()`; ValueError above the bound
  | .ackRelease =>
    if s.aPc = .release then
      if s.sem < size then { s with sem := s.sem + 1, aPc := .wait }
      else { s with crashed := true }
    else s
  -- _req_callback, pypychannel.py:269 `req.acquire()`
  | .reqTake =>
    if s.qPc = .wait ∧ 0 < s.req then { s with req := s.req - 1, qPc := .taken } else s
  -- _req_callback, pypychannel.py:271 `self._queue.put_nowait(0)`; raises Full at maxsize
  | .reqPut =>
    if s.qPc = .taken then
      if s.queue < size then { s with queue := s.queue + 1, qPc := .wait }
      else { s with crashed := true }
    else s
  -- recv, pypychannel.py:298 `self._queue.get()` (blocks while empty)
  | .recvStart =>
    if s.rPc = .idle ∧ 0 < s.queue then
      { s with queue := s.queue - 1, rPc := .copying [] } else s
  -- recv/peek, pypychannel.py:290, 299 `self._array[self._idx].copy()`, one element
  | .recvCopy =>
    match s.rPc with
    | .copying acc =>
      if acc.length < len then
        { s with rPc := .copying (acc ++ [s.mem s.rIdx acc.length]) } else s
    | .peeking acc =>
      if acc.length < len then
        { s with rPc := .peeking (acc ++ [s.mem s.rIdx acc.length]) } else s
    | .idle => s
  -- recv, pypychannel.py:300-302
  | .recvDone =>
    match s.rPc with
    | .copying acc =>
      if acc.length = len then
        { s with rIdx := (s.rIdx + 1) % size, ack := s.ack + 1, rPc := .idle,
                 recvd := s.recvd ++ [acc] } else s
    | _ => s
  -- peek, pypychannel.py:289 `self._queue.get(peek=True)`
  | .peekStart =>
    if s.rPc = .idle ∧ 0 < s.queue then { s with rPc := .peeking [] } else s
  -- peek, pypychannel.py:291
  | .peekDone =>
    match s.rPc with
    | .peeking acc =>
      if acc.length = len then
        { s with rPc := .idle, peeks := s.peeks ++ [(s.recvd.length, acc)] } else s
    | _ => s

/-- Run a schedule from a given state. -/
def runFrom (size len : Nat) (s : St) (sched : List Lbl) : St :=
  sched.foldl (step size len) s

/-- Run a schedule from the initial state. -/
def run (size len : Nat) (sched : List Lbl) : St := runFrom size len (init size) sched

/-- `CspRecvPort.probe`, pypychannel.py:277-282. -/
def recvProbe (s : St) : Bool := decide (0 < s.queue)

end Verif.Channel
