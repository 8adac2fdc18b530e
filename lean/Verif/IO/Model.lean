import Mathlib.Data.Nat.ModEq
import Mathlib.Data.List.Basic
import Mathlib.Algebra.BigOperators.Group.List.Basic
import Mathlib.Algebra.Order.Ring.Int
import Mathlib.Tactic.Ring
import Mathlib.Tactic.Linarith
import Mathlib.Tactic.Positivity

/-!
# Model of the input/output processes

`src/lava/proc/io/{source,sink,dataloader,reset,utils,injector,extractor}.py`, `src/lava/proc/spiker`,
`src/lava/proc/bit_check/models.py`. Time steps are numbered from 1 as in the Loihi protocol. Arrays are treated elementwise
(one element of arbitrary type) except for the time axis.
-/

namespace Verif.IO

/-! ## Ring buffers -/

/-- `AbstractPyRingBuffer.run_spk` (io/source.py:41-43): what is sent in step `t`. -/
def sourceSend {α : Type} (data : Nat → α) (n t : Nat) : α := data ((t - 1) % n)

/-- Assignment to one slot. -/
def upd {α : Type} (d : Nat → α) (i : Nat) (x : α) : Nat → α := fun j => if j = i then x else d j

/-- `AbstractPyReceiveModel.run_spk` (io/sink.py:48-52), iterated: the buffer after `T` steps on the inputs `x 1, x 2, ...`. -/
def sinkAt {α : Type} (z : α) (n : Nat) (x : Nat → α) : Nat → Nat → α
  | 0 => fun _ => z
  | T + 1 => upd (sinkAt z n x T) ((T + 1 - 1) % n) (x (T + 1))

/-- `post_guard` of `Read`, `Reset` and the data loaders (io/sink.py:123-124, io/reset.py:59-60, io/dataloader.py:117-118, 187-188). The stored
offset is `offset % interval` (io/sink.py:96, io/reset.py:43, io/dataloader.py:43). -/
def guard (interval offset t : Nat) : Bool := decide ((t - 1) % interval = offset % interval)

/-- `AbstractPyRead` (io/sink.py:110-130): buffer and counter. -/
structure ReadSt (α : Type) where
  data : Nat → α
  counter : Nat

/-- `Read` after `T` steps; `v t` is the value of the connected Var in the post-management phase of step `t`. -/
def readAt {α : Type} (z : α) (n interval offset : Nat) (v : Nat → α) : Nat → ReadSt α
  | 0 => { data := fun _ => z, counter := 0 }
  | T + 1 =>
    let s := readAt z n interval offset v T
    if guard interval offset (T + 1) then
      { data := upd s.data (s.counter % n) (v (T + 1)), counter := s.counter + 1 }
    else s

/-- `Reset` connected to a Var (io/reset.py:52-65): the value of the Var after step `T`; `f` is what the owner computes in a step
from the value left by the previous one. -/
def resetAt {α : Type} (r : α) (interval offset : Nat) (f : Nat → α → α) (v0 : α) : Nat → α
  | 0 => v0
  | T + 1 => if guard interval offset (T + 1) then r else f (T + 1) (resetAt r interval offset f v0 T)

/-! ## Data loaders -/

/-- State of a state data loader with a dataset of pairs (io/dataloader.py:50-64, 111-127): next sample, ground truth to send, value of the
connected Var. -/
structure LoadSt (α β : Type) where
  sampleId : Nat
  gt : β
  var : Option α

/-- `run_post_mgmt` (io/dataloader.py:120-127). -/
def load {α β : Type} (dataset : Nat → α × β) (len : Nat) (s : LoadSt α β) : LoadSt α β :=
  { sampleId := if s.sampleId + 1 = len then 0 else s.sampleId + 1
    gt := (dataset s.sampleId).2
    var := some (dataset s.sampleId).1 }

/-- State after the post-management phase of step `T`. -/
def loadAt {α β : Type} (dataset : Nat → α × β) (len interval offset : Nat) (gt0 : β) : Nat → LoadSt α β
  | 0 => { sampleId := 0, gt := gt0, var := none }
  | T + 1 =>
    let s := loadAt dataset len interval offset gt0 T
    if guard interval offset (T + 1) then load dataset len s else s

/-- What the loader sends on `ground_truth` in the spiking phase of step `t ≥ 1` (io/dataloader.py:114-115). -/
def gtSent {α β : Type} (dataset : Nat → α × β) (len interval offset : Nat) (gt0 : β) (t : Nat) : β :=
  (loadAt dataset len interval offset gt0 (t - 1)).gt

/-- Spike data loader (io/dataloader.py:174-201): one output element; a sample is its list of values over time. -/
structure SpkSt where
  sampleId : Nat
  sampleTime : Nat
  data : Nat → Int

/-- The two branches of io/dataloader.py:193-197. -/
def spkData (interval : Nat) (sample : List Int) : Nat → Int :=
  if sample.length ≥ interval then fun j => (sample.take interval).getD j 0
  else fun j => if j < sample.length then sample.getD j 0 else 0

/-- Step `t`: spiking phase (io/dataloader.py:182-185), then post management if guarded (190-201). Returns the value sent. -/
def spkStep (dataset : Nat → List Int) (len interval offset : Nat) (s : SpkSt) (t : Nat) : SpkSt × Int :=
  let out := s.data (s.sampleTime % interval)
  let s1 : SpkSt := { s with sampleTime := s.sampleTime + 1 }
  if guard interval offset t then
    ({ sampleId := if s1.sampleId + 1 = len then 0 else s1.sampleId + 1
       sampleTime := 0
       data := spkData interval (dataset s1.sampleId) }, out)
  else (s1, out)

/-- State after step `T`. -/
def spkAt (dataset : Nat → List Int) (len interval offset : Nat) : Nat → SpkSt
  | 0 => { sampleId := 0, sampleTime := 0, data := fun _ => 0 }
  | T + 1 => (spkStep dataset len interval offset (spkAt dataset len interval offset T) (T + 1)).1

/-- Value sent in step `t ≥ 1`. -/
def spkSent (dataset : Nat → List Int) (len interval offset : Nat) (t : Nat) : Int :=
  (spkStep dataset len interval offset (spkAt dataset len interval offset (t - 1)) t).2

/-! ## Spiker -/

/-- `SpikerModel.run_spk` (spiker/models.py:28-39): counter and whether the payload is sent. -/
def spikerStep (rate counter : Nat) : Nat × Bool :=
  if counter = rate then (1, true) else (counter + 1, false)

/-- Counter after `T` steps; it starts with 0 (spiker/process.py:42). -/
def spikerAt (rate : Nat) : Nat → Nat
  | 0 => 0
  | T + 1 => (spikerStep rate (spikerAt rate T)).1

/-- Whether the payload is sent in step `t ≥ 1`. -/
def spikerSends (rate t : Nat) : Bool := (spikerStep rate (spikerAt rate (t - 1))).2

/-! ## Bit check -/

/-- `astype(np.int32)`: wraps around. -/
def int32 (x : Int) : Int := (x + 2 ^ 31) % 2 ^ 32 - 2 ^ 31

/-- One element of `check_bit_overflow` (bit_check/models.py:83-92): shifts of int32 values, the left shift wraps, the right shift is
arithmetic. -/
def bitOk (bits : Nat) (value : Int) : Bool :=
  let v := int32 value
  decide (int32 (v * 2 ^ (32 - bits)) / 2 ^ (32 - bits) = v)

/-- `check_bit_overflow` (bit_check/models.py:83-92). -/
def overflows (bits : Nat) (values : List Int) : Bool := !(values.all (bitOk bits))

/-- The `_overflowed` flag after a history of post-management phases (bit_check/models.py:48-58); starts with 0. -/
def overflowFlag (bits : Nat) : List (List Int) → Bool → Bool
  | [], f => f
  | v :: vs, f => overflowFlag bits vs (if overflows bits v then true else f)

/-! ## Channel policies -/

/-- The channel between user code and the model, as a FIFO channel (see `Verif.Channel`): `vis` is what `_queue.qsize()` counts, `flight`
was sent and not yet announced by the callback thread, `acks` was received and its slot not yet handed back. -/
structure Ch where
  vis : List Int
  flight : List Int
  acks : Nat
  /-- the receiver is blocked inside `receive_empty_blocking` -/
  waiting : Bool
  /-- history: data accepted by the channel -/
  accepted : List Int
  /-- history: data dropped with a warning -/
  dropped : List Int
  /-- history: results of the receiving calls -/
  outs : List Int
  /-- history: number of completed `send` calls -/
  sends : Nat

def initCh : Ch := { vis := [], flight := [], acks := 0, waiting := false, accepted := [], dropped := [], outs := [], sends := 0 }

structure Policy where
  /-- `SendFull.NON_BLOCKING_DROP` -/
  drop : Bool
  /-- `ReceiveEmpty.NON_BLOCKING_ZEROS` -/
  zeros : Bool
  /-- `ReceiveNotEmpty.ACCUMULATE` -/
  accumulate : Bool

/-- A slot is free. -/
def Ch.free (c : Ch) (cap : Nat) : Bool := decide (c.vis.length + c.flight.length + c.acks < cap)

inductive Act where
  /-- the sender calls the send function of the policy -/
  | send (x : Int)
  /-- callback thread of the receiver announces the oldest item in flight -/
  | deliver
  /-- callback thread of the sender hands back a slot -/
  | ackBack
  /-- the receiver calls `receive` / runs one step -/
  | recv

/-- One action. A blocked `send` leaves the state unchanged and is retried by a later label; a
receiving call that found the buffer empty and blocks takes a single item once one is there, whatever `accumulate` says.
`send_full_blocking`, `send_full_non_blocking_drop` (io/utils.py:25-57), `receive_empty_*` (77-116), `receive_not_empty_*` (137-187),
dispatch on `qsize` (io/injector.py:113-127, io/extractor.py:91-104). -/
def act (p : Policy) (cap : Nat) (c : Ch) : Act → Ch
  | .send x =>
    if c.free cap then { c with flight := c.flight ++ [x], accepted := c.accepted ++ [x], sends := c.sends + 1 }
    else if p.drop then { c with dropped := c.dropped ++ [x], sends := c.sends + 1 }
    else c
  | .deliver =>
    match c.flight with
    | [] => c
    | x :: r => { c with vis := c.vis ++ [x], flight := r }
  | .ackBack => { c with acks := c.acks - 1 }
  | .recv =>
    match c.vis with
    | [] => if p.zeros then { c with outs := c.outs ++ [0] } else { c with waiting := true }
    | x :: r =>
      if p.accumulate && !c.waiting then
        { c with vis := [], acks := c.acks + (x :: r).length, outs := c.outs ++ [(x :: r).foldl (· + ·) 0] }
      else { c with vis := r, acks := c.acks + 1, outs := c.outs ++ [x], waiting := false }

/-- Any interleaving. -/
def acts (p : Policy) (cap : Nat) (c : Ch) (l : List Act) : Ch := l.foldl (act p cap) c

end Verif.IO
