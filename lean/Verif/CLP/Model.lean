import Verif.LIF.Model

/-!
# Model of the processes of the continually learning prototypes (CLP) algorithm

`src/lava/proc/clp`: `NoveltyDetector`, `Readout`, `Allocator`, `IdBroadcast`, `PrototypeLIF`. Integers are unbounded.
-/

namespace Verif.CLP

/-! ## NoveltyDetector -/

/-- Attributes of `PyNoveltyDetectorModel` (novelty_detector/models.py:30-34). -/
structure Nov where
  waiting : Bool
  tPassed : Int
  novelty : Bool
deriving DecidableEq, Repr

def Nov.init : Nov := { waiting := false, tPassed := 0, novelty := false }

/-- `run_spk` (novelty_detector/models.py:36-71): `inp`, `out` say that the message on `input_aval_in`, `output_aval_in` is not zero;
the result is the message sent. -/
def novStep (tWait : Int) (s : Nov) (inp out : Bool) : Nov × Int :=
  let s := if inp then { s with waiting := true, tPassed := 0 } else s
  let s := if out then { s with waiting := false, tPassed := 0 }
    else if s.tPassed > tWait then { waiting := false, tPassed := 0, novelty := true } else s
  let s := if s.waiting then { s with tPassed := s.tPassed + 1 } else s
  if s.novelty then ({ s with novelty := false, waiting := false }, 1) else (s, 0)

/-- State before step `t` for the input trains `inp` and `out`. -/
def novAt (tWait : Int) (inp out : Nat → Bool) : Nat → Nov
  | 0 => Nov.init
  | t + 1 => (novStep tWait (novAt tWait inp out t) (inp t) (out t)).1

/-- Message sent in step `t`. -/
def novSent (tWait : Int) (inp out : Nat → Bool) (t : Nat) : Int := (novStep tWait (novAt tWait inp out t) (inp t) (out t)).2

/-! ## Readout -/

/-- Vars of `Readout` (nsm/process.py:54-57). The array of labels is a function; entries beyond its length are never used. -/
structure Rd where
  labels : Nat → Int
  /-- `last_winner_id` -/
  last : Nat

/-- `proto_labels=None` (nsm/process.py:40-41, 54-57). -/
def Rd.init : Rd := { labels := fun _ => 0, last := 0 }

/-- Messages sent to `user_output`, `feedback` and `trigger_alloc`. -/
structure RdOut where
  label : Int
  feedback : Int
  trigger : Int
deriving DecidableEq, Repr

/-- Assignment to one element of an array. Model only. -/
def setAt {α : Type} (f : Nat → α) (i : Nat) (x : α) : Nat → α := fun j => if j = i then x else f j

/-- The part of `PyReadoutModel.run_spk` that looks for a winner (nsm/models.py:54-71): new state and `inferred_label`. -/
def rdWinner (s : Rd) (vec : List Int) : Rd × Int :=
  if vec.any (· != 0) then
    let w := vec.findIdx (· != 0)
    if s.labels w = 0 then ({ labels := setAt s.labels w (-1 * ((w : Int) + 1)), last := w }, -1 * ((w : Int) + 1))
    else ({ s with last := w }, s.labels w)
  else (s, 0)

/-- `PyReadoutModel.run_spk` (nsm/models.py:36-111). -/
def rdStep (s : Rd) (vec : List Int) (user : Int) : Rd × RdOut :=
  let w := rdWinner s vec
  if user ≠ 0 then
    let l := w.1.labels w.1.last
    if l > 0 then
      if l = user then (w.1, { label := w.2, feedback := 1, trigger := 0 })
      else (w.1, { label := w.2, feedback := -1, trigger := 1 })
    else if l < 0 then
      ({ w.1 with labels := setAt w.1.labels w.1.last user }, { label := user, feedback := 0, trigger := 0 })
    else (w.1, { label := w.2, feedback := 0, trigger := 0 })
  else (w.1, { label := w.2, feedback := 0, trigger := 0 })

/-- State after a history of inputs, the latest last. -/
def rdRun (s : Rd) (h : List (List Int × Int)) : Rd := h.foldl (fun s x => (rdStep s x.1 x.2).1) s

/-! ## Allocator and IdBroadcast -/

/-- `PyAllocatorModel.run_spk` (nsm/models.py:129-149): new `next_alloc_id` and message. -/
def allocStep (next : Int) (trigger : Int) : Int × Int := if trigger ≠ 0 then (next + 1, next) else (next, 0)

/-- `IdBroadcastModel.run_spk` (id_broadcast/models.py:27-32). -/
def broadcast (x : Int) : Int := x

/-! ## PrototypeLIF -/

/-- State of a population of `n` prototype neurons (prototype_lif/models.py:47-52). -/
structure Proto where
  st : Nat → Verif.LIF.St
  y1 : Nat → Int

/-- Input of one time step: synaptic input, the third factor (the same for all neurons), reset spikes. -/
structure ProtoIn where
  a : Nat → Int
  third : Int
  reset : Nat → Int

/-- Messages sent to `s_out`, `s_out_bap`, `s_out_y1`. -/
structure ProtoOut where
  spikes : Nat → Bool
  bap : Nat → Bool
  y1 : Nat → Int

/-- numpy index of an array of length `n`: negative ones count from the end, others raise IndexError. -/
def npIdx (n : Nat) (i : Int) : Option Nat :=
  if 0 ≤ i then (if i < n then some i.toNat else none) else (if 0 ≤ i + n then some (i + n).toNat else none)

/-- `s_out_bap_buff` (prototype_lif/models.py:97-99). -/
def bapOf (n : Nat) (third : Int) : Option (Nat → Bool) :=
  if third ≠ 0 then (npIdx n (third - 1)).map fun k => fun i => decide (i = k) else some fun _ => false

/-- `PrototypeLIFBitAcc.run_spk` (prototype_lif/models.py:66-117) with the scaled threshold `eff`; `none` is IndexError. -/
def protoStep (n : Nat) (p : Verif.LIF.Par) (eff : Int) (s : Proto) (x : ProtoIn) : Option (Proto × ProtoOut) :=
  let st1 := fun i => Verif.LIF.subthr p (s.st i) (x.a i)
  let st2 : Nat → Verif.LIF.St := fun i => if x.reset i > 0 then { u := 0, v := 0 } else st1 i
  (bapOf n x.third).map fun bap =>
    let any := (List.range n).any bap
    let y1 := if any then fun i => if bap i then 127 else 0 else s.y1
    let spikes := if any then bap else fun i => decide ((st2 i).v > eff)
    ({ st := fun i => { (st2 i) with v := if spikes i then 0 else (st2 i).v }, y1 := y1 },
     { spikes := spikes, bap := bap, y1 := y1 })

end Verif.CLP
