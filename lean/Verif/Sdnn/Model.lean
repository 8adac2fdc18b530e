import Verif.SDN.Props
import Verif.Snn.Loihi

/-!
# Sigma-delta networks: the processes

`Delta`, `SigmaDelta` and `Sigma` of `Verif.SDN.Model` with their ports and Vars, and the chain of processes that a feed-forward network is made of: source, `Delta`, any number of layers of `Dense` and
`SigmaDelta`, a last `Dense`, `Sigma`, sink. Floating-point models in exact arithmetic.
-/

namespace Verif.Sdnn

open Verif.Snn (Proc Kind Vars connProc sourceProc sinkProc noProc accumFlt)
open Verif.SDN (DPar SDSt initSD sdStep deltaStep)

/-- Vars of the neurons of `Delta`, `SigmaDelta` and `Sigma` (`Delta` does not use `sigma`, `Sigma` uses nothing else), the buffer of `Dense`, ring buffers. -/
abbrev SVars := Vars (SDSt ℚ) (Nat → ℚ) ℚ

variable {C R : Type} [CommRing R] [LinearOrder R]

/-- A population of `size` neurons that send numbers: `a_in.recv()`, update of every neuron, `s_out.send(..)` (sdn/models.py:54-57, 197-202, 253-257). Vars 0 to 3 are `sigma`, `act`, `residue`, `error`. -/
def gradedProc (size : Nat) (step : Nat → SDSt R → R → SDSt R × R) : Proc (Vars (SDSt R) C R) (Nat → R) R where
  kind := .neuron
  init := .pop fun _ => initSD
  begin_ s := s
  fire s a := match s with
    | .pop o => (.pop fun i => (step i (o i) (a i)).1, fun i => (step i (o i) (a i)).2)
    | s => (s, fun _ => 0)
  out _ := fun _ => 0
  absorb s _ := s
  vsize _ := size
  peek s x j := match s with | .pop o => (if x = 0 then (o j).sigma else if x = 1 then (o j).d.act else if x = 2 then (o j).d.residue else (o j).d.error) | _ => 0
  poke s x j w := match s with
    | .pop o => .pop fun i => if i = j then
        (if x = 0 then { o i with sigma := w } else if x = 1 then { o i with d := { (o i).d with act := w } } else if x = 2 then { o i with d := { (o i).d with residue := w } }
          else { o i with d := { (o i).d with error := w } })
      else o i
    | s => s

/-- A layer: the weights of its `Dense`, and `bias`, `vth`, `cum_error`, `act_mode` of its `SigmaDelta` (sdn/process.py:118-194). `rows` neurons, `cols` inputs. -/
structure Layer where
  rows : Nat
  cols : Nat
  w : Nat → Nat → ℚ
  bias : Nat → ℚ
  vth : Nat → ℚ
  cum : Bool
  relu : Bool

/-- `Delta` with `PyDeltaModelFloat` (sdn/models.py:178-202). -/
def deltaProc (size : Nat) (vth : Nat → ℚ) (cum : Bool) : Proc SVars (Nat → ℚ) ℚ :=
  gradedProc size fun i s a => ({ s with d := (deltaStep ⟨vth i, cum⟩ s.d a).1 }, (deltaStep ⟨vth i, cum⟩ s.d a).2)

/-- `SigmaDelta` with `PySigmaDeltaModelFloat` (sdn/models.py:234-257). -/
def sdProc (l : Layer) : Proc SVars (Nat → ℚ) ℚ := gradedProc l.rows fun i s a => sdStep ⟨l.vth i, l.cum⟩ l.relu (l.bias i) s a

/-- `Sigma` with `PySigmaModelFloat` or `PySigmaModelFixed` (sdn/models.py:39-57, 159-175). -/
def sigmaProc (size : Nat) : Proc (Vars (SDSt R) C R) (Nat → R) R := gradedProc size fun _ s a => ({ s with sigma := a + s.sigma }, a + s.sigma)

/-- `Dense` with `PyDenseModelFloat` and `num_message_bits > 0` (dense/models.py:23-55). -/
def denseProc (l : Layer) : Proc SVars (Nat → ℚ) ℚ :=
  connProc l.rows (fun _ => 0) id (fun _ s => accumFlt l.cols true l.w s) (fun b j x => fun i => if i = j then x else b i)

/-- The processes of a network of `L` layers `lay 1, .., lay L` and the weights of a read-out `lay (L + 1)`; `lay 0` has the size, threshold and error mode of `Delta`. `data k` is column `k` of the source. -/
def chain (L : Nat) (lay : Nat → Layer) (len buf : Nat) (data : Nat → Nat → ℚ) (p : Nat) : Proc SVars (Nat → ℚ) ℚ :=
  if p = 0 then sourceProc (lay 0).rows len data
  else if p = 1 then deltaProc (lay 0).rows (lay 0).vth (lay 0).cum
  else if p < 2 * L + 3 then (if p % 2 = 0 then denseProc (lay (p / 2)) else sdProc (lay (p / 2)))
  else if p = 2 * L + 3 then sigmaProc (lay (L + 1)).rows
  else if p = 2 * L + 4 then sinkProc (lay (L + 1)).rows buf
  else noProc

end Verif.Sdnn
