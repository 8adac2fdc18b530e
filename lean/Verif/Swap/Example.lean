import Verif.Swap.Sparse
import Verif.Snn.Example

/-!
# C118: an example

The oscillator of `Verif.Snn.Example` with `Sparse` connections, and a pair of delay connections.
-/

namespace Verif.Swap

open Verif.PortGraph (G run)
open Verif.Snn (platform exCalls exBuilders exPms exOwn exName exOuts exG exData)
open Verif.Snn.Spec (Gives Arrangement recorded)
open Verif.SpikeNet (Net Conn osc oscSize fixSpike)
open Verif.VarAccess (Csr)
open Verif.Sparse (valAt)
open Spec

/-- One stored entry per connection. -/
def exCsr (c : Nat) : Csr := ⟨[((0, 0), if c = 0 then 20 else -20)]⟩

/-- No sign mode is given: it is determined from the weights. -/
def exPar (_ : Nat) : Sparse.Par := ⟨1, 1, false, 0, none, 8⟩

/-- The oscillator of `Verif.SpikeNet.Props` with weights that are zero outside of the shape. -/
def exNet : Net := { lif := osc.lif, vth := osc.vth, conns := (List.range 2).map fun c => ⟨c, 1 - c, (exPar c).dense (valAt (exCsr c)), valAt (exCsr c), fun _ _ => 0⟩ }

theorem ex_weights : SameWeights exNet exPar exCsr := by
  intro c k h
  have hc : c < 2 := (List.getElem?_eq_some_iff.1 h).1
  obtain ⟨_, h⟩ := List.getElem?_eq_some_iff.1 h
  have h : (⟨c, 1 - c, (exPar c).dense (valAt (exCsr c)), valAt (exCsr c), fun _ _ => 0⟩ : Conn) = k := by
    rw [← h]
    simp [exNet]
  rw [← h]
  exact ⟨rfl, rfl, ⟨by simp [exCsr, VarAccess.Csr.pattern], by simp [exCsr, exPar], by simp [exCsr, exPar]⟩, Nat.one_pos, Nat.one_pos⟩

/-- Only the ends of the connections matter. -/
theorem ex_arranged : Arrangement exG exOwn exName 2 exNet.conns where
  pops := by
    intro q hq p
    refine (Snn.ex_arrangement.pops q hq p).trans (or_congr Iff.rfl ?_)
    constructor
    · rintro ⟨c, hc, h1, h2⟩
      have hc : c < 2 := hc
      interval_cases c
      · exact ⟨0, by decide, h1, h2⟩
      · exact ⟨1, by decide, h1, h2⟩
    · rintro ⟨c, hc, h1, h2⟩
      have hc : c < 2 := hc
      interval_cases c
      · exact ⟨0, by decide, h1, h2⟩
      · exact ⟨1, by decide, h1, h2⟩
  links := by
    intro c hc
    have hc : c < 2 := hc
    interval_cases c
    · exact Snn.ex_arrangement.links 0 (by decide)
    · exact Snn.ex_arrangement.links 1 (by decide)
  sinks := Snn.ex_arrangement.sinks

theorem ex_kind (p : Nat) : (sparseProcs exNet 2 oscSize 1 6 exData exPar exCsr p).kind = Snn.exKind p := by
  rcases p with _ | _ | _ | _ | _ | _ | _ | _ | p
  iterate 8 exact rfl
  unfold sparseProcs anyProcs Snn.arranged Snn.exKind
  rw [show exNet.conns.length = 2 from rfl]
  rw [if_neg (by omega), if_neg (by omega), if_neg (by omega), if_neg (by omega), if_neg (by omega), if_neg (by omega), if_neg (by omega), if_neg (by omega)]
  try rfl

/-- **C118, example.** The oscillator with `Sparse` connections shows the spikes that `C115_example` shows for `Dense` ones. -/
theorem C118_example :
    Gives (platform 8 (sparseProcs exNet 2 oscSize 1 6 exData exPar exCsr) 2 (fun p => p % 2) exPms fun _ => 1) exBuilders [.run 6, .get 6 0] [.ran, .value [1, 1, 0, 0, 1, 1], .stopped] ∧
    Gives (platform 8 (sparseProcs exNet 2 oscSize 1 6 exData exPar exCsr) 2 (fun p => p % 2) exPms fun _ => 1) exBuilders [.run 6, .get 7 0] [.ran, .value [0, 1, 1, 0, 0, 1], .stopped] := by
  have f0 := C118_recorded_sparse exNet 2 oscSize 1 6 exData exPar exCsr ex_weights 50 exCalls 2 _ _ _ _ _ _ _ _ _ (Snn.ex_deployed _ ex_kind) ex_arranged 6 (le_refl 6) 0 (by decide)
  have f1 := C118_recorded_sparse exNet 2 oscSize 1 6 exData exPar exCsr ex_weights 50 exCalls 2 _ _ _ _ _ _ _ _ _ (Snn.ex_deployed _ ex_kind) ex_arranged 6 (le_refl 6) 1 (by decide)
  have e0 : (recorded (oscSize 0) 6 6 fun t i => fixSpike exNet (Snn.extOf 1 exData) t 0 i : List Int) = [1, 1, 0, 0, 1, 1] := by decide +kernel
  have e1 : (recorded (oscSize 1) 6 6 fun t i => fixSpike exNet (Snn.extOf 1 exData) t 1 i : List Int) = [0, 1, 1, 0, 0, 1] := by decide +kernel
  rw [e0] at f0
  rw [e1] at f1
  exact ⟨f0, f1⟩

/-- **C118, example.** Two inputs, one of them with a delay of two steps; a delay may be stored where there is no weight. An input to both in step 0 arrives in steps 1 and 3. -/
def exDelay : Sparse.DelayPar := ⟨1, 2, 2, 0, ⟨[((0, 0), 5), ((0, 1), -3)]⟩, ⟨[((0, 1), 2)]⟩⟩

theorem C118_delay_example :
    SameTrains (delayDenseC (N := LIF.Obj) exDelay.dense) (delaySparseC exDelay) ∧
    (List.range 5).map (fun t => (sentAt (delaySparseC (N := LIF.Obj) exDelay) (fun t _ => if t = 0 then 1 else 0) t).map fun v => v 0) = [some 0, some 5, some 0, some (-3), some 0] :=
  ⟨(C118_delay_sparse_for_delay_dense exDelay ⟨⟨by decide, by simp [exDelay], by simp [exDelay]⟩, ⟨by decide, by simp [exDelay], by simp [exDelay]⟩, by simp [exDelay]⟩ (.inl (by decide))).1, by decide +kernel⟩

end Verif.Swap
