import Verif.Sdnn.Fixed
import Verif.Sdnn.Example

/-!
# C121: an example

The ports of the example of C120; two inputs, two hidden neurons with ReLU, one output; exponents of spikes and states 1 and 2.
-/

namespace Verif.Sdnn

open Verif.Snn (Proc Kind platform)
open Verif.Snn.Spec (Gives)
open Verif.Pipe.Spec (train)
open Spec

def exPar : Dense.Par := { nIn := 2, graded := true, weightExp := 1, signMode := .mixed, numWeightBits := 8 }

/-- Layer 0 is the encoder, layer 1 has ReLU and biases 0 and -1, layer 2 is the read-out. Weights are even (8 bits, mixed signs), `weight_exp` is 1. -/
def exFLay (k : Nat) : FLayer :=
  if k = 0 then { rows := 2, par := exPar, w := fun _ _ => 0, bias := fun _ => 0, vth := fun _ => 2, cum := false, relu := false, spikeExp := 1, stateExp := 2 }
  else if k = 1 then
    { rows := 2, par := exPar, w := fun i j => if i = j then 6 else -2, bias := fun i => if i = 0 then 0 else -1, vth := fun _ => 1, cum := false, relu := true, spikeExp := 1, stateExp := 2 }
  else { rows := 1, par := exPar, w := fun _ j => if j = 0 then 2 else 4, bias := fun _ => 0, vth := fun _ => 0, cum := false, relu := false, spikeExp := 0, stateExp := 0 }

def exFData (k i : Nat) : Int := if k = 0 then 0 else if i = 0 then (if k < 4 then 5 else 6) else 7

theorem ex_fkind (len : Nat) (p : Nat) : (fixChain 1 exFLay len 8 exFData p).kind = exKind p := by
  rcases p with _ | _ | _ | _ | _ | _ | _ | p
  iterate 7 exact rfl
  unfold fixChain exKind
  rw [if_neg (by omega), if_neg (by omega), if_neg (by omega), if_neg (by omega), if_neg (by omega), if_neg (by omega), if_neg (by omega), if_neg (by omega)]
  rfl

/-- **C121, example.** The change of the first input in step 4 is less than the threshold of the encoder: the sink shows 304 while the network without thresholds gives 312. -/
theorem C121_example :
    Gives (platform 7 (fixChain 1 exFLay 8 8 exFData) 2 (fun p => p % 2) exPms fun _ => 1) exBuilders [.run 8, .get 6 0] [.ran, .value [0, 0, 0, 304, 304, 304, 304, 304], .stopped] ∧
    fixOutput 1 exFLay (exFData 3) 0 = 304 ∧ fixOutput 1 exFLay (exFData 5) 0 = 312 ∧ fixOutSlack 1 exFLay 0 = 216 := by
  have h := recorded_fixChain 1 exFLay 8 8 exFData 50 exCalls 2 _ _ _ _ _ _ _ _ _ (ex_deployed _ (ex_fkind 8)) (ex_chain _ (ex_fkind 8)) 8 (Nat.le_refl 8)
  have e : fixTable (exFLay (1 + 1)).rows 8 8 (train (fixChain 1 exFLay 8 8 exFData) (2 * 1 + 3)) = [0, 0, 0, 304, 304, 304, 304, 304] := by decide +kernel
  rw [e] at h
  exact ⟨h, by decide +kernel, by decide +kernel, by decide +kernel⟩

/-- The hypotheses of the theorem are met. -/
example := C121_fixed_sdn_is_ann 1 exFLay 8 8 exFData (by intro k _; unfold exFLay; rw [if_neg (by omega)]; split <;> rfl)
  (by intro k _; unfold exFLay; rw [if_neg (by omega)]; split <;> decide) (by intro i; show (0 : Int) ≤ 2; decide) 50 exCalls 2 _ _ _ _ _ _ _ _ _
  (ex_deployed _ (ex_fkind 8)) (ex_chain _ (ex_fkind 8))

end Verif.Sdnn
