import Verif.Sdnn.Model
import Mathlib.Algebra.BigOperators.Group.Finset.Basic

/-!
# Reference: the artificial neural network
-/

namespace Verif.Sdnn.Spec

/-- Output of neuron `i` of layer `k` of the network for the input `x`: weighted sum, bias, and possibly ReLU. -/
def forward (lay : Nat → Layer) (x : Nat → ℚ) : Nat → Nat → ℚ
  | 0, i => x i
  | k + 1, i =>
    let z := (∑ j ∈ Finset.range (lay (k + 1)).cols, (lay (k + 1)).w i j * forward lay x k j) + (lay (k + 1)).bias i
    if (lay (k + 1)).relu then max z 0 else z

/-- Output `i` of the read-out. -/
def output (L : Nat) (lay : Nat → Layer) (x : Nat → ℚ) (i : Nat) : ℚ := ∑ j ∈ Finset.range (lay (L + 1)).cols, (lay (L + 1)).w i j * forward lay x L j

/-- What neuron `i` of a layer may keep back: its threshold, twice its threshold if errors are accumulated. -/
def keeps (l : Layer) (i : Nat) : ℚ := if l.cum then 2 * l.vth i else l.vth i

/-- Error of layer `k`: what its neurons keep back, and the errors of the layer before it multiplied by the weights. -/
def slack (lay : Nat → Layer) : Nat → Nat → ℚ
  | 0, i => keeps (lay 0) i
  | k + 1, i => (∑ j ∈ Finset.range (lay (k + 1)).cols, |(lay (k + 1)).w i j| * slack lay k j) + keeps (lay (k + 1)) i

/-- Error of the read-out. -/
def outSlack (L : Nat) (lay : Nat → Layer) (i : Nat) : ℚ := ∑ j ∈ Finset.range (lay (L + 1)).cols, |(lay (L + 1)).w i j| * slack lay L j

/-- Contents of a ring buffer of `rows` rows and `buf` columns in C order if `v t i` has been received in step `t`, after `T ≤ buf` steps. -/
def table (rows buf T : Nat) (v : Nat → Nat → ℚ) : List ℚ := (List.range (rows * buf)).map fun j => if j % buf < T then v (j % buf) (j / buf) else 0

end Verif.Sdnn.Spec
