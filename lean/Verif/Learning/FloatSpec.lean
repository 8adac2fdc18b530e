import Mathlib.Algebra.Order.Field.Basic
import Mathlib.Algebra.BigOperators.Group.Finset.Basic
import Mathlib.Algebra.BigOperators.Ring.Finset
import Mathlib.Algebra.BigOperators.Intervals
import Mathlib.Order.Interval.Finset.Nat

/-!
# Specification of traces and of pair-based STDP

Time steps are 1, 2, ...; `spk s` says that the neuron spikes in step `s`. Nothing here mentions the model.
-/

namespace Verif.Learning.Spec

variable {K : Type} [Field K]

/-- The epoch of a time step, from 0; it covers the steps `epochOf * T + 1 .. epochOf * T + T`. -/
def epochOf (T s : Nat) : Nat := (s - 1) / T

/-- A later spike in the same epoch. -/
def Later (T : Nat) (spk : Nat → Bool) (s : Nat) : Prop := ∃ s', s' < (epochOf T s + 1) * T + 1 ∧ s < s' ∧ spk s' = true

instance (T : Nat) (spk : Nat → Bool) (s : Nat) : Decidable (Later T spk s) := by unfold Later; infer_instance

/-- When a spike counts: the last spike of an epoch counts when it happens, earlier ones count at the start of the epoch. -/
def credit (T : Nat) (spk : Nat → Bool) (s : Nat) : Nat := if Later T spk s then epochOf T s * T else s

/-- The trace a learning rule reads at time `t`: every spike of the epochs up to the one of `t` adds `imp`, which decays by `d` in every step since it counts. -/
def trace (imp d : K) (T : Nat) (spk : Nat → Bool) (t : Nat) : K :=
  ∑ s ∈ Finset.Icc 1 ((epochOf T t + 1) * T), if spk s = true ∧ credit T spk s ≤ t then imp * d ^ (t - credit T spk s) else 0

/-- The textbook trace: every spike up to `t` adds `imp` when it happens. -/
def idealTrace (imp d : K) (spk : Nat → Bool) (t : Nat) : K :=
  ∑ s ∈ Finset.Icc 1 t, if spk s = true then imp * d ^ (t - s) else 0

/-- At most one spike in every epoch. -/
def OnePerEpoch (T : Nat) (spk : Nat → Bool) : Prop := ∀ s, 1 ≤ s → spk s = true → ¬ Later T spk s

/-- All-to-all pair-based STDP up to time `n`: every pre-synaptic spike adds `aMinus` times the post-synaptic trace, every post-synaptic spike `aPlus` times the
pre-synaptic trace. -/
def pairStdp (aMinus aPlus impX dX impY dY : K) (pre post : Nat → Bool) (n : Nat) : K :=
  ∑ t ∈ Finset.Icc 1 n, ((if pre t = true then aMinus * ∑ s ∈ Finset.Icc 1 t, (if post s = true then impY * dY ^ (t - s) else 0) else 0) +
    (if post t = true then aPlus * ∑ s ∈ Finset.Icc 1 t, (if pre s = true then impX * dX ^ (t - s) else 0) else 0))

end Verif.Learning.Spec
