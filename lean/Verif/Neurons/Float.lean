import Verif.Neurons.Model
import Mathlib.Data.Complex.Basic
import Mathlib.Data.Real.Sqrt
import Mathlib.Analysis.Complex.Norm

/-!
# Model of the floating-point neurons

`src/lava/proc/lif/models.py:20-70, 219-237`, `src/lava/proc/atrlif/models.py:20-87`, `src/lava/proc/rf/models.py:15-88` and
`src/lava/proc/rf_iz/models.py:13-31`. The code is elementwise, so one neuron is modelled; floating-point numbers are modelled as
rationals (LIF, ATRLIF) and real numbers (RF, RF_IZ).
-/

namespace Verif.Neurons

/-! ### LIF -/

structure FLPar where
  du : ℚ
  dv : ℚ
  bias : ℚ
  vth : ℚ

structure FLSt where
  u : ℚ
  v : ℚ

/-- `AbstractPyLifModelFloat.subthr_dynamics` (lif/models.py:45-51). -/
def flSub (p : FLPar) (s : FLSt) (a : ℚ) : FLSt :=
  let u := s.u * (1 - p.du) + a
  { u := u, v := s.v * (1 - p.dv) + u + p.bias }

/-- `run_spk` of `PyLifModelFloat` (lif/models.py:53-69, 235-237): spike if the voltage exceeds the threshold, which resets it. -/
def flStep (p : FLPar) (s : FLSt) (a : ℚ) : FLSt × Bool :=
  let n := flSub p s a
  let spk := decide (n.v > p.vth)
  ({ n with v := if spk then 0 else n.v }, spk)

/-! ### ATRLIF -/

structure FAPar where
  di : ℚ
  dv : ℚ
  dth : ℚ
  dr : ℚ
  th0 : ℚ
  thStep : ℚ
  bias : ℚ

structure FASt where
  i : ℚ
  v : ℚ
  th : ℚ
  r : ℚ

/-- `PyATRLIFModelFloat.subthr_dynamics` (atrlif/models.py:47-59). -/
def faSub (p : FAPar) (s : FASt) (a : ℚ) : FASt :=
  let i := (1 - p.di) * s.i + a
  { i := i
    v := (1 - p.dv) * s.v + i + p.bias
    th := (1 - p.dth) * (s.th - p.th0) + p.th0
    r := (1 - p.dr) * s.r }

/-- `PyATRLIFModelFloat.run_spk` with `post_spike` (atrlif/models.py:61-86). -/
def faStep (p : FAPar) (s : FASt) (a : ℚ) : FASt × Bool :=
  let n := faSub p s a
  if n.v - n.r ≥ n.th then ({ n with r := n.r + 2 * n.th, th := n.th + p.thStep }, true) else (n, false)

/-! ### RF and RF_IZ -/

structure FRPar where
  sin : ℝ
  cos : ℝ
  vth : ℝ

/-- `resonator_dynamics` (rf/models.py:31-59) without scaling: the real and the imaginary voltage as one complex number. -/
noncomputable def frDyn (p : FRPar) (z : ℂ) (a b : ℝ) : ℂ :=
  ⟨p.cos * z.re - p.sin * z.im + a, p.sin * z.re + p.cos * z.im + b⟩

/-- `PyRFModelFloat.run_spk` (rf/models.py:76-87). -/
noncomputable def frStep (p : FRPar) (z : ℂ) (a b : ℝ) : ℂ × Bool :=
  let n := frDyn p z a b
  (n, decide (n.re ≥ p.vth) && decide (n.im ≥ 0) && decide (z.im < 0))

/-- `PyRF_IZModelFloat.run_spk` (rf_iz/models.py:18-31). -/
noncomputable def frIzStep (p : FRPar) (z : ℂ) (a b : ℝ) : ℂ × Bool :=
  let n := frDyn p z a b
  if n.im ≥ p.vth then (⟨0, p.vth - 1 / 100000⟩, true) else (n, false)

/-! ### Runs -/

/-- The states after each step and the outputs of a run. -/
def runTr {σ ι o : Type} (step : σ → ι → σ × o) : σ → List ι → List (σ × o)
  | _, [] => []
  | s, x :: xs => step s x :: runTr step (step s x).1 xs

end Verif.Neurons
