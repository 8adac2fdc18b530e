import Verif.LIF.Model

/-
Models of the remaining neuron processes, one element of their arrays (all operations are
elementwise): `proc/rf/models.py`, `proc/rf_iz/models.py`, `proc/atrlif/models.py`,
`proc/graded/models.py` (without InvSqrt), `proc/prodneuron/models.py`, `proc/resfire/models.py`
(paths under `src/lava`).
-/

namespace Verif.Neurons

open Verif.LIF (clip wrapCurr shrMag effBias)

/-! ### Resonate and fire, fixed point -/

/-- `scale_volt` of the fixed-point models: shift of the magnitude (rf/models.py:113-115). -/
def scaleVolt (bits : Nat) (x : Int) : Int := x.sign * ((x.natAbs / 2 ^ bits : Nat) : Int)

/-- Parameters of an RF or RF_IZ neuron. `sin` and `cos` are the scaled decay factors. -/
structure RFPar where
  sin : Int
  cos : Int
  bits : Nat
  exp : Nat
  vth : Int
deriving DecidableEq, Repr

structure RFSt where
  re : Int
  im : Int
deriving DecidableEq, Repr

/-- `resonator_dynamics` (rf/models.py:31-59); products are in int64, where factors of at most 16
bits cannot overflow. `a` and `b` are the shifted inputs. -/
def resonate (p : RFPar) (s : RFSt) (a b : Int) : Int × Int :=
  (scaleVolt p.bits (p.cos * s.re) - scaleVolt p.bits (p.sin * s.im) + a,
   scaleVolt p.bits (p.sin * s.re) + scaleVolt p.bits (p.cos * s.im) + b)

/-- The limits set in `__init__` (rf/models.py:104-111): 24 bits. -/
def lim : Int := 2 ^ 23 - 1

/-- `PyRFModelFixed.run_spk` (rf/models.py:127-145). The output is `(new_real >= vth) *
(new_imag >= 0) * (imag < 0)`. -/
def rfStep (p : RFPar) (s : RFSt) (a b : Int) : RFSt × Bool :=
  let n := resonate p s (a * 2 ^ p.exp) (b * 2 ^ p.exp)
  let re := clip (-lim) lim n.1
  let im := clip (-lim) lim n.2
  (⟨re, im⟩, decide (re ≥ p.vth) && decide (im ≥ 0) && decide (s.im < 0))

/-- `PyRF_IZModelFixed.run_spk` (rf_iz/models.py:37-58). -/
def rfIzStep (p : RFPar) (s : RFSt) (a b : Int) : RFSt × Bool :=
  let n := resonate p s (a * 2 ^ p.exp) (b * 2 ^ p.exp)
  let re := clip (-lim) lim n.1
  let im := clip (-lim) lim n.2
  let o : Int := if im ≥ p.vth then 1 else 0
  (⟨re * (1 - o), o * (p.vth - 1) + (1 - o) * im⟩, decide (im ≥ p.vth))

/-- A run over a list of inputs; the list of outputs. -/
def runRF (step : RFSt → Int → Int → RFSt × Bool) : RFSt → List (Int × Int) → RFSt × List Bool
  | s, [] => (s, [])
  | s, x :: xs =>
    let r := step s x.1 x.2
    let q := runRF step r.1 xs
    (q.1, r.2 :: q.2)

/-! ### ATRLIF, fixed point -/

/-- Two's complement int32. -/
def i32 (x : Int) : Int := (x + 2 ^ 31) % 2 ^ 32 - 2 ^ 31

/-- Parameters; decays are the multiples of 1/4096 in `delta * decay_unity`.  `intDeltaI` tells
whether `delta_i` was given as a Python integer, in which case the product with the current is an
int32 product (atrlif/models.py:144-149); with a float it is exact. -/
structure APar where
  di : Int
  dv : Int
  dth : Int
  dr : Int
  intDeltaI : Bool
  th0 : Int
  thStep : Int
  biasMant : Int
  biasExp : Int
deriving DecidableEq, Repr

/-- The state after `scale_threshold`: `theta_0`, `theta_step` are already multiplied by 64. -/
structure ASt where
  i : Int
  v : Int
  th : Int
  r : Int
deriving DecidableEq, Repr

/-- `scale_threshold` (atrlif/models.py:222-232): done once before the first step; the initial value
of `theta` is replaced by `theta_0`. -/
def scaleThr (p : APar) (s : ASt) : APar × ASt :=
  ({ p with
     th0 := p.th0 * 64
     thStep := p.thStep * 64 }, { s with th := p.th0 * 64 })

/-- Current (atrlif/models.py:141-171): `ds_offset = 1`. -/
def aCurrent (p : APar) (i a : Int) : Int :=
  let prod := i * (4096 - (p.di + 1))
  wrapCurr (shrMag (if p.intDeltaI then i32 prod else prod) + a * 64)

/-- `subthr_dynamics` (atrlif/models.py:133-206). -/
def aSub (p : APar) (s : ASt) (a : Int) : ASt :=
  let i := aCurrent p s.i a
  { i := i
    v := clip (-lim) lim (shrMag (s.v * (4096 - p.dv)) + i + effBias p.biasMant p.biasExp)
    th := shrMag ((s.th - p.th0) * (4096 - p.dth)) + p.th0
    r := shrMag (s.r * (4096 - p.dr)) }

/-- One step after `scale_threshold`: spike condition (atrlif/models.py:265), `post_spike`
(atrlif/models.py:234-245). -/
def aStep (p : APar) (s : ASt) (a : Int) : ASt × Bool :=
  let s' := aSub p s a
  if s'.v - s'.r ≥ s'.th then
    ({ s' with
       r := s'.r + 2 * s'.th
       th := s'.th + p.thStep }, true)
  else (s', false)

def aRun (p : APar) : ASt → List Int → ASt × List Bool
  | s, [] => (s, [])
  | s, a :: as =>
    let r := aStep p s a
    let q := aRun p r.1 as
    (q.1, r.2 :: q.2)

/-- A run of the process: `scale_threshold` in the first step (atrlif/models.py:258-261). -/
def atrlif (p : APar) (s : ASt) (as : List Int) : ASt × List Bool :=
  match as with
  | [] => (s, [])
  | _ => aRun (scaleThr p s).1 (scaleThr p s).2 as

/-! ### Graded vectors -/

/-- `AbstractGradedVecModel.run_spk` (graded/models.py:27-40): new `v` and output. -/
def gradedStep (vth v a : Int) : Int × Int :=
  let v := v + a
  (0, v * (if (v.natAbs : Int) > vth then 1 else 0))

/-- `AbstractGradedReluVecModel.run_spk` (graded/models.py:64-77). -/
def reluStep (vth v a : Int) : Int × Int :=
  let v := v + a
  (0, v * (if v > vth then 1 else 0))

/-- `PyProdNeuronModelFixed.run_spk` (prodneuron/models.py:28-38); `>>` rounds towards −∞. The Var
`v` is not touched. -/
def prodStep (vth : Int) (exp : Nat) (a b : Int) : Int :=
  let v := (a * b) / 2 ^ exp
  v * (if (v.natAbs : Int) > vth then 1 else 0)

/-- State of NormVecDelay. -/
structure NSt where
  v : Int
  v2 : Int
deriving DecidableEq, Repr

/-- `NormVecDelayModel.run_spk` (graded/models.py:109-128): outputs `s_out`, `s2_out`. -/
def normStep (vth : Int) (s : NSt) (a b : Int) : NSt × Int × Int :=
  let out := s.v * b
  (⟨a, s.v⟩, out * (if (out.natAbs : Int) > vth then 1 else 0), a * a)

def runOut {σ ι o : Type} (step : σ → ι → σ × o) : σ → List ι → List o
  | _, [] => []
  | s, x :: xs => (step s x).2 :: runOut step (step s x).1 xs

/-! ### RFZero -/

/-- `PyRFZeroModelFixed.run_spk` (resfire/models.py:34-49), int32 products and sums, floor division.
`w` is the wrap applied to every arithmetic result: `i32` in the code, the identity in the
mathematical dynamics. -/
def rfzStep (w : Int → Int) (lst lct uth : Int) (s : Int × Int) (a b : Int) : (Int × Int) × Int :=
  let u' := w (w (w (s.1 * lct) / 2 ^ 15 - w (s.2 * lst) / 2 ^ 15) + a)
  let v' := w (w (w (s.2 * lct) / 2 ^ 15 + w (s.1 * lst) / 2 ^ 15) + b)
  ((u', v'), u' * (if u' > uth ∧ v' ≥ 0 ∧ s.2 < 0 then 1 else 0))

def rfzRun (w : Int → Int) (lst lct uth : Int) : (Int × Int) → List (Int × Int) → (Int × Int) × List Int
  | s, [] => (s, [])
  | s, x :: xs =>
    let r := rfzStep w lst lct uth s x.1 x.2
    let q := rfzRun w lst lct uth r.1 xs
    (q.1, r.2 :: q.2)

end Verif.Neurons
