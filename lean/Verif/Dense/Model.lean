import Verif.Weights.Model
import Mathlib.Algebra.BigOperators.Group.Finset.Basic
import Mathlib.Algebra.BigOperators.Ring.Finset

/-!
# Model of the Dense, Sparse and delay connections

`src/lava/proc/dense/models.py`, `src/lava/proc/sparse/models.py`. Accumulation is over unbounded integers. A weight matrix
is a function of (output, input) with `nIn` inputs. Sparse connections differ only in the storage of the matrix and share
this model.
-/

namespace Verif.Dense

open Verif.Weights

abbrev Mat := Nat → Nat → Int
abbrev Vec := Nat → Int

/-- `weights.dot(s_in)` (dense/models.py:98-99) for graded spikes (`num_message_bits > 0`), else the sum of the columns of
the inputs that spiked (dense/models.py:101-102). -/
def accum (nIn : Nat) (graded : Bool) (w : Mat) (s : Vec) : Vec := fun i =>
  if graded then ∑ j ∈ Finset.range nIn, w i j * s j
  else ∑ j ∈ (Finset.range nIn).filter (fun j => s j ≠ 0), w i j

/-- `np.left_shift(a, exp) if exp > 0 else np.right_shift(a, -exp)` (dense/models.py:103-107). -/
def shiftExp (e : Int) (a : Int) : Int := if e > 0 then a * 2 ^ e.toNat else a / 2 ^ (-e).toNat

structure Par where
  nIn : Nat
  graded : Bool
  weightExp : Int
  signMode : SignMode
  numWeightBits : Int

structure St where
  weights : Mat
  weightsSet : Bool
  aBuff : Vec

/-- The weights used for inference: clipped to 8 bits, then truncated (dense/models.py:87-90). -/
def prepared (p : Par) (w : Mat) : Mat := fun i j =>
  truncWeight (clipWeight (w i j) p.signMode 8 false) p.signMode p.numWeightBits 8

/-- `AbstractPyDenseModelBitAcc.run_spk` (dense/models.py:77-107), sparse/models.py:77-107: the new state and what is sent.
The sign mode is the one given or derived from the weights at this point. -/
def runSpk (p : Par) (st : St) (s : Vec) : St × Vec :=
  let w := if st.weightsSet then st.weights else prepared p st.weights
  ({ weights := w, weightsSet := true, aBuff := fun i => shiftExp p.weightExp (accum p.nIn p.graded w s i) }, st.aBuff)

/-- Initial state: the buffer variable is initialised to zero (dense/process.py). -/
def init (w : Mat) : St := { weights := w, weightsSet := false, aBuff := fun _ => 0 }

/-- State before step `t` (0-based) on the spike train `s`. -/
def stateAt (p : Par) (st : St) (s : Nat → Vec) : Nat → St
  | 0 => st
  | t + 1 => (runSpk p (stateAt p st s t) (s t)).1

/-- What is sent in step `t`. -/
def sentAt (p : Par) (st : St) (s : Nat → Vec) (t : Nat) : Vec := (runSpk p (stateAt p st s t) (s t)).2

/-- `AbstractPyDenseModelFloat.run_spk` (dense/models.py:37-47), over exact numbers: no preparation, no shift. -/
def runSpkFloat (nIn : Nat) (graded : Bool) (w : Mat) (_buf : Vec) (s : Vec) : Vec := accum nIn graded w s

/-! ## Delays -/

/-- `a_buff` of shape (n, D), stored flat in C order. -/
abbrev Flat := Nat → Int

/-- `self.a_buff[:, 0] = 0` (dense/models.py:252, 346). -/
def zeroCol (d : Nat) (b : Flat) : Flat := fun f => if f % d = 0 then 0 else b f

/-- `np.roll(a_buff, -1)` without axis: a roll of the flattened array (dense/models.py:253, 347). -/
def rollFlat (n d : Nat) (b : Flat) : Flat := fun f => b ((f + 1) % (n * d))

/-- Entry `r` of `np.sum(get_delay_wgts_mat(..) * s_in, axis=1)` (dense/models.py:214-217, 238-241): row `r` of the stacked
matrix is row `r % n` of the weights with delay `r / n`. -/
def stackedAct (nIn n : Nat) (w : Mat) (dl : Nat → Nat → Nat) (s : Vec) (r : Nat) : Int :=
  ∑ j ∈ Finset.range nIn, (if dl (r % n) j = r / n then w (r % n) j else 0) * s j

/-- `calc_act` (dense/models.py:202-218): reshaped to (D, n) and transposed, so entry (i, k) is entry `k * n + i`. -/
def calcAct (nIn n : Nat) (w : Mat) (dl : Nat → Nat → Nat) (s : Vec) (i k : Nat) : Int :=
  stackedAct nIn n w dl s (k * n + i)

structure DelayPar where
  nIn : Nat
  n : Nat
  /-- `max_delay + 1` -/
  d : Nat
  w : Mat
  dl : Nat → Nat → Nat
  exp : Int

/-- `PyDelayDenseModelBitAcc.run_spk` (dense/models.py:314-352), sparse/models.py:334-372: the new buffer; the column 0 of the
old buffer is sent. Binary spikes are 0/1 vectors. -/
def delayStep (p : DelayPar) (b : Flat) (s : Vec) : Flat := fun f =>
  rollFlat p.n p.d (zeroCol p.d b) f + shiftExp p.exp (calcAct p.nIn p.n p.w p.dl s (f / p.d) (f % p.d))

def delayBuf (p : DelayPar) (s : Nat → Vec) : Nat → Flat
  | 0 => fun _ => 0
  | t + 1 => delayStep p (delayBuf p s t) (s t)

/-- `self.a_out.send(self.a_buff[:, 0])` in step `t` (dense/models.py:282, 339). -/
def delaySent (p : DelayPar) (s : Nat → Vec) (t i : Nat) : Int := delayBuf p s t (i * p.d)

end Verif.Dense
