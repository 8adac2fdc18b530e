import Verif.Dense.Model
import Verif.VarAccess.Model

/-!
# Model of the Sparse connections on their stored entries

`src/lava/proc/sparse/models.py`, `src/lava/proc/sparse/process.py`, the sparse branches of
`src/lava/utils/weightutils.py` and of `_apply_learning_rules` (`src/lava/magma/core/model/py/connection.py`).

A csr matrix is the list of its stored entries (`VarAccess.Csr`); it may store zeros. Values are unbounded integers. The
operations of scipy are modelled by their documented meaning on stored entries: `dot`, column selection, `sum(axis=1)`,
`min`/`max` (which include the zeros that are not stored), `eliminate_zeros`, `vstack`, `multiply`, item assignment.
-/

namespace Verif.Sparse

open Verif.Weights
open Verif.VarAccess (Csr)
open Verif.Dense (Vec shiftExp zeroCol rollFlat)

/-- `weights.dot(s_in)` (sparse/models.py:44, 99): row `i` collects the products of its stored entries. -/
def dot (c : Csr) (s : Vec) : Vec := fun i =>
  ((c.entries.filter fun e => decide (e.1.1 = i)).map fun e => e.2 * s e.1.2).sum

/-- `weights[:, s_in].sum(axis=1).A1` with a boolean mask `s_in` (sparse/models.py:46-48, 101-102): the stored entries of
row `i` in the selected columns. -/
def colSum (c : Csr) (s : Vec) : Vec := fun i =>
  (((c.entries.filter fun e => decide (s e.1.2 ≠ 0)).filter fun e => decide (e.1.1 = i)).map fun e => e.2).sum

/-- The accumulation of one step (sparse/models.py:42-48, 97-102). -/
def accum (graded : Bool) (c : Csr) (s : Vec) : Vec := if graded then dot c s else colSum c s

/-- `np.min(weights)` of a csr matrix of shape (n, nIn): the zeros that are not stored count. -/
def csrMin (n nIn : Nat) (c : Csr) : Int :=
  if c.entries.length = 0 then 0
  else if c.entries.length ≠ n * nIn then min 0 (minL (c.entries.map (·.2))) else minL (c.entries.map (·.2))

/-- `np.max(weights)` of a csr matrix. -/
def csrMax (n nIn : Nat) (c : Csr) : Int :=
  if c.entries.length = 0 then 0
  else if c.entries.length ≠ n * nIn then max 0 (maxL (c.entries.map (·.2))) else maxL (c.entries.map (·.2))

/-- `determine_sign_mode` (weightutils.py:21-43) on a csr matrix. -/
def signModeOf (n nIn : Nat) (c : Csr) : SignMode :=
  if csrMin n nIn c ≥ 0 then .excitatory else if csrMax n nIn c ≤ 0 then .inhibitory else .mixed

/-- The data of a csr matrix transformed elementwise. -/
def mapData (f : Int → Int) (c : Csr) : Csr := { entries := c.entries.map fun e => (e.1, f e.2) }

/-- `eliminate_zeros()`. -/
def elimZeros (c : Csr) : Csr := { entries := c.entries.filter fun e => decide (e.2 ≠ 0) }

/-- `clip_weights` (weightutils.py:250-295), sparse branch, 8 bits, no learning: the entries above the maximum, then those
below the minimum, are overwritten; entries stay stored. -/
def clipCsr (m : SignMode) (c : Csr) : Csr :=
  let neg := if m = .inhibitory then mapData (fun x => -x) c else c
  let hi := mapData (fun x => if x > 2 ^ 8 - 1 then 2 ^ 8 - 1 else x) neg
  let lo := mapData (fun x => if x < (-2 ^ 8) * (mixedFlag m : Int) then (-2 ^ 8) * (mixedFlag m : Int) else x) hi
  if m = .inhibitory then mapData (fun x => -x) lo else lo

/-- `truncate_weights` (weightutils.py:204-247), sparse branch, maximum of 8 bits. -/
def truncCsr (m : SignMode) (bits : Int) (c : Csr) : Csr :=
  let neg := if m = .inhibitory then mapData (fun x => -x) c else c
  let tr := elimZeros (mapData (fun x => shl (shr x (8 - bits + mixedFlag m)) (8 - bits + mixedFlag m)) neg)
  if m = .inhibitory then mapData (fun x => -x) tr else tr

structure Par where
  n : Nat
  nIn : Nat
  graded : Bool
  weightExp : Int
  /-- `proc_params.get("sign_mode")`; all members of the enumeration are true as conditions -/
  signMode : Option SignMode
  numWeightBits : Int

/-- `self.proc_params.get("sign_mode") or determine_sign_mode(self.weights)` (sparse/models.py:84-85). -/
def Par.mode (p : Par) (c : Csr) : SignMode :=
  match p.signMode with
  | some m => m
  | none => signModeOf p.n p.nIn c

structure St where
  weights : Csr
  weightsSet : Bool
  aBuff : Vec

/-- The weights after the first step (sparse/models.py:82-91). -/
def prepared (p : Par) (c : Csr) : Csr := truncCsr (p.mode c) p.numWeightBits (clipCsr (p.mode c) c)

/-- `AbstractPySparseModelBitAcc.run_spk` (sparse/models.py:77-107): the new state and what is sent. -/
def runSpk (p : Par) (st : St) (s : Vec) : St × Vec :=
  let w := if st.weightsSet then st.weights else prepared p st.weights
  ({ weights := w, weightsSet := true, aBuff := fun i => shiftExp p.weightExp (accum p.graded w s i) }, st.aBuff)

/-- Initial state: `weights` is the given matrix (py_builder.py:406-411), `a_buff` is 0 (sparse/process.py:79-81). -/
def init (c : Csr) : St := { weights := c, weightsSet := false, aBuff := fun _ => 0 }

def stateAt (p : Par) (c : Csr) (s : Nat → Vec) : Nat → St
  | 0 => init c
  | t + 1 => (runSpk p (stateAt p c s t) (s t)).1

/-- What is sent in step `t` (0-based). -/
def sentAt (p : Par) (c : Csr) (s : Nat → Vec) (t : Nat) : Vec := (runSpk p (stateAt p c s t) (s t)).2

/-- `AbstractPySparseModelFloat.run_spk` (sparse/models.py:37-48): what is sent in step `t`, exact numbers. -/
def sentFloat (graded : Bool) (c : Csr) (s : Nat → Vec) : Nat → Vec
  | 0 => fun _ => 0
  | t + 1 => accum graded c (s t)

/-! ## Delays -/

/-- The value of a csr matrix at a position. -/
def valAt (c : Csr) (i j : Nat) : Int := ((c.entries.filter fun e => decide (e.1 = (i, j))).map (·.2)).sum

/-- `weights.multiply(delays == k)` (sparse/models.py:254-255). -/
def multEq (w d : Csr) (k : Nat) : Csr :=
  { entries := w.entries.map fun e => (e.1, if valAt d e.1.1 e.1.2 = (k : Int) then e.2 else 0) }

/-- `weight_delay_zeros` (sparse/models.py:257-260): the entries at the positions of nonzero delays are set to 0, then
eliminated with all other stored zeros. -/
def zeroPart (w d : Csr) : Csr :=
  elimZeros { entries := w.entries.map fun e => (e.1, if e.1 ∈ d.findNz.map (·.1) then 0 else e.2) }

/-- `vstack` of blocks of `n` rows, the first block starting at row `r`. -/
def vstack (n : Nat) : Nat → List Csr → List ((Nat × Nat) × Int)
  | _, [] => []
  | r, b :: bs => (b.entries.map fun e => ((r + e.1.1, e.1.2), e.2)) ++ vstack n (r + n) bs

/-- `get_delay_wgts_mat` (sparse/models.py:232-261). -/
def delayMat (n : Nat) (w d : Csr) (maxDelay : Nat) : Csr :=
  if maxDelay = 0 then w
  else { entries := vstack n 0 (zeroPart w d :: (List.range maxDelay).map fun k => multEq w d (k + 1)) }

/-- `calc_act` (sparse/models.py:215-230): entry (i, k). -/
def calcAct (n : Nat) (w d : Csr) (maxDelay : Nat) (s : Vec) (i k : Nat) : Int := dot (delayMat n w d maxDelay) s (k * n + i)

structure DelayPar where
  n : Nat
  nIn : Nat
  maxDelay : Nat
  exp : Int
  /-- the weights as used, after preparation -/
  w : Csr
  d : Csr

/-- `PyDelaySparseModelBitAcc.run_spk` (sparse/models.py:334-372): the new buffer. Column 0 of the old one is sent. -/
def delayStep (p : DelayPar) (b : Dense.Flat) (s : Vec) : Dense.Flat := fun f =>
  rollFlat p.n (p.maxDelay + 1) (zeroCol (p.maxDelay + 1) b) f +
    shiftExp p.exp (calcAct p.n p.w p.d p.maxDelay s (f / (p.maxDelay + 1)) (f % (p.maxDelay + 1)))

def delayBuf (p : DelayPar) (s : Nat → Vec) : Nat → Dense.Flat
  | 0 => fun _ => 0
  | t + 1 => delayStep p (delayBuf p s t) (s t)

/-- What is sent in step `t` (sparse/models.py:359). -/
def delaySent (p : DelayPar) (s : Nat → Vec) (t i : Nat) : Int := delayBuf p s t (i * (p.maxDelay + 1))

/-! ## Learning -/

/-- One application of a learning rule to a csr variable (connection.py:948-953, 1460-1464): the rule is evaluated at the
stored positions only. `upd` is the new value of one synapse from its old value; it stands for the evaluation of the rule, the
rounding and the saturation, which are elementwise (a rule without synaptic factors, mixed signs). -/
def learnCsr (upd : Nat × Nat → Int → Int) (c : Csr) : Csr := { entries := c.entries.map fun e => (e.1, upd e.1 e.2) }

/-- The same rule on an array (connection.py:954-956, 1465-1466). -/
def learnArr (upd : Nat × Nat → Int → Int) (w : Dense.Mat) : Dense.Mat := fun i j => upd (i, j) (w i j)

/-- The variable after `t` applications. -/
def learnedCsr (upd : Nat → Nat × Nat → Int → Int) (c : Csr) : Nat → Csr
  | 0 => c
  | t + 1 => learnCsr (upd t) (learnedCsr upd c t)

def learnedArr (upd : Nat → Nat × Nat → Int → Int) (w : Dense.Mat) : Nat → Dense.Mat
  | 0 => w
  | t + 1 => learnArr (upd t) (learnedArr upd w t)

end Verif.Sparse
