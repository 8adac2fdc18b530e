import Mathlib.Data.List.Basic

/-!
# Model of the weight utilities

`src/lava/utils/weightutils.py`. Matrices are flattened, nonempty lists of integers; clipping and truncation are elementwise
and modelled for one weight. `np.log2` is taken to be exact (see `floorLog2`); sparse matrices are not distinguished.
-/

namespace Verif.Weights

/-- `SignMode` (weightutils.py:12-18). -/
inductive SignMode where
  | null | mixed | excitatory | inhibitory
deriving DecidableEq, Repr

def maxL : List Int → Int
  | [] => 0
  | a :: l => l.foldl max a

def minL : List Int → Int
  | [] => 0
  | a :: l => l.foldl min a

/-- `determine_sign_mode` (weightutils.py:21-43). -/
def determineSignMode (ws : List Int) : SignMode :=
  if minL ws ≥ 0 then .excitatory else if maxL ws ≤ 0 then .inhibitory else .mixed

def mixedFlag (m : SignMode) : Nat := if m = .mixed then 1 else 0
def excFlag (m : SignMode) : Nat := if m = .excitatory then 1 else 0
def inhFlag (m : SignMode) : Nat := if m = .inhibitory then 1 else 0

/-- `_validate_weights` (weightutils.py:95-118). -/
def validate (ws : List Int) (m : SignMode) : Bool :=
  let minW : Int := (-2 ^ 8) * (mixedFlag m + inhFlag m) + inhFlag m
  let maxW : Int := (2 ^ 8 - 1) * (mixedFlag m + excFlag m)
  ! (decide (maxL ws > maxW) || decide (minL ws < minW))

/-- `np.clip`. -/
def clip (lo hi x : Int) : Int := min (max x lo) hi

/-- `clip_weights` (weightutils.py:250-295), one weight. -/
def clipWeight (w : Int) (m : SignMode) (numBits : Nat) (learning : Bool) : Int :=
  let w1 := if m = .inhibitory then -w else w
  let lo : Int := (-2 ^ numBits) * mixedFlag m
  let hi : Int := 2 ^ numBits - 1 - (if learning then 1 else 0) * mixedFlag m
  let w2 := clip lo hi w1
  if m = .inhibitory then -w2 else w2

/-- `x << k` in numpy: a negative shift count gives 0. -/
def shl (x k : Int) : Int := if k < 0 then 0 else x * 2 ^ k.toNat

/-- `x >> k` in numpy: arithmetic; a negative shift count gives 0 or -1 according to the sign. -/
def shr (x k : Int) : Int := if k < 0 then (if x < 0 then -1 else 0) else x / 2 ^ k.toNat

/-- `truncate_weights` (weightutils.py:204-247), one weight. -/
def truncWeight (w : Int) (m : SignMode) (numWeightBits maxBits : Int) : Int :=
  let w1 := if m = .inhibitory then -w else w
  let k := maxBits - numWeightBits + mixedFlag m
  let w2 := shl (shr w1 k) k
  if m = .inhibitory then -w2 else w2

/-- `int(np.floor(np.log2(a / b)))` for positive integers with `b ≤ 4 * a`: the integer `k` with
`2^k ≤ a / b < 2^(k+1)`. -/
def floorLog2 (a b : Nat) : Int :=
  if b ≤ a then (Nat.log2 (a / b) : Int) else if b ≤ 2 * a then -1 else -2

/-- `_determine_weight_exp` (weightutils.py:121-162), as `scale_bits = -weight_exp`. The logarithm of the minimum of two
scales is the minimum of their logarithms. -/
def scaleBits (ws : List Int) (m : SignMode) : Int :=
  let mx := maxL ws
  let mn := minL ws
  if mx = 0 ∧ mn = 0 then 0
  else
    match m with
    | .mixed =>
      (if mx > 0 then (if mn < 0 then min (floorLog2 127 mx.toNat) (floorLog2 128 (-mn).toNat) else floorLog2 127 mx.toNat)
       else floorLog2 128 (-mn).toNat) + 1
    | .inhibitory => floorLog2 255 (-mn).toNat
    | .excitatory => floorLog2 255 mx.toNat
    | .null => 0

/-- Whether all weights are divisible by `2 ** n`: `rounding_error == 0` (weightutils.py:188-191). -/
def allDiv (ws : List Int) (n : Nat) : Bool := ws.all fun w => w % 2 ^ n == 0

/-- The search loop (weightutils.py:185-194): the largest `n ≤ k` such that all weights are divisible, 0 at the end. -/
def searchN (ws : List Int) : Nat → Nat
  | 0 => 0
  | n + 1 => if allDiv ws (n + 1) then n + 1 else searchN ws n

/-- `_determine_num_weight_bits` (weightutils.py:165-201). -/
def numWeightBits (ws : List Int) (weightExp : Int) (m : SignMode) : Int :=
  8 + weightExp - ((searchN ws 8 : Int) - mixedFlag m)

/-- `(x / d).astype(np.int32)`: truncation toward zero. -/
def tdiv (x d : Int) : Int := x.tdiv d

structure Optimized where
  weights : List Int
  numWeightBits : Int
  weightExp : Int
deriving DecidableEq, Repr

/-- `optimize_weight_bits` (weightutils.py:53-92); `none` is ValueError, from validation or from `1 << (8 - num_weight_bits)`
with a negative count. -/
def optimize (ws : List Int) (m : SignMode) (loihi2 : Bool) : Option Optimized :=
  if validate ws m then
    let s := scaleBits ws m
    let nb := numWeightBits ws (-s) m
    let shifted := ws.map fun w => shl w s
    if loihi2 = true ∧ 8 - nb < 0 then none
    else
    let out := if loihi2 then
        shifted.map fun w =>
          let x := tdiv w (2 ^ (8 - nb).toNat)
          if m = .mixed then tdiv x 2 else x
      else shifted
    some { weights := out, numWeightBits := nb, weightExp := -s }
  else none

end Verif.Weights
