import Mathlib.Algebra.BigOperators.Group.Finset.Basic
import Mathlib.Algebra.BigOperators.Intervals
import Mathlib.Algebra.BigOperators.Ring.Finset
import Mathlib.Algebra.Order.Ring.Int
import Mathlib.Tactic.Ring
import Mathlib.Tactic.Linarith
import Mathlib.Tactic.Positivity

/-!
# Model of the convolution utilities and processes

`src/lava/proc/conv/utils.py`, `src/lava/proc/conv/models.py`, `src/lava/proc/conv_in_time/models.py`. Tensors are functions of
their indices, values are integers. Loop variables, shapes, strides, paddings and dilations are natural numbers (the Vars of
the process are int8, whose overflow is not modelled). Floating point divisions of sizes are exact.
-/

namespace Verif.Conv

/-- `signed_clamp` (conv/utils.py:67-84). Python's `%` with a positive base is `Int.emod`. -/
def signedClamp (x : Int) (bits : Nat) : Int :=
  let base : Int := 2 ^ bits
  (x + base / 2) % base - base / 2

/-- One coordinate of `output_shape` (conv/utils.py:122-133): floor of the exact quotient, plus one. -/
def outDim (n p d k s : Nat) : Int := ((n : Int) + 2 * p - d * (k - 1) - 1) / s + 1

/-- `output_shape` (conv/utils.py:87-160): raises if a dimension is below 1. -/
def outputShape (xin yin cout kx ky sx sy px py dx dy : Nat) : Option (Nat × Nat × Nat) :=
  let x := outDim xin px dx kx sx
  let y := outDim yin py dy ky sy
  if x < 1 then none else if y < 1 then none else some (x.toNat, y.toNat, cout)

/-- The sizes and parameters of one convolution, as extracted in conv/utils.py:372-433. -/
structure Cfg where
  xin : Nat
  yin : Nat
  cin : Nat
  xout : Nat
  yout : Nat
  cout : Nat
  kx : Nat
  ky : Nat
  sx : Nat
  sy : Nat
  px : Nat
  py : Nat
  dx : Nat
  dy : Nat
  grp : Nat

abbrev Img := Nat → Nat → Nat → Int
abbrev Ker := Nat → Nat → Nat → Nat → Int
abbrev Triple := Nat × Nat × Int

/-! ## `conv_scipy` -/

/-- `dilated_weight` (conv/utils.py:260-266). -/
def dilated (g : Cfg) (w : Ker) (k i j c : Nat) : Int :=
  if i % g.dx = 0 ∧ j % g.dy = 0 then w k (i / g.dx) (j / g.dy) c else 0

/-- `input_padded` (conv/utils.py:268-272). -/
def padded (g : Cfg) (img : Img) (x y c : Nat) : Int :=
  if g.px ≤ x ∧ x < g.px + g.xin ∧ g.py ≤ y ∧ y < g.py + g.yin then img (x - g.px) (y - g.py) c else 0

/-- `scipy.signal.convolve2d(a, b, mode='valid')` for a kernel `b` of size `n × m` (library function, modelled by its documented
meaning). -/
def convolve2dValid (n m : Nat) (a b : Nat → Nat → Int) (x y : Nat) : Int :=
  ∑ i ∈ Finset.range n, ∑ j ∈ Finset.range m, a (x + (n - 1) - i) (y + (m - 1) - j) * b i j

/-- `conv_scipy` (conv/utils.py:221-296), the value at `[x, y, k]`: channel `k` belongs to group `k / k_grp`. -/
def convScipy (g : Cfg) (w : Ker) (img : Img) (x y k : Nat) : Int :=
  let kg := g.cout / g.grp
  let cg := g.cin / g.grp
  ∑ c ∈ Finset.range cg,
    convolve2dValid (g.dx * (g.kx - 1) + 1) (g.dy * (g.ky - 1) + 1)
      (fun X Y => padded g img X Y (c + k / kg * cg)) (fun i j => dilated g w k i j c) (x * g.sx) (y * g.sy)

/-! ## `conv_to_sparse` -/

/-- `xx`, `yy` (conv/utils.py:466-467): position of a tap in the input. -/
def tapPos (dst s tap d p : Nat) : Int := (dst : Int) * s + (tap : Int) * d - p

/-- `valid` (conv/utils.py:468-471). -/
def valid (pos : Int) (n : Nat) : Bool := decide (0 ≤ pos ∧ pos < n)

/-- One execution of the loop body (conv/utils.py:473-486): all channel pairs of a group for one tap at one position. -/
def chunk (g : Cfg) (srcId dstId : Nat → Nat → Nat → Nat) (ker : Ker) (gr x y a b : Nat) : List Triple :=
  (List.range (g.cout / g.grp)).flatMap fun k => (List.range (g.cin / g.grp)).map fun c =>
    (dstId x y (k + gr * (g.cout / g.grp)),
     srcId (tapPos x g.sx a g.dx g.px).toNat (tapPos y g.sy b g.dy g.py).toNat (c + gr * (g.cin / g.grp)),
     ker (k + gr * (g.cout / g.grp)) (g.kx - a - 1) (g.ky - b - 1) c)

/-- The loops (conv/utils.py:436-486). -/
def chunks (g : Cfg) (srcId dstId : Nat → Nat → Nat → Nat) (ker : Ker) : List (List Triple) :=
  (List.range g.grp).flatMap fun gr => (List.range g.yout).flatMap fun y => (List.range g.xout).flatMap fun x =>
    (List.range g.ky).flatMap fun b => (List.range g.kx).flatMap fun a =>
      if valid (tapPos x g.sx a g.dx g.px) g.xin && valid (tapPos y g.sy b g.dy g.py) g.yin then
        [chunk g srcId dstId ker gr x y a b]
      else []

/-- `conv_to_sparse` after the choice of the order (conv/utils.py:436-491): `none` for the assertion errors and for
concatenating an empty list. -/
def convToSparse (g : Cfg) (srcId dstId : Nat → Nat → Nat → Nat) (ker : Ker) : Option (List Triple) :=
  if g.cin % g.grp = 0 ∧ g.cout % g.grp = 0 ∧ (chunks g srcId dstId ker) ≠ [] then
    some (chunks g srcId dstId ker).flatten
  else none

/-- `src_id` of order NWHC (conv/utils.py:380-381). -/
def srcNWHC (g : Cfg) (x y c : Nat) : Nat := x * g.yin * g.cin + y * g.cin + c

/-- `dst_id` of order NWHC (conv/utils.py:383-384). -/
def dstNWHC (g : Cfg) (x y c : Nat) : Nat := x * g.yout * g.cout + y * g.cout + c

/-- `src_id` of order NCHW (conv/utils.py:393-394). -/
def srcNCHW (g : Cfg) (x y c : Nat) : Nat := c * g.yin * g.xin + y * g.xin + x

/-- `dst_id` of order NCHW (conv/utils.py:396-397). -/
def dstNCHW (g : Cfg) (x y c : Nat) : Nat := c * g.yout * g.xout + y * g.xout + x

/-- `src_id` of order HWCN (conv/utils.py:423-424). -/
def srcHWCN (g : Cfg) (x y c : Nat) : Nat := y * g.xin * g.cin + x * g.cin + c

/-- `dst_id` of order HWCN (conv/utils.py:426-427), with `x * size_yout` as in the code. -/
def dstHWCN (g : Cfg) (x y c : Nat) : Nat := y * g.xout * g.cout + x * g.yout + c

/-- `kernel[:, ::-1, ::-1, :].transpose([0, 3, 1, 2])` (conv/utils.py:401) of a kernel `w n c h w'` with `cn` input channels and
height `kh`: the element `[n, i, j, l]` of the result. -/
def kerNCHW (cn kh : Nat) (w : Ker) : Ker := fun n i j l => w n (cn - 1 - j) (kh - 1 - l) i

/-- `kernel[::-1, ::-1, :, :].transpose([3, 1, 0, 2])` (conv/utils.py:431) of a kernel `w h w' c n`. -/
def kerHWCN (kw kh : Nat) (w : Ker) : Ker := fun n i j l => w (kh - 1 - j) (kw - 1 - i) l n

/-! ## The convolution process -/

/-- `PyConvModelFixed.run_spk` (conv/models.py:34-51, 78-79) over a sequence of inputs: what is sent in each step. `f` is the
convolution of one input, one output element is followed. -/
def convRun (f : Img → Int) : Int → List Img → List Int
  | _, [] => []
  | buf, s :: ss => buf :: convRun f (signedClamp (f s) 24) ss

/-! ## Temporal convolution -/

/-- `a_buff` of shape `rows × cols` as a function of its indices. -/
abbrev Buf := Nat → Nat → Int

/-- `np.roll(a, -1)` without an axis: rolls the flattened array (conv_in_time/models.py:51). -/
def rollFlat (rows cols : Nat) (b : Buf) : Buf := fun r c =>
  let f := (r * cols + c + 1) % (rows * cols)
  b (f / cols) (f % cols)

/-- `self.a_buff[:, 0] = 0` (conv_in_time/models.py:50). -/
def clear0 (b : Buf) : Buf := fun r c => if c = 0 then 0 else b r c

/-- `calc_act` (conv_in_time/models.py:27-39): weights `w k o i`, input `s i` with `nin` entries. -/
def calcAct (cols nin : Nat) (w : Nat → Nat → Nat → Int) (s : Nat → Int) (b : Buf) : Buf := fun r c =>
  if c < cols then b r c + ∑ i ∈ Finset.range nin, w (cols - c - 1) r i * s i else b r c

/-- `update_act` (conv_in_time/models.py:41-52). -/
def updateAct (rows cols nin : Nat) (w : Nat → Nat → Nat → Int) (s : Nat → Int) (b : Buf) : Buf :=
  calcAct cols nin w s (rollFlat rows cols (clear0 b))

/-- The buffer after the inputs of steps 1..t (`run_spk`, conv_in_time/models.py:54-63); it starts with zeros. -/
def bufAt (rows cols nin : Nat) (w : Nat → Nat → Nat → Int) (s : Nat → Nat → Int) : Nat → Buf
  | 0 => fun _ _ => 0
  | t + 1 => updateAct rows cols nin w (s (t + 1)) (bufAt rows cols nin w s t)

/-- What is sent on `a_out[o]` in step `t ≥ 1`: column 0 of the buffer left by the previous step. -/
def citOut (rows cols nin : Nat) (w : Nat → Nat → Nat → Int) (s : Nat → Nat → Int) (t o : Nat) : Int :=
  bufAt rows cols nin w s (t - 1) o 0

end Verif.Conv
