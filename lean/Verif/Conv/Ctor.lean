import Verif.Conv.Model

/-!
# Model of the constructor of `Conv` and of one call of `conv_scipy` with its failures

`src/lava/proc/conv/process.py`, `src/lava/proc/conv/utils.py`. `Verif.Conv.Model.convScipy` is the value of one pixel of the output; here the loops, the shapes of the intermediate arrays, the index errors and the checks are
modelled. The weight has four dimensions; sizes, paddings, strides and dilations are natural numbers, the number of groups may be any integer.
-/

namespace Verif.Conv

/-- An argument `padding`, `stride` or `dilation`: a number or a tuple. -/
inductive Arg where
  | num (n : Nat)
  | tup (ns : List Nat)

/-- `make_tuple` (conv/utils.py:37-64). -/
def makeTuple : Arg → Option (Nat × Nat)
  | .num n => some (n, n)
  | .tup [n] => some (n, n)
  | .tup [n, m] => some (n, m)
  | .tup _ => none

/-- The arguments of `Conv`; `groups` is `none` if it is no scalar. The weight has the shape `(cout, kx, ky, wc)`. -/
structure CArgs where
  inShape : List Nat
  cout : Nat
  kx : Nat
  ky : Nat
  wc : Nat
  w : Ker
  padding : Arg
  stride : Arg
  dilation : Arg
  groups : Option Int

/-- The Vars of an accepted process (conv/process.py:98-114). -/
structure CProc where
  xin : Nat
  yin : Nat
  cin : Nat
  cout : Nat
  kx : Nat
  ky : Nat
  wc : Nat
  w : Ker
  px : Nat
  py : Nat
  sx : Nat
  sy : Nat
  dx : Nat
  dy : Nat
  groups : Int
  /-- Shape of the port `a_out`. -/
  outShape : Nat × Nat × Nat

/-- `output_shape` including the division by a stride of zero (conv/utils.py:122-160). -/
def outputShapeOr (xin yin cout kx ky sx sy px py dx dy : Nat) : Option (Nat × Nat × Nat) :=
  if sx = 0 ∨ sy = 0 then none else outputShape xin yin cout kx ky sx sy px py dx dy

/-- `Conv.__init__` with its validators (conv/process.py:73-114, 116-142); `none` if it raises (`% 0` raises, too). Python's `%` is zero exactly if the divisor divides. -/
def ctor (a : CArgs) : Option CProc := do
  let [x, y, c] := a.inShape | none
  let g ← a.groups
  if g = 0 then none
  if ¬ g ∣ (c : Int) then none
  if ¬ g ∣ (a.cout : Int) then none
  let p ← makeTuple a.padding
  let s ← makeTuple a.stride
  let d ← makeTuple a.dilation
  let o ← outputShapeOr x y a.cout a.kx a.ky s.1 s.2 p.1 p.2 d.1 d.2
  some ⟨x, y, c, a.cout, a.kx, a.ky, a.wc, a.w, p.1, p.2, s.1, s.2, d.1, d.2, g, o⟩

/-- The sizes as in `Verif.Conv.Model`. -/
def CProc.cfg (p : CProc) : Cfg :=
  { xin := p.xin, yin := p.yin, cin := p.cin, xout := p.outShape.1, yout := p.outShape.2.1, cout := p.cout, kx := p.kx, ky := p.ky, sx := p.sx, sy := p.sy, px := p.px, py := p.py, dx := p.dx, dy := p.dy, grp := p.groups.toNat }

/-- Length of `[::s]` of an array of length `n`. -/
def strided (n s : Nat) : Nat := (n + s - 1) / s

/-- The body of the loops (conv/utils.py:289-295) for group `g`, output channel `k`, input channel `c` of the group; `none` for an index error, for operands of `convolve2d` where the kernel does not fit (scipy raises or exchanges
them) and for adding an array of another shape. -/
def tapInto (p : CProc) (kg cg : Nat) (img : Img) (o : Nat × Nat × Nat) (out : Img) (t : Nat × Nat × Nat) : Option Img :=
  let g := t.1
  let k := t.2.1
  let c := t.2.2
  let n := p.dx * (p.kx - 1) + 1
  let m := p.dy * (p.ky - 1) + 1
  if ¬ c + g * cg < p.cin then none
  else if ¬ k + g * kg < p.cout then none
  else if ¬ c < p.wc then none
  else if ¬ (n ≤ p.xin + 2 * p.px ∧ m ≤ p.yin + 2 * p.py) then none
  else if ¬ (strided (p.xin + 2 * p.px - n + 1) p.sx = o.1 ∧ strided (p.yin + 2 * p.py - m + 1) p.sy = o.2.1) then none
  else some fun x y ch =>
    if ch = k + g * kg then
      out x y ch + convolve2dValid n m (fun X Y => padded p.cfg img X Y (c + g * cg)) (fun i j => dilated p.cfg p.w (k + g * kg) i j c) (x * p.sx) (y * p.sy)
    else out x y ch

/-- The iterations of the three loops in their order (conv/utils.py:286-288); a range of a negative number is empty. -/
def iterations (groups : Int) (kg cg : Nat) : List (Nat × Nat × Nat) :=
  (List.range groups.toNat).flatMap fun g => (List.range kg).flatMap fun k => (List.range cg).map fun c => (g, k, c)

/-- One call of `conv` without torch (conv/utils.py:163-218; conv_scipy 251-296) on an input of shape `(xin, yin, cin)`: shape and values of the output. A slice with step zero (dilation 0) raises (conv/utils.py:266). -/
def convCall (p : CProc) (img : Img) : Option ((Nat × Nat × Nat) × Img) := do
  let o ← outputShapeOr p.xin p.yin p.cout p.kx p.ky p.sx p.sy p.px p.py p.dx p.dy
  if p.dx = 0 ∨ p.dy = 0 then none
  if ¬ p.groups ∣ (p.cin : Int) then none
  if ¬ p.groups ∣ (p.cout : Int) then none
  let kg := ((p.cout : Int).fdiv p.groups).toNat
  let cg := ((p.cin : Int).fdiv p.groups).toNat
  let out ← (iterations p.groups kg cg).foldlM (tapInto p kg cg img o) fun _ _ _ => 0
  some (o, out)

end Verif.Conv
