import Verif.Conv.Exact

/-!
# C46: what `conv_to_sparse` computes in the orders NCHW and CHWN
-/

namespace Verif.Conv

/-! ## Model -/

/-- Shape of the kernel after the conversion of order NCHW (conv/utils.py:401): `transpose([0, 3, 1, 2])` of `(N, C, H, W)`. -/
def shapeNCHW (n c h w : Nat) : Nat × Nat × Nat × Nat := (n, w, c, h)

/-- Order CHWN (conv/utils.py:402-414): the kernel is not converted. -/
def shapeCHWN (c h w n : Nat) : Nat × Nat × Nat × Nat := (c, h, w, n)

/-- The kernel of order CHWN as it is indexed by the loop (conv/utils.py:402-414, 478-480): unchanged. -/
def kerCHWN (w : Ker) : Ker := w

/-- Number of source indices of one chunk (conv/utils.py:482-484, `ss.flatten()`). -/
def srcsPerChunk (g : Cfg) : Nat := (g.cout / g.grp) * (g.cin / g.grp)

/-- Number of weights of one chunk (conv/utils.py:478-480, 486: `kernel[c_dst, i, j, :].flatten()`) for a converted kernel of the given shape. -/
def wgtsPerChunk (g : Cfg) (shape : Nat × Nat × Nat × Nat) : Nat := (g.cout / g.grp) * shape.2.2.2

/-- The indices used by the loop (conv/utils.py:478-480) lie in the converted kernel, for every tap (taps in the padding only are never
indexed; this is not distinguished). -/
def indicesFit (g : Cfg) (shape : Nat × Nat × Nat × Nat) : Prop :=
  g.cout ≤ shape.1 ∧ g.kx ≤ shape.2.1 ∧ g.ky ≤ shape.2.2.1

/-! ## Order NCHW -/

/-- The PyTorch correlation: image `[c, y, x]`, kernel `[n, c, h, w]`. -/
def corrNCHW (g : Cfg) (w : Ker) (img : Img) (x y k : Nat) : Int :=
  ∑ b ∈ Finset.range g.ky, ∑ a ∈ Finset.range g.kx,
    if (0 ≤ (x : Int) * g.sx + a * g.dx - g.px ∧ (x : Int) * g.sx + a * g.dx - g.px < g.xin) ∧
       (0 ≤ (y : Int) * g.sy + b * g.dy - g.py ∧ (y : Int) * g.sy + b * g.dy - g.py < g.yin) then
      ∑ c ∈ Finset.range (g.cin / g.grp), w k c b a *
        img (c + k / (g.cout / g.grp) * (g.cin / g.grp)) (y * g.sy + b * g.dy - g.py) (x * g.sx + a * g.dx - g.px)
    else 0

/-- **C46 (order NCHW).** With a kernel of the documented shape `(cout, cin / groups, ky, kx)` the list of weights is as long as the lists of
indices exactly if the kernel is as high as a group has input channels; a higher kernel is indexed outside its bounds. -/
theorem C46_nchw_accepted_iff (g : Cfg) (hk : 0 < g.cout / g.grp) :
    (wgtsPerChunk g (shapeNCHW g.cout (g.cin / g.grp) g.ky g.kx) = srcsPerChunk g ↔ g.ky = g.cin / g.grp) ∧
    (indicesFit g (shapeNCHW g.cout (g.cin / g.grp) g.ky g.kx) ↔ g.ky ≤ g.cin / g.grp) := by
  constructor
  · simp only [wgtsPerChunk, srcsPerChunk, shapeNCHW]
    exact ⟨fun h => Nat.eq_of_mul_eq_mul_left hk h, fun h => by rw [h]⟩
  · simp [indicesFit, shapeNCHW]

/-- **C46 (order NCHW), finding.** When it is accepted, what is computed is not the correlation with the kernel `w`, but with the kernel whose
entry `[n, c, h, w]` is the entry `[n, h, ky - 1 - c, kx - 1 - w]` of it: channels and rows exchanged, both other axes reversed. -/
theorem C46_nchw_computes (g : Cfg) (w : Ker) (img : Img) (v : Nat → Int) (ts : List Triple)
    (hts : convToSparse g (srcNCHW g) (dstNCHW g) (kerNCHW (g.cin / g.grp) g.ky w) = some ts) (hsq : g.ky = g.cin / g.grp)
    (hv : FlattenedFrom g.cin g.yin g.xin img v)
    (x y k : Nat) (hx : x < g.xout) (hy : y < g.yout) (hk : k < g.cout) :
    matvec ts v (k * g.yout * g.xout + y * g.xout + x) =
      corrNCHW g (fun n c h i => w n h (g.ky - 1 - c) (g.kx - 1 - i)) img x y k := by
  obtain ⟨h1, h2, rfl⟩ := convToSparse_some hts
  have hinj : InjOut g (dstNCHW g) := by
    intro x y k x' y' k' hx hy _ hx' hy' _ h
    have := rowMajor_inj hy hx hy' hx' h
    exact ⟨this.2.2, this.2.1, this.1⟩
  have key := matvec_eq_tapSum g (srcNCHW g) (dstNCHW g) (kerNCHW (g.cin / g.grp) g.ky w) v (fun x y c => img c y x) h2 h1 hinj
    (fun x y c hx hy hc => hv c y x hc hy hx) x y k hx hy hk
  rw [show k * g.yout * g.xout + y * g.xout + x = dstNCHW g x y k from rfl, key]
  unfold tapSum corrNCHW
  refine Finset.sum_congr rfl fun b hb => Finset.sum_congr rfl fun a ha => ?_
  have ha' := Finset.mem_range.mp ha
  have hb' := Finset.mem_range.mp hb
  have e1 : (tapPos x g.sx a g.dx g.px).toNat = x * g.sx + a * g.dx - g.px := by
    unfold tapPos
    have : ((x : Int) * g.sx + a * g.dx - g.px) = ((x * g.sx + a * g.dx : Nat) : Int) - g.px := by push_cast; ring
    rw [this]; omega
  have e2 : (tapPos y g.sy b g.dy g.py).toNat = y * g.sy + b * g.dy - g.py := by
    unfold tapPos
    have : ((y : Int) * g.sy + b * g.dy - g.py) = ((y * g.sy + b * g.dy : Nat) : Int) - g.py := by push_cast; ring
    rw [this]; omega
  have e3 : g.cin / g.grp - 1 - (g.ky - b - 1) = b := by omega
  have e4 : g.kx - a - 1 = g.kx - 1 - a := by omega
  simp only [kerNCHW, e1, e2, e3, e4]
  by_cases h : (0 ≤ (x : Int) * g.sx + a * g.dx - g.px ∧ (x : Int) * g.sx + a * g.dx - g.px < g.xin) ∧
         (0 ≤ (y : Int) * g.sy + b * g.dy - g.py ∧ (y : Int) * g.sy + b * g.dy - g.py < g.yin)
  · rw [if_pos h, if_pos]; simpa [valid, tapPos] using h
  · rw [if_neg h, if_neg]; simpa [valid, tapPos] using h

/-- The order NCHW is right for the kernels with this symmetry – for instance all constant ones, or 1×1 kernels on one channel. -/
theorem C46_nchw_right_if_symmetric (g : Cfg) (w : Ker) (img : Img) (v : Nat → Int) (ts : List Triple)
    (hts : convToSparse g (srcNCHW g) (dstNCHW g) (kerNCHW (g.cin / g.grp) g.ky w) = some ts) (hsq : g.ky = g.cin / g.grp)
    (hsym : ∀ n c h i, c < g.ky → h < g.ky → i < g.kx → w n h (g.ky - 1 - c) (g.kx - 1 - i) = w n c h i)
    (hv : FlattenedFrom g.cin g.yin g.xin img v)
    (x y k : Nat) (hx : x < g.xout) (hy : y < g.yout) (hk : k < g.cout) :
    matvec ts v (k * g.yout * g.xout + y * g.xout + x) = corrNCHW g w img x y k := by
  rw [C46_nchw_computes g w img v ts hts hsq hv x y k hx hy hk]
  unfold corrNCHW
  refine Finset.sum_congr rfl fun b hb => Finset.sum_congr rfl fun a ha => ?_
  split
  · refine Finset.sum_congr rfl fun c hc => ?_
    dsimp only
    rw [hsym k c b a (by rw [hsq]; exact Finset.mem_range.mp hc) (Finset.mem_range.mp hb) (Finset.mem_range.mp ha)]
  · rfl

/-- The case is met: 2×2 kernel, 2 channels. -/
example : (convToSparse cfgNCHW (srcNCHW cfgNCHW) (dstNCHW cfgNCHW) (kerNCHW (cfgNCHW.cin / cfgNCHW.grp) cfgNCHW.ky kerOne)).isSome = true ∧
    cfgNCHW.ky = cfgNCHW.cin / cfgNCHW.grp := by decide +kernel

/-! ## Order CHWN -/

/-- **C46 (order CHWN).** The order CHWN is accepted by the code though not documented. Only the sizes of the image are read in this order; the
kernel is used as if it were `[n, w, h, c]`: the result is the convolution (not correlation) with it. -/
theorem C46_chwn_computes (g : Cfg) (w : Ker) (img : Img) (v : Nat → Int) (ts : List Triple)
    (hts : convToSparse g (srcNCHW g) (dstNCHW g) (kerCHWN w) = some ts)
    (hv : FlattenedFrom g.cin g.yin g.xin img v)
    (x y k : Nat) (hx : x < g.xout) (hy : y < g.yout) (hk : k < g.cout) :
    matvec ts v (k * g.yout * g.xout + y * g.xout + x) =
      corrNCHW g (fun n c h i => w n (g.kx - 1 - i) (g.ky - 1 - h) c) img x y k := by
  obtain ⟨h1, h2, rfl⟩ := convToSparse_some hts
  have hinj : InjOut g (dstNCHW g) := by
    intro x y k x' y' k' hx hy _ hx' hy' _ h
    have := rowMajor_inj hy hx hy' hx' h
    exact ⟨this.2.2, this.2.1, this.1⟩
  have key := matvec_eq_tapSum g (srcNCHW g) (dstNCHW g) (kerCHWN w) v (fun x y c => img c y x) h2 h1 hinj
    (fun x y c hx hy hc => hv c y x hc hy hx) x y k hx hy hk
  rw [show k * g.yout * g.xout + y * g.xout + x = dstNCHW g x y k from rfl, key]
  unfold tapSum corrNCHW
  refine Finset.sum_congr rfl fun b hb => Finset.sum_congr rfl fun a ha => ?_
  have e1 : (tapPos x g.sx a g.dx g.px).toNat = x * g.sx + a * g.dx - g.px := by
    unfold tapPos
    have : ((x : Int) * g.sx + a * g.dx - g.px) = ((x * g.sx + a * g.dx : Nat) : Int) - g.px := by push_cast; ring
    rw [this]; omega
  have e2 : (tapPos y g.sy b g.dy g.py).toNat = y * g.sy + b * g.dy - g.py := by
    unfold tapPos
    have : ((y : Int) * g.sy + b * g.dy - g.py) = ((y * g.sy + b * g.dy : Nat) : Int) - g.py := by push_cast; ring
    rw [this]; omega
  have e3 : g.ky - b - 1 = g.ky - 1 - b := by omega
  have e4 : g.kx - a - 1 = g.kx - 1 - a := by omega
  simp only [kerCHWN, e1, e2, e3, e4]
  by_cases h : (0 ≤ (x : Int) * g.sx + a * g.dx - g.px ∧ (x : Int) * g.sx + a * g.dx - g.px < g.xin) ∧
         (0 ≤ (y : Int) * g.sy + b * g.dy - g.py ∧ (y : Int) * g.sy + b * g.dy - g.py < g.yin)
  · rw [if_pos h, if_pos]; simpa [valid, tapPos] using h
  · rw [if_neg h, if_neg]; simpa [valid, tapPos] using h

/-- **C46 (order CHWN), finding.** With a kernel of shape `(cin / groups, ky, kx, cout)` the lists have equal length and the indices fit only if
there are as many input as output channels: `cout ≤ cin / groups` and `cin / groups = cout`, and the kernel is square. -/
theorem C46_chwn_accepted_iff (g : Cfg) (hk : 0 < g.cout / g.grp) :
    (wgtsPerChunk g (shapeCHWN (g.cin / g.grp) g.ky g.kx g.cout) = srcsPerChunk g ∧
      indicesFit g (shapeCHWN (g.cin / g.grp) g.ky g.kx g.cout)) ↔ (g.cout = g.cin / g.grp ∧ g.kx = g.ky) := by
  simp only [wgtsPerChunk, srcsPerChunk, shapeCHWN, indicesFit]
  constructor
  · rintro ⟨h, h1, h2, h3⟩
    exact ⟨Nat.eq_of_mul_eq_mul_left hk h, by omega⟩
  · rintro ⟨h, h'⟩
    rw [h]; omega

example : (convToSparse cfgEx (srcNCHW cfgEx) (dstNCHW cfgEx) (kerCHWN (fun k i j c => k + i * 2 + j * 3 + c))).isSome = true := by
  decide +kernel

end Verif.Conv
