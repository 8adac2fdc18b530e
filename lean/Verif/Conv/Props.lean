import Verif.Conv.Lemmas

/-!
# C46 - C49, C71: convolution
-/

namespace Verif.Conv

/-! ## C46 -/

/-- Specification: `v` is the C-order (row-major) flattening of a tensor `t` with dimensions `A × B × C`. -/
def FlattenedFrom (A B C : Nat) (t : Img) (v : Nat → Int) : Prop :=
  ∀ i j k, i < A → j < B → k < C → v (i * B * C + j * C + k) = t i j k

theorem convToSparse_some {g : Cfg} {srcId dstId : Nat → Nat → Nat → Nat} {ker : Ker} {ts : List Triple}
    (h : convToSparse g srcId dstId ker = some ts) :
    g.cin % g.grp = 0 ∧ g.cout % g.grp = 0 ∧ ts = (chunks g srcId dstId ker).flatten := by
  unfold convToSparse at h
  split at h
  · rename_i hc
    exact ⟨hc.1, hc.2.1, (Option.some.inj h).symm⟩
  · exact absurd h (by simp)

theorem dstNWHC_inj (g : Cfg) : InjOut g (dstNWHC g) := by
  intro x y k x' y' k' _ hy hk _ hy' hk' h
  exact rowMajor_inj hy hk hy' hk' h

/-- **C46.** Lava order: for every kernel, image, stride, padding, dilation, number of groups and output shape, the product
of the sparse matrix with the flattened image is, at the flat position of every output pixel, the convolution computed by
`conv_scipy`. -/
theorem C46_sparse_matrix_is_convolution (g : Cfg) (w : Ker) (img : Img) (v : Nat → Int) (ts : List Triple)
    (hdx : 0 < g.dx) (hdy : 0 < g.dy) (hkx : 0 < g.kx) (hky : 0 < g.ky)
    (hts : convToSparse g (srcNWHC g) (dstNWHC g) w = some ts)
    (hv : FlattenedFrom g.xin g.yin g.cin img v)
    (x y k : Nat) (hx : x < g.xout) (hy : y < g.yout) (hk : k < g.cout) :
    matvec ts v (x * g.yout * g.cout + y * g.cout + k) = convScipy g w img x y k := by
  obtain ⟨h1, h2, rfl⟩ := convToSparse_some hts
  rw [convScipy_eq_tapSum g w img hdx hdy hkx hky]
  exact matvec_eq_tapSum g _ _ w v img h2 h1 (dstNWHC_inj g) (fun x y c hx hy hc => hv x y c hx hy hc) x y k hx hy hk

theorem mem_chunks {g : Cfg} {srcId dstId : Nat → Nat → Nat → Nat} {ker : Ker} {t : Triple}
    (h : t ∈ (chunks g srcId dstId ker).flatten) : ∃ gr x y a b k c, gr < g.grp ∧ x < g.xout ∧ y < g.yout ∧ a < g.kx ∧ b < g.ky ∧
      k < g.cout / g.grp ∧ c < g.cin / g.grp ∧
      valid (tapPos x g.sx a g.dx g.px) g.xin = true ∧ valid (tapPos y g.sy b g.dy g.py) g.yin = true ∧
      t = (dstId x y (k + gr * (g.cout / g.grp)),
     srcId (tapPos x g.sx a g.dx g.px).toNat (tapPos y g.sy b g.dy g.py).toNat (c + gr * (g.cin / g.grp)),
     ker (k + gr * (g.cout / g.grp)) (g.kx - a - 1) (g.ky - b - 1) c) := by
  simp only [chunks, List.mem_flatten, List.mem_flatMap, List.mem_range] at h
  obtain ⟨ch, ⟨gr, hgr, y, hy, x, hx, b, hb, a, ha, hch⟩, ht⟩ := h
  split at hch
  · rename_i hval
    simp only [List.mem_singleton] at hch
    subst hch
    simp only [chunk, List.mem_flatMap, List.mem_map, List.mem_range] at ht
    obtain ⟨k, hk, c, hc, rfl⟩ := ht
    rw [Bool.and_eq_true] at hval
    exact ⟨gr, x, y, a, b, k, c, hgr, hx, hy, ha, hb, hk, hc, hval.1, hval.2, rfl⟩
  · simp at hch

/-- **C46.** Every index of the sparse matrix is a pixel of the output resp. of the input. -/
theorem C46_indices_in_range (g : Cfg) (w : Ker) (ts : List Triple)
    (hts : convToSparse g (srcNWHC g) (dstNWHC g) w = some ts) :
    ∀ t ∈ ts, t.1 < g.xout * g.yout * g.cout ∧ t.2.1 < g.xin * g.yin * g.cin := by
  obtain ⟨h1, h2, rfl⟩ := convToSparse_some hts
  intro t ht
  obtain ⟨gr, x, y, a, b, k, c, hgr, hx, hy, _, _, hk, hc, v1, v2, rfl⟩ := mem_chunks ht
  simp only [valid, decide_eq_true_eq] at v1 v2
  have hin : ∀ n m : Nat, n % g.grp = 0 → m < n / g.grp → m + gr * (n / g.grp) < n := by
    intro n m hn hm
    have e1 : n / g.grp * g.grp = n := Nat.div_mul_cancel (Nat.dvd_of_mod_eq_zero hn)
    have : (gr + 1) * (n / g.grp) ≤ g.grp * (n / g.grp) := Nat.mul_le_mul_right _ hgr
    have e : (gr + 1) * (n / g.grp) = gr * (n / g.grp) + n / g.grp := by ring
    rw [Nat.mul_comm g.grp] at this
    omega
  exact ⟨rowMajor_lt hx hy (hin _ _ h2 hk), rowMajor_lt (by omega) (by omega) (hin _ _ h1 hc)⟩

/-- **C46.** `conv_scipy`, the reference, computes the textbook sum: taps that fall into the padding contribute nothing. -/
theorem C46_scipy_is_the_textbook_sum (g : Cfg) (w : Ker) (img : Img) (hdx : 0 < g.dx) (hdy : 0 < g.dy) (hkx : 0 < g.kx)
    (hky : 0 < g.ky) (x y k : Nat) :
    convScipy g w img x y k = ∑ b ∈ Finset.range g.ky, ∑ a ∈ Finset.range g.kx,
      if (0 ≤ (x : Int) * g.sx + a * g.dx - g.px ∧ (x : Int) * g.sx + a * g.dx - g.px < g.xin) ∧
         (0 ≤ (y : Int) * g.sy + b * g.dy - g.py ∧ (y : Int) * g.sy + b * g.dy - g.py < g.yin) then
        ∑ c ∈ Finset.range (g.cin / g.grp), w k (g.kx - a - 1) (g.ky - b - 1) c *
          img (x * g.sx + a * g.dx - g.px) (y * g.sy + b * g.dy - g.py) (c + k / (g.cout / g.grp) * (g.cin / g.grp))
      else 0 := by
  rw [convScipy_eq_tapSum g w img hdx hdy hkx hky]
  unfold tapSum
  refine Finset.sum_congr rfl fun b _ => Finset.sum_congr rfl fun a _ => ?_
  have e1 : (tapPos x g.sx a g.dx g.px).toNat = x * g.sx + a * g.dx - g.px := by
    unfold tapPos
    have : ((x : Int) * g.sx + a * g.dx - g.px) = ((x * g.sx + a * g.dx : Nat) : Int) - g.px := by push_cast; ring
    rw [this]; omega
  have e2 : (tapPos y g.sy b g.dy g.py).toNat = y * g.sy + b * g.dy - g.py := by
    unfold tapPos
    have : ((y : Int) * g.sy + b * g.dy - g.py) = ((y * g.sy + b * g.dy : Nat) : Int) - g.py := by push_cast; ring
    rw [this]; omega
  rw [e1, e2]
  by_cases h : (0 ≤ (x : Int) * g.sx + a * g.dx - g.px ∧ (x : Int) * g.sx + a * g.dx - g.px < g.xin) ∧
         (0 ≤ (y : Int) * g.sy + b * g.dy - g.py ∧ (y : Int) * g.sy + b * g.dy - g.py < g.yin)
  · rw [if_pos h, if_pos]; simpa [valid, tapPos] using h
  · rw [if_neg h, if_neg]; simpa [valid, tapPos] using h

/-- A 3×3 image, 2×2 kernel, padding 1, stride 2. -/
def cfgEx : Cfg := { xin := 3, yin := 3, cin := 2, xout := 2, yout := 2, cout := 2, kx := 2, ky := 2, sx := 2, sy := 2, px := 1, py := 1, dx := 1, dy := 1, grp := 2 }

example : (convToSparse cfgEx (srcNWHC cfgEx) (dstNWHC cfgEx) (fun k i j c => k + i * 2 + j * 3 + c)).isSome = true ∧
    (convToSparse cfgEx (srcNWHC cfgEx) (dstNWHC cfgEx) (fun k i j c => k + i * 2 + j * 3 + c)).map List.length = some 18 := by
  decide +kernel

/-- The TensorFlow correlation that the HWCN order is documented to represent: image `[y, x, c]`, kernel `[h, w, c, n]`. -/
def corrHWCN (g : Cfg) (w : Ker) (img : Img) (x y k : Nat) : Int :=
  ∑ b ∈ Finset.range g.ky, ∑ a ∈ Finset.range g.kx,
    if (0 ≤ (x : Int) * g.sx + a * g.dx - g.px ∧ (x : Int) * g.sx + a * g.dx - g.px < g.xin) ∧
       (0 ≤ (y : Int) * g.sy + b * g.dy - g.py ∧ (y : Int) * g.sy + b * g.dy - g.py < g.yin) then
      ∑ c ∈ Finset.range (g.cin / g.grp), w b a c k *
        img (y * g.sy + b * g.dy - g.py) (x * g.sx + a * g.dx - g.px) (c + k / (g.cout / g.grp) * (g.cin / g.grp))
    else 0

/-- **C46, partial (order HWCN).** With as many output channels as output rows, the sparse matrix of the TensorFlow order is
the correlation. Missing: all other shapes, where the destination numbers collide (see the witness). -/
theorem C46_hwcn_partial (g : Cfg) (w : Ker) (img : Img) (v : Nat → Int) (ts : List Triple)
    (hts : convToSparse g (srcHWCN g) (dstHWCN g) (kerHWCN g.kx g.ky w) = some ts)
    (heq : g.yout = g.cout)
    (hv : FlattenedFrom g.yin g.xin g.cin img v)
    (x y k : Nat) (hx : x < g.xout) (hy : y < g.yout) (hk : k < g.cout) :
    matvec ts v (y * g.xout * g.cout + x * g.cout + k) = corrHWCN g w img x y k := by
  obtain ⟨h1, h2, rfl⟩ := convToSparse_some hts
  have hd : dstHWCN g = fun x y c => y * g.xout * g.cout + x * g.cout + c := by
    funext x y c; simp only [dstHWCN, heq]
  have hinj : InjOut g (dstHWCN g) := by
    rw [hd]
    intro x y k x' y' k' hx _ hk hx' _ hk' h
    have := rowMajor_inj hx hk hx' hk' h
    exact ⟨this.2.1, this.1, this.2.2⟩
  have key := matvec_eq_tapSum g (srcHWCN g) (dstHWCN g) (kerHWCN g.kx g.ky w) v (fun x y c => img y x c) h2 h1 hinj
    (fun x y c hx hy hc => hv y x c hy hx hc) x y k hx hy hk
  rw [show dstHWCN g x y k = y * g.xout * g.cout + x * g.cout + k by rw [hd]] at key
  rw [key]
  unfold tapSum corrHWCN
  refine Finset.sum_congr rfl fun b hb => Finset.sum_congr rfl fun a ha => ?_
  have ha' := Finset.mem_range.mp ha
  have hb' := Finset.mem_range.mp hb
  have e1 : (tapPos x g.sx a g.dx g.px).toNat = x * g.sx + a * g.dx - g.px := by
    unfold tapPos
    have : ((x : Int) * g.sx + a * g.dx - g.px) = ((x * g.sx + a * g.dx : Nat) : Int) - g.px := by push_cast; ring
    rw [this]; omega
  have e2 : (tapPos y g.sy b g.dy g.py).toNat = y * g.sy + b * g.dy - g.py := by
    unfold tapPos
    have : ((y : Int) * g.sy + b * g.dy - g.py) = ((y * g.sy + b * g.dy : Nat) : Int) - g.py := by push_cast; ring
    rw [this]; omega
  have e3 : g.kx - 1 - (g.kx - a - 1) = a := by omega
  have e4 : g.ky - 1 - (g.ky - b - 1) = b := by omega
  simp only [kerHWCN, e1, e2, e3, e4]
  by_cases h : (0 ≤ (x : Int) * g.sx + a * g.dx - g.px ∧ (x : Int) * g.sx + a * g.dx - g.px < g.xin) ∧
         (0 ≤ (y : Int) * g.sy + b * g.dy - g.py ∧ (y : Int) * g.sy + b * g.dy - g.py < g.yin)
  · rw [if_pos h, if_pos]; simpa [valid, tapPos] using h
  · rw [if_neg h, if_neg]; simpa [valid, tapPos] using h

/-- 1×1 convolution, 1 input channel, 2 output channels, image of height 1 and width 2. -/
def cfgHWCN : Cfg := { xin := 2, yin := 1, cin := 1, xout := 2, yout := 1, cout := 2, kx := 1, ky := 1, sx := 1, sy := 1, px := 0, py := 0, dx := 1, dy := 1, grp := 1 }

/-- **C46, finding.** Order HWCN with 2 output channels and 1 output row: pixel (0, 0) channel 1 and pixel (0, 1) channel 0 get
the same destination number, so the matrix of the identity kernel on the image [5, 7] yields 12 instead of 5 there, and
the last output gets nothing. -/
theorem C46_witness_hwcn_collision :
    ((convToSparse cfgHWCN (srcHWCN cfgHWCN) (dstHWCN cfgHWCN) (kerHWCN 1 1 (fun _ _ _ _ => 1))).map fun ts =>
      (List.range 4).map (matvec ts (fun i => if i = 0 then 5 else 7))) = some [5, 12, 7, 0] := by decide +kernel

/-- 2×2 kernel, 2 input channels, image 2×2 (order NCHW). -/
def cfgNCHW : Cfg := { xin := 2, yin := 2, cin := 2, xout := 1, yout := 1, cout := 1, kx := 2, ky := 2, sx := 1, sy := 1, px := 0, py := 0, dx := 1, dy := 1, grp := 1 }

/-- The kernel `[n, c, h, w]` with the single nonzero entry `[0, 0, 0, 1]`. -/
def kerOne : Ker := fun _ c h w => if c = 0 ∧ h = 0 ∧ w = 1 then 1 else 0

/-- **C46, finding.** Order NCHW: the kernel is flipped along channels and height and its axes are permuted wrongly. For the
kernel with one nonzero entry at channel 0, row 0, column 1 the correlation is the image value at channel 0, row 0, column 1 (flat
index 1); the sparse matrix picks the value at channel 1, row 0, column 0 (flat index 4) instead. -/
theorem C46_witness_nchw_wrong_kernel :
    ((convToSparse cfgNCHW (srcNCHW cfgNCHW) (dstNCHW cfgNCHW) (kerNCHW 2 2 kerOne)).map fun ts =>
      matvec ts (fun i => if i = 1 then 1 else 0) 0) = some 0 ∧
    ((convToSparse cfgNCHW (srcNCHW cfgNCHW) (dstNCHW cfgNCHW) (kerNCHW 2 2 kerOne)).map fun ts =>
      (List.range 8).map fun j => matvec ts (fun i => if i = j then 1 else 0) 0) = some [0, 0, 0, 0, 1, 0, 0, 0] := by
  decide +kernel

/-! ## C47 -/

/-- **C47.** A coordinate of the output shape is the number of kernel placements that fit: placement `m` (at offset `m * stride`)
fits into the padded input exactly if `m` is below it. -/
theorem C47_placements (n p d k s : Nat) (hk : 1 ≤ k) (hs : 1 ≤ s) (m : Nat) :
    (m : Int) < outDim n p d k s ↔ m * s + (d * (k - 1) + 1) ≤ n + 2 * p := by
  have hs' : (0 : Int) < s := by omega
  have hk' : ((k - 1 : Nat) : Int) = (k : Int) - 1 := by omega
  have hcast : ((d * (k - 1) : Nat) : Int) = (d : Int) * ((k : Int) - 1) := by rw [Nat.cast_mul, hk']
  unfold outDim
  rw [Int.lt_add_one_iff, Int.le_ediv_iff_mul_le hs']
  have hms : ((m * s : Nat) : Int) = (m : Int) * s := by push_cast; ring
  constructor
  · intro h
    have : ((m * s + (d * (k - 1) + 1) : Nat) : Int) ≤ ((n + 2 * p : Nat) : Int) := by
      push_cast [hcast] at *
      omega
    exact_mod_cast this
  · intro h
    have : ((m * s + (d * (k - 1) + 1) : Nat) : Int) ≤ ((n + 2 * p : Nat) : Int) := by exact_mod_cast h
    rw [Nat.cast_add, Nat.cast_add, hcast, hms] at this
    push_cast at this
    linarith

/-- **C47.** The output shape is returned exactly if at least one placement fits in both directions, and then counts them. -/
theorem C47_output_shape (xin yin cout kx ky sx sy px py dx dy : Nat) (hkx : 1 ≤ kx) (hky : 1 ≤ ky) (hsx : 1 ≤ sx) (hsy : 1 ≤ sy) :
    (outputShape xin yin cout kx ky sx sy px py dx dy = none ↔
      (xin + 2 * px < dx * (kx - 1) + 1 ∨ yin + 2 * py < dy * (ky - 1) + 1)) ∧
    (∀ X Y C, outputShape xin yin cout kx ky sx sy px py dx dy = some (X, Y, C) →
      C = cout ∧ (∀ m, m < X ↔ m * sx + (dx * (kx - 1) + 1) ≤ xin + 2 * px) ∧
      (∀ m, m < Y ↔ m * sy + (dy * (ky - 1) + 1) ≤ yin + 2 * py)) := by
  have hx := fun m => C47_placements xin px dx kx sx hkx hsx m
  have hy := fun m => C47_placements yin py dy ky sy hky hsy m
  have hx0 := hx 0
  have hy0 := hy 0
  unfold outputShape
  constructor
  · simp only [Nat.zero_mul, Nat.zero_add] at hx0 hy0
    by_cases h1 : outDim xin px dx kx sx < 1
    · simp only [h1, if_true, true_iff]
      left
      have : ¬ (((0 : Nat) : Int) < outDim xin px dx kx sx) := by omega
      rw [hx0] at this; omega
    · simp only [h1, if_false]
      have h1' : dx * (kx - 1) + 1 ≤ xin + 2 * px := hx0.mp (by omega)
      by_cases h2 : outDim yin py dy ky sy < 1
      · simp only [h2, if_true, true_iff]
        right
        have : ¬ (((0 : Nat) : Int) < outDim yin py dy ky sy) := by omega
        rw [hy0] at this; omega
      · simp only [h2, if_false]
        have h2' : dy * (ky - 1) + 1 ≤ yin + 2 * py := hy0.mp (by omega)
        constructor
        · intro h; exact absurd h (by simp)
        · intro h; omega
  · intro X Y C h
    simp only at h
    split at h
    · exact absurd h (by simp)
    · split at h
      · exact absurd h (by simp)
      · simp only [Option.some.injEq, Prod.mk.injEq] at h
        obtain ⟨rfl, rfl, rfl⟩ := h
        refine ⟨rfl, fun m => ?_, fun m => ?_⟩
        · rw [← hx m]; omega
        · rw [← hy m]; omega

/-- **C47.** In every output pixel all kernel taps lie inside the padded input, so the `valid` convolution has exactly these pixels. -/
theorem C47_taps_inside (n p d k s m a : Nat) (hk : 1 ≤ k) (hs : 1 ≤ s) (hm : (m : Int) < outDim n p d k s) (ha : a < k) :
    m * s + d * a < n + 2 * p := by
  have h := (C47_placements n p d k s hk hs m).mp hm
  have : d * a ≤ d * (k - 1) := Nat.mul_le_mul_left d (by omega)
  omega

example : outputShape 5 7 8 3 2 2 1 1 0 2 1 = some (2, 6, 8) ∧ outputShape 2 7 8 3 2 2 1 0 0 2 1 = none := by decide

/-! ## C48 -/

/-- **C48.** The clamp returns a value in the two's complement range that is congruent to the argument. -/
theorem C48_clamp (x : Int) (bits : Nat) (hb : 1 ≤ bits) :
    -2 ^ (bits - 1) ≤ signedClamp x bits ∧ signedClamp x bits < 2 ^ (bits - 1) ∧ (2 : Int) ^ bits ∣ signedClamp x bits - x := by
  obtain ⟨n, rfl⟩ : ∃ n, bits = n + 1 := ⟨bits - 1, by omega⟩
  have hp : (0 : Int) < 2 ^ n := by positivity
  have e : (2 : Int) ^ (n + 1) = 2 * 2 ^ n := by ring
  have e2 : (2 : Int) ^ (n + 1) / 2 = 2 ^ n := by rw [e]; omega
  unfold signedClamp
  simp only [e2, Nat.add_sub_cancel]
  have h1 := Int.emod_nonneg (x + 2 ^ n) (show (2 : Int) ^ (n + 1) ≠ 0 by positivity)
  have h2 := Int.emod_lt_of_pos (x + 2 ^ n) (show (0 : Int) < 2 ^ (n + 1) by positivity)
  have h3 := Int.emod_add_mul_ediv (x + 2 ^ n) (2 ^ (n + 1))
  refine ⟨by linarith, by linarith, ⟨-((x + 2 ^ n) / 2 ^ (n + 1)), ?_⟩⟩
  have : (x + 2 ^ n) % 2 ^ (n + 1) = x + 2 ^ n - 2 ^ (n + 1) * ((x + 2 ^ n) / 2 ^ (n + 1)) := by linarith
  rw [this]; ring

/-- **C48.** It is the only such value. -/
theorem C48_unique (x y : Int) (bits : Nat) (hb : 1 ≤ bits) (h1 : -2 ^ (bits - 1) ≤ y) (h2 : y < 2 ^ (bits - 1))
    (h3 : (2 : Int) ^ bits ∣ y - x) : y = signedClamp x bits := by
  obtain ⟨c1, c2, c3⟩ := C48_clamp x bits hb
  obtain ⟨n, rfl⟩ : ∃ n, bits = n + 1 := ⟨bits - 1, by omega⟩
  simp only [Nat.add_sub_cancel] at *
  have hd : (2 : Int) ^ (n + 1) ∣ y - signedClamp x (n + 1) := by
    have := dvd_sub h3 c3
    simpa using this
  have e : (2 : Int) ^ (n + 1) = 2 * 2 ^ n := by ring
  obtain ⟨q, hq⟩ := hd
  have hp : (0 : Int) < 2 ^ n := by positivity
  rw [e] at hq
  have hq0 : q = 0 := by
    by_contra hne
    rcases Int.lt_or_gt_of_ne hne with h | h
    · have : q ≤ -1 := by omega
      nlinarith
    · have : 1 ≤ q := by omega
      nlinarith
  rw [hq0] at hq
  linarith

/-- **C48.** Values that fit are unchanged; clamping twice is clamping once. -/
theorem C48_identity (x : Int) (bits : Nat) (hb : 1 ≤ bits) (h1 : -2 ^ (bits - 1) ≤ x) (h2 : x < 2 ^ (bits - 1)) :
    signedClamp x bits = x ∧ ∀ y, signedClamp (signedClamp y bits) bits = signedClamp y bits := by
  refine ⟨(C48_unique x x bits hb h1 h2 (by simp)).symm, fun y => ?_⟩
  obtain ⟨c1, c2, _⟩ := C48_clamp y bits hb
  exact (C48_unique _ _ bits hb c1 c2 (by simp)).symm

example : signedClamp 200 8 = -56 ∧ signedClamp (-129) 8 = 127 ∧ signedClamp 5 8 = 5 := by decide

/-! ## C71 -/

/-- **C71.** The fixed-point convolution process sends in every step the convolution of the previous step's input, wrapped to a
signed 24-bit value; in the first step it sends the initial buffer. -/
theorem C71_conv_one_step_delay (f : Img → Int) (b : Int) (ss : List Img) (i : Nat) (hi : i < ss.length) :
    ∃ h : i < (convRun f b ss).length,
      (i = 0 → (convRun f b ss)[i] = b) ∧
      (∀ j (hj : j + 1 = i), -2 ^ 23 ≤ (convRun f b ss)[i] ∧ (convRun f b ss)[i] < 2 ^ 23 ∧
        (2 : Int) ^ 24 ∣ (convRun f b ss)[i] - f (ss[j]'(by omega))) := by
  induction ss generalizing b i with
  | nil => simp at hi
  | cons s ss ih =>
    cases i with
    | zero => exact ⟨by simp [convRun], fun _ => by simp [convRun], fun j hj => absurd hj (by omega)⟩
    | succ i =>
      obtain ⟨h, h0, h1⟩ := ih (signedClamp (f s) 24) i (by simpa using hi)
      refine ⟨by simpa [convRun] using h, fun h => absurd h (by omega), fun j hj => ?_⟩
      have hji : j = i := by omega
      subst hji
      simp only [convRun, List.getElem_cons_succ]
      cases j with
      | zero =>
        rw [h0 rfl]
        exact C48_clamp (f s) 24 (by omega)
      | succ j => exact h1 j rfl

example : convRun (fun s => s 0 0 0) 0 [fun _ _ _ => 5, fun _ _ _ => 2 ^ 23, fun _ _ _ => 1] = [0, 5, -2 ^ 23] := by decide

/-! ## C49 -/

/-- Rolling the flattened buffer after clearing column 0 shifts every row by one and fills with zero. -/
theorem roll_clear (rows cols : Nat) (b : Buf) (r c : Nat) (hr : r < rows) (hc : c < cols) :
    rollFlat rows cols (clear0 b) r c = if c + 1 < cols then b r (c + 1) else 0 := by
  have hcp : 0 < cols := by omega
  have hle : (r + 1) * cols ≤ rows * cols := Nat.mul_le_mul_right cols hr
  have e : (r + 1) * cols = r * cols + cols := by ring
  unfold rollFlat
  by_cases h : c + 1 < cols
  · rw [if_pos h]
    have hm : (r * cols + c + 1) % (rows * cols) = r * cols + (c + 1) := by
      rw [Nat.mod_eq_of_lt (by omega)]; omega
    simp only [hm]
    have hd : (r * cols + (c + 1)) / cols = r := by
      rw [Nat.mul_comm, Nat.mul_add_div hcp, Nat.div_eq_of_lt h]; omega
    have hmm : (r * cols + (c + 1)) % cols = c + 1 := by
      rw [Nat.mul_comm, Nat.mul_add_mod, Nat.mod_eq_of_lt h]
    rw [hd, hmm]
    simp [clear0]
  · rw [if_neg h]
    have hc1 : c + 1 = cols := by omega
    have hcol : (r * cols + c + 1) % (rows * cols) % cols = 0 := by
      rw [Nat.mod_mul_left_mod, show r * cols + c + 1 = (r + 1) * cols by omega, Nat.mul_mod_left]
    simp only [clear0, hcol, if_true]

/-- Column `c` of the buffer after step `t`: the sum over the inputs whose contribution is still to be sent. -/
theorem bufAt_eq (rows cols nin : Nat) (w : Nat → Nat → Nat → Int) (s : Nat → Nat → Int) (o : Nat) (ho : o < rows) :
    ∀ t c, c < cols → bufAt rows cols nin w s t o c =
      ∑ i ∈ Finset.range (cols - c), if i < t then ∑ j ∈ Finset.range nin, w (cols - 1 - (c + i)) o j * s (t - i) j else 0 := by
  intro t
  induction t with
  | zero => intro c _; simp [bufAt]
  | succ t ih =>
    intro c hc
    simp only [bufAt, updateAct, calcAct, hc, if_true]
    rw [roll_clear rows cols _ o c ho hc]
    rw [show cols - c = (cols - (c + 1)) + 1 by omega, Finset.sum_range_succ']
    congr 1
    · by_cases h : c + 1 < cols
      · rw [if_pos h, ih (c + 1) h]
        refine Finset.sum_congr rfl fun i _ => ?_
        simp only [Nat.add_lt_add_iff_right]
        rw [show c + 1 + i = c + (i + 1) by omega, show t + 1 - (i + 1) = t - i by omega]
      · rw [if_neg h, show cols - (c + 1) = 0 by omega]; simp
    · simp only [Nat.zero_lt_succ, if_true, Nat.add_zero, Nat.sub_zero]
      rw [show cols - (c + 1) + 1 - 1 = cols - 1 - c by omega]

/-- **C49.** In step `t` a temporal convolution with `K` kernel slices sends the sum over `i < K` of slice `K-1-i` applied to the
input of step `t-1-i` (inputs before step 1 count as zero). -/
theorem C49_temporal_convolution (rows K nin : Nat) (w : Nat → Nat → Nat → Int) (s : Nat → Nat → Int) (o t : Nat)
    (ho : o < rows) (hK : 0 < K) (_ht : 1 ≤ t) :
    citOut rows K nin w s t o =
      ∑ i ∈ Finset.range K, if 1 + i < t then ∑ j ∈ Finset.range nin, w (K - 1 - i) o j * s (t - 1 - i) j else 0 := by
  unfold citOut
  rw [bufAt_eq rows K nin w s o ho (t - 1) 0 hK]
  refine Finset.sum_congr rfl fun i _ => ?_
  have : i < t - 1 ↔ 1 + i < t := by omega
  simp only [this, Nat.zero_add]

example : (List.range 5).map (fun t => citOut 2 3 1 (fun k o _ => if o = 1 then 10 ^ k else 0) (fun t _ => if t = 1 then 1 else 0) (t + 1) 1)
    = [0, 100, 10, 1, 0] := by decide +kernel

end Verif.Conv
