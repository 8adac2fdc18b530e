import Verif.Swap.Sparse
import Verif.Conv.Props
import Mathlib.Algebra.Order.BigOperators.Group.Finset

/-!
# C123: Conv processes and the Dense or Sparse processes with the matrix of `conv_to_sparse`
-/

namespace Verif.Swap

open Verif.Snn (Proc Kind Vars connProc)
open Verif.VarAccess (Csr)
open Verif.Sparse (valAt)
open Verif.Conv (Cfg Ker Img Triple convScipy signedClamp convToSparse srcNWHC dstNWHC matvec tapSum tapPos valid)
open Verif.Dense (bin)
open Spec

variable {N : Type}

/-- The input of shape `(xin, yin, cin)`, given in C order. -/
def unflat (g : Cfg) (s : Nat → Int) : Img := fun x y c => s (x * g.yin * g.cin + y * g.cin + c)

/-- `clamp_precision(utils.conv(s_in, weight, ..))` in C order (conv/models.py:44-51, 78-79), with `conv_scipy` (conv/utils.py:163-186). -/
def convBuf (g : Cfg) (w : Ker) (s : Nat → Int) (i : Nat) : Int :=
  if i < g.xout * g.yout * g.cout then signedClamp (convScipy g w (unflat g s) (i / g.cout / g.yout) (i / g.cout % g.yout) (i % g.cout)) 24 else 0

/-- `Conv` with `PyConvModelFixed` (conv/models.py:34-54, 66-79); spikes are binary if not `graded` (`num_message_bits` is 0). -/
def convC (g : Cfg) (graded : Bool) (w : Ker) : Proc (Vars N Store Int) (Nat → Int) Int :=
  connProc (g.xout * g.yout * g.cout) (.conv fun _ => 0) Store.buf (fun st s => match st with | .conv _ => .conv (convBuf g w (if graded then s else bin s)) | st => st) Store.poke

namespace Spec

/-- The matrix given by (row, column, value) triples; values for the same place are added (`scipy.sparse`). -/
def matrix (ts : List Triple) (i j : Nat) : Int := (ts.map fun t => if t.1 = i ∧ t.2.1 = j then t.2.2 else 0).sum

end Spec

theorem stateAt_conv (g : Cfg) (graded : Bool) (w : Ker) (a : Nat → Nat → Int) : ∀ t,
    stateAt (convC (N := N) g graded w) a t = .conn (.conv (match t with | 0 => fun _ => 0 | t + 1 => convBuf g w (if graded then a t else bin (a t))))
  | 0 => rfl
  | t + 1 => by
    show (convC (N := N) g graded w).absorb (stateAt (convC (N := N) g graded w) a t) (a t) = _
    rw [stateAt_conv g graded w a t]
    rfl

theorem matvec_matrix (nIn : Nat) (v : Nat → Int) (i : Nat) : ∀ ts : List Triple, (∀ t ∈ ts, t.2.1 < nIn) → matvec ts v i = ∑ j ∈ Finset.range nIn, matrix ts i j * v j
  | [], _ => by simp [matvec, matrix]
  | t :: ts, h => by
    have ih := matvec_matrix nIn v i ts fun t ht => h t (List.mem_cons_of_mem _ ht)
    have e : ∀ j, matrix (t :: ts) i j = (if t.1 = i ∧ t.2.1 = j then t.2.2 else 0) + matrix ts i j := fun j => by simp [matrix]
    have e' : matvec (t :: ts) v i = (if t.1 = i then t.2.2 * v t.2.1 else 0) + matvec ts v i := by simp [matvec]
    rw [e', ih]
    simp only [e, add_mul, Finset.sum_add_distrib]
    congr 1
    rw [Finset.sum_eq_single t.2.1]
    · by_cases h1 : t.1 = i
      · rw [if_pos h1, if_pos ⟨h1, rfl⟩]
      · rw [if_neg h1, if_neg (fun h => h1 h.1), zero_mul]
    · intro j _ hj
      rw [if_neg (fun h => hj h.2.symm), zero_mul]
    · intro hj
      exact absurd (Finset.mem_range.2 (h t List.mem_cons_self)) hj

theorem matrix_eq_matvec (ts : List Triple) (i j : Nat) : matrix ts i j = matvec ts (fun k => if k = j then 1 else 0) i := by
  unfold matrix matvec
  congr 1
  apply List.map_congr_left
  intro t _
  by_cases h1 : t.1 = i
  · by_cases h2 : t.2.1 = j
    · rw [if_pos ⟨h1, h2⟩, if_pos h1]; dsimp only; rw [if_pos h2, mul_one]
    · rw [if_neg (fun h => h2 h.2), if_pos h1]; dsimp only; rw [if_neg h2, mul_zero]
  · rw [if_neg (fun h => h1 h.1), if_neg h1]

/-- Sums of binary inputs times small weights stay below the clamp. -/
theorem tapSum_le (g : Cfg) (w : Ker) (img : Img) (B : Nat) (hw : ∀ k a b c, |w k a b c| ≤ B) (himg : ∀ x y c, 0 ≤ img x y c ∧ img x y c ≤ 1) (x y k : Nat) :
    |tapSum g w img x y k| ≤ g.ky * (g.kx * ((g.cin / g.grp : Nat) * B)) := by
  unfold tapSum
  refine (Finset.abs_sum_le_sum_abs _ _).trans ?_
  have h1 : ∀ b ∈ Finset.range g.ky, |∑ a ∈ Finset.range g.kx,
      if valid (tapPos x g.sx a g.dx g.px) g.xin && valid (tapPos y g.sy b g.dy g.py) g.yin then
        ∑ c ∈ Finset.range (g.cin / g.grp), w k (g.kx - a - 1) (g.ky - b - 1) c *
          img (tapPos x g.sx a g.dx g.px).toNat (tapPos y g.sy b g.dy g.py).toNat (c + k / (g.cout / g.grp) * (g.cin / g.grp))
      else 0| ≤ (g.kx * ((g.cin / g.grp : Nat) * B) : Int) := by
    intro b _
    refine (Finset.abs_sum_le_sum_abs _ _).trans ?_
    have h2 : ∀ a ∈ Finset.range g.kx, |if valid (tapPos x g.sx a g.dx g.px) g.xin && valid (tapPos y g.sy b g.dy g.py) g.yin then
        ∑ c ∈ Finset.range (g.cin / g.grp), w k (g.kx - a - 1) (g.ky - b - 1) c *
          img (tapPos x g.sx a g.dx g.px).toNat (tapPos y g.sy b g.dy g.py).toNat (c + k / (g.cout / g.grp) * (g.cin / g.grp))
      else 0| ≤ ((g.cin / g.grp : Nat) * B : Int) := by
      intro a _
      split
      · refine (Finset.abs_sum_le_sum_abs _ _).trans ?_
        refine (Finset.sum_le_card_nsmul _ _ (B : Int) ?_).trans (le_of_eq ?_)
        · intro c _
          rw [abs_mul]
          obtain ⟨h3, h4⟩ := himg (tapPos x g.sx a g.dx g.px).toNat (tapPos y g.sy b g.dy g.py).toNat (c + k / (g.cout / g.grp) * (g.cin / g.grp))
          rw [abs_of_nonneg h3]
          have := mul_le_mul (hw k (g.kx - a - 1) (g.ky - b - 1) c) h4 h3 (by positivity)
          rwa [mul_one] at this
        · rw [Finset.card_range, nsmul_eq_mul]
      · rw [abs_zero]; positivity
    refine (Finset.sum_le_card_nsmul _ _ _ h2).trans (le_of_eq ?_)
    rw [Finset.card_range, nsmul_eq_mul]
  refine (Finset.sum_le_card_nsmul _ _ _ h1).trans (le_of_eq ?_)
  rw [Finset.card_range, nsmul_eq_mul]

/-- A tap of the kernel reads the input `j` for at most one position of the kernel: the entries of the matrix are weights of the kernel or zero. -/
theorem tapSum_basis (g : Cfg) (w : Ker) (j : Nat) (hdx : 0 < g.dx) (hdy : 0 < g.dy) (hin : g.cin % g.grp = 0) (hout : g.cout % g.grp = 0) (x y k : Nat) (hk : k < g.cout) :
    tapSum g w (unflat g fun i => if i = j then 1 else 0) x y k = 0 ∨ ∃ a b c, tapSum g w (unflat g fun i => if i = j then 1 else 0) x y k = w k a b c := by
  have hgpos : 0 < g.grp := by
    rcases Nat.eq_zero_or_pos g.grp with h | h
    · rw [h, Nat.mod_zero] at hout; omega
    · exact h
  have hcK : g.cout = g.cout / g.grp * g.grp := (Nat.div_mul_cancel (Nat.dvd_of_mod_eq_zero hout)).symm
  have hcC : g.cin = g.cin / g.grp * g.grp := (Nat.div_mul_cancel (Nat.dvd_of_mod_eq_zero hin)).symm
  have hKpos : 0 < g.cout / g.grp := by
    rcases Nat.eq_zero_or_pos (g.cout / g.grp) with h | h
    · rw [h] at hcK; omega
    · exact h
  have hkg : k / (g.cout / g.grp) < g.grp := by rw [Nat.div_lt_iff_lt_mul hKpos, Nat.mul_comm, ← hcK]; exact hk
  have hch : ∀ c, c < g.cin / g.grp → c + k / (g.cout / g.grp) * (g.cin / g.grp) < g.cin := by
    intro c hc
    have h1 : (k / (g.cout / g.grp) + 1) * (g.cin / g.grp) ≤ g.grp * (g.cin / g.grp) := Nat.mul_le_mul_right _ hkg
    rw [Nat.mul_comm g.grp, ← hcC, Nat.add_mul, Nat.one_mul] at h1
    omega
  -- one tap
  let hit (b a c : Nat) : Prop := (valid (tapPos x g.sx a g.dx g.px) g.xin && valid (tapPos y g.sy b g.dy g.py) g.yin) = true ∧
    (tapPos x g.sx a g.dx g.px).toNat * g.yin * g.cin + (tapPos y g.sy b g.dy g.py).toNat * g.cin + (c + k / (g.cout / g.grp) * (g.cin / g.grp)) = j
  have huniq : ∀ b a c b' a' c', c < g.cin / g.grp → c' < g.cin / g.grp → hit b a c → hit b' a' c' → b = b' ∧ a = a' ∧ c = c' := by
    rintro b a c b' a' c' hc hc' ⟨h1, h2⟩ ⟨h1', h2'⟩
    simp only [valid, Bool.and_eq_true, decide_eq_true_eq] at h1 h1'
    obtain ⟨e1, e2, e3⟩ := Verif.Conv.rowMajor_inj (by omega) (hch c hc) (by omega) (hch c' hc') (h2.trans h2'.symm)
    have e1 : tapPos x g.sx a g.dx g.px = tapPos x g.sx a' g.dx g.px := by omega
    have e2 : tapPos y g.sy b g.dy g.py = tapPos y g.sy b' g.dy g.py := by omega
    unfold tapPos at e1 e2
    have f1 : (a : Int) * g.dx = a' * g.dx := by linarith
    have f2 : (b : Int) * g.dy = b' * g.dy := by linarith
    have f1 : a * g.dx = a' * g.dx := by exact_mod_cast f1
    have f2 : b * g.dy = b' * g.dy := by exact_mod_cast f2
    exact ⟨Nat.eq_of_mul_eq_mul_right hdy f2, Nat.eq_of_mul_eq_mul_right hdx f1, by omega⟩
  have hterm : ∀ b a, (if valid (tapPos x g.sx a g.dx g.px) g.xin && valid (tapPos y g.sy b g.dy g.py) g.yin then
      ∑ c ∈ Finset.range (g.cin / g.grp), w k (g.kx - a - 1) (g.ky - b - 1) c *
        unflat g (fun i => if i = j then 1 else 0) (tapPos x g.sx a g.dx g.px).toNat (tapPos y g.sy b g.dy g.py).toNat (c + k / (g.cout / g.grp) * (g.cin / g.grp))
      else 0) = ∑ c ∈ Finset.range (g.cin / g.grp), open Classical in if hit b a c then w k (g.kx - a - 1) (g.ky - b - 1) c else 0 := by
    intro b a
    by_cases hv : (valid (tapPos x g.sx a g.dx g.px) g.xin && valid (tapPos y g.sy b g.dy g.py) g.yin) = true
    · rw [if_pos hv]
      apply Finset.sum_congr rfl
      intro c _
      unfold unflat
      dsimp only
      by_cases he : (tapPos x g.sx a g.dx g.px).toNat * g.yin * g.cin + (tapPos y g.sy b g.dy g.py).toNat * g.cin + (c + k / (g.cout / g.grp) * (g.cin / g.grp)) = j
      · rw [if_pos he, mul_one, if_pos (show hit b a c from ⟨hv, he⟩)]
      · rw [if_neg he, mul_zero, if_neg (show ¬ hit b a c from fun h => he h.2)]
    · rw [if_neg hv]
      symm
      apply Finset.sum_eq_zero
      intro c _
      rw [if_neg (show ¬ hit b a c from fun h => hv h.1)]
  have hsum : tapSum g w (unflat g fun i => if i = j then 1 else 0) x y k =
      ∑ b ∈ Finset.range g.ky, ∑ a ∈ Finset.range g.kx, ∑ c ∈ Finset.range (g.cin / g.grp), open Classical in if hit b a c then w k (g.kx - a - 1) (g.ky - b - 1) c else 0 := by
    unfold tapSum
    exact Finset.sum_congr rfl fun b _ => Finset.sum_congr rfl fun a _ => hterm b a
  by_cases hex : ∃ b a c, b < g.ky ∧ a < g.kx ∧ c < g.cin / g.grp ∧ hit b a c
  · obtain ⟨b, a, c, hb, ha, hc, hh⟩ := hex
    refine .inr ⟨g.kx - a - 1, g.ky - b - 1, c, ?_⟩
    rw [hsum, Finset.sum_eq_single b, Finset.sum_eq_single a, Finset.sum_eq_single c]
    · rw [if_pos hh]
    · intro c' hc' hne
      rw [if_neg]
      intro h
      exact hne (huniq b a c' b a c (Finset.mem_range.1 hc') hc h hh).2.2
    · intro h; exact absurd (Finset.mem_range.2 hc) h
    · intro a' _ hne
      apply Finset.sum_eq_zero
      intro c' hc'
      rw [if_neg]
      intro h
      exact hne (huniq b a' c' b a c (Finset.mem_range.1 hc') hc h hh).2.1
    · intro h; exact absurd (Finset.mem_range.2 ha) h
    · intro b' _ hne
      apply Finset.sum_eq_zero
      intro a' _
      apply Finset.sum_eq_zero
      intro c' hc'
      rw [if_neg]
      intro h
      exact hne (huniq b' a' c' b a c (Finset.mem_range.1 hc') hc h hh).1
    · intro h; exact absurd (Finset.mem_range.2 hb) h
  · left
    rw [hsum]
    apply Finset.sum_eq_zero
    intro b hb
    apply Finset.sum_eq_zero
    intro a ha
    apply Finset.sum_eq_zero
    intro c hc
    rw [if_neg]
    intro h
    exact hex ⟨b, a, c, Finset.mem_range.1 hb, Finset.mem_range.1 ha, Finset.mem_range.1 hc, h⟩

theorem legal_le {m : Weights.SignMode} {v : Int} (h : Weights.Legal m 8 v) : |v| ≤ ((256 : Nat) : Int) := by
  rw [abs_le]
  unfold Weights.Legal at h
  split at h <;> (norm_num at h ⊢; omega)

/-- An index in C order. -/
theorem unravel (B C i : Nat) : i / C / B * B * C + i / C % B * C + i % C = i := by
  have h1 := Nat.div_add_mod i C
  have h2 := Nat.div_add_mod (i / C) B
  rw [← Nat.add_mul, Nat.mul_comm (i / C / B), h2, Nat.mul_comm]
  exact h1

theorem unravel_lt {A B C i : Nat} (h : i < A * B * C) : i / C / B < A ∧ i / C % B < B ∧ i % C < C := by
  have hC : 0 < C := by
    rcases Nat.eq_zero_or_pos C with h0 | h0
    · rw [h0, Nat.mul_zero] at h; omega
    · exact h0
  have hB : 0 < B := by
    rcases Nat.eq_zero_or_pos B with h0 | h0
    · rw [h0, Nat.mul_zero, Nat.zero_mul] at h; omega
    · exact h0
  refine ⟨?_, Nat.mod_lt _ hB, Nat.mod_lt _ hC⟩
  rw [Nat.div_lt_iff_lt_mul hB, Nat.div_lt_iff_lt_mul hC]
  exact h

section
variable {g : Cfg} {w : Ker} {ts : List Triple} (hdx : 0 < g.dx) (hdy : 0 < g.dy) (hkx : 0 < g.kx) (hky : 0 < g.ky) (hts : convToSparse g (srcNWHC g) (dstNWHC g) w = some ts)
include hdx hdy hkx hky hts

/-- The entries of the matrix are weights of the kernel or zero. -/
theorem matrix_entry (i j : Nat) : matrix ts i j = 0 ∨ ∃ k a b c, matrix ts i j = w k a b c := by
  by_cases hi : i < g.xout * g.yout * g.cout
  · obtain ⟨h1, h2, h3⟩ := unravel_lt hi
    have e := Verif.Conv.C46_sparse_matrix_is_convolution g w (unflat g fun k => if k = j then 1 else 0) (fun k => if k = j then 1 else 0) ts hdx hdy hkx hky hts (fun _ _ _ _ _ _ => rfl) _ _ _ h1 h2 h3
    rw [unravel, Verif.Conv.convScipy_eq_tapSum g w _ hdx hdy hkx hky, ← matrix_eq_matvec] at e
    obtain ⟨hin, hout, _⟩ := Verif.Conv.convToSparse_some hts
    rcases tapSum_basis g w j hdx hdy hin hout (i / g.cout / g.yout) (i / g.cout % g.yout) (i % g.cout) h3 with h | ⟨a, b, c, h⟩
    · exact .inl (e.trans h)
    · exact .inr ⟨_, a, b, c, e.trans h⟩
  · left
    unfold matrix
    apply List.sum_eq_zero
    intro v hv
    obtain ⟨t, ht, rfl⟩ := List.mem_map.1 hv
    have := (Verif.Conv.C46_indices_in_range g w ts hts t ht).1
    rw [if_neg (by omega)]

/-- The buffer of `Conv` is the matrix product. -/
theorem convBuf_eq (m : Weights.SignMode) (hw : ∀ k a b c, Weights.Legal m 8 (w k a b c)) (hB : g.kx * g.ky * (g.cin / g.grp) < 2 ^ 15) (s : Nat → Int) (i : Nat) :
    convBuf g w (bin s) i = ∑ j ∈ Finset.range (g.xin * g.yin * g.cin), matrix ts i j * bin s j := by
  have hr := Verif.Conv.C46_indices_in_range g w ts hts
  rw [← matvec_matrix _ _ _ ts fun t ht => (hr t ht).2]
  unfold convBuf
  by_cases hi : i < g.xout * g.yout * g.cout
  · rw [if_pos hi]
    obtain ⟨h1, h2, h3⟩ := unravel_lt hi
    have e := Verif.Conv.C46_sparse_matrix_is_convolution g w (unflat g (bin s)) (bin s) ts hdx hdy hkx hky hts (fun _ _ _ _ _ _ => rfl) _ _ _ h1 h2 h3
    rw [unravel] at e
    rw [e]
    have hb := tapSum_le g w (unflat g (bin s)) 256 (fun k a b c => legal_le (hw k a b c)) (fun x y c => by unfold unflat bin; split <;> omega) (i / g.cout / g.yout) (i / g.cout % g.yout) (i % g.cout)
    rw [← Verif.Conv.convScipy_eq_tapSum g w _ hdx hdy hkx hky, abs_le] at hb
    have hlt : (g.ky * (g.kx * ((g.cin / g.grp : Nat) * (256 : Nat))) : Int) < 2 ^ 23 := by
      have : g.ky * (g.kx * (g.cin / g.grp * 256)) < 2 ^ 23 := by
        have e : g.ky * (g.kx * (g.cin / g.grp * 256)) = g.kx * g.ky * (g.cin / g.grp) * 256 := by ring
        rw [e]; omega
      exact_mod_cast this
    exact (Verif.Conv.C48_identity _ 24 (by decide) (by have := hb.1; norm_num at this hlt ⊢; omega) (by have := hb.2; norm_num at this hlt ⊢; omega)).1
  · rw [if_neg hi]
    unfold matvec
    symm
    apply List.sum_eq_zero
    intro v hv
    obtain ⟨t, ht, rfl⟩ := List.mem_map.1 hv
    have := (hr t ht).1
    rw [if_neg (by omega)]

/-- **C123.** `Dense` with the matrix of `conv_to_sparse` instead of `Conv`: spikes (`num_message_bits = 0`), weights that are legal 8-bit weights and multiples of the last kept bit, exponent 0, less than
`2 ^ 15` weights per output channel. The same is sent for every sequence of inputs, and the buffers are the same. -/
theorem C123_dense_for_conv (par : Dense.Par) (bits : Nat) (hb : bits ≤ 8) (hnb : par.numWeightBits = bits) (he : par.weightExp = 0) (hg : par.graded = false) (hn : par.nIn = g.xin * g.yin * g.cin)
    (hw : ∀ k a b c, Weights.Legal par.signMode 8 (w k a b c) ∧ 2 ^ Weights.cleared par.signMode bits ∣ w k a b c) (hB : g.kx * g.ky * (g.cin / g.grp) < 2 ^ 15) :
    SameTrains (convC (N := N) g false w) (denseC (g.xout * g.yout * g.cout) par (matrix ts)) ∧
    ∀ x, SameVar (convC (N := N) g false w) (denseC (g.xout * g.yout * g.cout) par (matrix ts)) x := by
  have hprep : ∀ i j, Dense.prepared par (matrix ts) i j = matrix ts i j := by
    intro i j
    simp only [Dense.prepared, hnb]
    rcases matrix_entry hdx hdy hkx hky hts i j with h | ⟨k, a, b, c, h⟩
    · rw [h]
      refine Weights.C37_clip_truncate_id _ _ _ hb ?_ (dvd_zero _)
      unfold Weights.Legal
      split <;> norm_num
    · rw [h]
      exact Weights.C37_clip_truncate_id _ _ _ hb (hw k a b c).1 (hw k a b c).2
  have key : ∀ (a : Nat → Nat → Int) t, (Dense.stateAt par (Dense.init (matrix ts)) a t).aBuff = match t with | 0 => fun _ => 0 | t + 1 => convBuf g w (bin (a t)) := by
    intro a t
    cases t with
    | zero => rfl
    | succ t =>
      funext i
      have h := (Dense.C39_dense_product par (matrix ts) a i).2 t
      rw [hg, he, ← Dense.shiftExp_scaled] at h
      simp only [Dense.shiftExp, Dense.matVec] at h
      rw [if_neg (by omega)] at h
      simp only [neg_zero, Int.toNat_zero, pow_zero, Int.ediv_one, hprep, hn] at h
      show _ = convBuf g w (bin (a t)) i
      rw [convBuf_eq hdx hdy hkx hky hts par.signMode (fun k a b c => (hw k a b c).1) hB (a t) i]
      exact h
  refine ⟨⟨rfl, fun a t => ?_⟩, fun x => ⟨rfl, fun a t j => ?_⟩⟩
  · show some ((denseC (N := N) (g.xout * g.yout * g.cout) par (matrix ts)).out (stateAt (denseC (N := N) (g.xout * g.yout * g.cout) par (matrix ts)) a t)) =
      some ((convC (N := N) g false w).out (stateAt (convC (N := N) g false w) a t))
    rw [stateAt_conv, stateAt_dense]
    exact congrArg some (key a t)
  · rw [stateAt_conv, stateAt_dense]
    exact congrFun (key a t) j

/-- **C123.** `Sparse` with the matrix of `conv_to_sparse` instead of `Conv`. -/
theorem C123_sparse_for_conv (par : Sparse.Par) (c : Csr) (hc : Sparse.Wf par.n par.nIn c) (hval : valAt c = matrix ts) (h0 : 0 < par.n) (h1 : 0 < par.nIn) (bits : Nat) (hb : bits ≤ 8)
    (hnb : par.numWeightBits = bits) (he : par.weightExp = 0) (hg : par.graded = false) (hn : par.nIn = g.xin * g.yin * g.cin)
    (hw : ∀ k a b d, Weights.Legal (par.dense (valAt c)).signMode 8 (w k a b d) ∧ 2 ^ Weights.cleared (par.dense (valAt c)).signMode bits ∣ w k a b d)
    (hB : g.kx * g.ky * (g.cin / g.grp) < 2 ^ 15) :
    SameTrains (convC (N := N) g false w) (sparseC (g.xout * g.yout * g.cout) par c) ∧
    ∀ x, SameVar (convC (N := N) g false w) (sparseC (g.xout * g.yout * g.cout) par c) x := by
  have hd := C123_dense_for_conv (N := N) hdx hdy hkx hky hts (par.dense (valAt c)) bits hb hnb he hg hn hw hB
  have hs := C118_sparse_for_dense (N := N) (g.xout * g.yout * g.cout) par c hc h0 h1
  rw [← hval] at hd
  exact ⟨⟨hs.1.1.trans hd.1.1, fun a t => (hs.1.2 a t).trans (hd.1.2 a t)⟩, fun x => ⟨(hs.2 x).1.trans (hd.2 x).1, fun a t j => ((hs.2 x).2 a t j).trans ((hd.2 x).2 a t j)⟩⟩

end

end Verif.Swap

/-! ### Spiking convolutional networks -/

namespace Verif.Swap

open Verif.Wiring (Builders)
open Verif.EndToEnd (Call Res)
open Verif.PortGraph (G run)
open Verif.Snn (Proc Kind platform noProc)
open Verif.Snn.Spec (Gives Deployed Arrangement recorded)
open Verif.SpikeNet (Net fixSpike)
open Verif.Conv (Cfg Ker convToSparse srcNWHC dstNWHC)
open Spec

/-- The network `net` of LIF populations in which the connections `c` with `convs c = some (g, w)` are `Conv` processes with kernel `w`, the others `Dense` processes. -/
def convProcs (net : Net) (np : Nat) (size : Nat → Nat) (len buf : Nat) (data : Nat → Nat → Nat → Int) (convs : Nat → Option (Cfg × Ker)) : Nat → Proc AnyVars (Nat → Int) Int :=
  anyProcs net np size len buf data fun c => match net.conns[c]? with
    | some k => (match convs c with | some x => convC x.1 false x.2 | none => denseC (size k.dst) k.par k.w)
    | none => noProc

/-- The weights of a connection of `net` are the matrix that `conv_to_sparse` returns for the kernel, and need no preparation. -/
structure IsConv (k : SpikeNet.Conn) (n : Nat) (g : Cfg) (w : Ker) : Prop where
  dil : 0 < g.dx ∧ 0 < g.dy
  ker : 0 < g.kx ∧ 0 < g.ky
  weights : ∃ ts, convToSparse g (srcNWHC g) (dstNWHC g) w = some ts ∧ k.w = matrix ts
  rows : n = g.xout * g.yout * g.cout
  cols : k.par.nIn = g.xin * g.yin * g.cin
  exp : k.par.weightExp = 0
  spikes : k.par.graded = false
  legal : ∃ bits : Nat, bits ≤ 8 ∧ k.par.numWeightBits = bits ∧ ∀ i a b c, Weights.Legal k.par.signMode 8 (w i a b c) ∧ 2 ^ Weights.cleared k.par.signMode bits ∣ w i a b c
  small : g.kx * g.ky * (g.cin / g.grp) < 2 ^ 15

theorem sameTrains_symm {X V W : Type} {P P' : Proc X V W} (h : SameTrains P P') : SameTrains P' P := ⟨h.1.symm, fun a t => (h.2 a t).symm⟩

/-- **C123.** A network of LIF populations with `Conv` connections records exactly the spikes of the equations of the network (C115) whose weights are the matrices of `conv_to_sparse`. -/
theorem C123_recorded_conv (net : Net) (np : Nat) (size : Nat → Nat) (len buf : Nat) (data : Nat → Nat → Nat → Int) (convs : Nat → Option (Cfg × Ker))
    (hw : ∀ c k x, net.conns[c]? = some k → convs c = some x → IsConv k (size k.dst) x.1 x.2)
    (lim : Nat) (calls : List PortGraph.Op) (k : Nat) (svc : Nat → Nat) (pms : Nat → List Nat) (cap : Nat → Nat) (own : Nat → Nat) (name : Nat → String) (outs : Nat → List Nat) (procs : List Nat)
    (has : Nat → String → Bool) (b : Builders)
    (hd : Deployed lim calls (np + net.conns.length + np + np) (convProcs net np size len buf data convs) k svc pms cap own name outs procs has b)
    (ha : Arrangement (run lim G.empty calls) own name np net.conns) (T : Nat) (hT : T ≤ buf) (q : Nat) (hq : q < np) :
    Gives (platform (np + net.conns.length + np + np) (convProcs net np size len buf data convs) k svc pms cap) b [.run T, .get (np + net.conns.length + np + q) 0]
      [.ran, .value (recorded (size q) buf T fun t i => fixSpike net (Snn.extOf len data) t q i), .stopped] := by
  refine recorded_any net np size len buf data _ ?_ lim calls k svc pms cap own name outs procs has b hd ha T hT q hq
  intro p
  unfold denseProcs anyProcs Snn.arranged
  split
  · exact .inl rfl
  split
  · dsimp only
    cases h : net.conns[p - np]? with
    | none => exact .inl rfl
    | some k =>
      dsimp only
      cases hx : convs (p - np) with
      | none => exact .inl rfl
      | some x =>
        right
        have hc := hw _ k x h hx
        obtain ⟨ts, h1, h2⟩ := hc.weights
        obtain ⟨bits, h3, h4, h5⟩ := hc.legal
        rw [hc.rows, h2]
        exact sameTrains_symm (C123_dense_for_conv hc.dil.1 hc.dil.2 hc.ker.1 hc.ker.2 h1 k.par bits h3 h4 hc.exp hc.spikes hc.cols h5 hc.small).1
  · exact .inl rfl

end Verif.Swap
