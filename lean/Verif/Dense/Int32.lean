import Verif.Dense.Props
import Mathlib.Algebra.Order.BigOperators.Group.Finset
import Mathlib.Data.Int.ModEq
import Mathlib.Tactic.Linarith
import Mathlib.Tactic.Ring

/-!
# C100: connections in machine integers

`src/lava/proc/dense/models.py`: the weights, the received spikes and the output channel are 32-bit (`np.int32`), a sum over an
axis is accumulated in the platform integer (64-bit), `dot` and products stay in 32 bits, shifts stay in the width of their left
operand (a shift by the width or more gives 0, or the sign, as for unbounded integers), and `send` casts into the 32-bit
channel. All of them wrap around silently. The connections of `src/lava/proc/sparse/models.py` have the same types.
-/

namespace Verif.Dense

open Verif.Weights

/-- The value an integer has after being stored in `bits`-bit two's complement. -/
def wrap (bits : Nat) (x : Int) : Int := (x + 2 ^ (bits - 1)) % 2 ^ bits - 2 ^ (bits - 1)

/-- Representable in `bits`-bit two's complement. -/
def FitsIn (bits : Nat) (x : Int) : Prop := -2 ^ (bits - 1) ≤ x ∧ x < 2 ^ (bits - 1)

/-- `self.weights.dot(s_in)` on `np.int32` operands (dense/models.py:98-99): every product and every partial sum wraps at 32
bits; `self.weights[:, s_in].sum(axis=1)` (dense/models.py:101-102): the sum is accumulated in 64 bits. -/
def accumM (nIn : Nat) (graded : Bool) (w : Mat) (s : Vec) : Vec := fun i =>
  if graded then (List.range nIn).foldl (fun acc j => wrap 32 (acc + wrap 32 (w i j * s j))) 0
  else ((List.range nIn).filter (fun j => decide (s j ≠ 0))).foldl (fun acc j => wrap 64 (acc + w i j)) 0

/-- `np.left_shift` / `np.right_shift` (dense/models.py:103-107) on an operand of `bits` bits. -/
def shiftM (bits : Nat) (e : Int) (a : Int) : Int := if e > 0 then wrap bits (a * 2 ^ e.toNat) else a / 2 ^ (-e).toNat

/-- The width of the accumulated activation: 32 for graded spikes, 64 for binary ones. -/
def accWidth (graded : Bool) : Nat := if graded then 32 else 64

/-- `AbstractPyDenseModelBitAcc.run_spk` (dense/models.py:77-107) in machine integers; `a_buff` is rebound to the shifted
activation, in whatever width that has, and cast to 32 bits when sent (pypychannel.py:142 into the int32 channel). -/
def runSpkM (p : Par) (st : St) (s : Vec) : St × Vec :=
  let w := if st.weightsSet then st.weights else prepared p st.weights
  ({ weights := w, weightsSet := true,
     aBuff := fun i => shiftM (accWidth p.graded) p.weightExp (accumM p.nIn p.graded w s i) }, fun i => wrap 32 (st.aBuff i))

def stateAtM (p : Par) (st : St) (s : Nat → Vec) : Nat → St
  | 0 => st
  | t + 1 => (runSpkM p (stateAtM p st s t) (s t)).1

/-- What the connection sends in step `t`. -/
def sentAtM (p : Par) (st : St) (s : Nat → Vec) (t : Nat) : Vec := (runSpkM p (stateAtM p st s t) (s t)).2

/-! ### Wrapping -/

theorem wrap_modEq (bits : Nat) (x : Int) : wrap bits x ≡ x [ZMOD 2 ^ bits] := by
  unfold wrap
  have h : (x + 2 ^ (bits - 1)) % 2 ^ bits ≡ x + 2 ^ (bits - 1) [ZMOD 2 ^ bits] := Int.mod_modEq _ _
  have := h.sub_right (2 ^ (bits - 1))
  simpa using this

theorem wrap_congr {bits : Nat} {x y : Int} (h : x ≡ y [ZMOD 2 ^ bits]) : wrap bits x = wrap bits y := by
  unfold wrap
  have : (x + 2 ^ (bits - 1)) ≡ (y + 2 ^ (bits - 1)) [ZMOD 2 ^ bits] := h.add_right _
  rw [this]

theorem wrap_fits (bits : Nat) (hb : 0 < bits) (x : Int) : FitsIn bits (wrap bits x) := by
  unfold wrap FitsIn
  obtain ⟨k, rfl⟩ : ∃ k, bits = k + 1 := ⟨bits - 1, by omega⟩
  have hp : (0 : Int) < 2 ^ (k + 1) := by positivity
  have h1 := Int.emod_nonneg (x + 2 ^ (k + 1 - 1)) (ne_of_gt hp)
  have h2 := Int.emod_lt_of_pos (x + 2 ^ (k + 1 - 1)) hp
  rw [Nat.add_sub_cancel] at *
  have e : (2 : Int) ^ (k + 1) = 2 ^ k * 2 := pow_succ 2 k
  constructor
  · linarith
  · rw [e] at h2 ⊢; linarith

theorem wrap_id {bits : Nat} (hb : 0 < bits) {x : Int} (h : FitsIn bits x) : wrap bits x = x := by
  unfold wrap
  obtain ⟨k, rfl⟩ : ∃ k, bits = k + 1 := ⟨bits - 1, by omega⟩
  unfold FitsIn at h
  rw [Nat.add_sub_cancel] at *
  rw [Int.emod_eq_of_lt (by linarith [h.1]) (by rw [pow_succ]; linarith [h.2])]
  ring

/-- Storing in `a` bits what was stored in `b ≥ a` bits. -/
theorem wrap_wrap {a b : Nat} (h : a ≤ b) (x : Int) : wrap a (wrap b x) = wrap a x :=
  wrap_congr ((wrap_modEq b x).of_dvd (pow_dvd_pow 2 h))

theorem wrap_eq_iff {bits : Nat} (hb : 0 < bits) (x : Int) : wrap bits x = x ↔ FitsIn bits x := by
  constructor
  · intro h; rw [← h]; exact wrap_fits bits hb x
  · exact wrap_id hb

/-! ### The accumulation -/

theorem fold32 (w s : Nat → Int) : ∀ (l : List Nat) (a b : Int), a ≡ b [ZMOD 2 ^ 32] →
    l.foldl (fun acc j => wrap 32 (acc + wrap 32 (w j * s j))) a ≡ b + (l.map fun j => w j * s j).sum [ZMOD 2 ^ 32]
  | [], a, b, h => by simpa using h
  | j :: l, a, b, h => by
    have := fold32 w s l (wrap 32 (a + wrap 32 (w j * s j))) (b + w j * s j)
      ((wrap_modEq 32 _).trans (h.add (wrap_modEq 32 _)))
    rw [List.foldl_cons, List.map_cons, List.sum_cons, ← add_assoc]
    exact this

theorem fold64 (w : Nat → Int) : ∀ (l : List Nat) (a b : Int), a ≡ b [ZMOD 2 ^ 64] →
    l.foldl (fun acc j => wrap 64 (acc + w j)) a ≡ b + (l.map w).sum [ZMOD 2 ^ 64]
  | [], a, b, h => by simpa using h
  | j :: l, a, b, h => by
    have := fold64 w l (wrap 64 (a + w j)) (b + w j) ((wrap_modEq 64 _).trans (h.add_right _))
    rw [List.foldl_cons, List.map_cons, List.sum_cons, ← add_assoc]
    exact this

theorem fold_fits (bits : Nat) (hb : 0 < bits) (f : Nat → Int) : ∀ (l : List Nat) (a : Int), FitsIn bits a →
    FitsIn bits (l.foldl (fun acc j => wrap bits (acc + f j)) a)
  | [], _, h => h
  | j :: l, _, _ => fold_fits bits hb f l _ (wrap_fits bits hb _)

theorem sum_range_list (n : Nat) (f : Nat → Int) : ((List.range n).map f).sum = ∑ j ∈ Finset.range n, f j := by
  induction n with
  | zero => rfl
  | succ n ih => rw [List.range_succ, List.map_append, List.sum_append, ih, Finset.sum_range_succ]; simp

theorem sum_range_filter_list (n : Nat) (f : Nat → Int) (q : Nat → Prop) [DecidablePred q] :
    (((List.range n).filter fun j => decide (q j)).map f).sum = ∑ j ∈ (Finset.range n).filter q, f j := by
  rw [Finset.sum_filter, ← sum_range_list]
  induction (List.range n) with
  | nil => rfl
  | cons x l ih => by_cases h : q x <;> simp [h, ih]

/-- The accumulated activation is right modulo its width. -/
theorem accumM_modEq (nIn : Nat) (graded : Bool) (w : Mat) (s : Vec) (i : Nat) :
    accumM nIn graded w s i ≡ accum nIn graded w s i [ZMOD 2 ^ accWidth graded] := by
  cases graded with
  | true =>
    have h := fold32 (w i) s (List.range nIn) 0 0 rfl
    rw [zero_add, sum_range_list] at h
    simpa [accumM, accum, accWidth] using h
  | false =>
    have h := fold64 (w i) ((List.range nIn).filter fun j => decide (s j ≠ 0)) 0 0 rfl
    rw [zero_add, sum_range_filter_list nIn (w i) (fun j => s j ≠ 0)] at h
    simpa [accumM, accum, accWidth] using h

theorem accumM_fits (nIn : Nat) (graded : Bool) (w : Mat) (s : Vec) (i : Nat) :
    FitsIn (accWidth graded) (accumM nIn graded w s i) := by
  cases graded with
  | true => exact fold_fits 32 (by decide) (fun j => wrap 32 (w i j * s j)) _ 0 (by constructor <;> decide)
  | false => exact fold_fits 64 (by decide) (w i) _ 0 (by constructor <;> decide)

/-- If the exact activation fits the width, it is exact. -/
theorem accumM_exact (nIn : Nat) (graded : Bool) (w : Mat) (s : Vec) (i : Nat)
    (h : FitsIn (accWidth graded) (accum nIn graded w s i)) : accumM nIn graded w s i = accum nIn graded w s i := by
  have hb : 0 < accWidth graded := by cases graded <;> decide
  rw [← wrap_id hb (accumM_fits nIn graded w s i), wrap_congr (accumM_modEq nIn graded w s i), wrap_id hb h]

theorem stateAtM_weights (p : Par) (w : Mat) (s : Nat → Vec) : ∀ t, (stateAtM p (init w) s (t + 1)).weights = prepared p w ∧
    (stateAtM p (init w) s (t + 1)).weightsSet = true
  | 0 => ⟨rfl, rfl⟩
  | t + 1 => by
    have ih := stateAtM_weights p w s t
    refine ⟨?_, rfl⟩
    show (if (stateAtM p (init w) s (t + 1)).weightsSet then (stateAtM p (init w) s (t + 1)).weights
      else prepared p (stateAtM p (init w) s (t + 1)).weights) = _
    rw [ih.2, if_pos rfl, ih.1]

theorem sentAtM_succ (p : Par) (w : Mat) (s : Nat → Vec) (i t : Nat) : sentAtM p (init w) s (t + 1) i =
    wrap 32 (shiftM (accWidth p.graded) p.weightExp (accumM p.nIn p.graded (prepared p w) (s t) i)) := by
  have hw : (if (stateAtM p (init w) s t).weightsSet then (stateAtM p (init w) s t).weights
      else prepared p (stateAtM p (init w) s t).weights) = prepared p w := by
    cases t with
    | zero => rfl
    | succ t =>
      obtain ⟨h1, h2⟩ := stateAtM_weights p w s t
      rw [h2, if_pos rfl, h1]
  show wrap 32 (shiftM (accWidth p.graded) p.weightExp (accumM p.nIn p.graded (if (stateAtM p (init w) s t).weightsSet then
    (stateAtM p (init w) s t).weights else prepared p (stateAtM p (init w) s t).weights) (s t) i)) = _
  rw [hw]

/-! ### C100 -/

/-- **C100.** With a weight exponent that is not negative, the connection sends the exact activation – the power of two times the
matrix product of the prepared weights with the spikes of the step before – reduced to 32 bits, for every spike train. -/
theorem C100_right_modulo_2_32 (p : Par) (w : Mat) (s : Nat → Vec) (i t : Nat) (he : 0 ≤ p.weightExp) :
    sentAtM p (init w) s (t + 1) i =
      wrap 32 (2 ^ p.weightExp.toNat * matVec p.nIn (prepared p w) (if p.graded then s t else bin (s t)) i) := by
  rw [sentAtM_succ, ← accum_matVec]
  have h := accumM_modEq p.nIn p.graded (prepared p w) (s t) i
  have h32 : (2 : Int) ^ 32 ∣ 2 ^ accWidth p.graded := by cases p.graded <;> exact pow_dvd_pow 2 (by decide)
  unfold shiftM
  split
  · have hw : 32 ≤ accWidth p.graded := by cases p.graded <;> decide
    rw [wrap_wrap hw]
    apply wrap_congr
    rw [mul_comm (2 ^ p.weightExp.toNat)]
    exact (h.of_dvd h32).mul_right _
  · have : p.weightExp = 0 := by omega
    rw [this]
    simp only [neg_zero, Int.toNat_zero, pow_zero, Int.ediv_one, one_mul]
    exact wrap_congr (h.of_dvd h32)

/-- **C100.** So, with an exponent that is not negative, the value sent is the exact one if and only if the exact one fits in 32
bits; otherwise a wrong value is sent and no error is raised. -/
theorem C100_exact_iff_fits (p : Par) (w : Mat) (s : Nat → Vec) (i t : Nat) (he : 0 ≤ p.weightExp) :
    sentAtM p (init w) s (t + 1) i =
        2 ^ p.weightExp.toNat * matVec p.nIn (prepared p w) (if p.graded then s t else bin (s t)) i ↔
      FitsIn 32 (2 ^ p.weightExp.toNat * matVec p.nIn (prepared p w) (if p.graded then s t else bin (s t)) i) := by
  rw [C100_right_modulo_2_32 p w s i t he]
  exact wrap_eq_iff (by decide) _

theorem shr_fits {bits : Nat} {x : Int} (h : FitsIn bits x) (k : Nat) : FitsIn bits (x / 2 ^ k) := by
  have hk : (1 : Int) ≤ 2 ^ k := pow_pos' k
  have hb : (1 : Int) ≤ 2 ^ (bits - 1) := pow_pos' (bits - 1)
  unfold FitsIn at *
  constructor
  · rw [Int.le_ediv_iff_mul_le (by linarith)]
    nlinarith [h.1]
  · rw [Int.ediv_lt_iff_lt_mul (by linarith)]
    nlinarith [h.2]

/-- **C100.** With a negative exponent the division happens after the wrap-around: the value sent is the exact activation,
divided and rounded down, as soon as the undivided activation fits in 32 bits. -/
theorem C100_negative_exponent (p : Par) (w : Mat) (s : Nat → Vec) (i t : Nat) (he : p.weightExp < 0)
    (h : FitsIn 32 (matVec p.nIn (prepared p w) (if p.graded then s t else bin (s t)) i)) :
    sentAtM p (init w) s (t + 1) i =
      matVec p.nIn (prepared p w) (if p.graded then s t else bin (s t)) i / 2 ^ (-p.weightExp).toNat := by
  rw [sentAtM_succ]
  rw [← accum_matVec] at h ⊢
  have h64 : FitsIn (accWidth p.graded) (accum p.nIn p.graded (prepared p w) (s t) i) := by
    generalize accum p.nIn p.graded (prepared p w) (s t) i = x at h
    cases p.graded with
    | true => exact h
    | false =>
      unfold FitsIn accWidth at *
      simp only [Bool.false_eq_true, if_false] at *
      norm_num at *
      omega
  rw [accumM_exact _ _ _ _ _ h64]
  unfold shiftM
  rw [if_neg (by omega)]
  exact wrap_id (by decide) (shr_fits h _)

/-- Legal weights have at most 8 bits besides the sign. -/
theorem legal_abs {m : SignMode} {w : Int} (h : Legal m 8 w) : |w| ≤ 2 ^ 8 := by
  rw [abs_le]
  cases m <;> simp only [Legal] at h <;> constructor <;> omega

theorem prepared_abs (p : Par) (bits : Nat) (hb : bits ≤ 8) (hb1 : 1 ≤ bits) (hnb : p.numWeightBits = bits) (w : Mat) (i j : Nat) :
    |prepared p w i j| ≤ 2 ^ 8 := by
  unfold prepared
  rw [hnb]
  exact legal_abs (C37_clip_truncate_legal _ _ _ hb (fun _ => hb1))

theorem matVec_abs (nIn : Nat) (w : Mat) (s : Vec) (i : Nat) (b : Int) (hb : 0 ≤ b) (hw : ∀ j < nIn, |w i j| ≤ 2 ^ 8)
    (hs : ∀ j < nIn, |s j| ≤ b) : |matVec nIn w s i| ≤ nIn * (2 ^ 8 * b) := by
  unfold matVec
  refine (Finset.abs_sum_le_sum_abs _ _).trans ?_
  have : ∑ j ∈ Finset.range nIn, |w i j * s j| ≤ ∑ _j ∈ Finset.range nIn, (2 ^ 8 * b) := by
    apply Finset.sum_le_sum
    intro j hj
    have hj := Finset.mem_range.1 hj
    rw [abs_mul]
    exact mul_le_mul (hw j hj) (hs j hj) (abs_nonneg _) (by norm_num)
  simpa using this

/-- **C100.** A binary connection divides exactly: with any number of inputs below 2^54 the sum of its 8-bit weights cannot
overflow 64 bits, so also for negative exponents the exact result, reduced to 32 bits, is sent. -/
theorem C100_binary_right_modulo_2_32 (p : Par) (bits : Nat) (hb : bits ≤ 8) (hb1 : 1 ≤ bits) (hnb : p.numWeightBits = bits)
    (hg : p.graded = false) (hn : p.nIn ≤ 2 ^ 54) (w : Mat) (s : Nat → Vec) (i t : Nat) :
    sentAtM p (init w) s (t + 1) i = wrap 32 (scaled p.weightExp (matVec p.nIn (prepared p w) (bin (s t)) i)) := by
  rcases lt_or_ge p.weightExp 0 with he | he
  · rw [sentAtM_succ, scaled_nonpos _ _ (by omega)]
    have hm : accum p.nIn p.graded (prepared p w) (s t) i = matVec p.nIn (prepared p w) (bin (s t)) i := by
      rw [accum_matVec, hg]; rfl
    have hx := matVec_abs p.nIn (prepared p w) (bin (s t)) i 1 (by norm_num)
      (fun j _ => prepared_abs p bits hb hb1 hnb w i j)
      (fun j _ => by unfold bin; split <;> norm_num)
    have hfit : FitsIn (accWidth p.graded) (accum p.nIn p.graded (prepared p w) (s t) i) := by
      rw [hm, hg]
      have hc : (p.nIn : Int) ≤ 2 ^ 54 := by exact_mod_cast hn
      rw [abs_le] at hx
      unfold FitsIn accWidth
      simp only [Bool.false_eq_true, if_false]
      norm_num at *
      omega
    rw [accumM_exact _ _ _ _ _ hfit, hm]
    unfold shiftM
    rw [if_neg (by omega)]
  · rw [C100_right_modulo_2_32 p w s i t he, hg, scaled_nonneg _ _ he, mul_comm]
    rfl

/-- **C100.** Sizes that are always safe: spikes of at most `b` (`b = 1` for binary connections), `n` inputs and exponent `e` with
`n · 2^8 · b · 2^max(e,0) < 2^31`. Then the exact value is sent, for all weights and spike trains. -/
theorem C100_safe_sizes (p : Par) (bits : Nat) (hb : bits ≤ 8) (hb1 : 1 ≤ bits) (hnb : p.numWeightBits = bits)
    (b : Nat) (hbp : 1 ≤ b) (w : Mat) (s : Nat → Vec) (t i : Nat) (hs : p.graded = true → ∀ j < p.nIn, |s t j| ≤ b)
    (hsz : p.nIn * (2 ^ 8 * b) * 2 ^ p.weightExp.toNat < 2 ^ 31) :
    sentAtM p (init w) s (t + 1) i =
      scaled p.weightExp (matVec p.nIn (prepared p w) (if p.graded then s t else bin (s t)) i) := by
  have hx := matVec_abs p.nIn (prepared p w) (if p.graded then s t else bin (s t)) i b (by omega)
      (fun j _ => prepared_abs p bits hb hb1 hnb w i j) (fun j hj => by
        cases hg : p.graded with
        | true => exact hs hg j hj
        | false =>
          simp only [Bool.false_eq_true, if_false]
          unfold bin
          split
          · simp
          · have : (1 : Int) ≤ b := by exact_mod_cast hbp
            simpa using this)
  have hc : (p.nIn : Int) * (2 ^ 8 * b) * 2 ^ p.weightExp.toNat < 2 ^ 31 := by exact_mod_cast hsz
  have h1 : (1 : Int) ≤ 2 ^ p.weightExp.toNat := pow_pos' _
  have hn := C100_negative_exponent p w s i t
  have hp := C100_right_modulo_2_32 p w s i t
  generalize matVec p.nIn (prepared p w) (if p.graded then s t else bin (s t)) i = x at *
  have h0 : (0 : Int) ≤ p.nIn * (2 ^ 8 * b) := by positivity
  have hx1 : |x| < 2 ^ 31 := by nlinarith
  have hxx : |2 ^ p.weightExp.toNat * x| < 2 ^ 31 := by
    rw [abs_mul, abs_of_nonneg (by linarith : (0 : Int) ≤ 2 ^ p.weightExp.toNat)]
    nlinarith [abs_nonneg x]
  rw [abs_lt] at hxx hx1
  rcases lt_or_ge p.weightExp 0 with he | he
  · rw [hn he ⟨le_of_lt hx1.1, hx1.2⟩, scaled_nonpos _ _ (by omega)]
  · rw [hp he, scaled_nonneg _ _ he, mul_comm x]
    exact wrap_id (by decide) ⟨le_of_lt hxx.1, hxx.2⟩

/-! Non-vacuity: two inputs, one exponent of each sign. -/

def exP (g : Bool) (e : Int) : Par := { nIn := 2, graded := g, weightExp := e, signMode := .mixed, numWeightBits := 8 }
def exPW : Mat := fun _ j => [100, -28].getD j 0
def exPS : Nat → Vec := fun _ j => [5, 3].getD j 0

example : sentAtM (exP true 2) (init exPW) exPS 1 0 = 1664 ∧ sentAtM (exP true (-2)) (init exPW) exPS 1 0 = 104 ∧
    sentAtM (exP false 2) (init exPW) exPS 1 0 = 288 := by decide +kernel

/-- **C100, finding.** One synapse is enough to overflow: a legal weight and a 24-bit graded spike. With weight exponent -8 the
exact result fits easily in 32 bits, but the product has wrapped around before it is divided, and its sign is wrong. -/
theorem C100_witness_graded_overflow :
    Legal .mixed 8 254 ∧ (16777215 : Int) < 2 ^ 24 ∧
    sentAtM { nIn := 1, graded := true, weightExp := -8, signMode := .mixed, numWeightBits := 8 } (init fun _ _ => 254)
      (fun _ _ => 16777215) 1 0 = -131073 ∧
    sentAt { nIn := 1, graded := true, weightExp := -8, signMode := .mixed, numWeightBits := 8 } (init fun _ _ => 254)
      (fun _ _ => 16777215) 1 0 = 16646143 := by
  refine ⟨⟨by norm_num, by norm_num⟩, by decide, by decide +kernel, by decide +kernel⟩

/-- **C100, finding.** Binary spikes and a large exponent: the value sent is zero although a weight was hit. -/
theorem C100_witness_shifted_out :
    sentAtM { nIn := 1, graded := false, weightExp := 31, signMode := .mixed, numWeightBits := 8 } (init fun _ _ => 2)
      (fun _ _ => 1) 1 0 = 0 := by decide +kernel

/-! ### Connections with delays -/

/-- Entry `r` of `np.sum(get_delay_wgts_mat(..) * s_in, axis=1)` (dense/models.py:213-218, 238-241): the products are 32-bit, the sum
is accumulated in 64 bits. -/
def stackedActM (nIn n : Nat) (w : Mat) (dl : Nat → Nat → Nat) (s : Vec) (r : Nat) : Int :=
  (List.range nIn).foldl
    (fun acc j => wrap 64 (acc + wrap 32 ((if dl (r % n) j = r / n then w (r % n) j else 0) * s j))) 0

/-- `PyDelayDenseModelBitAcc.run_spk` (dense/models.py:345-352): `a_buff` is 32-bit and `+=` adds the 64-bit shifted activation to it,
the result being cast back to 32 bits. -/
def delayStepM (p : DelayPar) (b : Flat) (s : Vec) : Flat := fun f =>
  wrap 32 (rollFlat p.n p.d (zeroCol p.d b) f +
    shiftM 64 p.exp (stackedActM p.nIn p.n p.w p.dl s ((f % p.d) * p.n + f / p.d)))

def delayBufM (p : DelayPar) (s : Nat → Vec) : Nat → Flat
  | 0 => fun _ => 0
  | t + 1 => delayStepM p (delayBufM p s t) (s t)

/-- `self.a_out.send(self.a_buff[:, 0])` in step `t` (dense/models.py:339). -/
def delaySentM (p : DelayPar) (s : Nat → Vec) (t i : Nat) : Int := delayBufM p s t (i * p.d)

theorem stackedActM_modEq (nIn n : Nat) (w : Mat) (dl : Nat → Nat → Nat) (s : Vec) (r : Nat) :
    stackedActM nIn n w dl s r ≡ stackedAct nIn n w dl s r [ZMOD 2 ^ 32] := by
  have key : ∀ (g : Nat → Int) (l : List Nat) (a b : Int), a ≡ b [ZMOD 2 ^ 32] →
      l.foldl (fun acc j => wrap 64 (acc + wrap 32 (g j))) a ≡ b + (l.map g).sum [ZMOD 2 ^ 32] := by
    intro g l
    induction l with
    | nil => intro a b h; simpa using h
    | cons j l ih =>
      intro a b h
      rw [List.foldl_cons, List.map_cons, List.sum_cons, ← add_assoc]
      exact ih _ _ (((wrap_modEq 64 _).of_dvd (pow_dvd_pow 2 (by decide))).trans (h.add (wrap_modEq 32 _)))
  have h := key (fun j => (if dl (r % n) j = r / n then w (r % n) j else 0) * s j) (List.range nIn) 0 0 rfl
  rw [zero_add, sum_range_list] at h
  exact h

theorem stackedActM_exact (nIn n : Nat) (w : Mat) (dl : Nat → Nat → Nat) (s : Vec) (r : Nat) (hn : nIn ≤ 2 ^ 31)
    (hf : ∀ j < nIn, FitsIn 32 (w (r % n) j * s j)) : stackedActM nIn n w dl s r = stackedAct nIn n w dl s r := by
  have key : ∀ (g : Nat → Int) (k : Nat), (∀ j < k, FitsIn 32 (g j)) → k ≤ 2 ^ 31 →
      (List.range k).foldl (fun acc j => wrap 64 (acc + wrap 32 (g j))) 0 = ∑ j ∈ Finset.range k, g j ∧
        |∑ j ∈ Finset.range k, g j| ≤ k * 2 ^ 31 := by
    intro g k
    induction k with
    | zero => intro _ _; simp
    | succ k ih =>
      intro h hk
      obtain ⟨h1, h2⟩ := ih (fun j hj => h j (by omega)) (by omega)
      have hg := h k (by omega)
      have hgid := wrap_id (by decide) hg
      unfold FitsIn at hg
      rw [List.range_succ, List.foldl_append, h1, Finset.sum_range_succ]
      simp only [List.foldl_cons, List.foldl_nil, hgid]
      generalize ∑ j ∈ Finset.range k, g j = x at *
      have hk' : (k : Int) + 1 ≤ 2 ^ 31 := by exact_mod_cast hk
      have hx : |x + g k| ≤ (k + 1 : Nat) * 2 ^ 31 := by
        rw [abs_le] at *
        push_cast
        norm_num at *
        constructor <;> omega
      refine ⟨?_, hx⟩
      apply wrap_id (by decide)
      rw [abs_le] at hx
      unfold FitsIn
      push_cast at hx
      norm_num at *
      constructor <;> omega
  refine (key (fun j => (if dl (r % n) j = r / n then w (r % n) j else 0) * s j) nIn ?_ hn).1
  intro j hj
  by_cases h : dl (r % n) j = r / n
  · simp only [if_pos h]; exact hf j hj
  · simp only [if_neg h, zero_mul]; constructor <;> decide

theorem delayBufM_eq (p : DelayPar) (s : Nat → Vec)
    (hs : ∀ t r, wrap 32 (shiftM 64 p.exp (stackedActM p.nIn p.n p.w p.dl (s t) r)) =
      wrap 32 (shiftExp p.exp (stackedAct p.nIn p.n p.w p.dl (s t) r))) :
    ∀ t f, delayBufM p s t f = wrap 32 (delayBuf p s t f)
  | 0, f => by
    show (0 : Int) = wrap 32 0
    decide
  | t + 1, f => by
    have ih := delayBufM_eq p s hs t
    have hsh := hs t ((f % p.d) * p.n + f / p.d)
    have hroll : rollFlat p.n p.d (zeroCol p.d (delayBufM p s t)) f =
        wrap 32 (rollFlat p.n p.d (zeroCol p.d (delayBuf p s t)) f) := by
      unfold rollFlat zeroCol
      split
      · decide
      · exact ih _
    show wrap 32 (rollFlat p.n p.d (zeroCol p.d (delayBufM p s t)) f + _) =
      wrap 32 (rollFlat p.n p.d (zeroCol p.d (delayBuf p s t)) f + shiftExp p.exp (stackedAct p.nIn p.n p.w p.dl (s t) _))
    rw [hroll]
    apply wrap_congr
    apply (wrap_modEq 32 _).add
    have h1 := wrap_modEq 32 (shiftM 64 p.exp (stackedActM p.nIn p.n p.w p.dl (s t) ((f % p.d) * p.n + f / p.d)))
    have h2 := wrap_modEq 32 (shiftExp p.exp (stackedAct p.nIn p.n p.w p.dl (s t) ((f % p.d) * p.n + f / p.d)))
    rw [hsh] at h1
    exact h1.symm.trans h2

/-- **C100.** A connection with delays sends, in every step, the activation of the unbounded model (C40) reduced to 32 bits: for every
spike train if the exponent is not negative, and for negative exponents if no single product of weight and spike overflows. -/
theorem C100_delays_right_modulo_2_32 (p : DelayPar) (s : Nat → Vec) (t i : Nat)
    (h : 0 ≤ p.exp ∨ (p.nIn ≤ 2 ^ 31 ∧ ∀ t i j, j < p.nIn → FitsIn 32 (p.w i j * s t j))) :
    delaySentM p s t i = wrap 32 (delaySent p s t i) := by
  apply delayBufM_eq
  intro t r
  by_cases he : p.exp > 0
  · unfold shiftM shiftExp
    rw [if_pos he, if_pos he, wrap_wrap (by decide)]
    exact wrap_congr ((stackedActM_modEq _ _ _ _ _ _).mul_right _)
  · unfold shiftM shiftExp
    rw [if_neg he, if_neg he]
    rcases h with h | ⟨h1, h2⟩
    · have : p.exp = 0 := by omega
      rw [this]
      simp only [neg_zero, Int.toNat_zero, pow_zero, Int.ediv_one]
      exact wrap_congr (stackedActM_modEq _ _ _ _ _ _)
    · rw [stackedActM_exact _ _ _ _ _ _ h1 (fun j hj => h2 _ _ j hj)]

example : (List.range 5).map (fun t => delaySentM exDelay (fun t _ => if t = 0 then 1 else 0) t 0) =
    (List.range 5).map (fun t => delaySent exDelay (fun t _ => if t = 0 then 1 else 0) t 0) := by decide +kernel

/-- **C100, finding.** Without that condition the delayed connection is wrong, too. -/
theorem C100_witness_delay_overflow :
    delaySentM { nIn := 1, n := 1, d := 2, w := fun _ _ => 254, dl := fun _ _ => 0, exp := -8 } (fun _ _ => 16777215) 1 0 = -131073 ∧
    delaySent { nIn := 1, n := 1, d := 2, w := fun _ _ => 254, dl := fun _ _ => 0, exp := -8 } (fun _ _ => 16777215) 1 0 = 16646143 := by
  decide +kernel

end Verif.Dense
