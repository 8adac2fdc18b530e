import Verif.Dense.Model
import Verif.Weights.Props
import Verif.Common.Scale

/-!
# C39, C40: connections
-/

namespace Verif.Dense

open Verif.Weights

/-- The matrix product, written out. -/
def matVec (nIn : Nat) (w : Mat) (s : Vec) (i : Nat) : Int := ∑ j ∈ Finset.range nIn, w i j * s j

/-- Binary view of a spike vector. -/
def bin (s : Vec) : Vec := fun j => if s j = 0 then 0 else 1

theorem accum_matVec (nIn : Nat) (graded : Bool) (w : Mat) (s : Vec) :
    accum nIn graded w s = matVec nIn w (if graded then s else bin s) := by
  funext i
  cases graded with
  | true => simp [accum, matVec]
  | false =>
    simp only [accum, Bool.false_eq_true, if_false, matVec, bin]
    rw [Finset.sum_filter]
    apply Finset.sum_congr rfl
    intro j _
    by_cases h : s j = 0 <;> simp [h]

theorem state_weights (p : Par) (w : Mat) (s : Nat → Vec) : ∀ t, (stateAt p (init w) s (t + 1)).weights = prepared p w ∧
    (stateAt p (init w) s (t + 1)).weightsSet = true
  | 0 => ⟨rfl, rfl⟩
  | t + 1 => by
    have ih := state_weights p w s t
    refine ⟨?_, rfl⟩
    show (if (stateAt p (init w) s (t + 1)).weightsSet then (stateAt p (init w) s (t + 1)).weights
      else prepared p (stateAt p (init w) s (t + 1)).weights) = _
    rw [ih.2, if_pos rfl, ih.1]

/-- The shift by the weight exponent is the product with the power of two, rounded down. -/
theorem shiftExp_scaled (e a : Int) : shiftExp e a = scaled e a := by
  unfold shiftExp
  split
  · rw [scaled_nonneg _ _ (by omega)]
  · rw [scaled_nonpos _ _ (by omega)]

/-- **C39.** The first step sends zero, step `t + 1` sends the shifted matrix product of the prepared weights and the spikes
of step `t` (their binary view for binary connections), for every spike train. -/
theorem C39_dense_product (p : Par) (w : Mat) (s : Nat → Vec) (i : Nat) :
    sentAt p (init w) s 0 i = 0 ∧
    ∀ t, sentAt p (init w) s (t + 1) i =
      scaled p.weightExp (matVec p.nIn (prepared p w) (if p.graded then s t else bin (s t)) i) := by
  refine ⟨rfl, ?_⟩
  intro t
  rw [← shiftExp_scaled]
  have hw : (if (stateAt p (init w) s t).weightsSet then (stateAt p (init w) s t).weights
      else prepared p (stateAt p (init w) s t).weights) = prepared p w := by
    cases t with
    | zero => rfl
    | succ t =>
      obtain ⟨h1, h2⟩ := state_weights p w s t
      rw [h2, if_pos rfl, h1]
  show shiftExp p.weightExp (accum p.nIn p.graded (if (stateAt p (init w) s t).weightsSet then
    (stateAt p (init w) s t).weights else prepared p (stateAt p (init w) s t).weights) (s t) i) = _
  rw [hw, accum_matVec]

/-- **C39.** With weights that are legal 8-bit weights of the sign mode and multiples of the last kept bit, and exponent 0,
the connection is exactly the matrix product, one step late. -/
theorem C39_dense_exact (p : Par) (w : Mat) (s : Nat → Vec) (i t : Nat) (bits : Nat) (hb : bits ≤ 8)
    (hnb : p.numWeightBits = bits) (he : p.weightExp = 0) (hg : p.graded = true)
    (hw : ∀ j < p.nIn, Legal p.signMode 8 (w i j) ∧ 2 ^ cleared p.signMode bits ∣ w i j) :
    sentAt p (init w) s (t + 1) i = ∑ j ∈ Finset.range p.nIn, w i j * s t j := by
  rw [(C39_dense_product p w s i).2 t, hg, he]
  rw [← shiftExp_scaled]
  simp only [shiftExp, if_true, matVec]
  rw [if_neg (by omega)]
  simp only [neg_zero, Int.toNat_zero, pow_zero, Int.ediv_one]
  apply Finset.sum_congr rfl
  intro j hj
  have := hw j (Finset.mem_range.1 hj)
  congr 1
  simp only [prepared, hnb]
  exact C37_clip_truncate_id _ _ _ hb this.1 this.2

/-- **C39.** Linearity in the spikes up to the shift: two spike vectors that differ only on unconnected inputs give the same
output. -/
theorem C39_unconnected_inputs_ignored (p : Par) (w : Mat) (s s' : Nat → Vec) (i t : Nat)
    (h : ∀ j < p.nIn, w i j ≠ 0 → s t j = s' t j) :
    sentAt p (init w) s (t + 1) i = sentAt p (init w) s' (t + 1) i := by
  rw [(C39_dense_product p w s i).2 t, (C39_dense_product p w s' i).2 t]
  congr 1
  apply Finset.sum_congr rfl
  intro j hj
  by_cases hz : w i j = 0
  · have hp : prepared p w i j = 0 := by
      simp only [prepared, hz]
      have hc : clipWeight 0 p.signMode 8 false = 0 := by cases p.signMode <;> decide
      rw [hc]
      have : ∀ k, shl (shr 0 k) k = 0 := by intro k; simp only [shl, shr]; split <;> simp_all
      simp only [truncWeight]
      split <;> simp [this]
    rw [hp]; simp
  · have := h j (Finset.mem_range.1 hj) hz
    cases p.graded <;> simp [bin, this]

def exW : Mat := fun i j => [[2, -4], [6, 0]].getD i [] |>.getD j 0
def exS : Nat → Vec := fun t j => [[1, 0], [3, 1]].getD t [] |>.getD j 0

example : (List.range 3).map (fun t => sentAt ⟨2, true, 0, .mixed, 8⟩ (init exW) exS t 0) = [0, 2, 2] ∧
    (List.range 3).map (fun t => sentAt ⟨2, false, 1, .mixed, 8⟩ (init exW) exS t 1) = [0, 12, 12] := by decide

/-- A host that sets the weight variable between two steps. -/
def setWeights (st : St) (w : Mat) : St := { st with weights := w }

/-- **C39, finding.** Weights written by the host after the first step are used as they are: neither clipped to 8 bits nor
truncated. -/
theorem C39_witness_set_weights_unclipped (p : Par) (w w' : Mat) (s : Nat → Vec) (t i : Nat) :
    (runSpk p (setWeights (stateAt p (init w) s (t + 1)) w') (s (t + 1))).1.aBuff i =
      shiftExp p.weightExp (matVec p.nIn w' (if p.graded then s (t + 1) else bin (s (t + 1))) i) := by
  have h := (state_weights p w s t).2
  show shiftExp p.weightExp (accum p.nIn p.graded (if (stateAt p (init w) s (t + 1)).weightsSet then w' else prepared p w')
    (s (t + 1)) i) = _
  rw [h, if_pos rfl, accum_matVec]

/-! ## C40 -/

/-- The contribution that leaves for output `i` with delay `k` when the spikes are `s`. -/
def bucket (p : DelayPar) (s : Vec) (i k : Nat) : Int :=
  shiftExp p.exp (∑ j ∈ Finset.range p.nIn, if p.dl i j = k then p.w i j * s j else 0)

theorem calcAct_eq (p : DelayPar) (s : Vec) (i k : Nat) (hi : i < p.n) :
    shiftExp p.exp (calcAct p.nIn p.n p.w p.dl s i k) = bucket p s i k := by
  have h1 : (k * p.n + i) % p.n = i := by rw [Nat.mul_comm, Nat.mul_add_mod, Nat.mod_eq_of_lt hi]
  have h2 : (k * p.n + i) / p.n = k := by
    rw [Nat.mul_comm, Nat.mul_add_div (by omega), Nat.div_eq_of_lt hi]; rfl
  simp only [calcAct, stackedAct, bucket, h1, h2]
  congr 1
  apply Finset.sum_congr rfl
  intro j _
  split <;> simp

theorem shiftExp_zero (e : Int) : shiftExp e 0 = 0 := by simp [shiftExp]

/-- Column `k` of the buffer after `t` steps. -/
theorem delayBuf_eq (p : DelayPar) (s : Nat → Vec) : ∀ (t i k : Nat), i < p.n → k < p.d →
    delayBuf p s t (i * p.d + k) = ∑ r ∈ Finset.range t, if k + r < p.d then bucket p (s (t - 1 - r)) i (k + r) else 0
  | 0, i, k, _, _ => by simp [delayBuf]
  | t + 1, i, k, hi, hk => by
    have hdiv : (i * p.d + k) / p.d = i := by
      rw [Nat.mul_comm, Nat.mul_add_div (by omega), Nat.div_eq_of_lt hk]; rfl
    have hmod : (i * p.d + k) % p.d = k := by rw [Nat.mul_comm, Nat.mul_add_mod, Nat.mod_eq_of_lt hk]
    rw [Finset.sum_range_succ']
    simp only [delayBuf, delayStep, hdiv, hmod, calcAct_eq p _ i k hi, Nat.add_zero, if_pos hk, Nat.add_sub_cancel,
      Nat.sub_zero]
    congr 1
    have hlt : i * p.d + k < p.n * p.d := by
      calc i * p.d + k < i * p.d + p.d := by omega
        _ = (i + 1) * p.d := by ring
        _ ≤ p.n * p.d := Nat.mul_le_mul_right _ hi
    simp only [rollFlat, zeroCol]
    by_cases hk1 : k + 1 < p.d
    · have hlt' : i * p.d + k + 1 < p.n * p.d := by
        calc i * p.d + k + 1 < i * p.d + p.d := by omega
          _ = (i + 1) * p.d := by ring
          _ ≤ p.n * p.d := Nat.mul_le_mul_right _ hi
      rw [Nat.mod_eq_of_lt hlt']
      have hm : (i * p.d + k + 1) % p.d = k + 1 := by
        rw [Nat.add_assoc, Nat.mul_comm, Nat.mul_add_mod, Nat.mod_eq_of_lt hk1]
      rw [hm, if_neg (by omega), Nat.add_assoc, delayBuf_eq p s t i (k + 1) hi hk1]
      apply Finset.sum_congr rfl
      intro r hr
      rw [show k + 1 + r = k + (r + 1) by omega, show t - 1 - r = t - (r + 1) by omega]
    · have hkd : k + 1 = p.d := by omega
      have hz : (i * p.d + k + 1) % (p.n * p.d) % p.d = 0 := by
        rw [Nat.mod_mul_left_mod, Nat.add_assoc, hkd]; simp
      rw [if_pos hz]
      symm
      apply Finset.sum_eq_zero
      intro r _
      rw [if_neg (by omega)]

/-- **C40.** The output in step `t` is the sum over delays `r` of the (shifted) contribution of the synapses with that
delay, from the spikes received `r + 1` steps before. Step `t` receives `s t`. -/
theorem C40_delay_buckets (p : DelayPar) (s : Nat → Vec) (t i : Nat) (hi : i < p.n) (hd : 0 < p.d) :
    delaySent p s t i = ∑ r ∈ Finset.range t, if r < p.d then bucket p (s (t - 1 - r)) i r else 0 := by
  have := delayBuf_eq p s t i 0 hi hd
  simp only [Nat.add_zero, Nat.zero_add] at this
  exact this

/-- **C40.** Without a weight exponent and with all delays within the buffer: the output in step `t` is the sum over synapses
of the weight times the spike received `1 + delay` steps before (zero before the start), for every spike train. -/
theorem C40_delay_delivery (p : DelayPar) (s : Nat → Vec) (t i : Nat) (hi : i < p.n) (he : p.exp = 0) (hd : 0 < p.d)
    (hdl : ∀ j < p.nIn, p.dl i j < p.d) :
    delaySent p s t i =
      ∑ j ∈ Finset.range p.nIn, if p.dl i j + 1 ≤ t then p.w i j * s (t - 1 - p.dl i j) j else 0 := by
  rw [C40_delay_buckets p s t i hi hd]
  have hb : ∀ (s : Vec) (k : Nat), bucket p s i k = ∑ j ∈ Finset.range p.nIn, if p.dl i j = k then p.w i j * s j else 0 := by
    intro s k
    simp only [bucket, shiftExp, he]
    rw [if_neg (by omega)]
    simp
  have h1 : ∀ r ∈ Finset.range t, (if r < p.d then bucket p (s (t - 1 - r)) i r else 0) =
      ∑ j ∈ Finset.range p.nIn, if p.dl i j = r then p.w i j * s (t - 1 - r) j else 0 := by
    intro r _
    by_cases hr : r < p.d
    · rw [if_pos hr, hb]
    · rw [if_neg hr]
      symm
      apply Finset.sum_eq_zero
      intro j hj
      rw [if_neg]
      have := hdl j (Finset.mem_range.1 hj)
      omega
  rw [Finset.sum_congr rfl h1, Finset.sum_comm]
  apply Finset.sum_congr rfl
  intro j hj
  rw [Finset.sum_ite_eq (Finset.range t) (p.dl i j) (fun r => p.w i j * s (t - 1 - r) j)]
  simp only [Finset.mem_range]
  rfl

def exDelay : DelayPar :=
  ⟨2, 1, 3, fun _ j => [5, 7].getD j 0, fun _ j => [0, 2].getD j 0, 0⟩

/-- Non-vacuous: both inputs spike in step 0, delays 0 and 2. -/
example : (List.range 5).map (fun t => delaySent exDelay (fun t _ => if t = 0 then 1 else 0) t 0) = [0, 5, 0, 7, 0] := by
  decide

/-- **C40, finding.** A `max_delay` given smaller than a delay: the synapse is silently never delivered. -/
theorem C40_witness_synapse_dropped (p : DelayPar) (s : Nat → Vec) (t i : Nat) (hi : i < p.n) (hd : 0 < p.d)
    (hdl : ∀ j < p.nIn, p.d ≤ p.dl i j) : delaySent p s t i = 0 := by
  rw [C40_delay_buckets p s t i hi hd]
  apply Finset.sum_eq_zero
  intro r _
  split
  · rename_i hr
    simp only [bucket]
    rw [Finset.sum_eq_zero, shiftExp_zero]
    intro j hj
    rw [if_neg]
    have := hdl j (Finset.mem_range.1 hj)
    omega
  · rfl

/-- **C40, finding.** With a negative exponent the shift is applied per delay, so the result is not the shifted sum: two
synapses with weight 1 and exponent -1 give 1 with equal delays and 0 with different ones. -/
theorem C40_witness_shift_per_delay :
    shiftExp (-1) (1 + 1) = 1 ∧ shiftExp (-1) 1 + shiftExp (-1) 1 = 0 := by decide

end Verif.Dense
