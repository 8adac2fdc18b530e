import Verif.Neurons.FollowLif
import Mathlib.Algebra.Order.Archimedean.Basic
import Mathlib.Tactic.IntervalCases
import Mathlib.Data.Rat.Floor
import Mathlib.Data.Nat.Find

/-!
# C110: a LIF neuron under constant drive

The floating-point LIF neuron (`proc/lif/models.py:20-70, 219-237`) with a constant input.
-/

namespace Verif.Neurons

open Verif.LIF

/-- `1 + k + ... + k^(n-1)`: what `n` steps with voltage factor `k` accumulate of a drive of one. -/
def acc (k : ℚ) : Nat → ℚ
  | 0 => 0
  | n + 1 => acc k n * k + 1

theorem acc_mul (k : ℚ) (n : Nat) : acc k n * (1 - k) = 1 - k ^ n := by
  induction n with
  | zero => simp [acc]
  | succ n ih =>
    rw [acc, pow_succ, add_mul, mul_assoc, mul_comm k (1 - k), ← mul_assoc, ih]; ring

/-- The constant drive: in every step the current is the input, either because nothing of the old current is kept (`du = 1`) or because
there is no input and the drive is the bias. -/
theorem flAt_u (p : FLPar) (v0 : ℚ) (a : Int) (hdu : p.du = 1 ∨ a = 0) (t : Nat) :
    (flPre p ⟨0, v0⟩ (fun _ => a) t).u = a := by
  rcases hdu with hdu | rfl
  · simp [flPre, flSub, hdu]
  · have : ∀ t, (flAt p ⟨0, v0⟩ (fun _ => (0 : Int)) t).u = 0 := by
      intro t
      induction t with
      | zero => rfl
      | succ t ih => simp [flAt, flStep, flSub, ih]
    simp [flPre, flSub, this]

theorem flAt_v (p : FLPar) (v0 : ℚ) (a : Int) (hdu : p.du = 1 ∨ a = 0) (t : Nat) :
    (flPre p ⟨0, v0⟩ (fun _ => a) t).v = (flAt p ⟨0, v0⟩ (fun _ => a) t).v * (1 - p.dv) + (a + p.bias) := by
  have := flAt_u p v0 a hdu t
  simp only [flPre, flSub] at this ⊢
  rw [this]; ring

theorem flSpike_iff (p : FLPar) (s : FLSt) (a : Nat → Int) (t : Nat) : flSpike p s a t = true ↔ (flPre p s a t).v > p.vth := by
  simp [flSpike, flStep, flPre]

theorem flAt_succ_v (p : FLPar) (s : FLSt) (a : Nat → Int) (t : Nat) :
    (flAt p s a (t + 1)).v = if (flPre p s a t).v > p.vth then 0 else (flPre p s a t).v := by
  simp [flAt, flStep, flPre]

/-- The voltage `m` steps after a step `t` with voltage 0, if there is no spike in between. -/
theorem flPre_after (p : FLPar) (a : Int) (hdu : p.du = 1 ∨ a = 0) (t : Nat) (h0 : (flAt p ⟨0, 0⟩ (fun _ => a) t).v = 0) (m : Nat)
    (hq : ∀ j, 1 ≤ j → j ≤ m → ((a : ℚ) + p.bias) * acc (1 - p.dv) j ≤ p.vth) :
    (flPre p ⟨0, 0⟩ (fun _ => a) (t + m)).v = ((a : ℚ) + p.bias) * acc (1 - p.dv) (m + 1) := by
  induction m with
  | zero => rw [Nat.add_zero, flAt_v p 0 a hdu, h0]; simp [acc]
  | succ m ih =>
    have hpre := ih (fun j h1 h2 => hq j h1 (by omega))
    rw [flAt_v p 0 a hdu, show t + (m + 1) = t + m + 1 from rfl, flAt_succ_v, hpre,
      if_neg (not_lt.mpr (hq (m + 1) (by omega) (le_refl _)))]
    rw [show acc (1 - p.dv) (m + 1 + 1) = acc (1 - p.dv) (m + 1) * (1 - p.dv) + 1 from rfl]
    ring

/-- **C110 (periodic firing).** Let `n` be the first number of steps in which the drive lifts the voltage above the threshold. Then the
neuron spikes in step number `n`, `2n`, `3n`, ... and in no other step. -/
theorem C110_periodic (p : FLPar) (a : Int) (hdu : p.du = 1 ∨ a = 0) (n : Nat) (hn : 1 ≤ n)
    (hsp : ((a : ℚ) + p.bias) * acc (1 - p.dv) n > p.vth)
    (hq : ∀ j, 1 ≤ j → j < n → ((a : ℚ) + p.bias) * acc (1 - p.dv) j ≤ p.vth) (t : Nat) :
    flSpike p ⟨0, 0⟩ (fun _ => a) t = true ↔ (t + 1) % n = 0 := by
  have h0 : ∀ m, (flAt p ⟨0, 0⟩ (fun _ => a) (m * n)).v = 0 := by
    intro m
    induction m with
    | zero => simp [flAt]
    | succ m ih =>
      have := flPre_after p a hdu (m * n) ih (n - 1) (fun j h1 h2 => hq j h1 (by omega))
      rw [show (m + 1) * n = m * n + (n - 1) + 1 by rw [Nat.add_mul]; omega, flAt_succ_v, this, show n - 1 + 1 = n by omega,
        if_pos hsp]
  have hdm := Nat.div_add_mod t n
  have hlt := Nat.mod_lt t (show n > 0 by omega)
  have hpre := flPre_after p a hdu ((t / n) * n) (h0 _) (t % n) (fun j h1 h2 => hq j h1 (by omega))
  rw [show t / n * n + t % n = t by rw [Nat.mul_comm]; exact hdm] at hpre
  rw [flSpike_iff, hpre]
  by_cases he : t % n + 1 = n
  · rw [he]
    have : (t + 1) % n = 0 := by
      rw [Nat.add_mod]
      rcases Nat.lt_or_ge 1 n with h | h
      · rw [Nat.mod_eq_of_lt h, he, Nat.mod_self]
      · rw [show n = 1 by omega, Nat.mod_one]
    exact ⟨fun _ => this, fun _ => hsp⟩
  · have hne : ¬ ((t + 1) % n = 0) := by
      intro h
      have h1 : 1 < n := by omega
      rw [Nat.add_mod, Nat.mod_eq_of_lt h1, Nat.mod_eq_of_lt (by omega)] at h
      omega
    exact ⟨fun h => absurd h (not_lt.mpr (hq _ (by omega) (by omega))), fun h => absurd h hne⟩

/-- **C110 (silence).** If no number of steps suffices, the neuron never spikes. -/
theorem C110_silent (p : FLPar) (a : Int) (hdu : p.du = 1 ∨ a = 0)
    (hq : ∀ j, 1 ≤ j → ((a : ℚ) + p.bias) * acc (1 - p.dv) j ≤ p.vth) (t : Nat) :
    flSpike p ⟨0, 0⟩ (fun _ => a) t = false := by
  have hpre := flPre_after p a hdu 0 (by simp [flAt]) t (fun j h1 _ => hq j h1)
  rw [Nat.zero_add] at hpre
  have := hq (t + 1) (by omega)
  rw [← hpre] at this
  rw [Bool.eq_false_iff]
  intro h
  exact absurd ((flSpike_iff _ _ _ _).mp h) (not_lt.mpr this)

/-- Whether the neuron ever spikes is a question about the accumulated drive. -/
theorem spikes_iff (p : FLPar) (a : Int) (hdu : p.du = 1 ∨ a = 0) :
    (∃ t, flSpike p ⟨0, 0⟩ (fun _ => a) t = true) ↔ ∃ n, 1 ≤ n ∧ ((a : ℚ) + p.bias) * acc (1 - p.dv) n > p.vth := by
  constructor
  · rintro ⟨t, ht⟩
    apply Classical.byContradiction
    intro hno
    have := C110_silent p a hdu (fun j hj => not_lt.mp fun h => hno ⟨j, hj, h⟩) t
    rw [this] at ht
    exact Bool.noConfusion ht
  · intro hex
    have hmin := Nat.find_spec hex
    refine ⟨Nat.find hex - 1, ?_⟩
    rw [C110_periodic p a hdu (Nat.find hex) hmin.1 hmin.2
      (fun j h1 h2 => not_lt.mp fun h => Nat.find_min hex h2 ⟨h1, h⟩)]
    rw [show Nat.find hex - 1 + 1 = Nat.find hex by have := hmin.1; omega]
    exact Nat.mod_self _

/-- **C110 (threshold of firing).** A leaky neuron with a threshold of at least 0 fires exactly if the drive divided by the decay exceeds
the threshold. -/
theorem C110_rheobase (p : FLPar) (a : Int) (hdu : p.du = 1 ∨ a = 0) (hdv : 0 < p.dv) (hdv1 : p.dv ≤ 1) (hth : 0 ≤ p.vth) :
    (∃ t, flSpike p ⟨0, 0⟩ (fun _ => a) t = true) ↔ ((a : ℚ) + p.bias) / p.dv > p.vth := by
  rw [spikes_iff p a hdu]
  have hk0 : (0 : ℚ) ≤ 1 - p.dv := by linarith
  have hk1 : (1 : ℚ) - p.dv < 1 := by linarith
  have hacc : ∀ n, acc (1 - p.dv) n = (1 - (1 - p.dv) ^ n) / p.dv := by
    intro n
    have := acc_mul (1 - p.dv) n
    rw [show (1 : ℚ) - (1 - p.dv) = p.dv by ring] at this
    rw [eq_div_iff (ne_of_gt hdv)]
    exact this
  constructor
  · rintro ⟨n, _, hn⟩
    rw [hacc] at hn
    have hpos : 0 ≤ (1 - p.dv) ^ n := pow_nonneg hk0 n
    have hle1 : (1 - p.dv) ^ n ≤ 1 := pow_le_one₀ hk0 (le_of_lt hk1)
    have hd : 0 < ((a : ℚ) + p.bias) := by
      apply Classical.byContradiction
      intro hneg
      have h1 : ((a : ℚ) + p.bias) * ((1 - (1 - p.dv) ^ n) / p.dv) ≤ 0 :=
        mul_nonpos_of_nonpos_of_nonneg (not_lt.mp hneg) (div_nonneg (by linarith) (le_of_lt hdv))
      linarith
    have h2 : ((a : ℚ) + p.bias) * ((1 - (1 - p.dv) ^ n) / p.dv) ≤ ((a : ℚ) + p.bias) / p.dv := by
      rw [← mul_div_assoc]
      apply div_le_div_of_nonneg_right _ (le_of_lt hdv)
      nlinarith
    linarith
  · intro h
    have hd : 0 < ((a : ℚ) + p.bias) := by
      have : 0 < ((a : ℚ) + p.bias) / p.dv := lt_of_le_of_lt hth h
      exact (div_pos_iff_of_pos_right hdv).mp this
    -- choose n with k^n < 1 - vth * dv / drive
    have hgap : 0 < 1 - p.vth * p.dv / ((a : ℚ) + p.bias) := by
      rw [sub_pos, div_lt_one hd]
      rw [gt_iff_lt, lt_div_iff₀ hdv] at h
      exact h
    obtain ⟨n, hn⟩ := exists_pow_lt_of_lt_one hgap hk1
    refine ⟨n + 1, by omega, ?_⟩
    have hn' : (1 - p.dv) ^ (n + 1) < 1 - p.vth * p.dv / ((a : ℚ) + p.bias) := by
      refine lt_of_le_of_lt ?_ hn
      rw [pow_succ]
      exact mul_le_of_le_one_right (pow_nonneg hk0 n) (le_of_lt hk1)
    rw [hacc, ← mul_div_assoc, gt_iff_lt, lt_div_iff₀ hdv]
    have h3 : p.vth * p.dv / ((a : ℚ) + p.bias) < 1 - (1 - p.dv) ^ (n + 1) := by linarith
    rw [div_lt_iff₀ hd] at h3
    linarith

/-- **C110 (perfect integrator).** Without voltage decay a neuron with positive drive and a threshold of at least 0 fires with period
`⌊vth / drive⌋ + 1`. -/
theorem C110_integrator (p : FLPar) (a : Int) (hdu : p.du = 1 ∨ a = 0) (hdv : p.dv = 0) (hth : 0 ≤ p.vth) (hd : 0 < (a : ℚ) + p.bias) (t : Nat) :
    flSpike p ⟨0, 0⟩ (fun _ => a) t = true ↔ (t + 1) % (⌊p.vth / ((a : ℚ) + p.bias)⌋₊ + 1) = 0 := by
  have hacc : ∀ n : Nat, acc (1 - p.dv) n = n := by
    intro n
    rw [hdv, sub_zero]
    induction n with
    | zero => simp [acc]
    | succ n ih => rw [acc, ih]; push_cast; ring
  apply C110_periodic p a hdu _ (by omega)
  · rw [hacc]
    have := Nat.lt_floor_add_one (p.vth / ((a : ℚ) + p.bias))
    rw [div_lt_iff₀ hd] at this
    push_cast
    linarith
  · intro j h1 h2
    rw [hacc]
    have h3 : (j : ℚ) ≤ p.vth / ((a : ℚ) + p.bias) := by
      have h4 := Nat.floor_le (div_nonneg hth (le_of_lt hd))
      have h5 : j ≤ ⌊p.vth / ((a : ℚ) + p.bias)⌋₊ := by omega
      have h6 : (j : ℚ) ≤ (⌊p.vth / ((a : ℚ) + p.bias)⌋₊ : ℚ) := by exact_mod_cast h5
      linarith
    rw [le_div_iff₀ hd] at h3
    linarith

/-- The hypotheses are met: decay 1/2, drive 3, threshold 5: spikes in every third step. -/
example (t : Nat) : flSpike ⟨1, 1 / 2, 0, 5⟩ ⟨0, 0⟩ (fun _ => 3) t = true ↔ (t + 1) % 3 = 0 := by
  apply C110_periodic _ 3 (Or.inl rfl) 3 (by norm_num)
  · norm_num [acc]
  · intro j h1 h2
    interval_cases j <;> norm_num [acc]

/-- A drive of 5 with decay 1/2 fires iff the threshold is below 10. -/
example : ¬ ∃ t, flSpike ⟨1, 1 / 2, 0, 10⟩ ⟨0, 0⟩ (fun _ => 5) t = true := by
  rw [C110_rheobase _ 5 (Or.inl rfl) (by norm_num) (by norm_num) (by norm_num)]
  norm_num

/-! ## The bound of C109 -/

/-- The hypotheses of `C109_lif_leaky` are met: current decay 1, voltage decay 1/2, threshold 20, input 15 in every step. The voltages
are 15, 22.5 (spike), 15, 22.5 (spike), ... -/
theorem example_pre (t : Nat) :
    (flPre (floatLif ⟨4095, 2048, 0, 0⟩ 20) ⟨0, 0⟩ (fun _ => 15) t).u = 15 ∧
    (flPre (floatLif ⟨4095, 2048, 0, 0⟩ 20) ⟨0, 0⟩ (fun _ => 15) t).v = if t % 2 = 0 then 15 else 45 / 2 := by
  have hu := flAt_u (floatLif ⟨4095, 2048, 0, 0⟩ 20) 0 15 (by norm_num [floatLif]) t
  refine ⟨by simpa using hu, ?_⟩
  have hv : (flAt (floatLif ⟨4095, 2048, 0, 0⟩ 20) ⟨0, 0⟩ (fun _ => 15) t).v = if t % 2 = 0 then 0 else 15 := by
    induction t with
    | zero => simp [flAt]
    | succ t ih =>
      rw [flAt_succ_v, flAt_v _ 0 15 (by norm_num [floatLif]), ih (flAt_u _ 0 15 (by norm_num [floatLif]) t)]
      rcases Nat.mod_two_eq_zero_or_one t with h | h
      · rw [if_pos h, if_neg (show ¬ (t + 1) % 2 = 0 by omega)]
        norm_num [floatLif, effBias]
      · rw [if_neg (show ¬ t % 2 = 0 by omega), if_pos (show (t + 1) % 2 = 0 by omega)]
        norm_num [floatLif, effBias]
  rw [flAt_v _ 0 15 (by norm_num [floatLif]), hv]
  rcases Nat.mod_two_eq_zero_or_one t with h | h
  · rw [if_pos h, if_pos h]; norm_num [floatLif, effBias]
  · rw [if_neg (show ¬ t % 2 = 0 by omega), if_neg (show ¬ t % 2 = 0 by omega)]; norm_num [floatLif, effBias]

example (T : Nat) : ∀ t < T, lifSpike ⟨4095, 2048, 0, 0⟩ 20 ⟨0, 0⟩ (fun _ => 15) t =
    flSpike (floatLif ⟨4095, 2048, 0, 0⟩ 20) ⟨0, 0⟩ (fun _ => 15) t := by
  refine (C109_lif_leaky ⟨4095, 2048, 0, 0⟩ 20 (fun _ => 15) T (by decide) (by decide) 1 4 (by norm_num) (by norm_num) ?_ ?_).1
  · intro t _
    obtain ⟨h1, h2⟩ := example_pre t
    rw [h1, h2]
    split <;> norm_num
  · intro t _
    rw [(example_pre t).2]
    split <;> norm_num

/-- **Finding.** The bound on the voltage cannot be replaced by a small constant: with a bias of 1 and voltage decay 32/4096 the
bit-accurate neuron stays at voltage 1 for ever, because every step loses the fraction, while the floating-point neuron passes the
threshold 64 and fires again and again. -/
theorem C109_weak_bias_never_fires :
    (∀ t, lifSpike ⟨4095, 32, 1, 0⟩ 1 ⟨0, 0⟩ (fun _ => 0) t = false) ∧
    ∃ n, 1 ≤ n ∧ ∀ t, flSpike (floatLif ⟨4095, 32, 1, 0⟩ 1) ⟨0, 0⟩ (fun _ => 0) t = true ↔ (t + 1) % n = 0 := by
  constructor
  · have inv : ∀ t, ((lifAt ⟨4095, 32, 1, 0⟩ 1 ⟨0, 0⟩ (fun _ => 0) t).st = ⟨0, 0⟩ ∨
        (lifAt ⟨4095, 32, 1, 0⟩ 1 ⟨0, 0⟩ (fun _ => 0) t).st = ⟨0, 1⟩) ∧
        ((lifAt ⟨4095, 32, 1, 0⟩ 1 ⟨0, 0⟩ (fun _ => 0) t).eff = none ∨
        (lifAt ⟨4095, 32, 1, 0⟩ 1 ⟨0, 0⟩ (fun _ => 0) t).eff = some 64) := by
      intro t
      induction t with
      | zero => exact ⟨Or.inl rfl, Or.inl rfl⟩
      | succ t ih =>
        rw [lifAt]
        obtain ⟨h1, h2⟩ := ih
        unfold runSpk
        rcases h1 with h1 | h1 <;> rcases h2 with h2 | h2 <;> rw [h1, h2] <;> decide
    intro t
    obtain ⟨h1, h2⟩ := inv t
    unfold lifSpike runSpk
    rcases h1 with h1 | h1 <;> rcases h2 with h2 | h2 <;> rw [h1, h2] <;> (dsimp only; decide)
  · have hex : ∃ t, flSpike (floatLif ⟨4095, 32, 1, 0⟩ 1) ⟨0, 0⟩ (fun _ => 0) t = true := by
      rw [C110_rheobase _ 0 (by norm_num [floatLif]) (by norm_num [floatLif]) (by norm_num [floatLif]) (by norm_num [floatLif])]
      norm_num [floatLif, effBias]
    rw [spikes_iff _ 0 (by norm_num [floatLif])] at hex
    have hmin := Nat.find_spec hex
    exact ⟨Nat.find hex, hmin.1, C110_periodic _ 0 (by norm_num [floatLif]) (Nat.find hex) hmin.1 hmin.2
      (fun j h1 h2 => not_lt.mp fun h => Nat.find_min hex h2 ⟨h1, h⟩)⟩

/-- A decay of one loses at least one unit of a nonzero current. -/
theorem decay_one_lt {x : Int} (hx : x ≠ 0) : (decay x 1).natAbs + 1 ≤ x.natAbs := by
  unfold decay shrMag
  rw [Int.natAbs_mul, Int.natAbs_natCast, Int.natAbs_mul]
  have hs : (x * (4096 - 1)).sign.natAbs ≤ 1 := by
    rw [Int.natAbs_sign]; split <;> omega
  have h1 : x.natAbs * (4096 - 1 : Int).natAbs / 4096 + 1 ≤ x.natAbs := by
    rw [show (4096 - 1 : Int).natAbs = 4095 by decide]
    have : 0 < x.natAbs := Int.natAbs_pos.mpr hx
    omega
  calc _ ≤ 1 * (x.natAbs * (4096 - 1 : Int).natAbs / 4096) + 1 := Nat.add_le_add_right (Nat.mul_le_mul_right _ hs) 1
    _ ≤ _ := by rw [Nat.one_mul]; exact h1

theorem decay_one_zero : decay 0 1 = 0 := by decide

/-- **Finding.** `du = 0` means no decay in the floating-point model, but the bit-accurate model always adds one: without input a current
is gone after as many steps as it has units. -/
theorem C109_no_decay_still_leaks (p : Par) (vth : Int) (s : St) (hdu : p.du = 0) (hs : s.u.natAbs < 2 ^ 23) (t : Nat)
    (ht : s.u.natAbs ≤ t) : (lifAt p vth s (fun _ => 0) t).st.u = 0 := by
  have key : ∀ t, (lifAt p vth s (fun _ => 0) t).st.u.natAbs ≤ s.u.natAbs - t ∧ (lifAt p vth s (fun _ => 0) t).st.u.natAbs < 2 ^ 23 := by
    intro t
    induction t with
    | zero => exact ⟨by simp [lifAt], hs⟩
    | succ t ih =>
      have e : (lifAt p vth s (fun _ => 0) (t + 1)).st.u = wrapCurr (decay (lifAt p vth s (fun _ => 0) t).st.u 1) := by
        simp [lifAt, runSpk, spikeReset, subthr, hdu]
      have hlt : (decay (lifAt p vth s (fun _ => 0) t).st.u 1).natAbs ≤ (lifAt p vth s (fun _ => 0) t).st.u.natAbs - 1 := by
        by_cases h0 : (lifAt p vth s (fun _ => 0) t).st.u = 0
        · rw [h0]; decide
        · have := decay_one_lt h0; omega
      rw [e, wrapCurr_id (by unfold maxUV; omega) (by unfold maxUV; omega)]
      omega
  have := (key t).1
  omega

end Verif.Neurons
