import Verif.LIF.Model
import Verif.Common.Scale

/-!
# C41, C42, C43, C70: LIF neurons
-/

namespace Verif.LIF

theorem shrMag_natAbs (x : Int) : (shrMag x).natAbs = x.natAbs / 4096 := by
  rcases lt_trichotomy x 0 with h | h | h
  · rw [shrMag, Int.sign_eq_neg_one_of_neg h]; omega
  · subst h; rfl
  · rw [shrMag, Int.sign_eq_one_of_pos h]; omega

/-- Decay with a constant between 0 and 4096 never increases the magnitude, nor changes the sign. -/
theorem decay_bound (x c : Int) (h0 : 0 ≤ c) (h1 : c ≤ 4096) :
    (decay x c).natAbs * 4096 ≤ x.natAbs * (4096 - c).natAbs ∧ (0 ≤ x → 0 ≤ decay x c) ∧ (x ≤ 0 → decay x c ≤ 0) := by
  refine ⟨?_, ?_, ?_⟩
  · rw [decay, shrMag_natAbs, Int.natAbs_mul]
    exact Nat.div_mul_le_self _ _
  · intro h
    have : 0 ≤ x * (4096 - c) := Int.mul_nonneg h (by omega)
    simp only [decay, shrMag]
    exact Int.mul_nonneg (Int.sign_nonneg_iff.2 this) (by positivity)
  · intro h
    have h2 : 0 ≤ (-x) * (4096 - c) := Int.mul_nonneg (by omega) (by omega)
    rw [neg_mul] at h2
    have h3 : (x * (4096 - c)).sign ≤ 0 := by
      rcases Int.lt_or_eq_of_le (show x * (4096 - c) ≤ 0 by omega) with h4 | h4
      · rw [Int.sign_eq_neg_one_of_neg h4]; omega
      · rw [h4]; rfl
    simp only [decay, shrMag]
    exact Int.mul_nonpos_of_nonpos_of_nonneg h3 (by positivity)

theorem decay_natAbs_le (x c : Int) (h0 : 0 ≤ c) (h1 : c ≤ 4096) : (decay x c).natAbs ≤ x.natAbs := by
  have h := (decay_bound x c h0 h1).1
  have h2 : x.natAbs * (4096 - c).natAbs ≤ x.natAbs * 4096 := Nat.mul_le_mul_left _ (by omega)
  omega

/-- With a decay constant of at least 1 the magnitude of a value up to 2^23 gets below 2^23. -/
theorem decay_strict (x c : Int) (h0 : 1 ≤ c) (h1 : c ≤ 4096) (hx : x.natAbs ≤ 2 ^ 23) : (decay x c).natAbs < 2 ^ 23 := by
  have h := (decay_bound x c (by omega) h1).1
  have h2 : x.natAbs * (4096 - c).natAbs ≤ 2 ^ 23 * 4095 := Nat.mul_le_mul hx (by omega)
  omega

theorem wrapCurr_eq (x : Int) : wrapCurr x = if x > 2 ^ 23 then x - 2 ^ 24 else if x ≤ -2 ^ 23 then x + 2 ^ 24 else x := by
  have hm : maxUV = 2 ^ 23 := rfl
  by_cases h : x > 2 ^ 23
  · have hw : wrapHi x = x - 2 * maxUV := by unfold wrapHi; rw [if_pos (by omega)]
    unfold wrapCurr
    rw [hw, if_pos h, if_neg (by omega)]; omega
  · have hw : wrapHi x = x := by unfold wrapHi; rw [if_neg (by omega)]
    unfold wrapCurr
    rw [hw, if_neg h]
    by_cases h2 : x ≤ -2 ^ 23
    · rw [if_pos (by omega), if_pos h2]; omega
    · rw [if_neg (by omega), if_neg h2]

/-! ## C41 -/

/-- The documented ranges: `du`, `dv` unsigned 12 bit. -/
def ParOk (p : Par) : Prop := 0 ≤ p.du ∧ p.du ≤ 4095 ∧ 0 ≤ p.dv ∧ p.dv ≤ 4095

/-- State range: current in (-2^23, 2^23], voltage within ±(2^23 - 1). -/
def InRange (s : St) : Prop := -2 ^ 23 < s.u ∧ s.u ≤ 2 ^ 23 ∧ -(2 ^ 23 - 1) ≤ s.v ∧ s.v ≤ 2 ^ 23 - 1

theorem subthr_inRange (p : Par) (hp : ParOk p) (s : St) (hs : InRange s) (a : Int) (ha : -2 ^ 18 ≤ a ∧ a ≤ 2 ^ 18) :
    InRange (subthr p s a) := by
  obtain ⟨p1, p2, p3, p4⟩ := hp
  obtain ⟨s1, s2, s3, s4⟩ := hs
  have hd := decay_strict s.u (p.du + 1) (by omega) (by omega) (by omega)
  have hu : -2 ^ 23 < (subthr p s a).u ∧ (subthr p s a).u ≤ 2 ^ 23 := by
    simp only [subthr, wrapCurr_eq]
    generalize decay s.u (p.du + 1) = d at hd
    split
    · omega
    · split <;> omega
  refine ⟨hu.1, hu.2, ?_, ?_⟩
  · show -(2 ^ 23 - 1) ≤ clip _ _ _
    simp only [clip, maxUV]; omega
  · show clip _ _ _ ≤ 2 ^ 23 - 1
    simp only [clip, maxUV]; omega

theorem spikeReset_inRange (eff : Int) (s : St) (hs : InRange s) : InRange (spikeReset eff s).1 := by
  obtain ⟨s1, s2, s3, s4⟩ := hs
  simp only [spikeReset]
  refine ⟨s1, s2, ?_, ?_⟩ <;> dsimp only <;> split <;> omega

/-- **C41.** For every sequence of inputs of up to 18 bits magnitude (16-bit synaptic input in particular) and every legal
decay, the state stays in range at every step. -/
theorem C41_state_in_range (p : Par) (hp : ParOk p) (vth : Int) : ∀ (as : List Int) (o : Obj), InRange o.st →
    (∀ a ∈ as, -2 ^ 18 ≤ a ∧ a ≤ 2 ^ 18) → InRange (runAll p vth o as).1.st
  | [], _, ho, _ => ho
  | a :: as, o, ho, ha => by
    simp only [runAll]
    refine C41_state_in_range p hp vth as _ ?_ (fun x hx => ha x (by simp [hx]))
    exact spikeReset_inRange _ _ (subthr_inRange p hp o.st ho a (ha a (by simp)))

/-- **C41.** The voltage is always within 24 bits, whatever the inputs and parameters. -/
theorem C41_voltage_in_range (p : Par) (vth : Int) (o : Obj) (a : Int) :
    -(2 ^ 23 - 1) ≤ (runSpk p vth o a).1.st.v ∧ (runSpk p vth o a).1.st.v ≤ 2 ^ 23 - 1 := by
  have h : -(2 ^ 23 - 1) ≤ (subthr p o.st a).v ∧ (subthr p o.st a).v ≤ 2 ^ 23 - 1 := by
    constructor
    · show -(2 ^ 23 - 1) ≤ clip _ _ _
      simp only [clip, maxUV]; omega
    · show clip _ _ _ ≤ 2 ^ 23 - 1
      simp only [clip, maxUV]; omega
  simp only [runSpk, spikeReset]
  constructor <;> split <;> omega

/-- **C41.** The wrap-around of the current is a wrap-around: the result differs from the exact sum by a multiple of 2^24. -/
theorem C41_current_modulo (p : Par) (s : St) (a : Int) :
    (2 ^ 24 : Int) ∣ (subthr p s a).u - (decay s.u (p.du + 1) + a * 2 ^ 6) := by
  simp only [subthr, wrapCurr_eq]
  split
  · exact ⟨-1, by ring⟩
  · split
    · exact ⟨1, by ring⟩
    · exact ⟨0, by ring⟩

example : ParOk ⟨409, 204, 100, 6⟩ ∧ InRange ⟨0, 0⟩ := by
  constructor <;> simp [ParOk, InRange]

/-- **C41, finding.** The current can be 2^23, which is not a signed 24-bit value: here after five 16-bit inputs. -/
theorem C41_witness_current_25_bits :
    (runAll ⟨0, 0, 0, 0⟩ 131071 ⟨⟨0, 0⟩, none⟩ [32767, 32767, 32767, 4096, 28748]).1.st.u = 2 ^ 23 := by decide +kernel

/-- **C41, finding.** Inputs of more than 18 bits leave the range: only one wrap is taken off. -/
theorem C41_witness_large_input : (subthr ⟨0, 0, 0, 0⟩ ⟨0, 0⟩ (2 ^ 20)).u = 2 ^ 26 - 2 ^ 24 := by decide

/-! ## C42 -/

theorem shrMag_tdiv (x : Int) : shrMag x = x.tdiv 4096 := by
  rcases Int.le_total 0 x with h | h
  · obtain ⟨n, rfl⟩ := Int.eq_ofNat_of_zero_le h
    rcases Nat.eq_zero_or_pos n with rfl | hn
    · rfl
    · rw [shrMag, Int.sign_eq_one_of_pos (by omega), one_mul, Int.natAbs_natCast, Int.tdiv_eq_ediv_of_nonneg (by omega)]
      norm_cast
  · obtain ⟨n, hn⟩ := Int.eq_ofNat_of_zero_le (show 0 ≤ -x by omega)
    have hx : x = -(n : Int) := by omega
    subst hx
    rw [Int.neg_tdiv, Int.tdiv_eq_ediv_of_nonneg (by omega)]
    rcases Nat.eq_zero_or_pos n with rfl | hp
    · rfl
    · rw [shrMag, Int.sign_eq_neg_one_of_neg (by omega), Int.natAbs_neg, Int.natAbs_natCast]
      push_cast
      ring

/-- **C42, dynamics.** The sub-threshold update in arithmetic terms: the current is the old one decayed by `(du + 1) / 4096`,
rounded towards zero, plus 64 times the input, reduced modulo 2^24 (for inputs up to 18 bits: to the representative in
`(-2^23, 2^23]`); the voltage is the old one decayed by `dv / 4096`, rounded towards zero, plus the new current plus the bias
`bias_mant · 2 ^ bias_exp` rounded down, saturated at ±(2^23 - 1). -/
theorem C42_update_equations (p : Par) (s : St) (a : Int) :
    (2 ^ 24 : Int) ∣ (subthr p s a).u - ((s.u * (4096 - (p.du + 1))).tdiv 4096 + 64 * a) ∧
    (ParOk p → InRange s → (-2 ^ 18 ≤ a ∧ a ≤ 2 ^ 18) → -2 ^ 23 < (subthr p s a).u ∧ (subthr p s a).u ≤ 2 ^ 23) ∧
    (subthr p s a).v = max (-(2 ^ 23 - 1)) (min (2 ^ 23 - 1)
      ((s.v * (4096 - p.dv)).tdiv 4096 + (subthr p s a).u + scaled p.biasExp p.biasMant)) := by
  refine ⟨?_, ?_, ?_⟩
  · have := C41_current_modulo p s a
    rw [decay, shrMag_tdiv] at this
    rw [show (64 : Int) * a = a * 2 ^ 6 by ring]
    exact this
  · intro hp hs ha
    have := subthr_inRange p hp s hs a ha
    exact ⟨this.1, this.2.1⟩
  · have hb : effBias p.biasMant p.biasExp = scaled p.biasExp p.biasMant := by
      unfold effBias
      split
      · rw [scaled_nonneg _ _ (by omega)]
      · rw [scaled_nonpos _ _ (by omega)]
    have h : (subthr p s a).v = clip (-maxUV + 1) (maxUV - 1) (decay s.v p.dv + (subthr p s a).u +
      effBias p.biasMant p.biasExp) := rfl
    rw [h, hb, decay, shrMag_tdiv]
    generalize (s.v * (4096 - p.dv)).tdiv 4096 + (subthr p s a).u + scaled p.biasExp p.biasMant = x
    simp only [clip, maxUV]
    omega

example : (subthr ⟨409, 204, 100, 6⟩ ⟨-1000, 5000⟩ 3).u = -707 ∧ (subthr ⟨409, 204, 100, 6⟩ ⟨-1000, 5000⟩ 3).v = 10443 := by decide

/-- **C42.** In every step: the neuron spikes exactly if the voltage after the sub-threshold update exceeds the threshold
(shifted by 6 bits); the voltage is then 0, and otherwise the updated voltage. -/
theorem C42_spike_iff (p : Par) (vth : Int) (st : St) (a : Int) :
    ((runSpk p vth ⟨st, none⟩ a).2 = true ↔ (subthr p st a).v > vth * 64) ∧
    ((runSpk p vth ⟨st, none⟩ a).2 = true → (runSpk p vth ⟨st, none⟩ a).1.st = { subthr p st a with v := 0 }) ∧
    ((runSpk p vth ⟨st, none⟩ a).2 = false → (runSpk p vth ⟨st, none⟩ a).1.st = subthr p st a) := by
  simp only [runSpk, spikeReset, Option.getD_none]
  refine ⟨by simp, ?_, ?_⟩
  · intro h; rw [h]; rfl
  · intro h; rw [h]; rfl

theorem eff_kept (p : Par) (vth : Int) : ∀ (as : List Int) (o : Obj), o.eff = none ∨ o.eff = some (vth * 2 ^ 6) →
    (runAll p vth o as).1.eff = none ∨ (runAll p vth o as).1.eff = some (vth * 2 ^ 6)
  | [], _, h => h
  | a :: as, o, h => by
    simp only [runAll]
    apply eff_kept p vth as
    right
    rcases h with h | h <;> simp [runSpk, h]

/-- **C42.** The same holds in every step of a run with a fixed threshold: step `n` behaves as the first step from the state
reached. -/
theorem C42_spike_iff_always (p : Par) (vth : Int) (st : St) (as : List Int) (a : Int) :
    let o := (runAll p vth ⟨st, none⟩ as).1
    (runSpk p vth o a).2 = (runSpk p vth ⟨o.st, none⟩ a).2 ∧ (runSpk p vth o a).1.st = (runSpk p vth ⟨o.st, none⟩ a).1.st := by
  intro o
  have h := eff_kept p vth as ⟨st, none⟩ (Or.inl rfl)
  have he : o.eff.getD (vth * 2 ^ 6) = vth * 2 ^ 6 := by
    rcases h with h | h <;> simp [o, h]
  simp only [runSpk, he, Option.getD_none]
  exact ⟨trivial, trivial⟩

/-- **C42.** A neuron without input, current and bias whose voltage does not exceed the (nonnegative) threshold stays silent
for ever. -/
theorem C42_silent_without_input (p : Par) (hp : ParOk p) (hb : p.biasMant = 0) (vth : Int) (hv : 0 ≤ vth) : ∀ (n : Nat) (o : Obj),
    o.st.u = 0 → o.st.v ≤ vth * 64 → (o.eff = none ∨ o.eff = some (vth * 2 ^ 6)) →
    (runAll p vth o (List.replicate n 0)).2 = List.replicate n false
  | 0, _, _, _, _ => rfl
  | n + 1, o, hu, ho, he => by
    obtain ⟨p1, p2, p3, p4⟩ := hp
    have h0 : ∀ c, decay 0 c = 0 := by intro c; simp [decay, shrMag]
    have hu' : (subthr p o.st 0).u = 0 := by simp [subthr, hu, h0, wrapCurr_eq]
    have heb : effBias p.biasMant p.biasExp = 0 := by simp [effBias, hb]
    have hdec := decay_bound o.st.v p.dv p3 (by omega)
    have hle := decay_natAbs_le o.st.v p.dv p3 (by omega)
    have hv' : (subthr p o.st 0).v ≤ vth * 64 := by
      have : (subthr p o.st 0).v = clip (-maxUV + 1) (maxUV - 1) (decay o.st.v p.dv) := by
        have h2 : (subthr p o.st 0).v = clip (-maxUV + 1) (maxUV - 1) (decay o.st.v p.dv + (subthr p o.st 0).u +
          effBias p.biasMant p.biasExp) := rfl
        rw [h2, hu', heb]; simp
      rw [this]
      simp only [clip, maxUV]
      rcases le_total 0 o.st.v with h | h
      · have := hdec.2.1 h; omega
      · have := hdec.2.2 h; omega
    have heff : o.eff.getD (vth * 2 ^ 6) = vth * 2 ^ 6 := by rcases he with h | h <;> simp [h]
    have hns : ¬ (subthr p o.st 0).v > vth * 2 ^ 6 := by omega
    have hr : runSpk p vth o 0 = (⟨subthr p o.st 0, some (vth * 2 ^ 6)⟩, false) := by
      simp only [runSpk, heff, spikeReset, decide_eq_false hns]; rfl
    simp only [List.replicate_succ, runAll, hr]
    rw [C42_silent_without_input p ⟨p1, p2, p3, p4⟩ hb vth hv n _ hu' hv' (Or.inr rfl)]

/-- **C42.** Ternary neuron, lower threshold at most the upper one: the spike is -1 below, +1 above, 0 between; the voltage
is reset exactly on a spike. -/
theorem C42_ternary (lo hi : Int) (h : lo ≤ hi) (s : St) :
    ((ternSpike lo hi s).2 = 1 ↔ s.v > hi) ∧ ((ternSpike lo hi s).2 = -1 ↔ s.v < lo) ∧
    ((ternSpike lo hi s).2 = 0 ↔ lo ≤ s.v ∧ s.v ≤ hi) ∧
    ((ternSpike lo hi s).1.v = if lo ≤ s.v ∧ s.v ≤ hi then s.v else 0) ∧ (ternSpike lo hi s).1.u = s.u := by
  simp only [ternSpike]
  by_cases h1 : s.v < lo
  · have h2 : ¬ s.v > hi := by omega
    have h3 : ¬ (lo ≤ s.v ∧ s.v ≤ hi) := by omega
    simp [h1, h2, h3]
  · by_cases h2 : s.v > hi
    · have h3 : ¬ (lo ≤ s.v ∧ s.v ≤ hi) := by omega
      simp [h1, h2, h3]
    · have h3 : lo ≤ s.v ∧ s.v ≤ hi := by omega
      simp [h1, h2]
      omega

example : (runAll ⟨0, 0, 0, 0⟩ 1 ⟨⟨0, 0⟩, none⟩ [2, 0, 0]).2 = [true, true, true] ∧
    (runAll ⟨4095, 4095, 0, 0⟩ 1 ⟨⟨0, 0⟩, none⟩ [2, 0, 0]).2 = [true, false, false] := by decide +kernel

/-- **C42, finding.** The threshold is read once: a value set by the host after the first step has no effect. -/
theorem C42_witness_threshold_frozen (p : Par) (vth vth' : Int) (o : Obj) (a a' : Int) :
    runSpk p vth' (runSpk p vth o a).1 a' = runSpk p vth (runSpk p vth o a).1 a' := rfl

/-! ## C43 -/

/-- In the refractory period the voltage is frozen. -/
theorem refr_frozen (p : RPar) (s : RSt) (a : Nat → Rat) (t : Nat) (hsp : refrSpike p s a (t + 1) = true)
    (hv : 0 ≤ p.vth) : ∀ k, k ≤ p.period →
    (refrAt p s a (t + 1 + k)).v = 0 ∧ (refrAt p s a (t + 1 + k)).stop = t + 1 + p.period ∧
      ∀ j, 1 ≤ j → j ≤ k → refrSpike p s a (t + 1 + j) = false := by
  intro k
  induction k with
  | zero =>
    intro _
    simp only [refrSpike, Nat.add_sub_cancel] at hsp
    refine ⟨?_, ?_, ?_⟩
    · show (refrStep p (refrAt p s a t) (t + 1) (a (t + 1))).1.v = 0
      simp only [refrStep] at hsp ⊢
      rw [hsp]; rfl
    · show (refrStep p (refrAt p s a t) (t + 1) (a (t + 1))).1.stop = t + 1 + p.period
      simp only [refrStep] at hsp ⊢
      rw [hsp]; rfl
    · intro j h1 h2; omega
  | succ k ih =>
    intro hk
    obtain ⟨h1, h2, h3⟩ := ih (by omega)
    have hstep : ∀ x, (refrStep p (refrAt p s a (t + 1 + k)) (t + 1 + k + 1) x).2 = false ∧
        (refrStep p (refrAt p s a (t + 1 + k)) (t + 1 + k + 1) x).1.v = 0 ∧
        (refrStep p (refrAt p s a (t + 1 + k)) (t + 1 + k + 1) x).1.stop = t + 1 + p.period := by
      intro x
      have hn : ¬ (0 : Rat) > p.vth := not_lt.2 hv
      simp only [refrStep, h1, h2, if_neg (show ¬ t + 1 + p.period < t + 1 + k + 1 by omega), decide_eq_false hn]
      exact ⟨trivial, rfl, rfl⟩
    refine ⟨(hstep _).2.1, (hstep _).2.2, ?_⟩
    intro j j1 j2
    by_cases hj : j ≤ k
    · exact h3 j j1 hj
    · have : j = k + 1 := by omega
      subst this
      exact (hstep _).1

/-- **C43.** After a spike in step `t` the neuron is silent for the whole refractory period, for every input train, if the
threshold is not negative. -/
theorem C43_refractory (p : RPar) (s : RSt) (a : Nat → Rat) (t j : Nat) (ht : 1 ≤ t) (hv : 0 ≤ p.vth)
    (hsp : refrSpike p s a t = true) (h1 : 1 ≤ j) (h2 : j ≤ p.period) : refrSpike p s a (t + j) = false := by
  obtain ⟨t, rfl⟩ : ∃ t', t = t' + 1 := ⟨t - 1, by omega⟩
  exact (refr_frozen p s a t hsp hv p.period (le_refl _)).2.2 j h1 h2

/-- **C43.** And no longer: in the first step after the period the voltage is integrated again from zero, and the neuron
spikes if current and bias exceed the threshold. -/
theorem C43_wakes_up (p : RPar) (s : RSt) (a : Nat → Rat) (t : Nat) (ht : 1 ≤ t) (hv : 0 ≤ p.vth)
    (hsp : refrSpike p s a t = true) :
    refrSpike p s a (t + p.period + 1) = true ↔
      (refrAt p s a (t + p.period + 1)).u + p.bias > p.vth := by
  obtain ⟨t, rfl⟩ : ∃ t', t = t' + 1 := ⟨t - 1, by omega⟩
  obtain ⟨h1, h2, _⟩ := refr_frozen p s a t hsp hv p.period (le_refl _)
  have hu : (refrAt p s a (t + 1 + p.period + 1)).u =
      (refrAt p s a (t + 1 + p.period)).u * (1 - p.du) + a (t + 1 + p.period + 1) := rfl
  rw [hu]
  simp only [refrSpike, Nat.add_sub_cancel, refrStep, h1, h2]
  rw [if_pos (by omega)]
  simp

example : (List.range 6).map (fun t => refrSpike ⟨1, 1, 0, 1, 2⟩ ⟨0, 0, 0⟩ (fun _ => 2) (t + 1)) =
    [true, false, false, true, false, false] := by decide +kernel

/-- **C43, finding.** With a negative threshold the reset voltage itself exceeds the threshold: the neuron spikes in the
refractory period, in every step. -/
theorem C43_witness_negative_threshold :
    (List.range 4).map (fun t => refrSpike ⟨1, 1, 0, -1, 2⟩ ⟨0, 0, 0⟩ (fun _ => 0) (t + 1)) = [true, true, true, true] := by
  decide +kernel

/-! ## C70 -/

/-- **C70.** A LIFReset neuron forgets its history at a reset step: whatever the state before, spikes and state from then on
are those of a fresh neuron. -/
theorem C70_reset_forgets (p : Par) (eff : Int) (interval offset : Nat) (s : St) (t : Nat) (as : List Int) (hne : as ≠ [])
    (ht : t % interval = offset % interval) :
    resetRun p eff interval offset s t as = resetRun p eff interval offset ⟨0, 0⟩ t as := by
  cases as with
  | nil => exact absurd rfl hne
  | cons a as => simp only [resetRun, resetRunSpk, if_pos ht]

/-- **C70.** Between reset steps it is an ordinary LIF neuron. -/
theorem C70_otherwise_lif (p : Par) (vth : Int) (interval offset : Nat) (s : St) (t : Nat) (a : Int)
    (ht : t % interval ≠ offset % interval) :
    resetRunSpk p (vth * 2 ^ 6) interval offset s t a = ((runSpk p vth ⟨s, none⟩ a).1.st, (runSpk p vth ⟨s, none⟩ a).2) := by
  simp only [resetRunSpk, if_neg ht]; rfl

/-- Reset steps come every `interval` steps: one in any `interval` consecutive steps. -/
theorem reset_every_interval (interval offset t : Nat) (h : 0 < interval) :
    ∃ k, t ≤ k ∧ k < t + interval ∧ k % interval = offset % interval ∧
      ∀ k', t ≤ k' → k' < t + interval → k' % interval = offset % interval → k' = k := by
  have hm := Nat.mod_lt offset h
  have ht := Nat.mod_lt t h
  have hdm := Nat.div_add_mod t interval
  have huniq : ∀ k k' : Nat, t ≤ k → k < t + interval → t ≤ k' → k' < t + interval → k % interval = k' % interval → k = k' := by
    intro k k' a1 a2 b1 b2 hk
    have c1 := Nat.div_add_mod k interval
    have c2 := Nat.div_add_mod k' interval
    rw [hk] at c1
    rcases lt_trichotomy (k / interval) (k' / interval) with h1 | h1 | h1
    · have := Nat.mul_le_mul_left interval (show k / interval + 1 ≤ k' / interval from h1)
      rw [Nat.mul_add] at this; omega
    · rw [h1] at c1; omega
    · have := Nat.mul_le_mul_left interval (show k' / interval + 1 ≤ k / interval from h1)
      rw [Nat.mul_add] at this; omega
  by_cases hle : t % interval ≤ offset % interval
  · refine ⟨interval * (t / interval) + offset % interval, by omega, by omega, ?_, ?_⟩
    · rw [Nat.mul_add_mod, Nat.mod_mod]
    · intro k' a1 a2 a3
      apply huniq _ _ a1 a2 (by omega) (by omega)
      rw [a3, Nat.mul_add_mod, Nat.mod_mod]
  · refine ⟨interval * (t / interval + 1) + offset % interval, ?_, ?_, ?_, ?_⟩
    · rw [Nat.mul_add]; omega
    · rw [Nat.mul_add]; omega
    · rw [Nat.mul_add_mod, Nat.mod_mod]
    · intro k' a1 a2 a3
      apply huniq _ _ a1 a2
      · rw [Nat.mul_add]; omega
      · rw [Nat.mul_add]; omega
      · rw [a3, Nat.mul_add_mod, Nat.mod_mod]

theorem resetRun_append (p : Par) (eff : Int) (interval offset : Nat) : ∀ (l m : List Int) (s : St) (t : Nat),
    (resetRun p eff interval offset s t (l ++ m)).1 =
      (resetRun p eff interval offset (resetRun p eff interval offset s t l).1 (t + l.length) m).1 ∧
    (resetRun p eff interval offset s t (l ++ m)).2 = (resetRun p eff interval offset s t l).2 ++
      (resetRun p eff interval offset (resetRun p eff interval offset s t l).1 (t + l.length) m).2
  | [], m, s, t => by simp [resetRun]
  | a :: l, m, s, t => by
    have h := resetRun_append p eff interval offset l m (resetRunSpk p eff interval offset s t a).1 (t + 1)
    have e : t + 1 + l.length = t + (a :: l).length := by rw [List.length_cons]; omega
    rw [e] at h
    constructor
    · exact h.1
    · have h2 := h.2
      simp only [List.cons_append, resetRun]
      rw [h2]

theorem resetRun_len (p : Par) (eff : Int) (interval offset : Nat) : ∀ (l : List Int) (s : St) (t : Nat),
    (resetRun p eff interval offset s t l).2.length = l.length
  | [], _, _ => rfl
  | a :: l, s, t => by simp [resetRun, resetRun_len p eff interval offset l]

/-- **C70.** Resets come every `interval` steps, so a LIFReset neuron remembers nothing older than `interval` steps: whatever
the two states it may start in and whatever the input, after `interval` steps the states agree, and so do all spikes from the
first reset step on – which is one of the first `interval` steps. -/
theorem C70_history_bounded (p : Par) (eff : Int) (interval offset : Nat) (h : 0 < interval) (s s' : St) (t : Nat)
    (as : List Int) (hl : interval ≤ as.length) :
    (resetRun p eff interval offset s t as).1 = (resetRun p eff interval offset s' t as).1 ∧
    ∃ k, k < interval ∧ (resetRun p eff interval offset s t as).2.drop k = (resetRun p eff interval offset s' t as).2.drop k := by
  obtain ⟨k, h1, h2, h3, _⟩ := reset_every_interval interval offset t h
  obtain ⟨j, rfl⟩ : ∃ j, k = t + j := ⟨k - t, by omega⟩
  have hj : (as.take j).length = j := by rw [List.length_take]; omega
  have hne : as.drop j ≠ [] := by
    intro e
    have := congrArg List.length e
    rw [List.length_drop, List.length_nil] at this
    omega
  have ha := resetRun_append p eff interval offset (as.take j) (as.drop j) s t
  have hb := resetRun_append p eff interval offset (as.take j) (as.drop j) s' t
  rw [List.take_append_drop, hj] at ha hb
  rw [C70_reset_forgets p eff interval offset _ (t + j) _ hne h3] at ha hb
  refine ⟨ha.1.trans hb.1.symm, j, by omega, ?_⟩
  have hx : ∀ (l m : List Bool), l.length = j → (l ++ m).drop j = m := by
    intro l m hl
    rw [← hl, List.drop_left]
  rw [ha.2, hb.2, hx _ _ (by rw [resetRun_len, hj]), hx _ _ (by rw [resetRun_len, hj])]

/-- **C70.** And not less: with the reset in the last step of the window the state survives until then. -/
theorem C70_history_kept_between_resets :
    (resetRun ⟨0, 0, 0, 0⟩ 6400 4 0 ⟨5, 0⟩ 1 [0, 0, 0]).1 ≠ (resetRun ⟨0, 0, 0, 0⟩ 6400 4 0 ⟨0, 0⟩ 1 [0, 0, 0]).1 ∧
    (resetRun ⟨0, 0, 0, 0⟩ 6400 4 0 ⟨5, 0⟩ 1 [0, 0, 0, 0]).1 = (resetRun ⟨0, 0, 0, 0⟩ 6400 4 0 ⟨0, 0⟩ 1 [0, 0, 0, 0]).1 := by
  decide +kernel

example : (resetRun ⟨0, 0, 0, 0⟩ 100 3 0 ⟨0, 0⟩ 1 [1, 1, 0]).1 = ⟨0, 0⟩ := by decide +kernel

end Verif.LIF
