import Verif.Neurons.Model
import Verif.LIF.Props
import Mathlib.Tactic.Ring
import Mathlib.Tactic.Positivity
import Mathlib.Tactic.Linarith
import Mathlib.Algebra.Order.Ring.Int

/-
C64 (range of the other bit-accurate neurons), C72 (RF spike timing), C73 (graded neurons are
memoryless), C74 (RFZero computes the exact dynamics).
-/

namespace Verif.Neurons

open Verif.LIF (clip wrapCurr shrMag effBias shrMag_natAbs decay_bound decay_natAbs_le decay wrapCurr_eq)

/-- Specification: the signed 24-bit range without its minimum. -/
def In24 (x : Int) : Prop := -(2 ^ 23 - 1) ≤ x ∧ x ≤ 2 ^ 23 - 1

theorem clip_in24 (x : Int) : In24 (clip (-lim) lim x) := by
  unfold clip In24 lim
  omega

/-! ### C64, RF -/

theorem runRF_inv (step : RFSt → Int → Int → RFSt × Bool) (P : RFSt → Prop)
    (h : ∀ s a b, P (step s a b).1) (s : RFSt) (hs : P s) (xs : List (Int × Int)) :
    P (runRF step s xs).1 := by
  induction xs generalizing s with
  | nil => exact hs
  | cons x xs ih => exact ih _ (h s x.1 x.2)

/-- **C64, RF**: for every parameter and every input sequence both components are 24-bit values. -/
theorem C64_rf_range (p : RFPar) (s : RFSt) (hs : In24 s.re ∧ In24 s.im) (xs : List (Int × Int)) :
    In24 (runRF (rfStep p) s xs).1.re ∧ In24 (runRF (rfStep p) s xs).1.im :=
  runRF_inv (rfStep p) (fun s => In24 s.re ∧ In24 s.im)
    (fun _ _ _ => ⟨clip_in24 _, clip_in24 _⟩) s hs xs

/-- **C64, RF_IZ**: the same for every threshold that is a 24-bit value itself (and not the least). -/
theorem C64_rfiz_range (p : RFPar) (hv : -(2 ^ 23 - 1) < p.vth) (s : RFSt)
    (hs : In24 s.re ∧ In24 s.im) (xs : List (Int × Int)) :
    In24 (runRF (rfIzStep p) s xs).1.re ∧ In24 (runRF (rfIzStep p) s xs).1.im := by
  apply runRF_inv (rfIzStep p) (fun s => In24 s.re ∧ In24 s.im) _ s hs xs
  intro s a b
  have hre := clip_in24 (resonate p s (a * 2 ^ p.exp) (b * 2 ^ p.exp)).1
  have him := clip_in24 (resonate p s (a * 2 ^ p.exp) (b * 2 ^ p.exp)).2
  unfold rfIzStep
  dsimp only
  generalize clip (-lim) lim (resonate p s (a * 2 ^ p.exp) (b * 2 ^ p.exp)).1 = re at *
  generalize clip (-lim) lim (resonate p s (a * 2 ^ p.exp) (b * 2 ^ p.exp)).2 = im at *
  unfold In24 at *
  split <;> omega

/-- The hypothesis is needed: with the least threshold the reset value is out of range. -/
theorem C64_rfiz_least_threshold :
    (rfIzStep ⟨0, 0, 0, 0, -(2 ^ 23 - 1)⟩ ⟨0, 0⟩ 0 0).1.im = -2 ^ 23 := by decide

/-- Large inputs saturate; the neuron then oscillates. -/
example : (runRF (rfStep ⟨1285, 3880, 12, 6, 64⟩) ⟨0, 0⟩ [(0, -200000), (300000, 0), (0, 200000)]).1 =
    ⟨8388607, 7904480⟩ := by decide +kernel

/-! ### C64, ATRLIF -/

/-- Legal parameters: decay factors between 0 and 1 and 12-bit thresholds. -/
structure AOk (p : APar) : Prop where
  di : 0 ≤ p.di ∧ p.di ≤ 4096
  dth : 0 ≤ p.dth ∧ p.dth ≤ 4096
  dr : 0 ≤ p.dr ∧ p.dr ≤ 4096
  th0 : 0 ≤ p.th0
  step : 0 ≤ p.thStep

theorem i32_bound (x : Int) : -2 ^ 31 ≤ i32 x ∧ i32 x < 2 ^ 31 := by
  unfold i32
  omega

theorem shrMag_le_mul (x k : Int) (hk : k.natAbs ≤ 4095) (hx : x.natAbs ≤ 2 ^ 23) :
    (shrMag (x * k)).natAbs < 2 ^ 23 := by
  rw [shrMag_natAbs, Int.natAbs_mul]
  have := Nat.mul_le_mul hx hk
  omega

theorem shrMag_i32 (x : Int) : (shrMag (i32 x)).natAbs ≤ 2 ^ 19 := by
  rw [shrMag_natAbs]
  have := i32_bound x
  omega

/-- The current stays in the range `(-2^23, 2^23]` for inputs of up to 18 bits. -/
theorem aCurrent_range (p : APar) (hp : AOk p) (i a : Int) (hi : i.natAbs ≤ 2 ^ 23)
    (ha : -2 ^ 18 ≤ a ∧ a ≤ 2 ^ 18) : -2 ^ 23 < aCurrent p i a ∧ aCurrent p i a ≤ 2 ^ 23 := by
  obtain ⟨h1, h2⟩ := hp.di
  have hd : (shrMag (if p.intDeltaI then i32 (i * (4096 - (p.di + 1))) else i * (4096 - (p.di + 1)))).natAbs
      < 2 ^ 23 := by
    split
    · have := shrMag_i32 (i * (4096 - (p.di + 1)))
      omega
    · exact shrMag_le_mul i _ (by omega) hi
  unfold aCurrent
  dsimp only
  generalize shrMag (if p.intDeltaI then i32 (i * (4096 - (p.di + 1))) else i * (4096 - (p.di + 1))) = x at *
  rw [wrapCurr_eq]
  split
  · omega
  · split <;> omega

/-- A decayed value lies between 0 and the value. -/
theorem shr_between (x k : Int) (h0 : 0 ≤ k) (h1 : k ≤ 4096) :
    (0 ≤ x → 0 ≤ shrMag (x * (4096 - k)) ∧ shrMag (x * (4096 - k)) ≤ x) ∧
    (x ≤ 0 → x ≤ shrMag (x * (4096 - k)) ∧ shrMag (x * (4096 - k)) ≤ 0) := by
  have hb := decay_bound x k h0 h1
  have hn := decay_natAbs_le x k h0 h1
  have e : decay x k = shrMag (x * (4096 - k)) := rfl
  rw [e] at hb hn
  constructor
  · intro h; have := hb.2.1 h; omega
  · intro h; have := hb.2.2 h; omega

/-- The invariant of ATRLIF (thresholds already scaled). -/
structure AInv (p : APar) (s : ASt) : Prop where
  i : -2 ^ 23 ≤ s.i ∧ s.i ≤ 2 ^ 23
  v : In24 s.v
  th : p.th0 ≤ s.th ∧ s.th ≤ max p.th0 (2 ^ 23 - 1 + p.thStep)
  r : 0 ≤ s.r ∧ s.r ≤ 2 ^ 24 - 2

theorem aStep_inv (p : APar) (hp : AOk p) (s : ASt) (hs : AInv p s) (a : Int)
    (ha : -2 ^ 18 ≤ a ∧ a ≤ 2 ^ 18) : AInv p (aStep p s a).1 := by
  have hi := aCurrent_range p hp s.i a (by have := hs.i; omega) ha
  have hv := clip_in24 (shrMag (s.v * (4096 - p.dv)) + aCurrent p s.i a + effBias p.biasMant p.biasExp)
  have hth := (shr_between (s.th - p.th0) p.dth hp.dth.1 hp.dth.2).1 (by have := hs.th; omega)
  have hr := (shr_between s.r p.dr hp.dr.1 hp.dr.2).1 hs.r.1
  have h0 := hp.th0
  have h1 := hp.step
  have h2 := hs.th
  have h3 := hs.r
  have hv' := hv
  unfold In24 at hv'
  unfold aStep
  dsimp only
  split
  · rename_i hsp
    simp only [aSub] at hsp ⊢
    generalize clip (-lim) lim (shrMag (s.v * (4096 - p.dv)) + aCurrent p s.i a +
      effBias p.biasMant p.biasExp) = vv at *
    exact ⟨by dsimp only; omega, hv, by dsimp only; omega, by dsimp only; omega⟩
  · simp only [aSub]
    exact ⟨by dsimp only; omega, hv, by dsimp only; omega, by dsimp only; omega⟩

theorem aRun_inv (p : APar) (hp : AOk p) : ∀ (as : List Int) (s : ASt), AInv p s →
    (∀ a ∈ as, -2 ^ 18 ≤ a ∧ a ≤ 2 ^ 18) → AInv p (aRun p s as).1 := by
  intro as
  induction as with
  | nil => intro s hs _; exact hs
  | cons a as ih =>
    intro s hs ha
    exact ih _ (aStep_inv p hp s hs a (ha a (by simp))) (fun b hb => ha b (by simp [hb]))

/-- **C64, ATRLIF (partial)**: for every input sequence of 18-bit values the current stays in
`[-2^23, 2^23]` and the voltage in 24 bits; threshold and refractory state stay non-negative, the
threshold below `2^23` plus one step and the refractory state within twice the voltage range, so that
no 32-bit overflow occurs.  Missing: threshold and refractory state in 24 bits, which is false
(`C64_atrlif_refractory_leaves_24_bits`). -/
theorem C64_atrlif_range_partial (p : APar) (hp : AOk p) (h12 : p.th0 < 2 ^ 12) (s : ASt)
    (hi : -2 ^ 23 ≤ s.i ∧ s.i ≤ 2 ^ 23) (hv : In24 s.v) (hr : 0 ≤ s.r ∧ s.r ≤ 2 ^ 24 - 2)
    (as : List Int) (hne : as ≠ []) (ha : ∀ a ∈ as, -2 ^ 18 ≤ a ∧ a ≤ 2 ^ 18) :
    let e := (atrlif p s as).1
    (-2 ^ 23 ≤ e.i ∧ e.i ≤ 2 ^ 23) ∧ In24 e.v ∧
    (64 * p.th0 ≤ e.th ∧ e.th ≤ 2 ^ 23 - 1 + 64 * p.thStep) ∧ (0 ≤ e.r ∧ e.r ≤ 2 ^ 24 - 2) := by
  have h0 := hp.th0
  have h1 := hp.step
  have hp' : AOk (scaleThr p s).1 :=
    ⟨hp.di, hp.dth, hp.dr, by simp only [scaleThr]; omega, by simp only [scaleThr]; omega⟩
  have hs' : AInv (scaleThr p s).1 (scaleThr p s).2 :=
    ⟨hi, hv, ⟨le_refl _, le_max_left _ _⟩, hr⟩
  have := aRun_inv _ hp' as _ hs' ha
  cases as with
  | nil => exact absurd rfl hne
  | cons a as =>
    dsimp only [atrlif]
    refine ⟨this.i, this.v, ?_, this.r⟩
    have ht := this.th
    simp only [scaleThr] at ht ⊢
    omega

/-- The parameters of the counterexample: threshold and step 3640, no decays, and a bias that drives
the voltage to its limit. -/
def aBad : APar := ⟨0, 0, 0, 0, false, 3640, 3640, 4095, 7⟩

theorem aBad_ok : AOk aBad := ⟨by decide, by decide, by decide, by decide, by decide⟩

/-- **Finding.** The refractory state leaves the 24-bit range (the code asks itself whether to clip:
`TODO do clipping here?`, atrlif/models.py:195, 206). -/
theorem C64_atrlif_refractory_leaves_24_bits :
    (atrlif aBad ⟨0, 0, 0, 0⟩ (List.replicate 30 0)).1.r > 2 ^ 23 - 1 := by decide +kernel

/-- **Finding.** A current decay of 1 does not clear the current: because of the offset the factor
is `-1/4096`, and the sign flips. -/
theorem C64_atrlif_full_decay_flips_sign (p : APar) (h : p.di = 4096) (hf : p.intDeltaI = false) :
    aCurrent p (2 ^ 22) 0 = -1024 := by
  unfold aCurrent
  rw [h, hf]
  decide

/-- **Finding.** With an integer `delta_i` (for instance the 0 of "no decay") the product overflows
32 bits although the comment at atrlif/models.py:145-148 says it cannot: a current of `2^22` becomes
negligible within one step. -/
theorem C64_atrlif_int_product_overflows (p : APar) (h : p.di = 0) (hf : p.intDeltaI = true) :
    aCurrent p (2 ^ 22) 0 = -1024 := by
  unfold aCurrent
  rw [h, hf]
  decide

/-! ### ATRLIF: the effect of a spike -/

/-- **C64, spikes**: a spike happens only if the voltage reaches threshold plus refractory state, and
afterwards the sum of both is larger by at least twice the old threshold. -/
theorem C64_atrlif_spike (p : APar) (s : ASt) (a : Int) :
    ((aStep p s a).2 = true ↔ (aSub p s a).v ≥ (aSub p s a).th + (aSub p s a).r) ∧
    ((aStep p s a).2 = true → (aStep p s a).1.th + (aStep p s a).1.r =
      3 * (aSub p s a).th + (aSub p s a).r + p.thStep) := by
  unfold aStep
  dsimp only
  split
  · rename_i h
    exact ⟨⟨fun _ => by omega, fun _ => rfl⟩, fun _ => by dsimp only; omega⟩
  · rename_i h
    exact ⟨⟨fun h2 => (Bool.noConfusion h2), fun h2 => absurd (by omega) h⟩, fun h2 => Bool.noConfusion h2⟩

/-! ### C72: spike timing of resonators -/

/-- No two neighbours of the list are both true. -/
def NoTwo (l : List Bool) : Prop := ∀ n : Nat, ¬ (l[n]? = some true ∧ l[n + 1]? = some true)

theorem rf_after_spike (p : RFPar) (s : RFSt) (a b : Int) (h : (rfStep p s a b).2 = true) :
    (rfStep p s a b).1.im ≥ 0 := by
  simp only [rfStep, Bool.and_eq_true, decide_eq_true_eq] at h ⊢
  exact h.1.2

theorem rf_no_spike (p : RFPar) (s : RFSt) (a b : Int) (h : s.im ≥ 0) : (rfStep p s a b).2 = false := by
  simp only [rfStep, Bool.and_eq_false_iff, decide_eq_false_iff_not]
  right; omega

/-- **C72, RF**: for every input sequence an RF neuron never spikes in two consecutive time steps. -/
theorem C72_rf_no_consecutive_spikes (p : RFPar) (xs : List (Int × Int)) : ∀ s : RFSt,
    NoTwo (runRF (rfStep p) s xs).2 := by
  induction xs with
  | nil => intro s n h; simp [runRF] at h
  | cons x xs ih =>
    intro s n
    match n with
    | 0 =>
      rintro ⟨h1, h2⟩
      simp only [runRF, List.getElem?_cons_zero, Option.some.injEq, List.getElem?_cons_succ] at h1 h2
      cases xs with
      | nil => simp [runRF] at h2
      | cons y ys =>
        simp only [runRF, List.getElem?_cons_zero, Option.some.injEq] at h2
        rw [rf_no_spike p _ _ _ (rf_after_spike p s _ _ h1)] at h2
        cases h2
    | n + 1 =>
      simp only [runRF, List.getElem?_cons_succ]
      exact ih _ n

/-- **C72, RF**: a spike marks an upward zero crossing of the imaginary part at which the real part
has reached the threshold, and every such crossing is a spike. -/
theorem C72_rf_spike_iff (p : RFPar) (s : RFSt) (a b : Int) :
    (rfStep p s a b).2 = true ↔
      s.im < 0 ∧ (rfStep p s a b).1.im ≥ 0 ∧ (rfStep p s a b).1.re ≥ p.vth := by
  simp only [rfStep, Bool.and_eq_true, decide_eq_true_eq]
  tauto

/-- The neuron really spikes. -/
example : (runRF (rfStep ⟨1285, 3880, 12, 6, 64⟩) ⟨0, 0⟩ [(0, -20), (30, 0), (30, 20), (0, 0)]).2 =
    [false, false, true, false] := by decide +kernel

theorem scaleVolt_natAbs (b : Nat) (x : Int) : (scaleVolt b x).natAbs = x.natAbs / 2 ^ b := by
  unfold scaleVolt
  rw [Int.natAbs_mul, Int.natAbs_natCast]
  rcases Int.lt_trichotomy x 0 with h | h | h
  · rw [Int.sign_eq_neg_one_of_neg h]; simp
  · subst h; simp
  · rw [Int.sign_eq_one_of_pos h]; simp

theorem scaleVolt_le (b : Nat) (c x : Int) (hc : c.natAbs ≤ 2 ^ b) : (scaleVolt b (c * x)).natAbs ≤ x.natAbs := by
  rw [scaleVolt_natAbs, Int.natAbs_mul]
  apply Nat.div_le_of_le_mul
  exact Nat.mul_le_mul_right _ hc

/-- **C72, RF_IZ**: after a spike the real part is 0 and the imaginary part is just below the
threshold, and in the next step the neuron spikes only if its imaginary input is positive. -/
theorem C72_rfiz_spike_reset (p : RFPar) (hv : 1 ≤ p.vth) (hc : p.cos.natAbs ≤ 2 ^ p.bits)
    (s : RFSt) (a b a' b' : Int) (h : (rfIzStep p s a b).2 = true) :
    (rfIzStep p s a b).1 = ⟨0, p.vth - 1⟩ ∧
    ((rfIzStep p (rfIzStep p s a b).1 a' b').2 = true → 0 < b') := by
  have hst : (rfIzStep p s a b).1 = ⟨0, p.vth - 1⟩ := by
    simp only [rfIzStep, decide_eq_true_eq] at h ⊢
    rw [if_pos h]
    simp
  refine ⟨hst, ?_⟩
  rw [hst]
  intro h2
  simp only [rfIzStep, decide_eq_true_eq] at h2
  simp only [resonate] at h2
  by_contra hb
  have h0 : b' * 2 ^ p.exp ≤ 0 := Int.mul_nonpos_of_nonpos_of_nonneg (by omega) (by positivity)
  have h1 := scaleVolt_le p.bits p.cos (p.vth - 1) hc
  have h3 : scaleVolt p.bits (p.sin * 0) = 0 := by simp [scaleVolt]
  rw [h3] at h2
  unfold clip lim at h2
  omega

example : (rfIzStep ⟨1285, 3880, 12, 6, 64⟩ ⟨0, 0⟩ 0 5).2 = true := by decide

/-! ### C73: graded neurons -/

/-- **C73**: in every run from `v = 0` GradedVec outputs, in each step, exactly the input of that
step if its magnitude exceeds the threshold and 0 otherwise; nothing of earlier inputs is kept. -/
theorem C73_graded (vth : Int) (xs : List Int) : runOut (gradedStep vth) 0 xs =
    xs.map (fun a => if |a| > vth then a else 0) := by
  induction xs with
  | nil => rfl
  | cons a xs ih =>
    simp only [runOut, List.map_cons]
    have hz : (gradedStep vth 0 a).1 = 0 := rfl
    rw [hz, ih]
    congr 1
    simp only [gradedStep, Int.zero_add, Int.natCast_natAbs]
    split <;> simp

/-- **C73**: GradedReluVec passes values above the threshold. -/
theorem C73_relu (vth : Int) (xs : List Int) : runOut (reluStep vth) 0 xs =
    xs.map (fun a => if a > vth then a else 0) := by
  induction xs with
  | nil => rfl
  | cons a xs ih =>
    simp only [runOut, List.map_cons]
    have hz : (reluStep vth 0 a).1 = 0 := rfl
    rw [hz, ih]
    congr 1
    simp only [reluStep, Int.zero_add]
    split <;> simp

/-- **C73**: ProdNeuron sends `⌊a·b / 2^exp⌋` if its magnitude exceeds the threshold. -/
theorem C73_prod (vth : Int) (exp : Nat) (a b : Int) :
    (prodStep vth exp a b = (a * b) / 2 ^ exp ∧ |(a * b) / 2 ^ exp| > vth) ∨
    (prodStep vth exp a b = 0 ∧ |(a * b) / 2 ^ exp| ≤ vth) := by
  simp only [prodStep, Int.natCast_natAbs]
  split
  · left; simp; assumption
  · right; simp; omega

/-- **C73**: NormVecDelay multiplies the second input with the first input of the step before, and
sends the square of the first input in the same step. -/
theorem C73_norm (vth : Int) (xs : List (Int × Int)) : ∀ s : NSt,
    ∀ t, ∀ a b : Int, xs[t]? = some (a, b) →
    (runOut (fun s x => normStep vth s x.1 x.2) s xs)[t]? = some
      (let prev := if t = 0 then s.v else ((xs[t - 1]?).map (·.1)).getD 0
       if |prev * b| > vth then prev * b else 0, a * a) := by
  induction xs with
  | nil => intro s t a b h; simp at h
  | cons x xs ih =>
    intro s t a b h
    match t with
    | 0 =>
      simp only [List.getElem?_cons_zero, Option.some.injEq] at h
      subst h
      simp only [runOut, List.getElem?_cons_zero, normStep, Int.natCast_natAbs, if_true]
      congr 2
      split <;> simp
    | t + 1 =>
      simp only [List.getElem?_cons_succ] at h
      simp only [runOut, List.getElem?_cons_succ]
      rw [ih _ t a b h]
      match t with
      | 0 => simp [normStep]
      | t + 1 => simp

/-- The state `v2` that the documentation describes as the delayed value is one step behind `v`:
the factor is the input one step ago, not two. -/
theorem C73_norm_delay_is_one :
    runOut (fun s x => normStep 0 s x.1 x.2) ⟨0, 0⟩ [(5, 1), (7, 1), (9, 1)] =
      [(0, 25), (5, 49), (7, 81)] := by decide

/-! ### C74: RFZero -/

theorem i32_id (x : Int) (h : -2 ^ 31 ≤ x) (h2 : x < 2 ^ 31) : i32 x = x := by
  unfold i32
  omega

/-- The exact dynamics. -/
abbrev exactRFZ := rfzStep id

theorem mul_bound (x c : Int) (hx : -2 ^ 16 < x ∧ x < 2 ^ 16) (hc : -2 ^ 15 ≤ c ∧ c ≤ 2 ^ 15) :
    -2 ^ 31 < x * c ∧ x * c < 2 ^ 31 := by
  have : (x * c).natAbs = x.natAbs * c.natAbs := Int.natAbs_mul x c
  have h1 : x.natAbs * c.natAbs ≤ (2 ^ 16 - 1) * 2 ^ 15 := Nat.mul_le_mul (by omega) (by omega)
  omega

theorem rfz_step_eq (lst lct uth : Int) (hs : -2 ^ 15 ≤ lst ∧ lst ≤ 2 ^ 15)
    (hc : -2 ^ 15 ≤ lct ∧ lct ≤ 2 ^ 15) (s : Int × Int) (h1 : -2 ^ 16 < s.1 ∧ s.1 < 2 ^ 16)
    (h2 : -2 ^ 16 < s.2 ∧ s.2 < 2 ^ 16) (a b : Int) (ha : -2 ^ 30 ≤ a ∧ a ≤ 2 ^ 30)
    (hb : -2 ^ 30 ≤ b ∧ b ≤ 2 ^ 30) : rfzStep i32 lst lct uth s a b = rfzStep id lst lct uth s a b := by
  have b1 := mul_bound s.1 lct h1 hc
  have b2 := mul_bound s.2 lst h2 hs
  have b3 := mul_bound s.2 lct h2 hc
  have b4 := mul_bound s.1 lst h1 hs
  unfold rfzStep
  simp only [id]
  rw [i32_id (s.1 * lct) (by omega) (by omega), i32_id (s.2 * lst) (by omega) (by omega),
    i32_id (s.2 * lct) (by omega) (by omega), i32_id (s.1 * lst) (by omega) (by omega)]
  generalize s.1 * lct = A at *
  generalize s.2 * lst = B at *
  generalize s.2 * lct = C at *
  generalize s.1 * lst = D at *
  rw [i32_id (A / 2 ^ 15 - B / 2 ^ 15) (by omega) (by omega),
    i32_id (C / 2 ^ 15 + D / 2 ^ 15) (by omega) (by omega),
    i32_id (A / 2 ^ 15 - B / 2 ^ 15 + a) (by omega) (by omega),
    i32_id (C / 2 ^ 15 + D / 2 ^ 15 + b) (by omega) (by omega)]

/-- **C74**: as long as the exact trajectory stays below `2^16` in magnitude and the inputs below
`2^30`, the 32-bit process computes exactly the exact dynamics: same states, same output. -/
theorem C74_exact (lst lct uth : Int) (hs : -2 ^ 15 ≤ lst ∧ lst ≤ 2 ^ 15)
    (hc : -2 ^ 15 ≤ lct ∧ lct ≤ 2 ^ 15) (xs : List (Int × Int)) : ∀ s : Int × Int,
    (∀ n, n < xs.length → let q := (rfzRun id lst lct uth s (xs.take n)).1
      (-2 ^ 16 < q.1 ∧ q.1 < 2 ^ 16) ∧ (-2 ^ 16 < q.2 ∧ q.2 < 2 ^ 16)) →
    (∀ x ∈ xs, (-2 ^ 30 ≤ x.1 ∧ x.1 ≤ 2 ^ 30) ∧ (-2 ^ 30 ≤ x.2 ∧ x.2 ≤ 2 ^ 30)) →
    rfzRun i32 lst lct uth s xs = rfzRun id lst lct uth s xs := by
  induction xs with
  | nil => intro s _ _; rfl
  | cons x xs ih =>
    intro s hq hx
    have h0 := hq 0 (by simp)
    simp only [List.take_zero, rfzRun] at h0
    have e := rfz_step_eq lst lct uth hs hc s h0.1 h0.2 x.1 x.2 (hx x (by simp)).1 (hx x (by simp)).2
    simp only [rfzRun]
    rw [e, ih]
    · intro n hn
      have := hq (n + 1) (by simp; omega)
      simpa only [List.take_succ_cons, rfzRun] using this
    · intro y hy; exact hx y (by simp [hy])

/-- A trajectory that meets the hypotheses and produces output. -/
example : rfzRun i32 (2 ^ 13) (31738) 10 (0, 0) [(0, -3000), (3000, 0), (4000, 4000)] =
    rfzRun id (2 ^ 13) (31738) 10 (0, 0) [(0, -3000), (3000, 0), (4000, 4000)] ∧
    (rfzRun i32 (2 ^ 13) (31738) 10 (0, 0) [(0, -3000), (3000, 0), (4000, 4000)]).2 = [0, 0, 8359] := by
  decide +kernel

/-- The exact output is graded: the real part at an upward zero crossing above the threshold. -/
theorem C74_output (lst lct uth : Int) (s : Int × Int) (a b : Int) :
    let r := rfzStep id lst lct uth s a b
    (r.2 ≠ 0 → r.2 = r.1.1 ∧ r.1.1 > uth ∧ r.1.2 ≥ 0 ∧ s.2 < 0) ∧
    (r.1.1 > uth → r.1.2 ≥ 0 → s.2 < 0 → r.2 = r.1.1) := by
  unfold rfzStep
  dsimp only
  constructor
  · intro h
    split at h
    · rename_i hc
      rw [if_pos hc]
      simpa using hc
    · simp at h
  · intro h1 h2 h3
    rw [if_pos ⟨h1, h2, h3⟩]
    simp

/-- **Finding.** The bound is sharp: at `u = 2^16` and factor 1 the product overflows and the state
changes sign although the state is a 17-bit value in a variable declared with 24 bits. -/
theorem C74_overflow : (rfzStep i32 0 (2 ^ 15) 0 (2 ^ 16, 0) 0 0).1.1 = -2 ^ 16 := by decide

end Verif.Neurons
