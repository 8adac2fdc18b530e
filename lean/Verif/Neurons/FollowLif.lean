import Verif.Neurons.Float
import Mathlib.Tactic.FieldSimp

/-!
# C109: bit-accurate neurons follow the floating-point neurons (LIF)

`LIF` has a floating-point and a bit-accurate model. The bit-accurate model with decays `du`, `dv` rounds every product towards zero,
saturates and wraps around; the theorems say how far its state can be from that of the floating-point model with decays `(du + 1) / 4096`
and `dv / 4096`, and that the spikes are the same as long as the floating-point voltage stays away from the threshold by more than that.
-/

namespace Verif.Neurons

open Verif.LIF

/-- The floating-point parameters that belong to bit-accurate ones. States of the bit-accurate model are 64 times larger. -/
def floatLif (p : Par) (vth : Int) : FLPar :=
  { du := ((p.du : ℚ) + 1) / 4096, dv := (p.dv : ℚ) / 4096, bias := (effBias p.biasMant p.biasExp : ℚ) / 64, vth := (vth : ℚ) }

/-- State of the floating-point neuron after `t` steps on the inputs `a 0, a 1, ...`. -/
def flAt (p : FLPar) (s : FLSt) (a : Nat → Int) : Nat → FLSt
  | 0 => s
  | t + 1 => (flStep p (flAt p s a t) (a t)).1

/-- Output of the floating-point neuron in step `t`. -/
def flSpike (p : FLPar) (s : FLSt) (a : Nat → Int) (t : Nat) : Bool := (flStep p (flAt p s a t) (a t)).2

/-- State of the bit-accurate neuron after `t` steps. -/
def lifAt (p : Par) (vth : Int) (s : St) (a : Nat → Int) : Nat → Obj
  | 0 => ⟨s, none⟩
  | t + 1 => (runSpk p vth (lifAt p vth s a t) (a t)).1

/-- Output of the bit-accurate neuron in step `t`. -/
def lifSpike (p : Par) (vth : Int) (s : St) (a : Nat → Int) (t : Nat) : Bool := (runSpk p vth (lifAt p vth s a t) (a t)).2

/-- Current and voltage of the floating-point neuron in step `t`, before the threshold is applied. -/
def flPre (p : FLPar) (s : FLSt) (a : Nat → Int) (t : Nat) : FLSt := flSub p (flAt p s a t) (a t)

/-- Rounding of the magnitude loses less than one unit. -/
theorem shrMag_near (x : Int) : |(shrMag x : ℚ) - (x : ℚ) / 4096| ≤ 1 := by
  unfold shrMag
  have h1 : (4096 * (x.natAbs / 4096 : Nat) : Int) ≤ x.natAbs := by
    have := Nat.mul_div_le x.natAbs 4096
    exact_mod_cast this
  have h2 : (x.natAbs : Int) < 4096 * (x.natAbs / 4096 : Nat) + 4096 := by
    have := Nat.lt_mul_div_succ x.natAbs (show 0 < 4096 by decide)
    have h3 : x.natAbs < 4096 * (x.natAbs / 4096) + 4096 := by rw [Nat.mul_add] at this; exact this
    exact_mod_cast h3
  generalize hq : (x.natAbs / 4096 : Nat) = q at *
  have h1q : (4096 * (q : Int) : Int) ≤ x.natAbs := h1
  have key : ∀ y : Int, 4096 * (q : Int) ≤ y → y < 4096 * (q : Int) + 4096 → |((q : Int) : ℚ) - (y : ℚ) / 4096| ≤ 1 := by
    intro y ha hb
    have ha' : (4096 : ℚ) * ((q : Int) : ℚ) ≤ (y : ℚ) := by exact_mod_cast ha
    have hb' : (y : ℚ) < 4096 * ((q : Int) : ℚ) + 4096 := by exact_mod_cast hb
    rw [abs_le]
    constructor <;> linarith
  rcases lt_trichotomy x 0 with hx | hx | hx
  · have e : (x.natAbs : Int) = -x := by omega
    have := key (-x) (by omega) (by omega)
    rw [Int.sign_eq_neg_one_of_neg hx]
    rw [show ((-1 * (q : Int) : Int) : ℚ) - (x : ℚ) / 4096 = -(((q : Int) : ℚ) - ((-x : Int) : ℚ) / 4096) by push_cast; ring, abs_neg]
    exact this
  · subst hx
    simp
  · have e : (x.natAbs : Int) = x := by omega
    have := key x (by omega) (by omega)
    rw [Int.sign_eq_one_of_pos hx, one_mul]
    exact this

/-- One product with a decay factor: the error shrinks with the factor and grows by at most one. -/
theorem decay_near {x c : Int} {y E : ℚ} (hc : c ≤ 4096) (h : |(x : ℚ) - y| ≤ E) :
    |(decay x c : ℚ) - (1 - (c : ℚ) / 4096) * y| ≤ (1 - (c : ℚ) / 4096) * E + 1 := by
  have h1 := shrMag_near (x * (4096 - c))
  have hk : (0 : ℚ) ≤ 1 - (c : ℚ) / 4096 := by
    have : (c : ℚ) ≤ 4096 := by exact_mod_cast hc
    linarith
  have h2 : ((x * (4096 - c) : Int) : ℚ) / 4096 = (1 - (c : ℚ) / 4096) * x := by push_cast; ring
  rw [h2] at h1
  have h3 : |(1 - (c : ℚ) / 4096) * x - (1 - (c : ℚ) / 4096) * y| ≤ (1 - (c : ℚ) / 4096) * E := by
    rw [← mul_sub, abs_mul, abs_of_nonneg hk]
    exact mul_le_mul_of_nonneg_left h hk
  have e : (decay x c : ℚ) - (1 - (c : ℚ) / 4096) * y =
      ((shrMag (x * (4096 - c)) : ℚ) - (1 - (c : ℚ) / 4096) * x) + ((1 - (c : ℚ) / 4096) * x - (1 - (c : ℚ) / 4096) * y) := by
    unfold decay; ring
  rw [e]
  have := abs_add_le ((shrMag (x * (4096 - c)) : ℚ) - (1 - (c : ℚ) / 4096) * x) ((1 - (c : ℚ) / 4096) * x - (1 - (c : ℚ) / 4096) * y)
  linarith

theorem wrapCurr_id {x : Int} (h1 : -maxUV < x) (h2 : x ≤ maxUV) : wrapCurr x = x := by
  unfold wrapCurr wrapHi
  unfold maxUV at *
  rw [if_neg (by omega), if_neg (by omega)]

theorem clip_id {x : Int} (h1 : -maxUV + 1 ≤ x) (h2 : x ≤ maxUV - 1) : clip (-maxUV + 1) (maxUV - 1) x = x := by
  unfold clip
  rw [max_eq_left h1, min_eq_left h2]

theorem int_range {x : Int} {y E : ℚ} (h : |(x : ℚ) - y| ≤ E) (hr : |y| + E ≤ 2 ^ 23 - 1) : -maxUV + 1 ≤ x ∧ x ≤ maxUV - 1 := by
  have h1 := abs_le.mp h
  have h2 := abs_le.mp (le_refl |y|)
  have a : -(2 ^ 23 : ℚ) + 1 ≤ (x : ℚ) := by linarith [h1.1, h2.1]
  have b : (x : ℚ) ≤ 2 ^ 23 - 1 := by linarith [h1.2, h2.2]
  unfold maxUV
  constructor
  · exact_mod_cast a
  · exact_mod_cast b

/-- The comparison with the threshold gives the same answer if the exact value is further from it than the error. -/
theorem gt_same {x th : Int} {y E : ℚ} (h : |(x : ℚ) - y| ≤ E) (hm : E < |y - (th : ℚ)|) : (x > th ↔ y > (th : ℚ)) := by
  have h1 := abs_le.mp h
  have e : (x > th) ↔ ((x : ℚ) > (th : ℚ)) := by exact_mod_cast Iff.rfl
  rw [e]
  rcases le_or_gt 0 (y - (th : ℚ)) with hy | hy
  · rw [abs_of_nonneg hy] at hm
    constructor
    · intro _; have : 0 ≤ E := le_trans (abs_nonneg _) h; linarith
    · intro _; linarith [h1.1]
  · rw [abs_of_neg hy] at hm
    constructor
    · intro hx; linarith [h1.2]
    · intro hx; linarith

/-- One step: if current and voltage are within `Eu`, `Ev` of the floating-point ones, they are within `Eu'`, `Ev'` afterwards, and the
outputs agree. -/
theorem lif_step (p : Par) (vth : Int) (o : Obj) (f : FLSt) (a : Int) (Eu Ev Eu' Ev' : ℚ)
    (hdu : 0 ≤ p.du ∧ p.du ≤ 4095) (hdv : 0 ≤ p.dv ∧ p.dv ≤ 4096) (hoe : o.eff = none ∨ o.eff = some (vth * 2 ^ 6))
    (hu : |(o.st.u : ℚ) - 64 * f.u| ≤ Eu) (hv : |(o.st.v : ℚ) - 64 * f.v| ≤ Ev)
    (hEu : (1 - ((p.du : ℚ) + 1) / 4096) * Eu + 1 ≤ Eu') (hEv : (1 - (p.dv : ℚ) / 4096) * Ev + 1 + Eu' ≤ Ev')
    (hru : |64 * (flSub (floatLif p vth) f a).u| + Eu' ≤ 2 ^ 23 - 1)
    (hrv : |64 * (flSub (floatLif p vth) f a).v| + Ev' ≤ 2 ^ 23 - 1)
    (hm : Ev' < |64 * (flSub (floatLif p vth) f a).v - 64 * (vth : ℚ)|) :
    (runSpk p vth o a).2 = (flStep (floatLif p vth) f a).2 ∧
    (runSpk p vth o a).1.eff = some (vth * 2 ^ 6) ∧
    |((runSpk p vth o a).1.st.u : ℚ) - 64 * (flStep (floatLif p vth) f a).1.u| ≤ Eu' ∧
    |((runSpk p vth o a).1.st.v : ℚ) - 64 * (flStep (floatLif p vth) f a).1.v| ≤ Ev' := by
  have heff : o.eff.getD (vth * 2 ^ 6) = vth * 2 ^ 6 := by
    rcases hoe with h | h <;> rw [h] <;> rfl
  -- the current
  have hd := decay_near (x := o.st.u) (c := p.du + 1) (y := 64 * f.u) (E := Eu) (by omega) hu
  have hu1 : |((decay o.st.u (p.du + 1) + a * 2 ^ 6 : Int) : ℚ) - 64 * (flSub (floatLif p vth) f a).u| ≤ Eu' := by
    have e : ((decay o.st.u (p.du + 1) + a * 2 ^ 6 : Int) : ℚ) - 64 * (flSub (floatLif p vth) f a).u =
        (decay o.st.u (p.du + 1) : ℚ) - (1 - ((p.du + 1 : Int) : ℚ) / 4096) * (64 * f.u) := by
      simp only [flSub, floatLif]; push_cast; ring
    rw [e]
    refine le_trans hd ?_
    push_cast
    linarith
  have hr1 := int_range hu1 hru
  have hw := wrapCurr_id (x := decay o.st.u (p.du + 1) + a * 2 ^ 6) (by unfold maxUV at *; omega) (by unfold maxUV at *; omega)
  -- the voltage
  have hd2 := decay_near (x := o.st.v) (c := p.dv) (y := 64 * f.v) (E := Ev) (by omega) hv
  have hv1 : |((decay o.st.v p.dv + (decay o.st.u (p.du + 1) + a * 2 ^ 6) + effBias p.biasMant p.biasExp : Int) : ℚ)
      - 64 * (flSub (floatLif p vth) f a).v| ≤ Ev' := by
    have e : ((decay o.st.v p.dv + (decay o.st.u (p.du + 1) + a * 2 ^ 6) + effBias p.biasMant p.biasExp : Int) : ℚ)
        - 64 * (flSub (floatLif p vth) f a).v =
        ((decay o.st.v p.dv : ℚ) - (1 - (p.dv : ℚ) / 4096) * (64 * f.v)) +
        (((decay o.st.u (p.du + 1) + a * 2 ^ 6 : Int) : ℚ) - 64 * (flSub (floatLif p vth) f a).u) := by
      simp only [flSub, floatLif]; push_cast; ring
    rw [e]
    refine le_trans (abs_add_le _ _) ?_
    exact le_trans (add_le_add hd2 hu1) hEv
  have hr2 := int_range hv1 hrv
  have hc := clip_id hr2.1 hr2.2
  have hsub : subthr p o.st a = ⟨decay o.st.u (p.du + 1) + a * 2 ^ 6,
      decay o.st.v p.dv + (decay o.st.u (p.du + 1) + a * 2 ^ 6) + effBias p.biasMant p.biasExp⟩ := by
    unfold subthr
    dsimp only
    rw [hw, hc]
  have hth : ((vth * 2 ^ 6 : Int) : ℚ) = 64 * (vth : ℚ) := by push_cast; ring
  have hs := gt_same hv1 (th := vth * 2 ^ 6) (by rw [hth]; exact hm)
  rw [hth] at hs
  have hs' : (decay o.st.v p.dv + (decay o.st.u (p.du + 1) + a * 2 ^ 6) + effBias p.biasMant p.biasExp > vth * 2 ^ 6) ↔
      (flSub (floatLif p vth) f a).v > (floatLif p vth).vth := by
    rw [hs]
    show _ ↔ _ > (vth : ℚ)
    constructor <;> intro h <;> linarith
  have hEv0 : 0 ≤ Ev' := le_trans (abs_nonneg _) hv1
  unfold runSpk
  rw [heff, hsub]
  unfold spikeReset flStep
  dsimp only
  by_cases hsp : (flSub (floatLif p vth) f a).v > (floatLif p vth).vth
  · have hsp' := hs'.mpr hsp
    simp only [hsp, hsp', decide_true, if_true, true_and]
    refine ⟨hu1, ?_⟩
    simpa using hEv0
  · have hsp' : ¬ (decay o.st.v p.dv + (decay o.st.u (p.du + 1) + a * 2 ^ 6) + effBias p.biasMant p.biasExp > vth * 2 ^ 6) :=
      fun h => hsp (hs'.mp h)
    simp only [hsp, hsp', decide_false, true_and, Bool.false_eq_true, if_false]
    exact ⟨hu1, hv1⟩

/-- **C109 (LIF).** Let `Eu`, `Ev` be bounds that satisfy the error recursion. As long as the floating-point neuron stays in the 24-bit
range and away from the threshold by more than the bound, the bit-accurate neuron spikes in the same steps and its current and voltage
are within the bounds of the floating-point ones (in units of the bit-accurate model), for every input. -/
theorem C109_lif_follows (p : Par) (vth : Int) (s : St) (f : FLSt) (a : Nat → Int) (Eu Ev : Nat → ℚ) (T : Nat)
    (hdu : 0 ≤ p.du ∧ p.du ≤ 4095) (hdv : 0 ≤ p.dv ∧ p.dv ≤ 4096)
    (hu : |(s.u : ℚ) - 64 * f.u| ≤ Eu 0) (hv : |(s.v : ℚ) - 64 * f.v| ≤ Ev 0)
    (hEu : ∀ t, (1 - ((p.du : ℚ) + 1) / 4096) * Eu t + 1 ≤ Eu (t + 1))
    (hEv : ∀ t, (1 - (p.dv : ℚ) / 4096) * Ev t + 1 + Eu (t + 1) ≤ Ev (t + 1))
    (hr : ∀ t < T, |64 * (flPre (floatLif p vth) f a t).u| + Eu (t + 1) ≤ 2 ^ 23 - 1 ∧
      |64 * (flPre (floatLif p vth) f a t).v| + Ev (t + 1) ≤ 2 ^ 23 - 1)
    (hm : ∀ t < T, Ev (t + 1) < 64 * |(flPre (floatLif p vth) f a t).v - (vth : ℚ)|) :
    (∀ t < T, lifSpike p vth s a t = flSpike (floatLif p vth) f a t) ∧
    ∀ t ≤ T, |((lifAt p vth s a t).st.u : ℚ) - 64 * (flAt (floatLif p vth) f a t).u| ≤ Eu t ∧
      |((lifAt p vth s a t).st.v : ℚ) - 64 * (flAt (floatLif p vth) f a t).v| ≤ Ev t := by
  have step : ∀ t < T, ((lifAt p vth s a t).eff = none ∨ (lifAt p vth s a t).eff = some (vth * 2 ^ 6)) →
      |((lifAt p vth s a t).st.u : ℚ) - 64 * (flAt (floatLif p vth) f a t).u| ≤ Eu t →
      |((lifAt p vth s a t).st.v : ℚ) - 64 * (flAt (floatLif p vth) f a t).v| ≤ Ev t → _ :=
    fun t ht h1 h2 h3 => lif_step p vth (lifAt p vth s a t) (flAt (floatLif p vth) f a t) (a t) (Eu t) (Ev t) (Eu (t + 1)) (Ev (t + 1))
      hdu hdv h1 h2 h3 (hEu t) (hEv t) (hr t ht).1 (hr t ht).2 (by
        have := hm t ht
        rw [← mul_sub, abs_mul]
        rw [show |(64 : ℚ)| = 64 by norm_num]
        exact this)
  have inv : ∀ t ≤ T, ((lifAt p vth s a t).eff = none ∨ (lifAt p vth s a t).eff = some (vth * 2 ^ 6)) ∧
      |((lifAt p vth s a t).st.u : ℚ) - 64 * (flAt (floatLif p vth) f a t).u| ≤ Eu t ∧
      |((lifAt p vth s a t).st.v : ℚ) - 64 * (flAt (floatLif p vth) f a t).v| ≤ Ev t := by
    intro t
    induction t with
    | zero => intro _; exact ⟨Or.inl rfl, hu, hv⟩
    | succ t ih =>
      intro ht
      obtain ⟨h1, h2, h3⟩ := ih (by omega)
      obtain ⟨_, e2, e3, e4⟩ := step t (by omega) h1 h2 h3
      exact ⟨Or.inr e2, e3, e4⟩
  refine ⟨?_, fun t ht => (inv t ht).2⟩
  intro t ht
  obtain ⟨h1, h2, h3⟩ := inv t (by omega)
  exact (step t ht h1 h2 h3).1

/-- **C109 (LIF, leaky).** With a voltage decay the errors stay below fixed bounds for ever: `4096 / (du + 1)` for the current and
`(4096 / (du + 1) + 1) * 4096 / dv` for the voltage. -/
theorem C109_lif_leaky (p : Par) (vth : Int) (a : Nat → Int) (T : Nat)
    (hdu : 0 ≤ p.du ∧ p.du ≤ 4095) (hdv : 0 < p.dv ∧ p.dv ≤ 4096) (Eu Ev : ℚ)
    (eu : Eu = 4096 / ((p.du : ℚ) + 1)) (ev : Ev = (Eu + 1) * 4096 / (p.dv : ℚ))
    (hr : ∀ t < T, |64 * (flPre (floatLif p vth) ⟨0, 0⟩ a t).u| + Eu ≤ 2 ^ 23 - 1 ∧
      |64 * (flPre (floatLif p vth) ⟨0, 0⟩ a t).v| + Ev ≤ 2 ^ 23 - 1)
    (hm : ∀ t < T, Ev < 64 * |(flPre (floatLif p vth) ⟨0, 0⟩ a t).v - (vth : ℚ)|) :
    (∀ t < T, lifSpike p vth ⟨0, 0⟩ a t = flSpike (floatLif p vth) ⟨0, 0⟩ a t) ∧
    ∀ t ≤ T, |((lifAt p vth ⟨0, 0⟩ a t).st.u : ℚ) - 64 * (flAt (floatLif p vth) ⟨0, 0⟩ a t).u| ≤ Eu ∧
      |((lifAt p vth ⟨0, 0⟩ a t).st.v : ℚ) - 64 * (flAt (floatLif p vth) ⟨0, 0⟩ a t).v| ≤ Ev := by
  have hdu' : (0 : ℚ) < (p.du : ℚ) + 1 := by have : (0 : ℚ) ≤ (p.du : ℚ) := by exact_mod_cast hdu.1
                                             linarith
  have hdv' : (0 : ℚ) < (p.dv : ℚ) := by exact_mod_cast hdv.1
  have hEu : (1 - ((p.du : ℚ) + 1) / 4096) * Eu + 1 = Eu := by rw [eu]; field_simp; ring
  have hEv : (1 - (p.dv : ℚ) / 4096) * Ev + 1 + Eu = Ev := by rw [ev]; field_simp; ring
  have h0 : 0 ≤ Eu := by rw [eu]; positivity
  have h1 : 0 ≤ Ev := by rw [ev]; positivity
  exact C109_lif_follows p vth ⟨0, 0⟩ ⟨0, 0⟩ a (fun _ => Eu) (fun _ => Ev) T hdu ⟨by omega, hdv.2⟩ (by simpa using h0) (by simpa using h1)
    (fun _ => le_of_eq hEu) (fun _ => le_of_eq hEv) hr hm

/-- **C109 (LIF, not leaky).** Without voltage decay the error of the voltage grows at most linearly with the number of steps. -/
theorem C109_lif_integrator (p : Par) (vth : Int) (a : Nat → Int) (T : Nat)
    (hdu : 0 ≤ p.du ∧ p.du ≤ 4095) (hdv : p.dv = 0) (Eu : ℚ) (eu : Eu = 4096 / ((p.du : ℚ) + 1))
    (hr : ∀ t < T, |64 * (flPre (floatLif p vth) ⟨0, 0⟩ a t).u| + Eu ≤ 2 ^ 23 - 1 ∧
      |64 * (flPre (floatLif p vth) ⟨0, 0⟩ a t).v| + ((t : ℚ) + 1) * (Eu + 1) ≤ 2 ^ 23 - 1)
    (hm : ∀ t < T, ((t : ℚ) + 1) * (Eu + 1) < 64 * |(flPre (floatLif p vth) ⟨0, 0⟩ a t).v - (vth : ℚ)|) :
    (∀ t < T, lifSpike p vth ⟨0, 0⟩ a t = flSpike (floatLif p vth) ⟨0, 0⟩ a t) ∧
    ∀ t ≤ T, |((lifAt p vth ⟨0, 0⟩ a t).st.u : ℚ) - 64 * (flAt (floatLif p vth) ⟨0, 0⟩ a t).u| ≤ Eu ∧
      |((lifAt p vth ⟨0, 0⟩ a t).st.v : ℚ) - 64 * (flAt (floatLif p vth) ⟨0, 0⟩ a t).v| ≤ (t : ℚ) * (Eu + 1) := by
  have hdu' : (0 : ℚ) < (p.du : ℚ) + 1 := by have : (0 : ℚ) ≤ (p.du : ℚ) := by exact_mod_cast hdu.1
                                             linarith
  have hEu : (1 - ((p.du : ℚ) + 1) / 4096) * Eu + 1 = Eu := by rw [eu]; field_simp; ring
  have h0 : 0 ≤ Eu := by rw [eu]; positivity
  refine C109_lif_follows p vth ⟨0, 0⟩ ⟨0, 0⟩ a (fun _ => Eu) (fun t => (t : ℚ) * (Eu + 1)) T hdu ⟨by omega, by omega⟩
    (by simpa using h0) (by simp) (fun _ => le_of_eq hEu) ?_ ?_ ?_
  · intro t; rw [hdv]; push_cast; apply le_of_eq; ring
  · intro t ht; push_cast; exact hr t ht
  · intro t ht; push_cast; exact hm t ht

end Verif.Neurons
