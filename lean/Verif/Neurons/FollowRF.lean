import Verif.Neurons.Float

/-!
# C109: fixed-point neurons follow the floating-point neurons (RF, RF_IZ)

The fixed-point RF neuron with `state_exp` and `decay_bits` is compared with the floating-point neuron with the same factors
`sin / 2 ^ decay_bits`, `cos / 2 ^ decay_bits` and the threshold `vth / 2 ^ state_exp`; its state is `2 ^ state_exp` times larger.
-/

namespace Verif.Neurons

open Verif.LIF

/-- The floating-point parameters that belong to fixed-point ones. -/
noncomputable def floatRF (p : RFPar) : FRPar :=
  { sin := (p.sin : ℝ) / 2 ^ p.bits, cos := (p.cos : ℝ) / 2 ^ p.bits, vth := (p.vth : ℝ) / 2 ^ p.exp }

/-- The fixed-point state as a complex number. -/
def toC (s : RFSt) : ℂ := ⟨s.re, s.im⟩

/-- State after `t` steps of a neuron with two inputs, for any step function. -/
def stAt {σ ι o : Type} (step : σ → ι → σ × o) (s : σ) (a : Nat → ι) : Nat → σ
  | 0 => s
  | t + 1 => (step (stAt step s a t) (a t)).1

/-- Output in step `t`. -/
def outAt {σ ι o : Type} (step : σ → ι → σ × o) (s : σ) (a : Nat → ι) (t : Nat) : o := (step (stAt step s a t) (a t)).2

/-- Factor by which one step multiplies a difference of two states. -/
noncomputable def gain (p : RFPar) : ℝ := ‖(⟨(p.cos : ℝ) / 2 ^ p.bits, (p.sin : ℝ) / 2 ^ p.bits⟩ : ℂ)‖

/-- The gain is the length of the vector of the two factors. -/
theorem gain_eq (p : RFPar) : gain p = Real.sqrt (((p.cos : ℝ) / 2 ^ p.bits) ^ 2 + ((p.sin : ℝ) / 2 ^ p.bits) ^ 2) := by
  unfold gain
  rw [Complex.norm_eq_sqrt_sq_add_sq]

/-- Rounding of the magnitude loses less than one unit. -/
theorem scaleVolt_near (b : Nat) (x : Int) : |(scaleVolt b x : ℝ) - (x : ℝ) / 2 ^ b| ≤ 1 := by
  unfold scaleVolt
  have hb : (0 : ℝ) < 2 ^ b := by positivity
  have h1 : (2 ^ b * (x.natAbs / 2 ^ b : Nat) : Nat) ≤ x.natAbs := Nat.mul_div_le _ _
  have h2 : x.natAbs < 2 ^ b * (x.natAbs / 2 ^ b + 1) := Nat.lt_mul_div_succ _ (by positivity)
  generalize (x.natAbs / 2 ^ b : Nat) = q at *
  have h1' : (2 : ℝ) ^ b * (q : ℝ) ≤ (x.natAbs : ℝ) := by exact_mod_cast h1
  have h2' : (x.natAbs : ℝ) < 2 ^ b * ((q : ℝ) + 1) := by exact_mod_cast h2
  have key : ∀ y : ℝ, 2 ^ b * (q : ℝ) ≤ y → y < 2 ^ b * ((q : ℝ) + 1) → |(q : ℝ) - y / 2 ^ b| ≤ 1 := by
    intro y ha hc
    have e1 : (q : ℝ) ≤ y / 2 ^ b := by rw [le_div_iff₀ hb]; linarith
    have e2 : y / 2 ^ b < (q : ℝ) + 1 := by rw [div_lt_iff₀ hb]; linarith
    rw [abs_le]; constructor <;> linarith
  rcases lt_trichotomy x 0 with hx | hx | hx
  · have e : (x.natAbs : ℝ) = -(x : ℝ) := by
      have : (x.natAbs : Int) = -x := by omega
      calc (x.natAbs : ℝ) = (((x.natAbs : Int)) : ℝ) := (Int.cast_natCast _).symm
        _ = -(x : ℝ) := by rw [this]; push_cast; rfl
    have := key (-(x : ℝ)) (by linarith) (by linarith)
    rw [Int.sign_eq_neg_one_of_neg hx]
    rw [show ((-1 * (q : Int) : Int) : ℝ) - (x : ℝ) / 2 ^ b = -((q : ℝ) - (-(x : ℝ)) / 2 ^ b) by push_cast; ring, abs_neg]
    exact this
  · subst hx
    simp
  · have e : (x.natAbs : ℝ) = (x : ℝ) := by
      have : (x.natAbs : Int) = x := by omega
      calc (x.natAbs : ℝ) = (((x.natAbs : Int)) : ℝ) := (Int.cast_natCast _).symm
        _ = (x : ℝ) := by rw [this]
    have := key (x : ℝ) (by linarith) (by linarith)
    rw [Int.sign_eq_one_of_pos hx, one_mul]
    exact_mod_cast this

/-- The fixed-point step before clipping is within `gain * E + 3` of the floating-point step. -/
theorem resonate_near (p : RFPar) (s : RFSt) (z : ℂ) (a b : Int) (E : ℝ) (h : ‖toC s - 2 ^ p.exp * z‖ ≤ E) :
    ‖(⟨((resonate p s (a * 2 ^ p.exp) (b * 2 ^ p.exp)).1 : ℝ), ((resonate p s (a * 2 ^ p.exp) (b * 2 ^ p.exp)).2 : ℝ)⟩ : ℂ)
      - 2 ^ p.exp * frDyn (floatRF p) z a b‖ ≤ gain p * E + 3 := by
  have hp : ((2 : ℂ) ^ p.exp) = (((2 : ℝ) ^ p.exp : ℝ) : ℂ) := by push_cast; rfl
  have c1 := scaleVolt_near p.bits (p.cos * s.re)
  have c2 := scaleVolt_near p.bits (p.sin * s.im)
  have c3 := scaleVolt_near p.bits (p.sin * s.re)
  have c4 := scaleVolt_near p.bits (p.cos * s.im)
  have split : (⟨((resonate p s (a * 2 ^ p.exp) (b * 2 ^ p.exp)).1 : ℝ), ((resonate p s (a * 2 ^ p.exp) (b * 2 ^ p.exp)).2 : ℝ)⟩ : ℂ)
      - 2 ^ p.exp * frDyn (floatRF p) z a b =
      (⟨(p.cos : ℝ) / 2 ^ p.bits, (p.sin : ℝ) / 2 ^ p.bits⟩ : ℂ) * (toC s - 2 ^ p.exp * z) +
      ⟨((scaleVolt p.bits (p.cos * s.re) : ℝ) - ((p.cos * s.re : Int) : ℝ) / 2 ^ p.bits) -
        ((scaleVolt p.bits (p.sin * s.im) : ℝ) - ((p.sin * s.im : Int) : ℝ) / 2 ^ p.bits),
       ((scaleVolt p.bits (p.sin * s.re) : ℝ) - ((p.sin * s.re : Int) : ℝ) / 2 ^ p.bits) +
        ((scaleVolt p.bits (p.cos * s.im) : ℝ) - ((p.cos * s.im : Int) : ℝ) / 2 ^ p.bits)⟩ := by
    rw [hp]
    apply Complex.ext
    · simp only [resonate, frDyn, floatRF, toC, Complex.sub_re, Complex.mul_re, Complex.add_re, Complex.ofReal_re, Complex.ofReal_im,
        Complex.sub_im, Complex.mul_im]
      push_cast
      ring
    · simp only [resonate, frDyn, floatRF, toC, Complex.sub_re, Complex.mul_re, Complex.add_im, Complex.ofReal_re, Complex.ofReal_im,
        Complex.sub_im, Complex.mul_im]
      push_cast
      ring
  rw [split]
  refine le_trans (norm_add_le _ _) (add_le_add ?_ ?_)
  · rw [Complex.norm_mul]
    exact mul_le_mul_of_nonneg_left h (norm_nonneg _)
  · rw [Complex.norm_eq_sqrt_sq_add_sq, Real.sqrt_le_left (by norm_num)]
    dsimp only
    generalize (scaleVolt p.bits (p.cos * s.re) : ℝ) - ((p.cos * s.re : Int) : ℝ) / 2 ^ p.bits = x1 at *
    generalize (scaleVolt p.bits (p.sin * s.im) : ℝ) - ((p.sin * s.im : Int) : ℝ) / 2 ^ p.bits = x2 at *
    generalize (scaleVolt p.bits (p.sin * s.re) : ℝ) - ((p.sin * s.re : Int) : ℝ) / 2 ^ p.bits = x3 at *
    generalize (scaleVolt p.bits (p.cos * s.im) : ℝ) - ((p.cos * s.im : Int) : ℝ) / 2 ^ p.bits = x4 at *
    have d1 := abs_le.mp c1
    have d2 := abs_le.mp c2
    have d3 := abs_le.mp c3
    have d4 := abs_le.mp c4
    have e1 : (x1 - x2) ^ 2 ≤ 2 ^ 2 := sq_le_sq' (by linarith [d1.1, d2.2]) (by linarith [d1.2, d2.1])
    have e2 : (x3 + x4) ^ 2 ≤ 2 ^ 2 := sq_le_sq' (by linarith [d3.1, d4.1]) (by linarith [d3.2, d4.2])
    nlinarith

theorem clip_lim_id {x : Int} {y E : ℝ} (h : |(x : ℝ) - y| ≤ E) (hr : |y| + E ≤ 2 ^ 23 - 1) : clip (-lim) lim x = x := by
  have h1 := abs_le.mp h
  have h2 := abs_le.mp (le_refl |y|)
  have a : -((2 : ℝ) ^ 23 - 1) ≤ (x : ℝ) := by linarith [h1.1, h2.1]
  have b : (x : ℝ) ≤ 2 ^ 23 - 1 := by linarith [h1.2, h2.2]
  have a' : -lim ≤ x := by unfold lim; exact_mod_cast a
  have b' : x ≤ lim := by unfold lim; exact_mod_cast b
  unfold clip
  rw [max_eq_left a', min_eq_left b']

/-- A comparison gives the same answer if the exact value is further from the bound than the error. -/
theorem ge_same {x th : Int} {y E : ℝ} (h : |(x : ℝ) - y| ≤ E) (hm : E < |y - (th : ℝ)|) : (x ≥ th ↔ y ≥ (th : ℝ)) := by
  have h1 := abs_le.mp h
  have e : (x ≥ th) ↔ ((x : ℝ) ≥ (th : ℝ)) := by exact_mod_cast Iff.rfl
  have h0 : 0 ≤ E := le_trans (abs_nonneg _) h
  rw [e]
  rcases le_or_gt 0 (y - (th : ℝ)) with hy | hy
  · rw [abs_of_nonneg hy] at hm
    constructor <;> intro _ <;> linarith [h1.1]
  · rw [abs_of_neg hy] at hm
    constructor <;> intro hx <;> linarith [h1.2]

theorem near_re {s : RFSt} {k : ℝ} {z : ℂ} {E : ℝ} (h : ‖toC s - (k : ℂ) * z‖ ≤ E) : |(s.re : ℝ) - k * z.re| ≤ E := by
  have := le_trans (Complex.abs_re_le_norm _) h
  simpa [toC] using this

theorem near_im {s : RFSt} {k : ℝ} {z : ℂ} {E : ℝ} (h : ‖toC s - (k : ℂ) * z‖ ≤ E) : |(s.im : ℝ) - k * z.im| ≤ E := by
  have := le_trans (Complex.abs_im_le_norm _) h
  simpa [toC] using this

/-- State in step `t` before the spike decision, for inputs `a t`. -/
noncomputable def frPre (p : FRPar) (z : ℂ) (x : Int × Int) : ℂ := frDyn p z x.1 x.2

/-- The floating-point step on a pair of inputs. -/
noncomputable def frF (p : FRPar) (z : ℂ) (x : Int × Int) : ℂ × Bool := frStep p z x.1 x.2

noncomputable def frIzF (p : FRPar) (z : ℂ) (x : Int × Int) : ℂ × Bool := frIzStep p z x.1 x.2

/-- The fixed-point step on a pair of inputs. -/
def rfF (p : RFPar) (s : RFSt) (x : Int × Int) : RFSt × Bool := rfStep p s x.1 x.2

def rfIzF (p : RFPar) (s : RFSt) (x : Int × Int) : RFSt × Bool := rfIzStep p s x.1 x.2

/-- `state_exp` as a real factor. -/
noncomputable def K (p : RFPar) : ℝ := 2 ^ p.exp

theorem K_pos (p : RFPar) : 0 < K p := by unfold K; positivity

theorem K_cast (p : RFPar) : ((2 : ℂ) ^ p.exp) = ((K p : ℝ) : ℂ) := by unfold K; push_cast; rfl

/-- The clipped values of a step in range: real part, imaginary part, and their distance from the floating-point ones. -/
theorem rf_clip (p : RFPar) (s : RFSt) (z : ℂ) (x : Int × Int) (E F : ℝ) (h : ‖toC s - K p * z‖ ≤ E) (hE : gain p * E + 3 ≤ F)
    (hr : K p * |(frPre (floatRF p) z x).re| + F ≤ 2 ^ 23 - 1 ∧ K p * |(frPre (floatRF p) z x).im| + F ≤ 2 ^ 23 - 1) :
    clip (-lim) lim (resonate p s (x.1 * 2 ^ p.exp) (x.2 * 2 ^ p.exp)).1 = (resonate p s (x.1 * 2 ^ p.exp) (x.2 * 2 ^ p.exp)).1 ∧
    clip (-lim) lim (resonate p s (x.1 * 2 ^ p.exp) (x.2 * 2 ^ p.exp)).2 = (resonate p s (x.1 * 2 ^ p.exp) (x.2 * 2 ^ p.exp)).2 ∧
    ‖toC ⟨(resonate p s (x.1 * 2 ^ p.exp) (x.2 * 2 ^ p.exp)).1, (resonate p s (x.1 * 2 ^ p.exp) (x.2 * 2 ^ p.exp)).2⟩
      - K p * frPre (floatRF p) z x‖ ≤ F := by
  have hn := resonate_near p s z x.1 x.2 E (by rw [K_cast]; exact h)
  rw [K_cast] at hn
  have hn' : ‖toC ⟨(resonate p s (x.1 * 2 ^ p.exp) (x.2 * 2 ^ p.exp)).1, (resonate p s (x.1 * 2 ^ p.exp) (x.2 * 2 ^ p.exp)).2⟩
      - K p * frPre (floatRF p) z x‖ ≤ F := le_trans hn hE
  have kabs : |K p| = K p := abs_of_pos (K_pos p)
  refine ⟨clip_lim_id (near_re hn') ?_, clip_lim_id (near_im hn') ?_, hn'⟩
  · rw [abs_mul, kabs]; exact hr.1
  · rw [abs_mul, kabs]; exact hr.2

/-- One step of the RF neuron. -/
theorem rf_step (p : RFPar) (s : RFSt) (z : ℂ) (x : Int × Int) (E F : ℝ) (h : ‖toC s - K p * z‖ ≤ E) (hE : gain p * E + 3 ≤ F)
    (hr : K p * |(frPre (floatRF p) z x).re| + F ≤ 2 ^ 23 - 1 ∧ K p * |(frPre (floatRF p) z x).im| + F ≤ 2 ^ 23 - 1)
    (hm : F < |K p * (frPre (floatRF p) z x).re - p.vth| ∧ F < K p * |(frPre (floatRF p) z x).im| ∧ E < K p * |z.im|) :
    (rfF p s x).2 = (frF (floatRF p) z x).2 ∧ ‖toC (rfF p s x).1 - K p * (frF (floatRF p) z x).1‖ ≤ F := by
  obtain ⟨c1, c2, hn⟩ := rf_clip p s z x E F h hE hr
  have hK := K_pos p
  have kabs : |K p| = K p := abs_of_pos hK
  have s1 := ge_same (th := p.vth) (near_re hn) hm.1
  have s2 := ge_same (th := 0) (near_im hn) (by
    push_cast; rw [sub_zero, abs_mul, kabs]; exact hm.2.1)
  have s3 := ge_same (th := 0) (near_im h) (by push_cast; rw [sub_zero, abs_mul, kabs]; exact hm.2.2)
  have t1 : ((resonate p s (x.1 * 2 ^ p.exp) (x.2 * 2 ^ p.exp)).1 ≥ p.vth) ↔ (frPre (floatRF p) z x).re ≥ (floatRF p).vth := by
    refine s1.trans ?_
    show _ ↔ _ ≥ (p.vth : ℝ) / 2 ^ p.exp
    rw [ge_iff_le, ge_iff_le, div_le_iff₀ (by positivity), mul_comm]
    rfl
  have t2 : ((resonate p s (x.1 * 2 ^ p.exp) (x.2 * 2 ^ p.exp)).2 ≥ 0) ↔ (frPre (floatRF p) z x).im ≥ 0 := by
    refine s2.trans ?_
    push_cast
    exact mul_nonneg_iff_of_pos_left hK
  have t3 : (s.im < 0) ↔ z.im < 0 := by
    have : (s.im ≥ 0) ↔ z.im ≥ 0 := by
      refine s3.trans ?_
      push_cast
      exact mul_nonneg_iff_of_pos_left hK
    constructor
    · intro hs; exact lt_of_not_ge fun hz => absurd (this.mpr hz) (by omega)
    · intro hz
      have : ¬ (s.im ≥ 0) := fun hs => absurd (this.mp hs) (not_le.mpr hz)
      omega
  constructor
  · show (decide (clip (-lim) lim (resonate p s (x.1 * 2 ^ p.exp) (x.2 * 2 ^ p.exp)).1 ≥ p.vth) &&
        decide (clip (-lim) lim (resonate p s (x.1 * 2 ^ p.exp) (x.2 * 2 ^ p.exp)).2 ≥ 0) && decide (s.im < 0)) =
      (decide ((frPre (floatRF p) z x).re ≥ (floatRF p).vth) && decide ((frPre (floatRF p) z x).im ≥ 0) && decide (z.im < 0))
    rw [c1, c2, decide_eq_decide.mpr t1, decide_eq_decide.mpr t2, decide_eq_decide.mpr t3]
  · show ‖toC ⟨clip (-lim) lim (resonate p s (x.1 * 2 ^ p.exp) (x.2 * 2 ^ p.exp)).1,
        clip (-lim) lim (resonate p s (x.1 * 2 ^ p.exp) (x.2 * 2 ^ p.exp)).2⟩ - K p * frPre (floatRF p) z x‖ ≤ F
    rw [c1, c2]
    exact hn

/-- One step of the RF_IZ neuron. -/
theorem rfiz_step (p : RFPar) (s : RFSt) (z : ℂ) (x : Int × Int) (E F : ℝ) (hexp : p.exp ≤ 17) (h1 : 1 ≤ F)
    (h : ‖toC s - K p * z‖ ≤ E) (hE : gain p * E + 3 ≤ F)
    (hr : K p * |(frPre (floatRF p) z x).re| + F ≤ 2 ^ 23 - 1 ∧ K p * |(frPre (floatRF p) z x).im| + F ≤ 2 ^ 23 - 1)
    (hm : F < |K p * (frPre (floatRF p) z x).im - p.vth|) :
    (rfIzF p s x).2 = (frIzF (floatRF p) z x).2 ∧ ‖toC (rfIzF p s x).1 - K p * (frIzF (floatRF p) z x).1‖ ≤ F := by
  obtain ⟨c1, c2, hn⟩ := rf_clip p s z x E F h hE hr
  have hK := K_pos p
  have s1 := ge_same (th := p.vth) (near_im hn) hm
  have t1 : ((resonate p s (x.1 * 2 ^ p.exp) (x.2 * 2 ^ p.exp)).2 ≥ p.vth) ↔ (frPre (floatRF p) z x).im ≥ (floatRF p).vth := by
    refine s1.trans ?_
    show _ ↔ _ ≥ (p.vth : ℝ) / 2 ^ p.exp
    rw [ge_iff_le, ge_iff_le, div_le_iff₀ (by positivity), mul_comm]
    rfl
  have e2 : frIzF (floatRF p) z x = if (frPre (floatRF p) z x).im ≥ (floatRF p).vth then (⟨0, (floatRF p).vth - 1 / 100000⟩, true)
      else (frPre (floatRF p) z x, false) := rfl
  unfold rfIzF rfIzStep
  dsimp only
  rw [c1, c2, e2]
  by_cases hs : (frPre (floatRF p) z x).im ≥ (floatRF p).vth
  · rw [if_pos hs, if_pos (t1.mpr hs)]
    have hdec := t1.mpr hs
    refine ⟨by simp [hdec], ?_⟩
    have hv : K p * (floatRF p).vth = p.vth := by
      show K p * ((p.vth : ℝ) / 2 ^ p.exp) = p.vth
      unfold K; field_simp
    have e : toC ⟨(resonate p s (x.1 * 2 ^ p.exp) (x.2 * 2 ^ p.exp)).1 * (1 - 1), 1 * (p.vth - 1) +
        (1 - 1) * (resonate p s (x.1 * 2 ^ p.exp) (x.2 * 2 ^ p.exp)).2⟩ - K p * (⟨0, (floatRF p).vth - 1 / 100000⟩ : ℂ) =
        ⟨0, K p / 100000 - 1⟩ := by
      apply Complex.ext
      · simp [toC]
      · simp only [toC, Complex.sub_im, Complex.mul_im, Complex.ofReal_re, Complex.ofReal_im]
        push_cast
        linarith
    rw [e]
    have hb : K p ≤ 131072 := by
      unfold K
      calc (2 : ℝ) ^ p.exp ≤ 2 ^ 17 := pow_le_pow_right₀ (by norm_num) hexp
        _ = 131072 := by norm_num
    have : ‖(⟨0, K p / 100000 - 1⟩ : ℂ)‖ ≤ 1 := by
      rw [Complex.norm_eq_sqrt_sq_add_sq, Real.sqrt_le_left (by norm_num)]
      dsimp only
      have : (K p / 100000 - 1) ^ 2 ≤ 1 ^ 2 := sq_le_sq' (by linarith) (by linarith)
      linarith
    linarith
  · rw [if_neg hs, if_neg (fun hq => hs (t1.mp hq))]
    have hnot : ¬ ((resonate p s (x.1 * 2 ^ p.exp) (x.2 * 2 ^ p.exp)).2 ≥ p.vth) := fun hq => hs (t1.mp hq)
    refine ⟨by simp only [hnot, decide_false], ?_⟩
    have e : (⟨(resonate p s (x.1 * 2 ^ p.exp) (x.2 * 2 ^ p.exp)).1 * (1 - 0), 0 * (p.vth - 1) +
        (1 - 0) * (resonate p s (x.1 * 2 ^ p.exp) (x.2 * 2 ^ p.exp)).2⟩ : RFSt) =
        ⟨(resonate p s (x.1 * 2 ^ p.exp) (x.2 * 2 ^ p.exp)).1, (resonate p s (x.1 * 2 ^ p.exp) (x.2 * 2 ^ p.exp)).2⟩ := by
      congr 1 <;> ring
    rw [e]
    exact hn

/-- The floating-point neuron stays in the 24-bit range of the fixed-point one, with room for the error. -/
def InRange (p : RFPar) (F : ℝ) (z : ℂ) : Prop := K p * |z.re| + F ≤ 2 ^ 23 - 1 ∧ K p * |z.im| + F ≤ 2 ^ 23 - 1

/-- **C109 (RF).** With bounds that satisfy the error recursion, the fixed-point neuron spikes in the same steps as the floating-point
neuron and its state is within the bounds, as long as the floating-point neuron stays in the 24-bit range and away from the decision
boundaries (real part from the threshold, imaginary part from zero). -/
theorem C109_rf_follows (p : RFPar) (s : RFSt) (z : ℂ) (a : Nat → Int × Int) (E : Nat → ℝ) (T : Nat)
    (h0 : ‖toC s - 2 ^ p.exp * z‖ ≤ E 0) (hE : ∀ t, gain p * E t + 3 ≤ E (t + 1))
    (hr : ∀ t < T, InRange p (E (t + 1)) (frPre (floatRF p) (stAt (frF (floatRF p)) z a t) (a t)))
    (hm : ∀ t < T, E (t + 1) < |2 ^ p.exp * (frPre (floatRF p) (stAt (frF (floatRF p)) z a t) (a t)).re - p.vth| ∧
      E (t + 1) < 2 ^ p.exp * |(frPre (floatRF p) (stAt (frF (floatRF p)) z a t) (a t)).im| ∧
      E t < 2 ^ p.exp * |(stAt (frF (floatRF p)) z a t).im|) :
    (∀ t < T, outAt (rfF p) s a t = outAt (frF (floatRF p)) z a t) ∧
    ∀ t ≤ T, ‖toC (stAt (rfF p) s a t) - 2 ^ p.exp * stAt (frF (floatRF p)) z a t‖ ≤ E t := by
  simp only [K_cast] at *
  have inv : ∀ t ≤ T, ‖toC (stAt (rfF p) s a t) - K p * stAt (frF (floatRF p)) z a t‖ ≤ E t := by
    intro t
    induction t with
    | zero => intro _; exact h0
    | succ t ih => intro ht; exact (rf_step p _ _ (a t) (E t) (E (t + 1)) (ih (by omega)) (hE t) (hr t (by omega)) (hm t (by omega))).2
  exact ⟨fun t ht => (rf_step p _ _ (a t) (E t) (E (t + 1)) (inv t (by omega)) (hE t) (hr t ht) (hm t ht)).1, inv⟩

/-- **C109 (RF_IZ).** The same for the Izhikevich neuron, with `state_exp` at most 17: the two models reset the imaginary part to slightly
different values (one unit, and a fixed `1e-5`, below the threshold). -/
theorem C109_rfiz_follows (p : RFPar) (s : RFSt) (z : ℂ) (a : Nat → Int × Int) (E : Nat → ℝ) (T : Nat) (hexp : p.exp ≤ 17)
    (h0 : ‖toC s - 2 ^ p.exp * z‖ ≤ E 0) (hE : ∀ t, gain p * E t + 3 ≤ E (t + 1))
    (hr : ∀ t < T, InRange p (E (t + 1)) (frPre (floatRF p) (stAt (frIzF (floatRF p)) z a t) (a t)))
    (hm : ∀ t < T, E (t + 1) < |2 ^ p.exp * (frPre (floatRF p) (stAt (frIzF (floatRF p)) z a t) (a t)).im - p.vth|) :
    (∀ t < T, outAt (rfIzF p) s a t = outAt (frIzF (floatRF p)) z a t) ∧
    ∀ t ≤ T, ‖toC (stAt (rfIzF p) s a t) - 2 ^ p.exp * stAt (frIzF (floatRF p)) z a t‖ ≤ E t := by
  simp only [K_cast] at *
  have hE0 : 0 ≤ E 0 := le_trans (norm_nonneg _) h0
  have g0 : 0 ≤ gain p := norm_nonneg _
  have pos : ∀ t, 0 ≤ E t := by
    intro t
    induction t with
    | zero => exact hE0
    | succ t ih => have := hE t; have := mul_nonneg g0 ih; linarith
  have one : ∀ t, 1 ≤ E (t + 1) := fun t => by have := hE t; have := mul_nonneg g0 (pos t); linarith
  have inv : ∀ t ≤ T, ‖toC (stAt (rfIzF p) s a t) - K p * stAt (frIzF (floatRF p)) z a t‖ ≤ E t := by
    intro t
    induction t with
    | zero => intro _; exact h0
    | succ t ih =>
      intro ht
      exact (rfiz_step p _ _ (a t) (E t) (E (t + 1)) hexp (one t) (ih (by omega)) (hE t) (hr t (by omega)) (hm t (by omega))).2
  exact ⟨fun t ht => (rfiz_step p _ _ (a t) (E t) (E (t + 1)) hexp (one t) (inv t (by omega)) (hE t) (hr t ht) (hm t ht)).1, inv⟩

/-- **C109 (RF_IZ, decaying).** If a step shrinks the state (`gain < 1`), the bound `3 / (1 - gain)` holds for ever. -/
theorem C109_rfiz_decaying (p : RFPar) (a : Nat → Int × Int) (T : Nat) (hexp : p.exp ≤ 17) (hg : gain p < 1) (E : ℝ)
    (e : E = 3 / (1 - gain p))
    (hr : ∀ t < T, InRange p E (frPre (floatRF p) (stAt (frIzF (floatRF p)) 0 a t) (a t)))
    (hm : ∀ t < T, E < |2 ^ p.exp * (frPre (floatRF p) (stAt (frIzF (floatRF p)) 0 a t) (a t)).im - p.vth|) :
    (∀ t < T, outAt (rfIzF p) ⟨0, 0⟩ a t = outAt (frIzF (floatRF p)) 0 a t) ∧
    ∀ t ≤ T, ‖toC (stAt (rfIzF p) ⟨0, 0⟩ a t) - 2 ^ p.exp * stAt (frIzF (floatRF p)) 0 a t‖ ≤ E := by
  have h1 : 0 < 1 - gain p := by linarith
  have hE0 : 0 ≤ E := by rw [e]; positivity
  have hrec : gain p * E + 3 = E := by rw [e]; field_simp; ring
  refine C109_rfiz_follows p ⟨0, 0⟩ 0 a (fun _ => E) T hexp ?_ (fun _ => le_of_eq hrec) hr hm
  have : toC ⟨0, 0⟩ - 2 ^ p.exp * (0 : ℂ) = 0 := by
    apply Complex.ext <;> simp [toC]
  rw [this, norm_zero]
  exact hE0

/-- **C109 (RF, rotating).** If a step does not enlarge the state (`gain ≤ 1`, in particular for an undamped resonator), the error grows
by at most 3 units per step. -/
theorem C109_rf_rotating (p : RFPar) (s : RFSt) (z : ℂ) (a : Nat → Int × Int) (T : Nat) (hg : gain p ≤ 1)
    (h0 : toC s = 2 ^ p.exp * z)
    (hr : ∀ t < T, InRange p (3 * ((t : ℝ) + 1)) (frPre (floatRF p) (stAt (frF (floatRF p)) z a t) (a t)))
    (hm : ∀ t < T, 3 * ((t : ℝ) + 1) < |2 ^ p.exp * (frPre (floatRF p) (stAt (frF (floatRF p)) z a t) (a t)).re - p.vth| ∧
      3 * ((t : ℝ) + 1) < 2 ^ p.exp * |(frPre (floatRF p) (stAt (frF (floatRF p)) z a t) (a t)).im| ∧
      3 * (t : ℝ) < 2 ^ p.exp * |(stAt (frF (floatRF p)) z a t).im|) :
    (∀ t < T, outAt (rfF p) s a t = outAt (frF (floatRF p)) z a t) ∧
    ∀ t ≤ T, ‖toC (stAt (rfF p) s a t) - 2 ^ p.exp * stAt (frF (floatRF p)) z a t‖ ≤ 3 * (t : ℝ) := by
  refine C109_rf_follows p s z a (fun t => 3 * (t : ℝ)) T ?_ ?_ ?_ ?_
  · rw [h0, sub_self, norm_zero]; simp
  · intro t
    have : gain p * (3 * (t : ℝ)) ≤ 1 * (3 * (t : ℝ)) := mul_le_mul_of_nonneg_right hg (by positivity)
    push_cast
    linarith
  · intro t ht; push_cast; exact hr t ht
  · intro t ht; push_cast; exact hm t ht

/-! A neuron that fires in every second step: the hypotheses hold for every number of steps. -/

/-- `cos_decay = 0`, `sin_decay = 1/2`, threshold 50. -/
def exRF : RFPar := ⟨1, 0, 1, 0, 50⟩

def exIn (t : Nat) : Int × Int := if t % 2 = 0 then (0, 100) else (0, 0)

theorem exRF_gain : gain exRF = 1 / 2 := by
  rw [gain_eq, show (((exRF.cos : ℝ) / 2 ^ exRF.bits) ^ 2 + ((exRF.sin : ℝ) / 2 ^ exRF.bits) ^ 2) = (1 / 2) ^ 2 by norm_num [exRF]]
  exact Real.sqrt_sq (by norm_num)

theorem exRF_state (t : Nat) : stAt (frIzF (floatRF exRF)) 0 exIn t =
    if t = 0 then 0 else if t % 2 = 1 then ⟨0, 50 - 1 / 100000⟩ else ⟨-(50 - 1 / 100000) / 2, 0⟩ := by
  induction t with
  | zero => rfl
  | succ t ih =>
    rw [stAt, ih, if_neg (show ¬ t + 1 = 0 by omega)]
    by_cases h0 : t = 0
    · subst h0
      norm_num [frIzF, frIzStep, frDyn, exIn, floatRF, exRF]
    · rw [if_neg h0]
      rcases Nat.mod_two_eq_zero_or_one t with h | h
      · rw [if_neg (show ¬ t % 2 = 1 by omega), if_pos (show (t + 1) % 2 = 1 by omega)]
        norm_num [frIzF, frIzStep, frDyn, exIn, h, floatRF, exRF]
      · rw [if_pos h, if_neg (show ¬ (t + 1) % 2 = 1 by omega)]
        norm_num [frIzF, frIzStep, frDyn, exIn, h, floatRF, exRF]

theorem exRF_pre (t : Nat) : |(frPre (floatRF exRF) (stAt (frIzF (floatRF exRF)) 0 exIn t) (exIn t)).re| ≤ 100 ∧
    ((frPre (floatRF exRF) (stAt (frIzF (floatRF exRF)) 0 exIn t) (exIn t)).im = 0 ∨
      (70 ≤ (frPre (floatRF exRF) (stAt (frIzF (floatRF exRF)) 0 exIn t) (exIn t)).im ∧
        (frPre (floatRF exRF) (stAt (frIzF (floatRF exRF)) 0 exIn t) (exIn t)).im ≤ 100)) := by
  rw [exRF_state]
  by_cases h0 : t = 0
  · subst h0
    norm_num [frPre, frDyn, exIn, floatRF, exRF]
  · rw [if_neg h0]
    rcases Nat.mod_two_eq_zero_or_one t with h | h
    · rw [if_neg (by omega)]
      norm_num [frPre, frDyn, exIn, h, floatRF, exRF]
    · rw [if_pos h]
      norm_num [frPre, frDyn, exIn, h, floatRF, exRF, abs_le]

example (T : Nat) : ∀ t < T, outAt (rfIzF exRF) ⟨0, 0⟩ exIn t = outAt (frIzF (floatRF exRF)) 0 exIn t := by
  refine (C109_rfiz_decaying exRF exIn T (by decide) (by rw [exRF_gain]; norm_num) 6 (by rw [exRF_gain]; norm_num) ?_ ?_).1
  · intro t _
    have h := exRF_pre t
    unfold InRange
    rw [show K exRF = 1 by norm_num [K, exRF]]
    refine ⟨by linarith [h.1], ?_⟩
    rcases h.2 with e | e
    · rw [e]; norm_num
    · rw [abs_of_nonneg (by linarith [e.1])]; linarith [e.2]
  · intro t _
    have h := exRF_pre t
    rw [show (2 : ℝ) ^ exRF.exp = 1 by norm_num [exRF], show ((exRF.vth : Int) : ℝ) = 50 by norm_num [exRF], one_mul]
    rcases h.2 with e | e
    · rw [e]; norm_num
    · rw [abs_of_nonneg (by linarith [e.1])]; linarith [e.1]

example : (List.range 4).map (outAt (rfIzF exRF) ⟨0, 0⟩ exIn) = [true, false, true, false] := by decide

end Verif.Neurons
