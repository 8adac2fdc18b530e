import Verif.Neurons.FollowLif

/-!
# C109: bit-accurate neurons follow the floating-point neurons (ATRLIF)
-/

namespace Verif.Neurons

open Verif.LIF

/-- The floating-point parameters that belong to bit-accurate ones (before `scale_threshold`). -/
def floatAtr (p : APar) : FAPar :=
  { di := ((p.di : ℚ) + 1) / 4096, dv := (p.dv : ℚ) / 4096, dth := (p.dth : ℚ) / 4096, dr := (p.dr : ℚ) / 4096,
    th0 := p.th0, thStep := p.thStep, bias := (effBias p.biasMant p.biasExp : ℚ) / 64 }

/-- State of the floating-point neuron after `t` steps. -/
def faAt (p : FAPar) (s : FASt) (a : Nat → Int) : Nat → FASt
  | 0 => s
  | t + 1 => (faStep p (faAt p s a t) (a t)).1

def faSpike (p : FAPar) (s : FASt) (a : Nat → Int) (t : Nat) : Bool := (faStep p (faAt p s a t) (a t)).2

/-- State of the floating-point neuron in step `t`, before the threshold is applied. -/
def faPre (p : FAPar) (s : FASt) (a : Nat → Int) (t : Nat) : FASt := faSub p (faAt p s a t) (a t)

/-- State of the bit-accurate neuron after `t` steps, after `scale_threshold` at the beginning of the first one. -/
def atrAt (p : APar) (s : ASt) (a : Nat → Int) : Nat → ASt
  | 0 => (scaleThr p s).2
  | t + 1 => (aStep (scaleThr p s).1 (atrAt p s a t) (a t)).1

def atrSpike (p : APar) (s : ASt) (a : Nat → Int) (t : Nat) : Bool := (aStep (scaleThr p s).1 (atrAt p s a t) (a t)).2

/-- The spikes of the model run are those of `atrlif`. -/
theorem atrlif_spikes (p : APar) (s : ASt) (a : Nat → Int) (T : Nat) :
    (atrlif p s ((List.range T).map a)).2 = (List.range T).map (atrSpike p s a) := by
  have key : ∀ n k, (aRun (scaleThr p s).1 (atrAt p s a k) ((List.range' k n).map a)).2 = (List.range' k n).map (atrSpike p s a) := by
    intro n
    induction n with
    | zero => intro k; rfl
    | succ n ih =>
      intro k
      rw [List.range'_succ, List.map_cons, List.map_cons, aRun]
      dsimp only
      rw [← ih (k + 1)]
      rfl
  rcases T with _ | T
  · rfl
  · have := key (T + 1) 0
    rw [← List.range_eq_range'] at this
    rw [← this]
    rw [List.range_succ_eq_map]
    rfl

/-- Bounds on the errors of current, voltage, threshold and refractory state. -/
structure Err where
  i : ℚ
  v : ℚ
  th : ℚ
  r : ℚ

/-- The bit-accurate state is within the bounds of 64 times the floating-point state. -/
def Near (E : Err) (x : ASt) (y : FASt) : Prop :=
  |(x.i : ℚ) - 64 * y.i| ≤ E.i ∧ |(x.v : ℚ) - 64 * y.v| ≤ E.v ∧ |(x.th : ℚ) - 64 * y.th| ≤ E.th ∧ |(x.r : ℚ) - 64 * y.r| ≤ E.r

/-- The bounds `F` hold one step after the bounds `E`: products lose up to one unit, a spike adds twice the threshold error to the
refractory state. -/
def ErrStep (p : APar) (E F : Err) : Prop :=
  (1 - ((p.di : ℚ) + 1) / 4096) * E.i + 1 ≤ F.i ∧
  (1 - (p.dv : ℚ) / 4096) * E.v + 1 + F.i ≤ F.v ∧
  (1 - (p.dth : ℚ) / 4096) * E.th + 1 ≤ F.th ∧
  (1 - (p.dr : ℚ) / 4096) * E.r + 1 + 2 * F.th ≤ F.r

theorem lim_range {x : Int} {y E : ℚ} (h : |(x : ℚ) - y| ≤ E) (hr : |y| + E ≤ 2 ^ 23 - 1) : -lim ≤ x ∧ x ≤ lim := by
  have := int_range h hr
  unfold maxUV at this; unfold lim; omega

/-- One step of the ATRLIF neuron. -/
theorem atr_step (p : APar) (s0 : ASt) (o : ASt) (f : FASt) (a : Int) (E F : Err) (hint : p.intDeltaI = false)
    (hd : (p.di ≤ 4095) ∧ (p.dv ≤ 4096) ∧ (p.dth ≤ 4096) ∧ (p.dr ≤ 4096))
    (hn : Near E o f) (hE : ErrStep p E F)
    (hri : |64 * (faSub (floatAtr p) f a).i| + F.i ≤ 2 ^ 23 - 1)
    (hrv : |64 * (faSub (floatAtr p) f a).v| + F.v ≤ 2 ^ 23 - 1)
    (hm : F.v + F.r + F.th < 64 * |(faSub (floatAtr p) f a).v - (faSub (floatAtr p) f a).r - (faSub (floatAtr p) f a).th|) :
    (aStep (scaleThr p s0).1 o a).2 = (faStep (floatAtr p) f a).2 ∧
    Near F (aStep (scaleThr p s0).1 o a).1 (faStep (floatAtr p) f a).1 := by
  obtain ⟨h1, h2, h3, h4⟩ := hn
  obtain ⟨e1, e2, e3, e4⟩ := hE
  obtain ⟨d1, d2, d3, d4⟩ := hd
  -- current
  have c1 := decay_near (x := o.i) (c := p.di + 1) (by omega) h1
  have n1 : |((decay o.i (p.di + 1) + a * 64 : Int) : ℚ) - 64 * (faSub (floatAtr p) f a).i| ≤ F.i := by
    have e : ((decay o.i (p.di + 1) + a * 64 : Int) : ℚ) - 64 * (faSub (floatAtr p) f a).i =
        (decay o.i (p.di + 1) : ℚ) - (1 - ((p.di + 1 : Int) : ℚ) / 4096) * (64 * f.i) := by
      simp only [faSub, floatAtr]; push_cast; ring
    rw [e]
    refine le_trans c1 ?_
    push_cast
    linarith
  have r1 := int_range n1 hri
  have hw := wrapCurr_id (x := decay o.i (p.di + 1) + a * 64) (by unfold maxUV at *; omega) (by unfold maxUV at *; omega)
  have ei : aCurrent (scaleThr p s0).1 o.i a = decay o.i (p.di + 1) + a * 64 := by
    rw [← hw]
    unfold aCurrent decay scaleThr
    simp [hint]
  -- voltage
  have c2 := decay_near (x := o.v) (c := p.dv) d2 h2
  have n2 : |((decay o.v p.dv + (decay o.i (p.di + 1) + a * 64) + effBias p.biasMant p.biasExp : Int) : ℚ)
      - 64 * (faSub (floatAtr p) f a).v| ≤ F.v := by
    have e : ((decay o.v p.dv + (decay o.i (p.di + 1) + a * 64) + effBias p.biasMant p.biasExp : Int) : ℚ)
        - 64 * (faSub (floatAtr p) f a).v =
        ((decay o.v p.dv : ℚ) - (1 - (p.dv : ℚ) / 4096) * (64 * f.v)) +
        (((decay o.i (p.di + 1) + a * 64 : Int) : ℚ) - 64 * (faSub (floatAtr p) f a).i) := by
      simp only [faSub, floatAtr]; push_cast; ring
    rw [e]
    refine le_trans (abs_add_le _ _) ?_
    exact le_trans (add_le_add c2 n1) e2
  have r2 := lim_range n2 hrv
  have hc : clip (-lim) lim (decay o.v p.dv + (decay o.i (p.di + 1) + a * 64) + effBias p.biasMant p.biasExp) =
      decay o.v p.dv + (decay o.i (p.di + 1) + a * 64) + effBias p.biasMant p.biasExp := by
    unfold clip
    rw [max_eq_left r2.1, min_eq_left r2.2]
  -- threshold
  have h3' : |((o.th - p.th0 * 64 : Int) : ℚ) - 64 * (f.th - p.th0)| ≤ E.th := by
    have e : ((o.th - p.th0 * 64 : Int) : ℚ) - 64 * (f.th - p.th0) = (o.th : ℚ) - 64 * f.th := by push_cast; ring
    rw [e]; exact h3
  have c3 := decay_near (x := o.th - p.th0 * 64) (c := p.dth) d3 h3'
  have n3 : |((decay (o.th - p.th0 * 64) p.dth + p.th0 * 64 : Int) : ℚ) - 64 * (faSub (floatAtr p) f a).th| ≤ F.th := by
    have e : ((decay (o.th - p.th0 * 64) p.dth + p.th0 * 64 : Int) : ℚ) - 64 * (faSub (floatAtr p) f a).th =
        (decay (o.th - p.th0 * 64) p.dth : ℚ) - (1 - (p.dth : ℚ) / 4096) * (64 * (f.th - p.th0)) := by
      simp only [faSub, floatAtr]; push_cast; ring
    rw [e]
    exact le_trans c3 e3
  -- refractory state
  have c4 := decay_near (x := o.r) (c := p.dr) d4 h4
  have n4 : |(decay o.r p.dr : ℚ) - 64 * (faSub (floatAtr p) f a).r| ≤ F.r - 2 * F.th := by
    have e : (decay o.r p.dr : ℚ) - 64 * (faSub (floatAtr p) f a).r = (decay o.r p.dr : ℚ) - (1 - (p.dr : ℚ) / 4096) * (64 * f.r) := by
      simp only [faSub, floatAtr]; ring
    rw [e]
    refine le_trans c4 ?_
    linarith
  have ht0 : 0 ≤ F.th := le_trans (abs_nonneg _) n3
  have hs : aSub (scaleThr p s0).1 o a = ⟨decay o.i (p.di + 1) + a * 64,
      decay o.v p.dv + (decay o.i (p.di + 1) + a * 64) + effBias p.biasMant p.biasExp,
      decay (o.th - p.th0 * 64) p.dth + p.th0 * 64, decay o.r p.dr⟩ := by
    unfold aSub
    dsimp only
    rw [ei]
    rw [← hc]
    rfl
  -- spike
  generalize hV : decay o.v p.dv + (decay o.i (p.di + 1) + a * 64) + effBias p.biasMant p.biasExp = V at *
  generalize hI : decay o.i (p.di + 1) + a * 64 = I at *
  generalize hT : decay (o.th - p.th0 * 64) p.dth + p.th0 * 64 = Th at *
  generalize hR : decay o.r p.dr = R at *
  generalize hg : faSub (floatAtr p) f a = g at *
  have hspk : (V - R ≥ Th) ↔ (g.v - g.r ≥ g.th) := by
    have q : (V - R ≥ Th) ↔ ((V : ℚ) - (R : ℚ) ≥ (Th : ℚ)) := by exact_mod_cast Iff.rfl
    rw [q]
    have a2 := abs_le.mp n2
    have a3 := abs_le.mp n3
    have a4 := abs_le.mp n4
    rcases le_or_gt 0 (g.v - g.r - g.th) with hy | hy
    · rw [abs_of_nonneg hy] at hm
      constructor
      · intro _; linarith
      · intro _; linarith [a2.1, a3.2, a4.2]
    · rw [abs_of_neg hy] at hm
      constructor
      · intro hx; linarith [a2.2, a3.1, a4.1]
      · intro hx; linarith
  unfold aStep faStep
  rw [hs, hg]
  dsimp only
  by_cases hx : g.v - g.r ≥ g.th
  · rw [if_pos hx, if_pos (hspk.mpr hx)]
    refine ⟨rfl, n1, n2, ?_, ?_⟩
    · have e : ((Th + p.thStep * 64 : Int) : ℚ) - 64 * (g.th + (floatAtr p).thStep) = (Th : ℚ) - 64 * g.th := by
        simp only [floatAtr]; push_cast; ring
      show |((Th + p.thStep * 64 : Int) : ℚ) - 64 * (g.th + (floatAtr p).thStep)| ≤ F.th
      rw [e]; exact n3
    · have e : ((R + 2 * Th : Int) : ℚ) - 64 * (g.r + 2 * g.th) = ((R : ℚ) - 64 * g.r) + 2 * ((Th : ℚ) - 64 * g.th) := by push_cast; ring
      show |((R + 2 * Th : Int) : ℚ) - 64 * (g.r + 2 * g.th)| ≤ F.r
      rw [e]
      refine le_trans (abs_add_le _ _) ?_
      rw [abs_mul, show |(2 : ℚ)| = 2 by norm_num]
      linarith
  · rw [if_neg hx, if_neg (fun h => hx (hspk.mp h))]
    exact ⟨rfl, n1, n2, n3, le_trans n4 (by linarith)⟩

/-- **C109 (ATRLIF).** With bounds that satisfy the error recursion, the bit-accurate neuron spikes in the same steps as the
floating-point one and all four of its state variables stay within the bounds, as long as the floating-point neuron stays in the 24-bit
range and its voltage keeps the distance of the sum of the bounds from its threshold, for every input. -/
theorem C109_atrlif_follows (p : APar) (s : ASt) (f : FASt) (a : Nat → Int) (E : Nat → Err) (T : Nat) (hint : p.intDeltaI = false)
    (hd : (p.di ≤ 4095) ∧ (p.dv ≤ 4096) ∧ (p.dth ≤ 4096) ∧ (p.dr ≤ 4096))
    (h0 : Near (E 0) { s with th := p.th0 * 64 } f) (hE : ∀ t, ErrStep p (E t) (E (t + 1)))
    (hr : ∀ t < T, |64 * (faPre (floatAtr p) f a t).i| + (E (t + 1)).i ≤ 2 ^ 23 - 1 ∧
      |64 * (faPre (floatAtr p) f a t).v| + (E (t + 1)).v ≤ 2 ^ 23 - 1)
    (hm : ∀ t < T, (E (t + 1)).v + (E (t + 1)).r + (E (t + 1)).th <
      64 * |(faPre (floatAtr p) f a t).v - (faPre (floatAtr p) f a t).r - (faPre (floatAtr p) f a t).th|) :
    (∀ t < T, atrSpike p s a t = faSpike (floatAtr p) f a t) ∧
    ∀ t ≤ T, Near (E t) (atrAt p s a t) (faAt (floatAtr p) f a t) := by
  have step : ∀ t < T, Near (E t) (atrAt p s a t) (faAt (floatAtr p) f a t) → _ :=
    fun t ht hn => atr_step p s (atrAt p s a t) (faAt (floatAtr p) f a t) (a t) (E t) (E (t + 1)) hint hd hn (hE t) (hr t ht).1 (hr t ht).2
      (hm t ht)
  have inv : ∀ t ≤ T, Near (E t) (atrAt p s a t) (faAt (floatAtr p) f a t) := by
    intro t
    induction t with
    | zero => intro _; exact h0
    | succ t ih => intro ht; exact (step t (by omega) (ih (by omega))).2
  exact ⟨fun t ht => (step t ht (inv t (by omega))).1, inv⟩

/-- **C109 (ATRLIF, fixed bounds).** If all four quantities decay, fixed bounds hold for ever. -/
theorem C109_atrlif_leaky (p : APar) (s : ASt) (f : FASt) (a : Nat → Int) (T : Nat) (hint : p.intDeltaI = false)
    (hd : (0 ≤ p.di ∧ p.di ≤ 4095) ∧ (0 < p.dv ∧ p.dv ≤ 4096) ∧ (0 < p.dth ∧ p.dth ≤ 4096) ∧ (0 < p.dr ∧ p.dr ≤ 4096)) (E : Err)
    (ei : E.i = 4096 / ((p.di : ℚ) + 1)) (ev : E.v = (E.i + 1) * 4096 / (p.dv : ℚ)) (eth : E.th = 4096 / (p.dth : ℚ))
    (er : E.r = (2 * E.th + 1) * 4096 / (p.dr : ℚ))
    (h0 : (s.i : ℚ) = 64 * f.i ∧ (s.v : ℚ) = 64 * f.v ∧ f.th = p.th0 ∧ (s.r : ℚ) = 64 * f.r)
    (hr : ∀ t < T, |64 * (faPre (floatAtr p) f a t).i| + E.i ≤ 2 ^ 23 - 1 ∧ |64 * (faPre (floatAtr p) f a t).v| + E.v ≤ 2 ^ 23 - 1)
    (hm : ∀ t < T, E.v + E.r + E.th <
      64 * |(faPre (floatAtr p) f a t).v - (faPre (floatAtr p) f a t).r - (faPre (floatAtr p) f a t).th|) :
    (∀ t < T, atrSpike p s a t = faSpike (floatAtr p) f a t) ∧ ∀ t ≤ T, Near E (atrAt p s a t) (faAt (floatAtr p) f a t) := by
  obtain ⟨d1, d2, d3, d4⟩ := hd
  have q1 : (0 : ℚ) < (p.di : ℚ) + 1 := by have : (0 : ℚ) ≤ (p.di : ℚ) := by exact_mod_cast d1.1
                                           linarith
  have q2 : (0 : ℚ) < (p.dv : ℚ) := by exact_mod_cast d2.1
  have q3 : (0 : ℚ) < (p.dth : ℚ) := by exact_mod_cast d3.1
  have q4 : (0 : ℚ) < (p.dr : ℚ) := by exact_mod_cast d4.1
  have p1 : 0 ≤ E.i := by rw [ei]; positivity
  have p2 : 0 ≤ E.v := by rw [ev]; positivity
  have p3 : 0 ≤ E.th := by rw [eth]; positivity
  have p4 : 0 ≤ E.r := by rw [er]; positivity
  have hE : ErrStep p E E := by
    refine ⟨?_, ?_, ?_, ?_⟩ <;> apply le_of_eq
    · rw [ei]; field_simp; ring
    · rw [ev]; field_simp; ring
    · rw [eth]; field_simp; ring
    · rw [er]; field_simp; ring
  refine C109_atrlif_follows p s f a (fun _ => E) T hint ⟨d1.2, d2.2, d3.2, d4.2⟩ ?_ (fun _ => hE) hr hm
  refine ⟨?_, ?_, ?_, ?_⟩
  · show |(s.i : ℚ) - 64 * f.i| ≤ E.i
    rw [h0.1, sub_self, abs_zero]; exact p1
  · show |(s.v : ℚ) - 64 * f.v| ≤ E.v
    rw [h0.2.1, sub_self, abs_zero]; exact p2
  · show |((p.th0 * 64 : Int) : ℚ) - 64 * f.th| ≤ E.th
    rw [h0.2.2.1, show ((p.th0 * 64 : Int) : ℚ) - 64 * (p.th0 : ℚ) = 0 by push_cast; ring, abs_zero]; exact p3
  · show |(s.r : ℚ) - 64 * f.r| ≤ E.r
    rw [h0.2.2.2, sub_self, abs_zero]; exact p4

/-! A neuron without memory (all decays complete): every input that avoids the threshold satisfies the hypotheses. -/

example (T : Nat) (a : Nat → Int) (h : ∀ t, (a t : ℚ) ≠ 5 ∧ |(a t : ℚ)| ≤ 1000) : ∀ t < T,
    atrSpike ⟨4095, 4096, 4096, 4096, false, 5, 3, 0, 0⟩ ⟨0, 0, 0, 0⟩ a t =
    faSpike (floatAtr ⟨4095, 4096, 4096, 4096, false, 5, 3, 0, 0⟩) ⟨0, 0, 5, 0⟩ a t := by
  refine (C109_atrlif_leaky ⟨4095, 4096, 4096, 4096, false, 5, 3, 0, 0⟩ ⟨0, 0, 0, 0⟩ ⟨0, 0, 5, 0⟩ a T rfl (by decide) ⟨1, 2, 1, 3⟩
    (by norm_num) (by norm_num) (by norm_num) (by norm_num) (by norm_num) ?_ ?_).1
  · intro t _
    have e := (h t).2
    norm_num [faPre, faSub, floatAtr, effBias, abs_mul]
    constructor <;> linarith
  · intro t _
    have hz : a t ≠ 5 := fun q => (h t).1 (by rw [q]; rfl)
    have e1 : (1 : ℚ) ≤ |(a t : ℚ) - 5| := by
      have : (1 : Int) ≤ |a t - 5| := Int.one_le_abs (by omega)
      exact_mod_cast this
    have e2 : (faPre (floatAtr ⟨4095, 4096, 4096, 4096, false, 5, 3, 0, 0⟩) ⟨0, 0, 5, 0⟩ a t).v -
        (faPre (floatAtr ⟨4095, 4096, 4096, 4096, false, 5, 3, 0, 0⟩) ⟨0, 0, 5, 0⟩ a t).r -
        (faPre (floatAtr ⟨4095, 4096, 4096, 4096, false, 5, 3, 0, 0⟩) ⟨0, 0, 5, 0⟩ a t).th = (a t : ℚ) - 5 := by
      norm_num [faPre, faSub, floatAtr, effBias]
    rw [e2]
    show (2 : ℚ) + 3 + 1 < _
    linarith

end Verif.Neurons
