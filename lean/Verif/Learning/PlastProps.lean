import Verif.Learning.Plasticity
import Mathlib.Algebra.Order.Group.MinMax
import Verif.Weights.Props
import Mathlib.Tactic.Linarith
import Mathlib.Tactic.LinearCombination
import Mathlib.Tactic.NormNum
import Mathlib.Tactic.Positivity

/-!
# C56, C57, C58: traces, weights and epochs of the bit-approximate learning connection
-/

namespace Verif.Learning

open Verif.Weights (SignMode clipWeight Legal C37_clip_legal C37_clip_id)

/-! ## C56: traces stay in the 7-bit range -/

/-- A 7-bit trace value. -/
def In7 (x : Int) : Prop := 0 ≤ x ∧ x ≤ 127

/-- All five traces are 7-bit values. -/
def St.tracesOk (s : St) : Prop := In7 s.x1 ∧ In7 s.x2 ∧ In7 s.y1 ∧ In7 s.y2 ∧ In7 s.y3

/-- Decay factors `exp(-1/tau)` (or 0) are between 0 and 1. -/
def Cfg.decaysOk (c : Cfg) : Prop :=
  ∀ k ∈ [c.cx1, c.cx2, c.cy1, c.cy2, c.cy3], 0 ≤ k.decay ∧ k.decay ≤ 1

theorem clipI_range {lo hi x : Int} (h : lo ≤ hi) : lo ≤ clipI lo hi x ∧ clipI lo hi x ≤ hi := by
  unfold clipI; omega

theorem clipI_id {lo hi x : Int} (h1 : lo ≤ x) (h2 : x ≤ hi) : clipI lo hi x = x := by
  unfold clipI; omega

theorem addImpulse_range (c : TrCfg) (r tr : Int) : In7 (addImpulse c r tr) := by
  unfold addImpulse In7
  exact clipI_range (by norm_num)

theorem stochRound_floor_le {q rnd : ℚ} {n : Int} (hr : 0 ≤ rnd) (hq : q ≤ n) :
    stochRound ⌊q⌋ rnd (q - ⌊q⌋) ≤ n := by
  unfold stochRound
  split
  · rename_i h
    have h1 : (⌊q⌋ : ℚ) < n := by linarith
    have : ⌊q⌋ < n := by exact_mod_cast h1
    omega
  · have : ⌊q⌋ ≤ n := by
      have := Int.floor_le q
      have h2 : (⌊q⌋ : ℚ) ≤ n := le_trans this hq
      exact_mod_cast h2
    exact this

theorem stochRound_ge {v : Int} {r p : ℚ} : v ≤ stochRound v r p := by
  unfold stochRound; split <;> omega

theorem decayTrace_range {c : TrCfg} {rnd : ℚ} {tr : Int} (h0 : 0 ≤ c.decay) (h1 : c.decay ≤ 1)
    (hr : 0 ≤ rnd) (h : In7 tr) : In7 (decayTrace c rnd tr) := by
  obtain ⟨ha, hb⟩ := h
  have ha' : (0 : ℚ) ≤ tr := by exact_mod_cast ha
  have hb' : (tr : ℚ) ≤ 127 := by exact_mod_cast hb
  constructor
  · refine le_trans ?_ stochRound_ge
    exact Int.floor_nonneg.mpr (mul_nonneg h0 ha')
  · refine stochRound_floor_le hr ?_
    push_cast
    nlinarith

theorem hist_range {c : TrCfg} {rD : ℚ} {rI : Int} {ts : Nat} {tr : Int} (h0 : 0 ≤ c.decay)
    (h1 : c.decay ≤ 1) (hr : 0 ≤ rD) (h : In7 tr) (t : Nat) : In7 (hist c rD rI ts tr t) := by
  induction t with
  | zero => exact h
  | succ t ih =>
    unfold hist histStep
    split
    · exact addImpulse_range _ _ _
    · exact decayTrace_range h0 h1 hr ih

theorem scaledAct_range {a : Nat} (h : a ≤ 254) : 0 ≤ scaledAct a ∧ scaledAct a ≤ 127 := by
  unfold scaledAct
  split <;> omega

/-- Payloads that keep `x1` in range: any in the regular mode, at most 254 in the graded modes. -/
def payloadOk (c : Cfg) (a : Nat) : Prop := c.graded = .regular ∨ a ≤ 254

theorem preX1_range {c : Cfg} {s : St} {a : Nat} (hp : payloadOk c a) (h : In7 s.x1) :
    In7 (preX1 c s a) := by
  unfold preX1
  split
  · split
    · exact addImpulse_range _ _ _
    · exact h
  · rename_i hg
    have ha : a ≤ 254 := by rcases hp with hp | hp; · rw [hg] at hp; cases hp
                            · exact hp
    split
    · exact scaledAct_range ha
    · exact h
  · exact clipI_range (by norm_num)
  · rename_i hg
    have ha : a ≤ 254 := by rcases hp with hp | hp; · rw [hg] at hp; cases hp
                            · exact hp
    have hs := scaledAct_range ha
    obtain ⟨h1, h2⟩ := h
    unfold In7
    split
    · rename_i ho
      simp only [overflow, decide_eq_true_eq] at ho
      omega
    · rename_i ho
      simp only [overflow, decide_eq_true_eq] at ho
      omega

theorem recv_range {c : Cfg} {time : Nat} {s : St} {i : Inp} (hp : payloadOk c i.pre)
    (h : s.tracesOk) : (recvTraces c time s i).tracesOk := by
  obtain ⟨h1, h2, h3, h4, h5⟩ := h
  refine ⟨preX1_range hp h1, ?_, ?_, ?_, ?_⟩
  · show In7 (if _ then _ else _)
    split
    · exact addImpulse_range _ _ _
    · exact h2
  · show In7 (if _ then _ else _)
    split
    · exact addImpulse_range _ _ _
    · exact h3
  · show In7 (if _ then _ else _)
    split
    · exact addImpulse_range _ _ _
    · exact h4
  · show In7 (if _ then _ else _)
    split
    · exact addImpulse_range _ _ _
    · exact h5

theorem traceAt_range {c : Cfg} {s : St} {i : Inp} (hc : c.decaysOk) (hi : i.ok) (h : s.tracesOk)
    (t : Nat) (v : V) (hv : v.isSyn = false) : In7 (traceAt c s i t v) := by
  obtain ⟨h1, h2, h3, h4, h5⟩ := h
  cases v with
  | x1 => exact hist_range (hc c.cx1 (by simp)).1 (hc c.cx1 (by simp)).2 hi.a h1 t
  | x2 => exact hist_range (hc c.cx2 (by simp)).1 (hc c.cx2 (by simp)).2 hi.a h2 t
  | y1 => exact hist_range (hc c.cy1 (by simp)).1 (hc c.cy1 (by simp)).2 hi.b h3 t
  | y2 => exact hist_range (hc c.cy2 (by simp)).1 (hc c.cy2 (by simp)).2 hi.b h4 t
  | y3 => exact hist_range (hc c.cy3 (by simp)).1 (hc c.cy3 (by simp)).2 hi.b h5 t
  | w => simp [V.isSyn] at hv
  | d => simp [V.isSyn] at hv
  | t => simp [V.isSyn] at hv

/-- **C56.** Whatever the spikes, payloads, impulses, decay constants and random numbers, all traces
are 7-bit values at every time step.  In the graded modes payloads are at most 254: see
`C56_overwrite_payload_255` for 255. -/
theorem C56_traces_in_range_partial (c : Cfg) (s0 : St) (inp : Nat → Inp) (hc : c.decaysOk)
    (h0 : s0.tracesOk) (hi : ∀ n, (inp n).ok) (hp : ∀ n, payloadOk c (inp n).pre) (n : Nat) :
    (run c s0 inp n).tracesOk := by
  induction n with
  | zero => exact h0
  | succ n ih =>
    have hr := recv_range (time := n + 1) (hp (n + 1)) ih
    unfold run step
    split
    · exact ⟨traceAt_range hc (hi _) hr _ .x1 rfl, traceAt_range hc (hi _) hr _ .x2 rfl,
        traceAt_range hc (hi _) hr _ .y1 rfl, traceAt_range hc (hi _) hr _ .y2 rfl,
        traceAt_range hc (hi _) hr _ .y3 rfl⟩
    · exact hr

/-- The trace values a rule reads in a learning phase are 7-bit values, at whatever step of the epoch
they are read. -/
theorem C56_rule_reads_in_range_partial (c : Cfg) (s0 : St) (inp : Nat → Inp) (hc : c.decaysOk)
    (h0 : s0.tracesOk) (hi : ∀ n, (inp n).ok) (hp : ∀ n, payloadOk c (inp n).pre) (n : Nat)
    (d : Dep) (v : V) (hv : v.isSyn = false) :
    In7 ((applierArgs c (n + 1) (recvTraces c (n + 1) (run c s0 inp n) (inp (n + 1)))
      (inp (n + 1))).val d v) :=
  traceAt_range hc (hi _) (recv_range (hp _) (C56_traces_in_range_partial c s0 inp hc h0 hi hp n))
    _ v hv

/-- Between spikes a trace never grows. -/
theorem C56_decay_monotone (c : TrCfg) (rnd : ℚ) (tr : Int) (h0 : 0 ≤ c.decay) (h1 : c.decay ≤ 1)
    (hr : 0 ≤ rnd) (h : 0 ≤ tr) : decayTrace c rnd tr ≤ tr ∧ 0 ≤ decayTrace c rnd tr := by
  have h' : (0 : ℚ) ≤ tr := by exact_mod_cast h
  constructor
  · refine stochRound_floor_le hr ?_
    nlinarith
  · exact le_trans (Int.floor_nonneg.mpr (mul_nonneg h0 h')) stochRound_ge

/-- The trace of an ideal synapse with real-valued traces: decays by the factor every step, jumps by the impulse
`imp + frac / 256` at the spike, saturates at 127. -/
def idealTrace (c : TrCfg) (tSpike : Nat) (tr : ℚ) : Nat → ℚ
  | 0 => tr
  | t + 1 =>
    if tSpike = t + 1 then max 0 (min 127 (c.decay * idealTrace c tSpike tr t + ((c.imp : ℚ) + (c.frac : ℚ) / 256)))
    else c.decay * idealTrace c tSpike tr t

/-- Sum of the first `t` powers of the decay factor. -/
def geoSum (q : ℚ) : Nat → ℚ
  | 0 => 0
  | t + 1 => q * geoSum q t + 1

theorem geoSum_nonneg {q : ℚ} (h : 0 ≤ q) : ∀ t, 0 ≤ geoSum q t
  | 0 => le_refl _
  | t + 1 => by have := geoSum_nonneg h t; unfold geoSum; positivity

theorem decayTrace_near (c : TrCfg) (rnd : ℚ) (hr : 0 ≤ rnd) (tr : Int) :
    |(decayTrace c rnd tr : ℚ) - c.decay * tr| ≤ 1 := by
  unfold decayTrace stochRound
  have h1 := Int.floor_le (c.decay * (tr : ℚ))
  have h2 := Int.lt_floor_add_one (c.decay * (tr : ℚ))
  split
  · push_cast
    rw [abs_le]
    constructor <;> linarith
  · rw [abs_le]
    constructor <;> linarith

/-- **C56, value.** Whatever the random numbers, after `t` steps of an epoch the integer trace differs from the ideal
exponentially decaying trace with the same spike by at most `1 + q + q^2 + ...` (one unit of rounding per step, decayed), plus one
for the rounding of the impulse. -/
theorem C56_trace_tracks_ideal (c : TrCfg) (rndD : ℚ) (rndI : Int) (tSpike : Nat) (tr : Int) (h0 : 0 ≤ c.decay)
    (h1 : c.decay ≤ 1) (hr : 0 ≤ rndD) (hf : 0 ≤ c.frac ∧ c.frac < 256) (t : Nat) :
    |(hist c rndD rndI tSpike tr t : ℚ) - idealTrace c tSpike tr t| ≤
      geoSum c.decay t + (if 1 ≤ tSpike ∧ tSpike ≤ t then 1 else 0) := by
  induction t with
  | zero =>
    have : ¬ (1 ≤ tSpike ∧ tSpike ≤ 0) := by omega
    rw [if_neg this]
    simp [hist, idealTrace, geoSum]
  | succ t ih =>
    have hd := decayTrace_near c rndD hr (hist c rndD rndI tSpike tr t)
    generalize hx : hist c rndD rndI tSpike tr t = x at ih hd
    generalize hy : idealTrace c tSpike tr t = y at ih
    have hstep : |(decayTrace c rndD x : ℚ) - c.decay * y| ≤
        geoSum c.decay (t + 1) + (if 1 ≤ tSpike ∧ tSpike ≤ t then 1 else 0) := by
      have e : (decayTrace c rndD x : ℚ) - c.decay * y = ((decayTrace c rndD x : ℚ) - c.decay * x) + c.decay * ((x : ℚ) - y) := by ring
      rw [e]
      refine le_trans (abs_add_le _ _) ?_
      rw [abs_mul, abs_of_nonneg h0]
      have hm := mul_le_mul_of_nonneg_left ih h0
      have hb : c.decay * (if 1 ≤ tSpike ∧ tSpike ≤ t then (1 : ℚ) else 0) ≤ if 1 ≤ tSpike ∧ tSpike ≤ t then 1 else 0 := by
        split <;> linarith
      unfold geoSum
      rw [mul_add] at hm
      linarith
    simp only [hist, histStep, idealTrace, hx, hy]
    by_cases hs : tSpike = t + 1
    · have hb : (tSpike == t + 1) = true := by simp [hs]
      rw [if_pos hb, if_pos hs, if_pos (by omega)]
      have hno : ¬ (1 ≤ tSpike ∧ tSpike ≤ t) := by omega
      rw [if_neg hno, add_zero] at hstep
      generalize decayTrace c rndD x = d at hstep
      have hclip : ∀ a b : ℚ, |max 0 (min 127 a) - max 0 (min 127 b)| ≤ |a - b| := by
        intro a b
        have h1 := abs_max_sub_max_le_max 0 (min 127 a) 0 (min 127 b)
        have h2 := abs_min_sub_min_le_max 127 a 127 b
        rw [sub_self, abs_zero] at h1 h2
        exact le_trans h1 (max_le (abs_nonneg _) (le_trans h2 (max_le (abs_nonneg _) (le_refl _))))
      have hcast : (addImpulse c rndI d : ℚ) = max 0 (min 127 ((stochRound (d + c.imp) rndI c.frac : Int) : ℚ)) := by
        unfold addImpulse clipI
        generalize stochRound (d + c.imp) rndI c.frac = z
        have : min (max z 0) (2 ^ 7 - 1) = max 0 (min 127 z) := by omega
        rw [this]
        push_cast
        rfl
      rw [hcast]
      refine le_trans (hclip _ _) ?_
      have hf1 : (0 : ℚ) ≤ c.frac := by exact_mod_cast hf.1
      have hf2 : (c.frac : ℚ) < 256 := by exact_mod_cast hf.2
      rw [abs_le] at hstep ⊢
      unfold stochRound
      split <;> push_cast <;> constructor <;> linarith [hstep.1, hstep.2]
    · have hb : (tSpike == t + 1) = false := by simp [hs]
      rw [hb]
      simp only [Bool.false_eq_true, if_false, if_neg hs]
      refine le_trans hstep ?_
      by_cases hc : 1 ≤ tSpike ∧ tSpike ≤ t
      · rw [if_pos hc, if_pos (by omega)]
      · rw [if_neg hc, if_neg (by omega)]

example : hist ⟨16, 0, 1 / 2⟩ (1 / 3) 0 2 100 4 = 11 ∧ idealTrace ⟨16, 0, 1 / 2⟩ 2 100 4 = 41 / 4 := by
  constructor
  · decide +kernel
  · norm_num [idealTrace]

/-- With 8-bit payloads the saturating mode adds half the payload and saturates at 127. -/
theorem C56_saturating_add (c : Cfg) (s : St) (a : Nat) (hg : c.graded = .addSat) (ha : a ≤ 255)
    (h : In7 s.x1) : preX1 c s a = min 127 (s.x1 + scaledAct a) ∧ a ≤ 2 * scaledAct a + 1 ∧
      2 * scaledAct a ≤ a + 1 := by
  obtain ⟨h1, h2⟩ := h
  have hs : 0 ≤ scaledAct a ∧ scaledAct a ≤ 128 ∧ a ≤ 2 * scaledAct a + 1 ∧
      2 * scaledAct a ≤ a + 1 := by
    unfold scaledAct; split <;> omega
  refine ⟨?_, hs.2.2.1, hs.2.2.2⟩
  unfold preX1
  rw [hg]
  simp only [clipI]
  omega

/-- A configuration used in examples: `t_epoch = 2`, impulse 16, decay 1/2, rule
`dw = x0*y1 - y0*x1`. -/
def exCfg (g : Graded) : Cfg :=
  { tEpoch := 2
    graded := g
    cx1 := ⟨16, 0, 1 / 2⟩
    cx2 := ⟨16, 0, 1 / 2⟩
    cy1 := ⟨16, 0, 1 / 2⟩
    cy2 := ⟨16, 0, 1 / 2⟩
    cy3 := ⟨16, 0, 1 / 2⟩
    mode := .mixed
    dw := some [⟨.x0, 1, 7, [⟨.v .y1, none, false⟩], none⟩,
                ⟨.y0, -1, 7, [⟨.v .x1, none, false⟩], none⟩]
    dd := none
    dt := none
    dec := none }

/-- Example start state. -/
def exSt : St := ⟨0, 0, 0, 0, 0, 0, 0, 10, 0, 0⟩

/-- Example inputs: a pre spike in every odd, a post spike in every even step. -/
def exInp (n : Nat) : Inp := ⟨if n % 2 = 1 then 200 else 0, n % 2 == 0, 0, 1 / 2, 0, 1 / 2, 0, 1 / 2⟩

example : (exCfg .overwrite).decaysOk ∧ exSt.tracesOk ∧ (∀ n, (exInp n).ok) ∧
    ∀ n, payloadOk (exCfg .overwrite) (exInp n).pre := by
  refine ⟨?_, by simp [exSt, St.tracesOk, In7], fun n => ⟨by norm_num [exInp], by norm_num [exInp],
    by norm_num [exInp], by norm_num [exInp], by norm_num [exInp], by norm_num [exInp]⟩, fun n => ?_⟩
  · intro k hk
    simp only [exCfg, List.mem_cons, List.not_mem_nil, or_false, or_self] at hk
    subst hk
    norm_num
  · right
    simp only [exInp]
    split <;> omega

/-- The example run is not trivial: the trace is written and decays, the weight changes. -/
example : ((run (exCfg .overwrite) exSt exInp 1).x1, (run (exCfg .overwrite) exSt exInp 2).x1,
    (run (exCfg .overwrite) exSt exInp 2).w) = (100, 33, -23) := by decide +kernel

/-- **Finding.** In mode OVERWRITE an 8-bit payload of 255 makes the 7-bit trace 128. -/
theorem C56_overwrite_payload_255 : preX1 (exCfg .overwrite) exSt 255 = 128 := by decide +kernel

/-- **Finding.** In mode ADD_WITHOUT_SATURATION a payload of 255 on a full trace makes it 128. -/
theorem C56_add_payload_255 : preX1 (exCfg .addNoSat) { exSt with x1 := 127 } 255 = 128 := by
  decide +kernel

/-- **Finding.** With payloads beyond 8 bits the saturating mode wraps around: a full trace and
payload 258 give 0. -/
theorem C56_saturation_wraps : preX1 (exCfg .addSat) { exSt with x1 := 127 } 258 = 0 := by
  decide +kernel

/-- **Finding.** The stochastic rounding of an impulse compares a 7-bit random number with an 8-bit
fraction: from a fractional part of one half on, every draw rounds up. -/
theorem C56_impulse_rounding_biased (c : TrCfg) (rnd tr : Int) (hf : 128 ≤ c.frac)
    (hr : 0 ≤ rnd ∧ rnd < 2 ^ 7) : addImpulse c rnd tr = clipI 0 127 (tr + c.imp + 1) := by
  have : (rnd : ℚ) < c.frac := by
    have : rnd < c.frac := by omega
    exact_mod_cast this
  unfold addImpulse stochRound
  rw [if_pos this]
  rfl

/-! ## C58: epochs -/

/-- The within-epoch time of step `m * t_epoch + i`, `1 ≤ i ≤ t_epoch`, is `i`. -/
theorem C58_within_epoch (tEpoch m i : Nat) (h1 : 1 ≤ i) (h2 : i ≤ tEpoch) :
    withinEpoch tEpoch (m * tEpoch + i) = i := by
  unfold withinEpoch
  rcases Nat.lt_or_ge i tEpoch with h | h
  · rw [Nat.mul_comm, Nat.mul_add_mod, Nat.mod_eq_of_lt h, if_neg (by omega)]
  · have : i = tEpoch := by omega
    subst this
    rw [if_pos (by rw [Nat.mul_comm, Nat.mul_add_mod, Nat.mod_self])]

/-- Synaptic variables change only in steps that are multiples of `t_epoch`. -/
theorem C58_no_learning_inside_epoch (c : Cfg) (s0 : St) (inp : Nat → Inp) (n : Nat)
    (h : ¬ c.tEpoch ∣ n + 1) :
    (run c s0 inp (n + 1)).w = (run c s0 inp n).w ∧ (run c s0 inp (n + 1)).d = (run c s0 inp n).d ∧
    (run c s0 inp (n + 1)).t = (run c s0 inp n).t := by
  have hg : lrnGuard c.tEpoch (n + 1) = false := by
    unfold lrnGuard
    simp only [beq_eq_false_iff_ne, ne_eq]
    exact fun hh => h (Nat.dvd_of_mod_eq_zero hh)
  have hstep : run c s0 inp (n + 1) =
      recvTraces c (n + 1) (run c s0 inp n) (inp (n + 1)) := by
    show step c (n + 1) (run c s0 inp n) (inp (n + 1)) = _
    unfold step
    rw [hg]
    rfl
  rw [hstep]
  exact ⟨rfl, rfl, rfl⟩

/-- In a step that is a multiple of `t_epoch` the learning phase runs on the state after the spiking
phase, and leaves no recorded spikes. -/
theorem C58_learning_at_epoch_end (c : Cfg) (s0 : St) (inp : Nat → Inp) (n : Nat)
    (h : c.tEpoch ∣ n + 1) :
    run c s0 inp (n + 1) =
      runLrn c (n + 1) (recvTraces c (n + 1) (run c s0 inp n) (inp (n + 1))) (inp (n + 1)) ∧
    (run c s0 inp (n + 1)).tx = 0 ∧ (run c s0 inp (n + 1)).ty = 0 := by
  have hg : lrnGuard c.tEpoch (n + 1) = true := by
    unfold lrnGuard
    simp only [beq_iff_eq]
    exact Nat.mod_eq_zero_of_dvd h
  have he : run c s0 inp (n + 1) =
      runLrn c (n + 1) (recvTraces c (n + 1) (run c s0 inp n) (inp (n + 1))) (inp (n + 1)) := by
    conv_lhs => unfold run step
    rw [hg]
    rfl
  exact ⟨he, by rw [he]; rfl, by rw [he]; rfl⟩

/-- `t` is the position in the epoch of the last of the events `ev (base + 1), …, ev (base + i)`, or 0
if there was none. -/
def IsLast (ev : Nat → Prop) (base i t : Nat) : Prop :=
  t ≤ i ∧ (0 < t → ev (base + t)) ∧ ∀ j, t < j → j ≤ i → ¬ ev (base + j)

theorem IsLast.succ {ev : Nat → Prop} {base i t : Nat} (h : IsLast ev base i t)
    (hn : ¬ ev (base + (i + 1))) : IsLast ev base (i + 1) t := by
  refine ⟨by have := h.1; omega, h.2.1, fun j h1 h2 => ?_⟩
  rcases Nat.lt_or_ge i j with hj | hj
  · have : j = i + 1 := by omega
    subst this; exact hn
  · exact h.2.2 j h1 hj

theorem IsLast.new {ev : Nat → Prop} {base i : Nat} (hn : ev (base + (i + 1))) :
    IsLast ev base (i + 1) (i + 1) :=
  ⟨Nat.le_refl _, fun _ => hn, fun j h1 h2 => by omega⟩

theorem spike_times_aux (c : Cfg) (s0 : St) (inp : Nat → Inp) (hx : s0.tx = 0) (hy : s0.ty = 0)
    (hg : c.graded ≠ .addNoSat) (m i : Nat) (hi : i < c.tEpoch) :
    IsLast (fun n => 0 < (inp n).pre) (m * c.tEpoch) i (run c s0 inp (m * c.tEpoch + i)).tx ∧
    IsLast (fun n => (inp n).post = true) (m * c.tEpoch) i
      (run c s0 inp (m * c.tEpoch + i)).ty := by
  induction i with
  | zero =>
    have h0 : (run c s0 inp (m * c.tEpoch)).tx = 0 ∧ (run c s0 inp (m * c.tEpoch)).ty = 0 := by
      cases hm : m * c.tEpoch with
      | zero => exact ⟨hx, hy⟩
      | succ k => exact (C58_learning_at_epoch_end c s0 inp k ⟨m, by rw [← hm, Nat.mul_comm]⟩).2
    simp only [Nat.add_zero]
    rw [h0.1, h0.2]
    exact ⟨⟨by omega, by omega, by omega⟩, ⟨by omega, by omega, by omega⟩⟩
  | succ i ih =>
    obtain ⟨ihx, ihy⟩ := ih (by omega)
    have hg' : lrnGuard c.tEpoch (m * c.tEpoch + i + 1) = false := by
      unfold lrnGuard
      simp only [beq_eq_false_iff_ne, ne_eq]
      rw [Nat.add_assoc, Nat.mul_comm, Nat.mul_add_mod, Nat.mod_eq_of_lt hi]
      omega
    have hstep : run c s0 inp (m * c.tEpoch + (i + 1)) =
        recvTraces c (m * c.tEpoch + (i + 1)) (run c s0 inp (m * c.tEpoch + i))
          (inp (m * c.tEpoch + (i + 1))) := by
      show run c s0 inp ((m * c.tEpoch + i) + 1) = _
      conv_lhs => unfold run step
      rw [hg']
      rfl
    have hw := C58_within_epoch c.tEpoch m (i + 1) (by omega) (by omega)
    rw [hstep]
    constructor
    · show IsLast _ _ _ (if counted c _ _ then withinEpoch c.tEpoch _ else _)
      rw [hw]
      have hcnt : counted c (run c s0 inp (m * c.tEpoch + i)) (inp (m * c.tEpoch + (i + 1))).pre
          = decide (0 < (inp (m * c.tEpoch + (i + 1))).pre) := by
        unfold counted
        split
        · rename_i h; exact absurd h hg
        · rfl
      rw [hcnt]
      by_cases hp : 0 < (inp (m * c.tEpoch + (i + 1))).pre
      · rw [if_pos (by simpa using hp)]
        exact IsLast.new hp
      · rw [if_neg (by simpa using hp)]
        exact IsLast.succ ihx hp
    · show IsLast _ _ _ (if (inp (m * c.tEpoch + (i + 1))).post = true
        then withinEpoch c.tEpoch _ else _)
      rw [hw]
      by_cases hp : (inp (m * c.tEpoch + (i + 1))).post = true
      · rw [if_pos hp]
        exact IsLast.new hp
      · rw [if_neg hp]
        exact IsLast.succ ihy hp

/-- **C58.** When the learning phase of epoch `m` starts, the recorded spike times are the positions
within the epoch of the last pre- and post-synaptic spikes of that epoch (0 for none), for every
history before it.  (In mode ADD_WITHOUT_SATURATION only overflowing pre spikes are recorded by
design.) -/
theorem C58_recorded_spike_times (c : Cfg) (s0 : St) (inp : Nat → Inp) (hE : 0 < c.tEpoch)
    (hx : s0.tx = 0) (hy : s0.ty = 0) (hg : c.graded ≠ .addNoSat) (m : Nat) :
    IsLast (fun n => 0 < (inp n).pre) (m * c.tEpoch) c.tEpoch
      (recvTraces c (m * c.tEpoch + c.tEpoch) (run c s0 inp (m * c.tEpoch + (c.tEpoch - 1)))
        (inp (m * c.tEpoch + c.tEpoch))).tx ∧
    IsLast (fun n => (inp n).post = true) (m * c.tEpoch) c.tEpoch
      (recvTraces c (m * c.tEpoch + c.tEpoch) (run c s0 inp (m * c.tEpoch + (c.tEpoch - 1)))
        (inp (m * c.tEpoch + c.tEpoch))).ty := by
  obtain ⟨ihx, ihy⟩ := spike_times_aux c s0 inp hx hy hg m (c.tEpoch - 1) (by omega)
  have hw := C58_within_epoch c.tEpoch m c.tEpoch (by omega) (by omega)
  have he : c.tEpoch - 1 + 1 = c.tEpoch := by omega
  constructor
  · show IsLast _ _ _ (if counted c _ _ then withinEpoch c.tEpoch _ else _)
    rw [hw]
    have hcnt : counted c (run c s0 inp (m * c.tEpoch + (c.tEpoch - 1)))
        (inp (m * c.tEpoch + c.tEpoch)).pre
        = decide (0 < (inp (m * c.tEpoch + c.tEpoch)).pre) := by
      unfold counted
      split
      · rename_i h; exact absurd h hg
      · rfl
    rw [hcnt]
    by_cases hp : 0 < (inp (m * c.tEpoch + c.tEpoch)).pre
    · rw [if_pos (by simpa using hp)]
      exact ⟨Nat.le_refl _, fun _ => hp, fun j h1 h2 => by omega⟩
    · rw [if_neg (by simpa using hp)]
      have := IsLast.succ ihx (by rw [he]; exact hp)
      rw [he] at this
      exact this
  · show IsLast _ _ _ (if (inp (m * c.tEpoch + c.tEpoch)).post = true
      then withinEpoch c.tEpoch _ else _)
    rw [hw]
    by_cases hp : (inp (m * c.tEpoch + c.tEpoch)).post = true
    · rw [if_pos hp]
      exact ⟨Nat.le_refl _, fun _ => hp, fun j h1 h2 => by omega⟩
    · rw [if_neg hp]
      have := IsLast.succ ihy (by rw [he]; exact hp)
      rw [he] at this
      exact this

theorem IsLast.unique {ev : Nat → Prop} {base i t t' : Nat} (h : IsLast ev base i t) (h' : IsLast ev base i t') :
    t = t' := by
  rcases Nat.lt_trichotomy t t' with hl | hl | hl
  · exact absurd (h'.2.1 (by omega)) (h.2.2 t' hl h'.1)
  · exact hl
  · exact absurd (h.2.1 (by omega)) (h'.2.2 t hl h.1)

/-- **C58, what the rule reads.** In the learning phase at the end of epoch `m`, products that depend on `x0` read every
trace as of the last pre-synaptic spike of the epoch, products that depend on `y0` as of the last post-synaptic spike,
products that depend on `u_k` at the end of the epoch. -/
theorem C58_rule_reads_at_last_spike (c : Cfg) (s0 : St) (inp : Nat → Inp) (hE : 0 < c.tEpoch)
    (hx : s0.tx = 0) (hy : s0.ty = 0) (hg : c.graded ≠ .addNoSat) (m kx ky : Nat)
    (hkx : IsLast (fun n => 0 < (inp n).pre) (m * c.tEpoch) c.tEpoch kx)
    (hky : IsLast (fun n => (inp n).post = true) (m * c.tEpoch) c.tEpoch ky) (v : V) :
    let time := m * c.tEpoch + c.tEpoch
    let s := recvTraces c time (run c s0 inp (m * c.tEpoch + (c.tEpoch - 1))) (inp time)
    (applierArgs c time s (inp time)).val .x0 v = traceAt c s (inp time) kx v ∧
    (applierArgs c time s (inp time)).val .y0 v = traceAt c s (inp time) ky v ∧
    (applierArgs c time s (inp time)).val .u v = traceAt c s (inp time) c.tEpoch v := by
  intro time s
  obtain ⟨h1, h2⟩ := C58_recorded_spike_times c s0 inp hE hx hy hg m
  have e1 : s.tx = kx := h1.unique hkx
  have e2 : s.ty = ky := h2.unique hky
  refine ⟨?_, ?_, rfl⟩
  · show traceAt c s (inp time) s.tx v = _
    rw [e1]
  · show traceAt c s (inp time) s.ty v = _
    rw [e2]

/-- **C58.** At the end of epoch number `m` (time `m * t_epoch`) the dependency `u_k` is 1 exactly if
`m` is a multiple of `2^k`, and 0 otherwise. -/
theorem C58_uk (c : Cfg) (k m : Nat) (hE : 0 < c.tEpoch) (hk : c.dec = some k) :
    uVal c (m * c.tEpoch) = if 2 ^ k ∣ m then 1 else 0 := by
  unfold uVal
  rw [hk]
  simp only
  rw [Nat.mul_div_cancel _ hE]
  by_cases h : 2 ^ k ∣ m
  · rw [if_pos (Nat.mod_eq_zero_of_dvd h), if_pos h]
  · rw [if_neg (fun hh => h (Nat.dvd_of_mod_eq_zero hh)), if_neg h]

/-- The example configuration meets the hypotheses of the epoch theorems. -/
example : 0 < (exCfg .regular).tEpoch ∧ exSt.tx = 0 ∧ exSt.ty = 0 ∧
    (exCfg .regular).graded ≠ .addNoSat ∧ ¬ (exCfg .regular).tEpoch ∣ 2 + 1 ∧
    (exCfg .regular).tEpoch ∣ 3 + 1 := by decide

/-! ## C57: weights -/

/-- **C57.** At the end of every epoch the weight is in the legal range of its sign mode, whatever
the rule, the spikes and the random numbers, and whatever the weight was before. -/
theorem C57_weights_legal (c : Cfg) (s0 : St) (inp : Nat → Inp) (n : Nat) (ps : List Product)
    (hdw : c.dw = some ps) (h : c.tEpoch ∣ n + 1) : Legal c.mode 8 (run c s0 inp (n + 1)).w := by
  rw [(C58_learning_at_epoch_end c s0 inp n h).1]
  show Legal c.mode 8 (learnW c _ _ _)
  unfold learnW
  rw [hdw]
  exact C37_clip_legal _ _ _ _

/-- **C57.** A weight that starts legal is legal at every time step. -/
theorem C57_weights_always_legal (c : Cfg) (s0 : St) (inp : Nat → Inp) (h0 : Legal c.mode 8 s0.w)
    (n : Nat) : Legal c.mode 8 (run c s0 inp n).w := by
  induction n with
  | zero => exact h0
  | succ n ih =>
    by_cases h : c.tEpoch ∣ n + 1
    · cases hdw : c.dw with
      | some ps => exact C57_weights_legal c s0 inp n ps hdw h
      | none =>
        rw [(C58_learning_at_epoch_end c s0 inp n h).1]
        show Legal c.mode 8 (learnW c _ _ _)
        unfold learnW
        rw [hdw]
        exact ih
    · rw [(C58_no_learning_inside_epoch c s0 inp n h).1]
      exact ih

/-- The delay variable `tag_2` stays in `[0, 255]` and the tag `tag_1` in `[-257, 255]`: the lower
bound of the tag is one below the 9-bit range (`C57_tag_below_range`). -/
theorem C57_tags_in_range (c : Cfg) (s0 : St) (inp : Nat → Inp)
    (hd : 0 ≤ s0.d ∧ s0.d ≤ 255) (ht : -257 ≤ s0.t ∧ s0.t ≤ 255) (n : Nat) :
    (0 ≤ (run c s0 inp n).d ∧ (run c s0 inp n).d ≤ 255) ∧
    (-257 ≤ (run c s0 inp n).t ∧ (run c s0 inp n).t ≤ 255) := by
  induction n with
  | zero => exact ⟨hd, ht⟩
  | succ n ih =>
    by_cases h : c.tEpoch ∣ n + 1
    · rw [(C58_learning_at_epoch_end c s0 inp n h).1]
      constructor
      · show 0 ≤ learnD c _ _ _ ∧ learnD c _ _ _ ≤ 255
        unfold learnD
        cases c.dd with
        | none => exact ih.1
        | some ps => exact clipI_range (by norm_num)
      · show -257 ≤ learnT c _ _ _ ∧ learnT c _ _ _ ≤ 255
        unfold learnT
        cases c.dt with
        | none => exact ih.2
        | some ps => exact clipI_range (by norm_num)
    · have := C58_no_learning_inside_epoch c s0 inp n h
      rw [this.2.1, this.2.2]
      exact ih

/-! ### Silence -/

theorem fold_zero (env : IEnv) (d : Dep) (fs : List Factor) :
    fs.foldl (fun acc f => wrap32 (acc * factorVal env d f)) 0 = 0 := by
  induction fs with
  | nil => rfl
  | cons f fs ih =>
    rw [List.foldl_cons, Int.zero_mul]
    exact ih

theorem mac_zero {env : IEnv} {p : Product} (h : env.dep p.dep = 0) : mac env p = 0 := by
  unfold mac
  have : wrap32 (env.dep p.dep) = 0 := by rw [h]; rfl
  rw [this, fold_zero, Int.zero_mul]
  rfl

theorem applyRule_silent {env : IEnv} {acc : Int} (h1 : accLo ≤ acc) (h2 : acc ≤ accHi) :
    ∀ {ps : List Product}, (∀ p ∈ ps, env.dep p.dep = 0) → applyRule env acc ps = acc := by
  intro ps
  unfold applyRule
  induction ps with
  | nil => intro _; rfl
  | cons p ps ih =>
    intro h
    have hp : applyProduct env acc p = acc := by
      have hz : clipI accLo accHi 0 = 0 := by decide
      unfold applyProduct shifted
      rw [mac_zero (h p (by simp)), Int.zero_ediv, Int.zero_mul, hz, Int.add_zero, clipI_id h1 h2]
    rw [List.foldl_cons, hp]
    exact ih (fun q hq => h q (by simp [hq]))

theorem roundAcc_mul {rnd : ℚ} (hr : 0 ≤ rnd) (w : Int) : roundAcc rnd (w * 128) = w := by
  unfold roundAcc
  have h1 : ((w * 128 : Int) : ℚ) / 128 = w := by push_cast; ring
  rw [h1, Int.floor_intCast]
  unfold stochRound
  rw [if_neg (by simpa using hr)]
  omega

theorem legal_bounds {m : SignMode} {w : Int} (h : Legal m 8 w) : -256 ≤ w ∧ w ≤ 255 := by
  unfold Legal at h
  cases m <;> simp at h <;> omega

theorem satAccW_legal {m : SignMode} {w : Int} (h : Legal m 8 w) : satAccW m (w * 128) = w * 128 := by
  unfold Legal at h
  unfold satAccW
  cases m <;> simp at h ⊢ <;> omega

theorem learnW_silent {c : Cfg} {env : IEnv} {rnd : ℚ} {w : Int} (hr : 0 ≤ rnd)
    (hw : Legal c.mode 8 w) (h : ∀ ps, c.dw = some ps → ∀ p ∈ ps, env.dep p.dep = 0) :
    learnW c env rnd w = w := by
  unfold learnW
  cases hdw : c.dw with
  | none => rfl
  | some ps =>
    have hb := legal_bounds hw
    have e1 : accLo = -32769 := by decide
    have e2 : accHi = 32767 := by decide
    simp only
    rw [applyRule_silent (by rw [e1]; omega) (by rw [e2]; omega) (h ps hdw), satAccW_legal hw,
      roundAcc_mul hr, C37_clip_id _ _ _ hw]

theorem spk_w (c : Cfg) (time : Nat) (s : St) (i : Inp) : (recvTraces c time s i).w = s.w := rfl

/-- No spike and no active `u`: spike times stay 0 through the epoch, for both kinds of spike and
every graded mode. -/
theorem silent_times (c : Cfg) (s0 : St) (inp : Nat → Inp) (hx : s0.tx = 0) (hy : s0.ty = 0)
    (m i : Nat) (hi : i < c.tEpoch)
    (hpre : ∀ j, 1 ≤ j → j ≤ i → (inp (m * c.tEpoch + j)).pre = 0)
    (hpost : ∀ j, 1 ≤ j → j ≤ i → (inp (m * c.tEpoch + j)).post = false) :
    (run c s0 inp (m * c.tEpoch + i)).tx = 0 ∧ (run c s0 inp (m * c.tEpoch + i)).ty = 0 ∧
    (run c s0 inp (m * c.tEpoch + i)).w = (run c s0 inp (m * c.tEpoch)).w := by
  induction i with
  | zero =>
    simp only [Nat.add_zero]
    cases hm : m * c.tEpoch with
    | zero => exact ⟨hx, hy, by simp⟩
    | succ k =>
      have := C58_learning_at_epoch_end c s0 inp k ⟨m, by rw [← hm, Nat.mul_comm]⟩
      exact ⟨this.2.1, this.2.2, by simp⟩
  | succ i ih =>
    obtain ⟨h1, h2, h3⟩ := ih (by omega) (fun j a b => hpre j a (by omega))
      (fun j a b => hpost j a (by omega))
    have hg' : lrnGuard c.tEpoch (m * c.tEpoch + i + 1) = false := by
      unfold lrnGuard
      simp only [beq_eq_false_iff_ne, ne_eq]
      rw [Nat.add_assoc, Nat.mul_comm, Nat.mul_add_mod, Nat.mod_eq_of_lt hi]
      omega
    have hstep : run c s0 inp (m * c.tEpoch + (i + 1)) =
        recvTraces c (m * c.tEpoch + (i + 1)) (run c s0 inp (m * c.tEpoch + i))
          (inp (m * c.tEpoch + (i + 1))) := by
      show run c s0 inp ((m * c.tEpoch + i) + 1) = _
      conv_lhs => unfold run step
      rw [hg']
      rfl
    have p1 := hpre (i + 1) (by omega) (Nat.le_refl _)
    have p2 := hpost (i + 1) (by omega) (Nat.le_refl _)
    rw [hstep]
    refine ⟨?_, ?_, h3⟩
    · show (if counted c _ _ then _ else _) = 0
      rw [p1]
      have : counted c (run c s0 inp (m * c.tEpoch + i)) 0 = false := by
        unfold counted; split <;> simp
      rw [this]
      exact h1
    · show (if (inp (m * c.tEpoch + (i + 1))).post = true then _ else _) = 0
      rw [p2]
      exact h2

/-- **C57.** If no pre- and no post-synaptic spike arrives during an epoch and no product with an
active `u_k` dependency is in the weight rule, the weight after the epoch is the weight before it:
decay of traces and random rounding alone never move a weight. -/
theorem C57_silent_without_spikes (c : Cfg) (s0 : St) (inp : Nat → Inp) (hE : 0 < c.tEpoch)
    (hx : s0.tx = 0) (hy : s0.ty = 0) (hl : Legal c.mode 8 s0.w) (hi : ∀ n, (inp n).ok) (m : Nat)
    (hpre : ∀ j, 1 ≤ j → j ≤ c.tEpoch → (inp (m * c.tEpoch + j)).pre = 0)
    (hpost : ∀ j, 1 ≤ j → j ≤ c.tEpoch → (inp (m * c.tEpoch + j)).post = false)
    (hu : ∀ ps, c.dw = some ps → ∀ p ∈ ps, p.dep = .u → uVal c ((m + 1) * c.tEpoch) = 0) :
    (run c s0 inp ((m + 1) * c.tEpoch)).w = (run c s0 inp (m * c.tEpoch)).w := by
  obtain ⟨h1, h2, h3⟩ := silent_times c s0 inp hx hy m (c.tEpoch - 1) (by omega)
    (fun j a b => hpre j a (by omega)) (fun j a b => hpost j a (by omega))
  have hn : (m + 1) * c.tEpoch = (m * c.tEpoch + (c.tEpoch - 1)) + 1 := by
    rw [Nat.add_mul]; omega
  have hn2 : m * c.tEpoch + (c.tEpoch - 1) + 1 = m * c.tEpoch + c.tEpoch := by omega
  have hdvd : c.tEpoch ∣ (m * c.tEpoch + (c.tEpoch - 1)) + 1 := ⟨m + 1, by rw [← hn, Nat.mul_comm]⟩
  have hlw := C57_weights_always_legal c s0 inp hl (m * c.tEpoch + (c.tEpoch - 1))
  rw [hn, (C58_learning_at_epoch_end c s0 inp _ hdvd).1, ← h3]
  refine learnW_silent (hi _).c hlw (fun ps hps p hp => ?_)
  have p1 := hpre c.tEpoch (by omega) (Nat.le_refl _)
  have p2 := hpost c.tEpoch (by omega) (Nat.le_refl _)
  rw [← hn2] at p1 p2
  have q1 : (recvTraces c (m * c.tEpoch + (c.tEpoch - 1) + 1)
      (run c s0 inp (m * c.tEpoch + (c.tEpoch - 1)))
      (inp (m * c.tEpoch + (c.tEpoch - 1) + 1))).tx = 0 := by
    show (if counted c _ _ then _ else _) = 0
    rw [p1]
    have : counted c (run c s0 inp (m * c.tEpoch + (c.tEpoch - 1))) 0 = false := by
      unfold counted; split <;> simp
    rw [this]
    exact h1
  have q2 : (recvTraces c (m * c.tEpoch + (c.tEpoch - 1) + 1)
      (run c s0 inp (m * c.tEpoch + (c.tEpoch - 1)))
      (inp (m * c.tEpoch + (c.tEpoch - 1) + 1))).ty = 0 := by
    show (if (inp (m * c.tEpoch + (c.tEpoch - 1) + 1)).post = true then _ else _) = 0
    rw [p2]
    exact h2
  show depVal c _ _ p.dep = 0
  cases hd : p.dep with
  | x0 => unfold depVal; rw [q1]; rfl
  | y0 => unfold depVal; rw [q2]; rfl
  | u =>
    unfold depVal
    rw [← hn]
    exact hu ps hps p hp hd

/-- The hypotheses are met: a silent epoch (epoch 1) after a spiking one (epoch 0) that changed the
weight. -/
example :
    let inp : Nat → Inp := fun n => if n ≤ 2 then exInp n else ⟨0, false, 0, 1 / 2, 0, 1 / 2, 0, 0⟩
    (run (exCfg .overwrite) exSt inp (1 * 2)).w = -23 ∧
    (run (exCfg .overwrite) exSt inp (2 * 2)).w = -23 ∧
    (run (exCfg .overwrite) exSt inp 4).x1 = 8 := by decide +kernel

/-! ### The arithmetic of the rule -/

/-- The exact product of the factors and the mantissa. -/
def exactMac (env : IEnv) (p : Product) : Int :=
  env.dep p.dep * (p.factors.map (factorVal env p.dep)).prod * p.m

theorem truncQ_range {q : ℚ} {a b : Int} (ha : (a : ℚ) ≤ q) (hb : q ≤ b) :
    a ≤ truncQ q ∧ truncQ q ≤ b := by
  unfold truncQ
  split
  · exact ⟨Int.le_ceil_iff.mpr (by linarith), Int.ceil_le.mpr hb⟩
  · exact ⟨Int.le_floor.mpr ha, Int.floor_le_iff.mpr (by linarith)⟩

theorem factorVal_abs (env : IEnv) (d : Dep) (f : Factor) :
    (factorVal env d f).natAbs ≤ 2 ^ factorWidth f.var := by
  have hp : (1 : ℚ) ≤ 2 ^ factorWidth f.var := one_le_pow₀ (by norm_num)
  have h : -(2 ^ factorWidth f.var : Int) ≤ factorVal env d f ∧
      factorVal env d f ≤ (2 ^ factorWidth f.var : Int) := by
    unfold factorVal
    refine truncQ_range ?_ ?_
    · push_cast
      exact le_min (le_max_right _ _) (by linarith)
    · push_cast
      exact le_trans (min_le_right _ _) (by linarith)
  have e : ((2 ^ factorWidth f.var : Nat) : Int) = 2 ^ factorWidth f.var := by push_cast; rfl
  omega

theorem wrap32_id {x : Int} (h1 : -(2 ^ 31) ≤ x) (h2 : x < 2 ^ 31) : wrap32 x = x := by
  unfold wrap32; omega

theorem wrap32_abs (x : Int) : (wrap32 x).natAbs ≤ 2 ^ 31 := by
  unfold wrap32; omega

theorem wrap32_of_natAbs {x : Int} {k : Nat} (h : x.natAbs ≤ 2 ^ k) (hk : k ≤ 30) :
    wrap32 x = x := by
  have : 2 ^ k ≤ 2 ^ 30 := Nat.pow_le_pow_right (by norm_num) hk
  exact wrap32_id (by omega) (by omega)

theorem fold_exact (env : IEnv) (d : Dep) : ∀ (fs : List Factor) (acc : Int) (k : Nat),
    acc.natAbs ≤ 2 ^ k → k + (fs.map fun f => factorWidth f.var).sum ≤ 30 →
    fs.foldl (fun acc f => wrap32 (acc * factorVal env d f)) acc
      = acc * (fs.map (factorVal env d)).prod ∧
    (acc * (fs.map (factorVal env d)).prod).natAbs
      ≤ 2 ^ (k + (fs.map fun f => factorWidth f.var).sum) := by
  intro fs
  induction fs with
  | nil => intro acc k h _; simpa using h
  | cons f fs ih =>
    intro acc k h hk
    simp only [List.map_cons, List.sum_cons] at hk ⊢
    have hf := factorVal_abs env d f
    have h1 : (acc * factorVal env d f).natAbs ≤ 2 ^ (k + factorWidth f.var) := by
      rw [Int.natAbs_mul, pow_add]
      exact Nat.mul_le_mul h hf
    rw [List.foldl_cons, wrap32_of_natAbs h1 (by omega)]
    obtain ⟨e1, e2⟩ := ih (acc * factorVal env d f) (k + factorWidth f.var) h1 (by omega)
    rw [e1, List.prod_cons, ← mul_assoc]
    exact ⟨rfl, by rw [← Nat.add_assoc]; exact e2⟩

/-- The multiplications of a product do not overflow 32 bits while the widths of its factors and of
the mantissa add up to at most 31. -/
theorem C57_mac_exact (env : IEnv) (p : Product) (hd : (env.dep p.dep).natAbs ≤ 1)
    (hm : p.m.natAbs ≤ 8) (hw : widthSum p ≤ 31) :
    mac env p = exactMac env p ∧ (mac env p).natAbs ≤ 2 ^ (widthSum p - 1) := by
  unfold widthSum at hw ⊢
  obtain ⟨e1, e2⟩ := fold_exact env p.dep p.factors (env.dep p.dep) 0 (by simpa using hd)
    (by omega)
  have h0 : wrap32 (env.dep p.dep) = env.dep p.dep := wrap32_id (by omega) (by omega)
  have h1 : (env.dep p.dep * (p.factors.map (factorVal env p.dep)).prod * p.m).natAbs
      ≤ 2 ^ ((p.factors.map fun f => factorWidth f.var).sum + 3) := by
    rw [Int.natAbs_mul, pow_add]
    rw [Nat.zero_add] at e2
    exact Nat.mul_le_mul e2 hm
  unfold mac exactMac
  rw [h0, e1, wrap32_of_natAbs h1 (by omega)]
  exact ⟨rfl, h1⟩

theorem natAbs_ediv_pow {x : Int} {a b : Nat} (h : x.natAbs ≤ 2 ^ (a + b)) :
    (x / 2 ^ b).natAbs ≤ 2 ^ a := by
  have hb : (0 : Int) < 2 ^ b := by positivity
  have e : ((2 ^ (a + b) : Nat) : Int) = 2 ^ a * 2 ^ b := by push_cast; rw [pow_add]
  have h1 : -(2 ^ a * 2 ^ b) ≤ x := by rw [← e]; omega
  have h2 : x ≤ 2 ^ a * 2 ^ b := by rw [← e]; omega
  have l : -(2 ^ a) ≤ x / 2 ^ b := by
    rw [Int.le_ediv_iff_mul_le hb]
    linarith
  have u : x / 2 ^ b ≤ 2 ^ a := by
    rw [← Int.lt_add_one_iff]
    rw [Int.ediv_lt_iff_lt_mul hb]
    nlinarith
  have e2 : ((2 ^ a : Nat) : Int) = 2 ^ a := by push_cast; rfl
  omega

/-- Whatever the rule, the shifts after the multiplications never overflow 32 bits: the shifted value
is at most `2^29` in magnitude. -/
theorem C57_shift_fits (env : IEnv) (p : Product) (hd : (env.dep p.dep).natAbs ≤ 1)
    (hm : p.m.natAbs ≤ 8) (he : p.sexp ≤ 15) : (shifted env p).natAbs ≤ 2 ^ 29 := by
  have key : (mac env p / 2 ^ (widthSum p - 15)).natAbs ≤ 2 ^ 14 := by
    rcases Nat.lt_or_ge (widthSum p) 32 with h | h
    · have h1 := (C57_mac_exact env p hd hm (by omega)).2
      rcases Nat.lt_or_ge (widthSum p) 15 with h2 | h2
      · have : widthSum p - 15 = 0 := by omega
        rw [this]
        have hle : 2 ^ (widthSum p - 1) ≤ 2 ^ 14 := Nat.pow_le_pow_right (by norm_num) (by omega)
        simp only [pow_zero, Int.ediv_one]
        omega
      · refine natAbs_ediv_pow ?_
        have : 14 + (widthSum p - 15) = widthSum p - 1 := by omega
        rw [this]
        exact h1
    · refine natAbs_ediv_pow ?_
      have h1 : (mac env p).natAbs ≤ 2 ^ 31 := by unfold mac; exact wrap32_abs _
      have : 2 ^ 31 ≤ 2 ^ (14 + (widthSum p - 15)) := Nat.pow_le_pow_right (by norm_num) (by omega)
      omega
  unfold shifted
  rw [Int.natAbs_mul]
  have h2 : ((2 : Int) ^ p.sexp.toNat).natAbs ≤ 2 ^ 15 := by
    rw [Int.natAbs_pow]
    exact Nat.pow_le_pow_right (by norm_num) (by omega)
  calc _ ≤ 2 ^ 14 * 2 ^ 15 := Nat.mul_le_mul key h2
    _ = 2 ^ 29 := by norm_num

/-- The rational reading of what the applier sees. -/
def IEnv.toEnv (env : IEnv) : Env :=
  ⟨env.dep .x0, env.dep .y0, fun _ => env.dep .u, fun d v => env.val d v⟩

/-- Nothing is cut in this product: every factor is an integer within its width, the widths need no
shift, and the value is within the accumulator. -/
structure Uncut (env : IEnv) (p : Product) : Prop where
  dep : (env.dep p.dep).natAbs ≤ 1
  mant : p.m.natAbs ≤ 8
  factors : ∀ f ∈ p.factors, (factorVal env p.dep f : ℚ) = f.eval env.toEnv p.dep
  width : widthSum p ≤ 15
  exp : 0 ≤ p.sexp
  fits : accLo ≤ shifted env p ∧ shifted env p ≤ accHi

theorem prod_cast (env : IEnv) (d : Dep) (fs : List Factor)
    (h : ∀ f ∈ fs, (factorVal env d f : ℚ) = f.eval env.toEnv d) :
    (((fs.map (factorVal env d)).prod : Int) : ℚ) = (fs.map (Factor.eval env.toEnv d)).prod := by
  induction fs with
  | nil => simp
  | cons f fs ih =>
    simp only [List.map_cons, List.prod_cons]
    push_cast
    rw [h f (by simp), ih (fun g hg => h g (by simp [hg]))]

theorem shifted_uncut {env : IEnv} {p : Product} (h : Uncut env p) :
    (shifted env p : ℚ) = 128 * p.eval env.toEnv := by
  have hm := (C57_mac_exact env p h.dep h.mant (by have := h.width; omega)).1
  have hz : widthSum p - 15 = 0 := by have := h.width; omega
  unfold shifted
  rw [hz, hm]
  unfold exactMac Product.eval
  simp only [pow_zero, Int.ediv_one]
  push_cast
  rw [prod_cast env p.dep p.factors h.factors]
  have hd : (env.dep p.dep : ℚ) = env.toEnv.dep p.dec p.dep := by
    cases p.dep <;> rfl
  rw [hd]
  have he : (2 : ℚ) ^ p.sexp.toNat = 128 * (2 : ℚ) ^ (p.sexp - 7) := by
    obtain ⟨n, hn⟩ := Int.eq_ofNat_of_zero_le h.exp
    rw [hn]
    rw [zpow_sub₀ (by norm_num : (2 : ℚ) ≠ 0)]
    simp
    ring
  rw [he]
  ring

/-- All partial sums are within the accumulator. -/
def SumsFit (env : IEnv) : Int → List Product → Prop
  | _, [] => True
  | acc, p :: ps => (accLo ≤ acc + shifted env p ∧ acc + shifted env p ≤ accHi) ∧
      SumsFit env (acc + shifted env p) ps

theorem applyRule_exact {env : IEnv} : ∀ {ps : List Product} {acc : Int},
    (∀ p ∈ ps, Uncut env p) → SumsFit env acc ps →
    (applyRule env acc ps : ℚ) = acc + 128 * evalSeries env.toEnv ps := by
  intro ps
  induction ps with
  | nil => intro acc _ _; simp [applyRule, evalSeries]
  | cons p ps ih =>
    intro acc hu hs
    obtain ⟨⟨h1, h2⟩, h3⟩ := hs
    have hp := hu p (by simp)
    have e : applyProduct env acc p = acc + shifted env p := by
      unfold applyProduct
      rw [clipI_id hp.fits.1 hp.fits.2, clipI_id h1 h2]
    have := ih (acc := acc + shifted env p) (fun q hq => hu q (by simp [hq])) h3
    unfold applyRule at this ⊢
    rw [List.foldl_cons, e, this]
    push_cast
    rw [shifted_uncut hp]
    simp only [evalSeries, List.map_cons, List.sum_cons]
    ring

/-- **C57/C55.** When nothing is cut on the way, the bit-approximate update is the update of the
floating-point rule, rounded down or up: the new weight is one of the two integers next to
`w + dw`. -/
theorem C57_update_is_rounded_rule (c : Cfg) (env : IEnv) (rnd : ℚ) (w : Int) (ps : List Product)
    (hmode : c.mode = .mixed) (hdw : c.dw = some ps) (hu : ∀ p ∈ ps, Uncut env p)
    (hs : SumsFit env (w * 128) ps) (hr : 0 ≤ rnd)
    (hfit : -256 ≤ (w : ℚ) + evalSeries env.toEnv ps ∧ (w : ℚ) + evalSeries env.toEnv ps ≤ 255) :
    learnW c env rnd w = ⌊(w : ℚ) + evalSeries env.toEnv ps⌋ ∨
    (learnW c env rnd w = ⌊(w : ℚ) + evalSeries env.toEnv ps⌋ + 1 ∧
      (⌊(w : ℚ) + evalSeries env.toEnv ps⌋ : ℚ) < (w : ℚ) + evalSeries env.toEnv ps) := by
  have hq : ((applyRule env (w * 128) ps : Int) : ℚ) / 128
      = (w : ℚ) + evalSeries env.toEnv ps := by
    rw [applyRule_exact hu hs]
    push_cast
    ring
  unfold learnW
  rw [hdw]
  simp only
  rw [hmode]
  have hsat : satAccW .mixed (applyRule env (w * 128) ps) = applyRule env (w * 128) ps := rfl
  rw [hsat]
  unfold roundAcc
  rw [hq]
  generalize (w : ℚ) + evalSeries env.toEnv ps = q at *
  have hlo : -256 ≤ ⌊q⌋ := Int.le_floor.mpr (by push_cast; exact hfit.1)
  have hclip : ∀ z : Int, -256 ≤ z → z ≤ 255 → clipWeight z .mixed 8 false = z := by
    intro z h1 h2
    refine C37_clip_id z .mixed 8 ?_
    simp [Legal]
    omega
  have hup : stochRound ⌊q⌋ rnd (q - ⌊q⌋) ≤ 255 :=
    stochRound_floor_le hr (by push_cast; exact hfit.2)
  have hge : ⌊q⌋ ≤ stochRound ⌊q⌋ rnd (q - ⌊q⌋) := stochRound_ge
  have hmul : ∀ z : Int, z * 128 / 128 = z := by intro z; omega
  rw [hmul, hclip _ (by omega) hup]
  unfold stochRound
  split
  · rename_i h
    right
    exact ⟨rfl, by linarith⟩
  · exact Or.inl rfl

/-- The hypotheses are met by `dw = x0*y1` with a spike and `y1 = 30`. -/
example :
    let env : IEnv := ⟨fun _ => 1, fun _ _ => 30⟩
    let p : Product := ⟨.x0, 1, 7, [⟨.v .y1, none, false⟩], none⟩
    Uncut env p ∧ SumsFit env (10 * 128) [p] ∧ evalSeries env.toEnv [p] = 30 := by
  refine ⟨⟨by decide, by decide, ?_, by decide, by decide, by decide +kernel⟩,
    ⟨by decide +kernel, trivial⟩, ?_⟩
  · intro f hf
    simp only [List.mem_singleton] at hf
    subst hf
    have : factorVal ⟨fun _ => 1, fun _ _ => 30⟩ .x0 ⟨.v .y1, none, false⟩ = 30 := by
      decide +kernel
    rw [this]
    norm_num [Factor.eval, IEnv.toEnv, Env.fvar]
  · norm_num [evalSeries, Product.eval, IEnv.toEnv, Env.dep, Factor.eval, Env.fvar]

/-- **Finding.** Four weight factors exceed 32 bits: `x0*w*w*w*w` with weight 200 and mantissa 2 wraps
around and lowers the weight accumulator although the rule is positive. -/
theorem C57_mac_overflow :
    let f : Factor := ⟨.v .w, none, false⟩
    let p : Product := ⟨.x0, 2, 7, [f, f, f, f], none⟩
    let env : IEnv := ⟨fun _ => 1, fun _ _ => 200⟩
    mac env p < 0 ∧ 0 < exactMac env p ∧ applyRule env (200 * 128) [p] < 200 * 128 := by
  decide +kernel

/-- **Finding.** The lower clip bound of the tag is one below the 9-bit two's complement range. -/
theorem C57_tag_below_range :
    learnT { exCfg .regular with dt := some [⟨.x0, -1, 15, [⟨.v .y1, none, false⟩], none⟩] }
      ⟨fun _ => 1, fun _ _ => 127⟩ (999 / 1000) (-256) = -257 := by decide +kernel

end Verif.Learning
