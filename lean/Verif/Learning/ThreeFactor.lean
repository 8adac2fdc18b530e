import Verif.Learning.PlastProps
import Verif.Learning.EqCompile
import Mathlib.Tactic.NormNum

/-!
# C106: three-factor learning in fixed point

A connection with a `Loihi3FLearningRule` receives the post-synaptic traces from the neuron (`recv_traces`, `model/py/connection.py:384-414`) and
does not update them itself (`_update_traces`, `model/py/connection.py:451-466`). Everything else is as in `Plasticity.lean`.
-/

namespace Verif.Learning

open Verif.Weights (SignMode clipWeight Legal C37_clip_legal C37_clip_id)

/-! ## Model -/

/-- The values that arrive at the ports `s_in_y1`, `s_in_y2`, `s_in_y3` in one step. -/
structure Rcv where
  y1 : Int
  y2 : Int
  y3 : Int
  deriving DecidableEq

/-- `recv_traces` for a three-factor rule (model/py/connection.py:394-412): the post-synaptic spike is processed first, then the received values
replace the post-synaptic traces. -/
def recvTraces3 (c : Cfg) (time : Nat) (s : St) (i : Inp) (r : Rcv) : St :=
  { recvTraces c time s i with y1 := r.y1, y2 := r.y2, y3 := r.y3 }

/-- `run_lrn` for a three-factor rule (model/py/connection.py:431-437, 462-466): the post-synaptic traces stay as received. -/
def runLrn3 (c : Cfg) (time : Nat) (s : St) (i : Inp) : St :=
  { runLrn c time s i with y1 := s.y1, y2 := s.y2, y3 := s.y3 }

/-- One time step (model/py/connection.py:384-437). -/
def step3 (c : Cfg) (time : Nat) (s : St) (i : Inp) (r : Rcv) : St :=
  if lrnGuard c.tEpoch time then runLrn3 c time (recvTraces3 c time s i r) i else recvTraces3 c time s i r

/-- The first `n` steps. -/
def run3 (c : Cfg) (s : St) (inp : Nat → Inp) (rcv : Nat → Rcv) : Nat → St
  | 0 => s
  | n + 1 => step3 c (n + 1) (run3 c s inp rcv n) (inp (n + 1)) (rcv (n + 1))

/-- The parameters of the post-synaptic traces (learning_rule.py:745-750): no impulse, decay `d`, which is `exp(-1/65535)`. -/
structure ThreeF (c : Cfg) (d : ℚ) : Prop where
  y1 : c.cy1 = ⟨0, 0, d⟩
  y2 : c.cy2 = ⟨0, 0, d⟩
  y3 : c.cy3 = ⟨0, 0, d⟩

/-- The received value of a trace. -/
def Rcv.of (r : Rcv) : V → Int
  | .y1 => r.y1
  | .y2 => r.y2
  | .y3 => r.y3
  | _ => 0

/-! ## Lemmas -/

theorem step3_syn (c : Cfg) (time : Nat) (s : St) (i : Inp) (r : Rcv) (h : lrnGuard c.tEpoch time = false) :
    (step3 c time s i r).w = s.w ∧ (step3 c time s i r).d = s.d ∧ (step3 c time s i r).t = s.t := by
  unfold step3
  rw [h]
  exact ⟨rfl, rfl, rfl⟩

theorem step3_lrn (c : Cfg) (time : Nat) (s : St) (i : Inp) (r : Rcv) (h : lrnGuard c.tEpoch time = true) :
    step3 c time s i r = runLrn3 c time (recvTraces3 c time s i r) i := by
  unfold step3
  rw [if_pos h]

/-- Decay of a value between 0 and 127 by a factor near 1: it stays, or drops by one. -/
theorem decay_near_one {d rnd : ℚ} {y : Int} (h1 : d ≤ 1) (hr : 0 ≤ rnd) (hy : 0 ≤ y) (hs : (1 - d) * y ≤ 1) (b f : Int) :
    (rnd < 1 - (1 - d) * y → decayTrace ⟨b, f, d⟩ rnd y = y) ∧ y - 1 ≤ decayTrace ⟨b, f, d⟩ rnd y ∧ decayTrace ⟨b, f, d⟩ rnd y ≤ y := by
  have hy' : (0 : ℚ) ≤ y := by exact_mod_cast hy
  have e : d * y = y - (1 - d) * y := by ring
  have hp : 0 ≤ (1 - d) * y := mul_nonneg (by linarith) hy'
  rcases eq_or_lt_of_le hp with h0 | h0
  · have hq : d * (y : ℚ) = (y : ℚ) := by rw [e, ← h0]; ring
    have : decayTrace ⟨b, f, d⟩ rnd y = y := by
      unfold decayTrace stochRound
      dsimp only
      rw [hq, Int.floor_intCast, if_neg (by simpa using hr)]
    rw [this]; exact ⟨fun _ => rfl, by omega, le_refl _⟩
  · have hf : ⌊d * (y : ℚ)⌋ = y - 1 := by
      rw [Int.floor_eq_iff]; push_cast; constructor <;> linarith
    unfold decayTrace stochRound
    dsimp only
    rw [hf]
    have hfr : d * (y : ℚ) - ((y - 1 : Int) : ℚ) = 1 - (1 - d) * y := by push_cast; linarith
    rw [hfr]
    refine ⟨fun h => by rw [if_pos h]; omega, ?_, ?_⟩ <;> split <;> omega

theorem addImpulse_zero {d : ℚ} {rnd y : Int} (hr : 0 ≤ rnd) : addImpulse ⟨0, 0, d⟩ rnd y = clipI 0 127 y := by
  unfold addImpulse stochRound
  have : ¬ ((rnd : ℚ) < ((0 : Int) : ℚ)) := by push_cast; exact not_lt.2 (by exact_mod_cast hr)
  rw [if_neg this, Int.add_zero]
  rfl

/-- A received trace over the epoch, unless the random number is close to 1. -/
theorem hist_received {d rD : ℚ} {rI : Int} {y : Int} (h1 : d ≤ 1) (hr : 0 ≤ rD) (hi : 0 ≤ rI) (hy : 0 ≤ y) (hy7 : y ≤ 127)
    (hs : rD < 1 - (1 - d) * y) (ts t : Nat) : hist ⟨0, 0, d⟩ rD rI ts y t = y := by
  induction t with
  | zero => rfl
  | succ t ih =>
    unfold hist histStep
    rw [ih, (decay_near_one h1 hr hy (by linarith) 0 0).1 hs]
    split
    · rw [addImpulse_zero hi]; exact clipI_id hy hy7
    · rfl

/-- The same without assumption on the random number: it drops by at most one per step. -/
theorem hist_received_bounds {d rD : ℚ} {rI : Int} {y : Int} (h1 : d ≤ 1) (hr : 0 ≤ rD) (hi : 0 ≤ rI) (hy : 0 ≤ y) (hy7 : y ≤ 127)
    (hs : (1 - d) * 127 ≤ 1) (h0 : 0 ≤ d) (ts t : Nat) :
    0 ≤ hist ⟨0, 0, d⟩ rD rI ts y t ∧ hist ⟨0, 0, d⟩ rD rI ts y t ≤ y ∧ y - t ≤ hist ⟨0, 0, d⟩ rD rI ts y t := by
  induction t with
  | zero => exact ⟨hy, le_refl _, by simp [hist]⟩
  | succ t ih =>
    obtain ⟨i1, i2, i3⟩ := ih
    unfold hist histStep
    have hz : (0 : ℚ) ≤ (hist ⟨0, 0, d⟩ rD rI ts y t : ℚ) := by exact_mod_cast i1
    have hz7 : (hist ⟨0, 0, d⟩ rD rI ts y t : ℚ) ≤ 127 := by exact_mod_cast (le_trans i2 hy7)
    have hb := decay_near_one (rnd := rD) h1 hr i1 (by nlinarith) 0 0
    have hnn := (C56_decay_monotone ⟨0, 0, d⟩ rD (hist ⟨0, 0, d⟩ rD rI ts y t) h0 h1 hr i1).2
    obtain ⟨_, b1, b2⟩ := hb
    split
    · rw [addImpulse_zero hi, clipI_id hnn (by omega)]
      push_cast; omega
    · push_cast; omega

/-- A negative received value: never positive, and 0 from the recorded spike on. -/
theorem hist_negative {d rD : ℚ} {rI : Int} {y : Int} (h0 : 0 ≤ d) (hr : 0 ≤ rD) (hi : 0 ≤ rI) (hy : y ≤ 0) (ts t : Nat) :
    hist ⟨0, 0, d⟩ rD rI ts y t ≤ 0 ∧ (1 ≤ ts → ts ≤ t → hist ⟨0, 0, d⟩ rD rI ts y t = 0) := by
  induction t with
  | zero => exact ⟨hy, fun h1 h2 => by omega⟩
  | succ t ih =>
    obtain ⟨i1, i2⟩ := ih
    have hle : ∀ z : Int, z ≤ 0 → decayTrace ⟨0, 0, d⟩ rD z ≤ 0 := by
      intro z hz
      refine stochRound_floor_le hr ?_
      have : (z : ℚ) ≤ 0 := by exact_mod_cast hz
      push_cast
      exact mul_nonpos_of_nonneg_of_nonpos h0 this
    have hd := hle _ i1
    unfold hist histStep
    by_cases hts : ts = t + 1
    · rw [if_pos (by simpa using hts), addImpulse_zero hi]
      have : clipI 0 127 (decayTrace ⟨0, 0, d⟩ rD (hist ⟨0, 0, d⟩ rD rI ts y t)) = 0 := by unfold clipI; omega
      rw [this]; exact ⟨le_refl _, fun _ _ => rfl⟩
    · rw [if_neg (by simpa using hts)]
      refine ⟨hd, fun h1 h2 => ?_⟩
      rw [i2 h1 (by omega)]
      unfold decayTrace stochRound
      dsimp only
      have : ⌊d * ((0 : Int) : ℚ)⌋ = 0 := by simp
      rw [this, if_neg (by simpa using hr)]

/-! ## C106 -/

/-- **C106 (ranges).** Whatever the neuron sends, whatever the rule, the spikes and the random numbers: weights stay legal for their sign mode,
`tag_2` in [0, 255] and `tag_1` in [-257, 255]. -/
theorem C106_synapses_in_range (c : Cfg) (s0 : St) (inp : Nat → Inp) (rcv : Nat → Rcv) (hw : Legal c.mode 8 s0.w)
    (hd : 0 ≤ s0.d ∧ s0.d ≤ 255) (ht : -257 ≤ s0.t ∧ s0.t ≤ 255) (n : Nat) :
    Legal c.mode 8 (run3 c s0 inp rcv n).w ∧ (0 ≤ (run3 c s0 inp rcv n).d ∧ (run3 c s0 inp rcv n).d ≤ 255) ∧
    (-257 ≤ (run3 c s0 inp rcv n).t ∧ (run3 c s0 inp rcv n).t ≤ 255) := by
  induction n with
  | zero => exact ⟨hw, hd, ht⟩
  | succ n ih =>
    obtain ⟨i1, i2, i3⟩ := ih
    cases hg : lrnGuard c.tEpoch (n + 1) with
    | false =>
      obtain ⟨e1, e2, e3⟩ := step3_syn c (n + 1) (run3 c s0 inp rcv n) (inp (n + 1)) (rcv (n + 1)) hg
      show Legal c.mode 8 (step3 c (n + 1) _ _ _).w ∧ (0 ≤ (step3 c (n + 1) _ _ _).d ∧ (step3 c (n + 1) _ _ _).d ≤ 255) ∧
        (-257 ≤ (step3 c (n + 1) _ _ _).t ∧ (step3 c (n + 1) _ _ _).t ≤ 255)
      rw [e1, e2, e3]
      exact ⟨i1, i2, i3⟩
    | true =>
      have e := step3_lrn c (n + 1) (run3 c s0 inp rcv n) (inp (n + 1)) (rcv (n + 1)) hg
      show Legal c.mode 8 (step3 c (n + 1) _ _ _).w ∧ (0 ≤ (step3 c (n + 1) _ _ _).d ∧ (step3 c (n + 1) _ _ _).d ≤ 255) ∧
        (-257 ≤ (step3 c (n + 1) _ _ _).t ∧ (step3 c (n + 1) _ _ _).t ≤ 255)
      rw [e]
      refine ⟨?_, ?_, ?_⟩
      · show Legal c.mode 8 (learnW c _ _ _)
        unfold learnW
        cases c.dw with
        | none => exact i1
        | some ps => exact C37_clip_legal _ _ _ _
      · show 0 ≤ learnD c _ _ _ ∧ learnD c _ _ _ ≤ 255
        unfold learnD
        cases c.dd with
        | none => exact i2
        | some ps => exact clipI_range (by norm_num)
      · show -257 ≤ learnT c _ _ _ ∧ learnT c _ _ _ ≤ 255
        unfold learnT
        cases c.dt with
        | none => exact i3
        | some ps => exact clipI_range (by norm_num)

/-- **C106 (what the rule reads).** In the learning phase a product reads, for each post-synaptic trace and whatever it depends on, the value
received in the last step of the epoch – if that is a 7-bit value and the random number is not within `(1 - d) * y` (about 0.002) of 1. -/
theorem C106_reads_received (c : Cfg) (d : ℚ) (h3 : ThreeF c d) (h1 : d ≤ 1) (time : Nat) (s : St) (i : Inp) (r : Rcv) (hi : i.ok)
    (v : V) (hv : v = .y1 ∨ v = .y2 ∨ v = .y3) (h7 : In7 (r.of v)) (hr : i.yDecay < 1 - (1 - d) * r.of v) (dep : Dep) :
    (applierArgs c time (recvTraces3 c time s i r) i).val dep v = r.of v := by
  obtain ⟨a, b⟩ := h7
  rcases hv with rfl | rfl | rfl
  · show hist c.cy1 i.yDecay i.yImp _ r.y1 _ = r.y1
    rw [h3.y1]; exact hist_received h1 hi.b hi.f.1 a b hr _ _
  · show hist c.cy2 i.yDecay i.yImp _ r.y2 _ = r.y2
    rw [h3.y2]; exact hist_received h1 hi.b hi.f.1 a b hr _ _
  · show hist c.cy3 i.yDecay i.yImp _ r.y3 _ = r.y3
    rw [h3.y3]; exact hist_received h1 hi.b hi.f.1 a b hr _ _

/-- **C106 (what the rule reads, every random number).** The value read is at most `t_epoch` below the value received. -/
theorem C106_reads_near (c : Cfg) (d : ℚ) (h3 : ThreeF c d) (h1 : d ≤ 1) (h0 : 0 ≤ d) (hd : (1 - d) * 127 ≤ 1) (time : Nat) (s : St) (i : Inp)
    (r : Rcv) (hi : i.ok) (v : V) (hv : v = .y1 ∨ v = .y2 ∨ v = .y3) (h7 : In7 (r.of v)) (dep : Dep) :
    (applierArgs c time (recvTraces3 c time s i r) i).val dep v ≤ r.of v ∧
    r.of v - readTime c (recvTraces3 c time s i r) dep ≤ (applierArgs c time (recvTraces3 c time s i r) i).val dep v := by
  obtain ⟨a, b⟩ := h7
  rcases hv with rfl | rfl | rfl
  · show hist c.cy1 i.yDecay i.yImp _ r.y1 _ ≤ r.y1 ∧ r.y1 - _ ≤ hist c.cy1 i.yDecay i.yImp _ r.y1 _
    rw [h3.y1]; exact (hist_received_bounds h1 hi.b hi.f.1 a b hd h0 _ _).2
  · show hist c.cy2 i.yDecay i.yImp _ r.y2 _ ≤ r.y2 ∧ r.y2 - _ ≤ hist c.cy2 i.yDecay i.yImp _ r.y2 _
    rw [h3.y2]; exact (hist_received_bounds h1 hi.b hi.f.1 a b hd h0 _ _).2
  · show hist c.cy3 i.yDecay i.yImp _ r.y3 _ ≤ r.y3 ∧ r.y3 - _ ≤ hist c.cy3 i.yDecay i.yImp _ r.y3 _
    rw [h3.y3]; exact (hist_received_bounds h1 hi.b hi.f.1 a b hd h0 _ _).2

/-- **C106, finding.** A negative third factor is read as 0 at the end of every epoch in which the post-synaptic neuron has spiked. -/
theorem C106_negative_read_as_zero (c : Cfg) (d : ℚ) (h3 : ThreeF c d) (h0 : 0 ≤ d) (time : Nat) (s : St) (i : Inp) (r : Rcv) (hi : i.ok)
    (v : V) (hv : v = .y1 ∨ v = .y2 ∨ v = .y3) (hneg : r.of v ≤ 0)
    (hspk : 1 ≤ (recvTraces3 c time s i r).ty ∧ (recvTraces3 c time s i r).ty ≤ c.tEpoch) :
    (applierArgs c time (recvTraces3 c time s i r) i).val .u v = 0 := by
  rcases hv with rfl | rfl | rfl
  · show hist c.cy1 i.yDecay i.yImp _ r.y1 c.tEpoch = 0
    rw [h3.y1]; exact (hist_negative h0 hi.b hi.f.1 hneg _ _).2 hspk.1 hspk.2
  · show hist c.cy2 i.yDecay i.yImp _ r.y2 c.tEpoch = 0
    rw [h3.y2]; exact (hist_negative h0 hi.b hi.f.1 hneg _ _).2 hspk.1 hspk.2
  · show hist c.cy3 i.yDecay i.yImp _ r.y3 c.tEpoch = 0
    rw [h3.y3]; exact (hist_negative h0 hi.b hi.f.1 hneg _ _).2 hspk.1 hspk.2

/-- **C106 (learning phase).** At the end of an epoch the new weight, `tag_2` and `tag_1` are the rule applied to the old ones in an environment
in which every dependency reads, for each post-synaptic trace, the value received in that very step. -/
theorem C106_learns_from_received (c : Cfg) (d : ℚ) (h3 : ThreeF c d) (h1 : d ≤ 1) (time : Nat) (s : St) (i : Inp) (r : Rcv) (hi : i.ok)
    (hg : time % c.tEpoch = 0) (h7 : ∀ v, In7 (r.of v)) (hr : i.yDecay < 1 - (1 - d) * 127) :
    ∃ env : IEnv, (step3 c time s i r).w = learnW c env i.rndW s.w ∧ (step3 c time s i r).d = learnD c env i.rndW s.d ∧
      (step3 c time s i r).t = learnT c env i.rndW s.t ∧
      ∀ dep v, v = .y1 ∨ v = .y2 ∨ v = .y3 → env.val dep v = r.of v := by
  have hg' : lrnGuard c.tEpoch time = true := by simp [lrnGuard, hg]
  rw [step3_lrn c time s i r hg']
  refine ⟨applierArgs c time (recvTraces3 c time s i r) i, rfl, rfl, rfl, fun dep v hv => ?_⟩
  refine C106_reads_received c d h3 h1 time s i r hi v hv (h7 v) ?_ dep
  have hq : ((r.of v : Int) : ℚ) ≤ 127 := by exact_mod_cast (h7 v).2
  nlinarith

/-- The weight rule of `RewardModulatedSTDP`, `u0 * t * y2` (r_stdp_learning_rule.py:75). -/
theorem rstdp_dw_compiles : compileRule " u0 * t * y2 ".toList =
    some [⟨.u, 1, 7, [⟨.v .t, none, false⟩, ⟨.v .y2, none, false⟩], some 0⟩] := by decide +kernel

theorem factor_zero (env : IEnv) (d : Dep) (v : V) (h : env.val d v = 0) : factorVal env d ⟨.v v, none, false⟩ = 0 := by
  have hr : factorRaw env d ⟨.v v, none, false⟩ = 0 := by
    simp [factorRaw, IEnv.fvar, h]
  unfold factorVal
  rw [hr]
  cases v <;> norm_num [factorWidth, truncQ]

/-- **C106, finding.** With the weight rule `u0 * t * y2` of reward-modulated STDP, a negative reward never changes the weight in an epoch in
which the post-synaptic neuron has spiked, whatever the eligibility trace. -/
theorem C106_punishment_ignored (c : Cfg) (d : ℚ) (h3 : ThreeF c d) (h0 : 0 ≤ d) (time : Nat) (s : St) (i : Inp) (r : Rcv) (hi : i.ok)
    (hw : Legal c.mode 8 s.w) (hdw : c.dw = compileRule " u0 * t * y2 ".toList) (hneg : r.y2 ≤ 0) (hg : lrnGuard c.tEpoch time = true)
    (hspk : 1 ≤ (recvTraces3 c time s i r).ty ∧ (recvTraces3 c time s i r).ty ≤ c.tEpoch) :
    (step3 c time s i r).w = s.w := by
  rw [step3_lrn c time s i r hg]
  show learnW c (applierArgs c time (recvTraces3 c time s i r) i) i.rndW s.w = s.w
  have hz := C106_negative_read_as_zero c d h3 h0 time s i r hi .y2 (by simp) hneg hspk
  generalize applierArgs c time (recvTraces3 c time s i r) i = env at hz
  unfold learnW
  rw [hdw, rstdp_dw_compiles]
  have hb := legal_bounds hw
  have e1 : accLo = -32769 := by decide
  have e2 : accHi = 32767 := by decide
  dsimp only
  have hm : mac env ⟨.u, 1, 7, [⟨.v .t, none, false⟩, ⟨.v .y2, none, false⟩], some 0⟩ = 0 := by
    unfold mac
    simp only [List.foldl_cons, List.foldl_nil, factor_zero env .u .y2 hz, Int.mul_zero]
    decide
  have ha : applyRule env (s.w * 128) [⟨.u, 1, 7, [⟨.v .t, none, false⟩, ⟨.v .y2, none, false⟩], some 0⟩] = s.w * 128 := by
    unfold applyRule
    simp only [List.foldl_cons, List.foldl_nil]
    unfold applyProduct shifted
    rw [hm, Int.zero_ediv, Int.zero_mul]
    have hz : clipI accLo accHi 0 = 0 := by decide
    rw [hz, Int.add_zero, clipI_id (by rw [e1]; omega) (by rw [e2]; omega)]
  rw [ha, satAccW_legal hw, roundAcc_mul hi.c, C37_clip_id _ _ _ hw]

/-- A configuration for the examples: reward-modulated weight rule, `t_epoch = 2`, decay 65535/65536. -/
def cfg3 : Cfg :=
  { tEpoch := 2
    graded := .regular
    cx1 := ⟨16, 0, 1 / 2⟩
    cx2 := ⟨0, 0, 0⟩
    cy1 := ⟨0, 0, 65535 / 65536⟩
    cy2 := ⟨0, 0, 65535 / 65536⟩
    cy3 := ⟨0, 0, 65535 / 65536⟩
    mode := .mixed
    dw := some [⟨.u, 1, 7, [⟨.v .t, none, false⟩, ⟨.v .y2, none, false⟩], some 0⟩]
    dd := none
    dt := none
    dec := some 0 }

def st3 : St := ⟨0, 0, 0, 0, 0, 0, 0, 10, 0, 20⟩

/-- Random numbers in the middle; a post-synaptic spike in step 2 if `b`. -/
def inp3 (b : Bool) (n : Nat) : Inp := ⟨0, b && n == 2, 0, 1 / 2, 0, 1 / 2, 0, 1 / 2⟩

/-- **C106.** The reward of step 2 changes the weight, the punishment too – unless the neuron has spiked. -/
theorem C106_witness :
    (run3 cfg3 st3 (inp3 true) (fun _ => ⟨0, 5, 0⟩) 2).w ≠ 10 ∧ (run3 cfg3 st3 (inp3 false) (fun _ => ⟨0, -5, 0⟩) 2).w ≠ 10 ∧
    (run3 cfg3 st3 (inp3 true) (fun _ => ⟨0, -5, 0⟩) 2).w = 10 := by decide +kernel

/-- The configuration meets the hypotheses of the theorems above. -/
example : ThreeF cfg3 (65535 / 65536) ∧ (1 - (65535 / 65536 : ℚ)) * 127 ≤ 1 ∧ (inp3 true 2).ok ∧ Legal cfg3.mode 8 st3.w ∧
    cfg3.dw = compileRule " u0 * t * y2 ".toList ∧ lrnGuard cfg3.tEpoch 2 = true ∧
    (recvTraces3 cfg3 2 (run3 cfg3 st3 (inp3 true) (fun _ => ⟨0, -5, 0⟩) 1) (inp3 true 2) ⟨0, -5, 0⟩).ty = 2 := by
  refine ⟨⟨rfl, rfl, rfl⟩, by norm_num, ⟨by norm_num [inp3], by norm_num [inp3], by norm_num [inp3], by norm_num [inp3], by norm_num [inp3],
    by norm_num [inp3]⟩, by simp [Legal, cfg3, st3], by rw [rstdp_dw_compiles]; rfl, by decide, by decide +kernel⟩

end Verif.Learning
