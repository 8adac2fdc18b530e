import Verif.Learning.ThreeFactor
import Verif.CLP.Props

/-!
# C107: one-shot learning of prototypes

The learning rule with which the continually learning prototypes (CLP) store a pattern (`tutorials/in_depth/clp/clp.py:104-117`,
`tests/lava/proc/clp/test_clp_one_shot.py:309-313`): `dw = 2^-3*y1*x1*y0`, `x1_tau = 65535`, `t_epoch = 1`, payloads overwrite `x1`
(`GradedSpikeCfg.OVERWRITE`). The connection receives the back-propagating action potential and `y1` in the time step in which `PrototypeLIF`
sends them (`proc/dense/models.py:131-143, 172-191`). The model is `step3` (`ThreeFactor.lean`) and the CLP processes of `CLP/Model.lean`.
-/

namespace Verif.Learning

open Verif.Weights (SignMode clipWeight Legal C37_clip_legal C37_clip_id)

/-! ## Configuration and specification -/

/-- The learning rule of the tutorial, one synapse; `d` stands for `exp(-1/65535)` (clp.py:104-117, 148-150; learning_rule.py:745-750). -/
structure OneShotCfg (c : Cfg) (d : ℚ) : Prop where
  three : ThreeF c d
  x1 : c.cx1 = ⟨0, 0, d⟩
  epoch : c.tEpoch = 1
  graded : c.graded = .overwrite
  rule : c.dw = compileRule "2^-3*y1*x1*y0".toList
  mode : c.mode = .mixed ∨ c.mode = .excitatory

/-- The payload of the last pre-synaptic spike up to step `n`, 0 if there was none. -/
def lastPat (inp : Nat → Inp) : Nat → Nat
  | 0 => 0
  | n + 1 => if 0 < (inp (n + 1)).pre then (inp (n + 1)).pre else lastPat inp n

/-- Steps since the last pre-synaptic spike, this step included. -/
def age (inp : Nat → Inp) : Nat → Nat
  | 0 => 0
  | n + 1 => if 0 < (inp (n + 1)).pre then 1 else age inp n + 1

/-! ## Lemmas -/

theorem oneshot_compiles : compileRule "2^-3*y1*x1*y0".toList =
    some [⟨.y0, 1, 4, [⟨.v .y1, none, false⟩, ⟨.v .x1, none, false⟩], none⟩] := by decide +kernel

theorem factor_7 (env : IEnv) (d : Dep) (v : V) (hv : factorWidth (.v v) = 7) (h : In7 (env.val d v)) :
    factorVal env d ⟨.v v, none, false⟩ = env.val d v := by
  have hr : factorRaw env d ⟨.v v, none, false⟩ = env.val d v := by
    simp [factorRaw, IEnv.fvar]
  obtain ⟨h0, h1⟩ := h
  have q0 : (0 : ℚ) ≤ (env.val d v : ℚ) := by exact_mod_cast h0
  have q1 : (env.val d v : ℚ) ≤ 127 := by exact_mod_cast h1
  unfold factorVal
  rw [hr]
  dsimp only
  rw [hv, max_eq_left (by norm_num; linarith), min_eq_left (by norm_num; linarith)]
  unfold truncQ
  rw [if_neg (not_lt.2 q0), Int.floor_intCast]

theorem roundAcc_bounds {rnd : ℚ} (hr : 0 ≤ rnd) (A m n : Int) (h1 : 128 * m ≤ A) (h2 : A ≤ 128 * n) :
    m ≤ roundAcc rnd A ∧ roundAcc rnd A ≤ n := by
  have q1 : (128 : ℚ) * m ≤ A := by exact_mod_cast h1
  have q2 : (A : ℚ) ≤ 128 * n := by exact_mod_cast h2
  unfold roundAcc
  rw [Int.mul_ediv_cancel _ (by norm_num)]
  constructor
  · refine le_trans ?_ stochRound_ge
    rw [Int.le_floor]; linarith
  · refine stochRound_floor_le hr ?_
    linarith

/-- The learning phase with the post-synaptic spike, from weight 0. -/
theorem learnW_allocate {c : Cfg} {d : ℚ} (hc : OneShotCfg c d) {env : IEnv} {rnd : ℚ} (hr : 0 ≤ rnd) (hdep : env.dep .y0 = 1)
    {a b : Int} (ha : env.val .y0 .y1 = a) (hb : env.val .y0 .x1 = b) (ha7 : In7 a) (hb7 : In7 b) :
    learnW c env rnd 0 = roundAcc rnd (a * b / 8 * 16) ∧ 0 ≤ a * b / 8 * 16 ∧ a * b / 8 * 16 ≤ 128 * 255 := by
  obtain ⟨a0, a1⟩ := ha7
  obtain ⟨b0, b1⟩ := hb7
  have p0 : 0 ≤ a * b := mul_nonneg a0 b0
  have p1 : a * b ≤ 127 * 127 := by nlinarith
  have e1 : accLo = -32769 := by decide
  have e2 : accHi = 32767 := by decide
  have hy := factor_7 env .y0 .y1 rfl (by rw [ha]; exact ⟨a0, a1⟩)
  have hx := factor_7 env .y0 .x1 rfl (by rw [hb]; exact ⟨b0, b1⟩)
  rw [ha] at hy
  rw [hb] at hx
  have hm : mac env ⟨.y0, 1, 4, [⟨.v .y1, none, false⟩, ⟨.v .x1, none, false⟩], none⟩ = a * b := by
    unfold mac
    simp only [List.foldl_cons, List.foldl_nil, hy, hx, hdep]
    rw [wrap32_id (x := 1) (by norm_num) (by norm_num), Int.one_mul, wrap32_id (x := a) (by omega) (by omega),
      wrap32_id (x := a * b) (by omega) (by omega), Int.mul_one, wrap32_id (by omega) (by omega)]
  have hs : shifted env ⟨.y0, 1, 4, [⟨.v .y1, none, false⟩, ⟨.v .x1, none, false⟩], none⟩ = a * b / 8 * 16 := by
    unfold shifted
    rw [hm]
    rfl
  have hlo : 0 ≤ a * b / 8 * 16 := by omega
  have hhi : a * b / 8 * 16 ≤ 32256 := by omega
  have hb := roundAcc_bounds hr (a * b / 8 * 16) 0 255 (by omega) (by omega)
  refine ⟨?_, hlo, by omega⟩
  unfold learnW
  rw [hc.rule, oneshot_compiles]
  dsimp only
  unfold applyRule
  simp only [List.foldl_cons, List.foldl_nil]
  unfold applyProduct
  have hcl : clipI accLo accHi (a * b / 8 * 16) = a * b / 8 * 16 := clipI_id (by omega) (by omega)
  rw [hs, hcl, Int.zero_mul, Int.zero_add, hcl]
  have hsat : satAccW c.mode (a * b / 8 * 16) = a * b / 8 * 16 := by
    rcases hc.mode with h | h <;> rw [h] <;> unfold satAccW
    · rfl
    · exact max_eq_right hlo
  rw [hsat]
  refine C37_clip_id _ _ _ ?_
  rcases hc.mode with h | h <;> rw [h] <;> unfold Legal <;> simp <;> omega

/-- Bounds on the stored weight, in terms of the values read. -/
theorem stored_bounds {rnd : ℚ} (hr : 0 ≤ rnd) {a b : Int} (ha : 126 ≤ a ∧ a ≤ 127) (hb7 : In7 b) :
    2 * b - 5 ≤ roundAcc rnd (a * b / 8 * 16) ∧ roundAcc rnd (a * b / 8 * 16) ≤ 2 * b ∧ 0 ≤ roundAcc rnd (a * b / 8 * 16) ∧
    (a = 127 → 2 * b - 3 ≤ roundAcc rnd (a * b / 8 * 16)) := by
  obtain ⟨b0, b1⟩ := hb7
  have h2 : a = 126 ∨ a = 127 := by omega
  rcases h2 with rfl | rfl
  · refine ⟨?_, ?_, ?_, fun h => by omega⟩
    · exact (roundAcc_bounds hr _ (2 * b - 5) (2 * b) (by omega) (by omega)).1
    · exact (roundAcc_bounds hr _ (2 * b - 5) (2 * b) (by omega) (by omega)).2
    · exact (roundAcc_bounds hr _ 0 (2 * b) (by omega) (by omega)).1
  · have h := roundAcc_bounds hr (127 * b / 8 * 16) (2 * b - 3) (2 * b) (by omega) (by omega)
    exact ⟨by omega, h.2, (roundAcc_bounds hr _ 0 (2 * b) (by omega) (by omega)).1, fun _ => h.1⟩

theorem scaled_bounds {p : Nat} (hp : p ≤ 254) : In7 (scaledAct p) ∧ (p : Int) - 1 ≤ 2 * scaledAct p ∧ 2 * scaledAct p ≤ p + 1 := by
  refine ⟨scaledAct_range hp, ?_⟩
  unfold scaledAct
  split <;> omega

theorem lastPat_le {inp : Nat → Inp} (hp : ∀ n, (inp n).pre ≤ 254) : ∀ n, lastPat inp n ≤ 254
  | 0 => by simp [lastPat]
  | n + 1 => by
    unfold lastPat
    split
    · exact hp _
    · exact lastPat_le hp n

/-- One step with epoch length 1: the trace that is read and kept, the weight without post-synaptic spike. -/
theorem oneshot_step {c : Cfg} {d : ℚ} (hc : OneShotCfg c d) (time : Nat) (s : St) (i : Inp) (r : Rcv) (hi : i.ok)
    (htx : s.tx = 0) (hty : s.ty = 0) (hw : Legal c.mode 8 s.w) :
    (step3 c time s i r).tx = 0 ∧ (step3 c time s i r).ty = 0 ∧
    (step3 c time s i r).x1 = hist ⟨0, 0, d⟩ i.xDecay i.xImp (if 0 < i.pre then 1 else 0) (if 0 < i.pre then scaledAct i.pre else s.x1) 1 ∧
    (i.post = false → (step3 c time s i r).w = s.w) ∧
    (i.post = true → ∃ env : IEnv, (step3 c time s i r).w = learnW c env i.rndW s.w ∧ env.dep .y0 = 1 ∧
      env.val .y0 .x1 = (step3 c time s i r).x1 ∧ env.val .y0 .y1 = hist ⟨0, 0, d⟩ i.yDecay i.yImp 1 r.y1 1) := by
  have hg : lrnGuard c.tEpoch time = true := by rw [hc.epoch]; simp [lrnGuard, Nat.mod_one]
  have hwe : withinEpoch c.tEpoch time = 1 := by rw [hc.epoch]; simp [withinEpoch, Nat.mod_one]
  rw [step3_lrn c time s i r hg]
  have hx1 : (recvTraces3 c time s i r).x1 = if 0 < i.pre then scaledAct i.pre else s.x1 := by
    show preX1 c s i.pre = _
    unfold preX1
    rw [hc.graded]
  have hctx : (recvTraces3 c time s i r).tx = if 0 < i.pre then 1 else 0 := by
    show (if counted c s i.pre then withinEpoch c.tEpoch time else s.tx) = _
    rw [hwe, htx]
    unfold counted
    rw [hc.graded]
    simp only [decide_eq_true_eq]
  have hcty : (recvTraces3 c time s i r).ty = if i.post then 1 else 0 := by
    show (if i.post then withinEpoch c.tEpoch time else s.ty) = _
    rw [hwe, hty]
  have hx : (runLrn3 c time (recvTraces3 c time s i r) i).x1 =
      hist ⟨0, 0, d⟩ i.xDecay i.xImp (if 0 < i.pre then 1 else 0) (if 0 < i.pre then scaledAct i.pre else s.x1) 1 := by
    show hist c.cx1 i.xDecay i.xImp (recvTraces3 c time s i r).tx (recvTraces3 c time s i r).x1 c.tEpoch = _
    rw [hc.x1, hc.epoch, hctx, hx1]
  refine ⟨rfl, rfl, hx, ?_, ?_⟩
  · intro hp
    show learnW c (applierArgs c time (recvTraces3 c time s i r) i) i.rndW s.w = s.w
    refine learnW_silent hi.c hw ?_
    intro ps hps p hmem
    rw [hc.rule, oneshot_compiles] at hps
    rw [← Option.some.inj hps, List.mem_singleton] at hmem
    rw [hmem]
    show (if 0 < (recvTraces3 c time s i r).ty then (1 : Int) else 0) = 0
    rw [hcty, hp]; rfl
  · intro hp
    refine ⟨applierArgs c time (recvTraces3 c time s i r) i, rfl, ?_, ?_, ?_⟩
    · show (if 0 < (recvTraces3 c time s i r).ty then (1 : Int) else 0) = 1
      rw [hcty, hp]; rfl
    · rw [hx]
      show hist c.cx1 i.xDecay i.xImp (recvTraces3 c time s i r).tx (recvTraces3 c time s i r).x1 (recvTraces3 c time s i r).ty = _
      rw [hc.x1, hctx, hx1, hcty, hp]; rfl
    · show hist c.cy1 i.yDecay i.yImp (recvTraces3 c time s i r).ty r.y1 (recvTraces3 c time s i r).ty = _
      rw [hc.three.y1, hcty, hp]; rfl

/-- The state of a synapse before learning. -/
structure FreshSyn (s : St) : Prop where
  x1 : s.x1 = 0
  tx : s.tx = 0
  ty : s.ty = 0
  w : s.w = 0

/-- Invariant: no recorded spike times, a legal weight, `x1` is the payload seen last (rounded to 7 bits), at most one below per step. -/
theorem oneshot_inv {c : Cfg} {d : ℚ} (hc : OneShotCfg c d) (h0 : 0 ≤ d) (h1 : d ≤ 1) (hd : (1 - d) * 127 ≤ 1) (s0 : St) (hs : FreshSyn s0)
    (inp : Nat → Inp) (rcv : Nat → Rcv) (hi : ∀ n, (inp n).ok) (hp : ∀ n, (inp n).pre ≤ 254) (n : Nat) :
    (run3 c s0 inp rcv n).tx = 0 ∧ (run3 c s0 inp rcv n).ty = 0 ∧ Legal c.mode 8 (run3 c s0 inp rcv n).w ∧
    0 ≤ (run3 c s0 inp rcv n).x1 ∧ (run3 c s0 inp rcv n).x1 ≤ scaledAct (lastPat inp n) ∧
    scaledAct (lastPat inp n) - age inp n ≤ (run3 c s0 inp rcv n).x1 ∧
    ((∀ m, (inp m).xDecay < 1 - (1 - d) * 127) → (run3 c s0 inp rcv n).x1 = scaledAct (lastPat inp n)) := by
  induction n with
  | zero =>
    refine ⟨hs.tx, hs.ty, ?_, ?_, ?_, ?_, ?_⟩
    · show Legal c.mode 8 s0.w
      rw [hs.w]
      rcases hc.mode with h | h <;> rw [h] <;> simp [Legal]
    · show 0 ≤ s0.x1
      rw [hs.x1]
    · show s0.x1 ≤ scaledAct 0
      rw [hs.x1]; decide
    · show scaledAct 0 - 0 ≤ s0.x1
      rw [hs.x1]; decide
    · intro _
      show s0.x1 = scaledAct 0
      rw [hs.x1]; decide
  | succ n ih =>
    obtain ⟨i1, i2, i3, i4, i5, i6, i7⟩ := ih
    obtain ⟨e1, e2, e3, e4, e5⟩ := oneshot_step hc (n + 1) (run3 c s0 inp rcv n) (inp (n + 1)) (rcv (n + 1)) (hi (n + 1)) i1 i2 i3
    have hleg : Legal c.mode 8 (step3 c (n + 1) (run3 c s0 inp rcv n) (inp (n + 1)) (rcv (n + 1))).w := by
      cases hpo : (inp (n + 1)).post with
      | false => rw [e4 hpo]; exact i3
      | true =>
        obtain ⟨env, hl, _⟩ := e5 hpo
        rw [hl]
        unfold learnW
        rw [hc.rule, oneshot_compiles]
        exact C37_clip_legal _ _ _ _
    have hmx := (scaled_bounds (lastPat_le hp n)).1.2
    have hnew := scaled_bounds (hp (n + 1))
    have hz7 : In7 (if 0 < (inp (n + 1)).pre then scaledAct (inp (n + 1)).pre else (run3 c s0 inp rcv n).x1) := by
      split
      · exact hnew.1
      · exact ⟨i4, by omega⟩
    have hb := hist_received_bounds (rD := (inp (n + 1)).xDecay) (rI := (inp (n + 1)).xImp) h1 (hi (n + 1)).a (hi (n + 1)).e.1 hz7.1 hz7.2 hd h0
      (if 0 < (inp (n + 1)).pre then 1 else 0) 1
    rw [← e3] at hb
    refine ⟨e1, e2, hleg, hb.1, ?_, ?_, ?_⟩
    · show (step3 c (n + 1) _ _ _).x1 ≤ _
      refine le_trans hb.2.1 ?_
      unfold lastPat
      split
      · exact le_refl _
      · exact i5
    · show _ ≤ (step3 c (n + 1) _ _ _).x1
      refine le_trans ?_ hb.2.2
      unfold lastPat age
      split
      · exact le_refl _
      · push_cast; omega
    · intro hx
      show (step3 c (n + 1) _ _ _).x1 = _
      have hq : (((if 0 < (inp (n + 1)).pre then scaledAct (inp (n + 1)).pre else (run3 c s0 inp rcv n).x1) : Int) : ℚ) ≤ 127 := by
        exact_mod_cast hz7.2
      rw [e3, hist_received h1 (hi (n + 1)).a (hi (n + 1)).e.1 hz7.1 hz7.2 (by have := hx (n + 1); nlinarith)]
      rw [i7 hx]
      show _ = scaledAct (if 0 < (inp (n + 1)).pre then (inp (n + 1)).pre else lastPat inp n)
      split <;> rfl

/-- The weight without post-synaptic spikes between two steps. -/
theorem oneshot_keeps {c : Cfg} {d : ℚ} (hc : OneShotCfg c d) (h0 : 0 ≤ d) (h1 : d ≤ 1) (hd : (1 - d) * 127 ≤ 1) (s0 : St) (hs : FreshSyn s0)
    (inp : Nat → Inp) (rcv : Nat → Rcv) (hi : ∀ n, (inp n).ok) (hp : ∀ n, (inp n).pre ≤ 254) (m n : Nat) (hmn : m ≤ n)
    (hpost : ∀ j, m < j → j ≤ n → (inp j).post = false) : (run3 c s0 inp rcv n).w = (run3 c s0 inp rcv m).w := by
  induction n with
  | zero => have : m = 0 := by omega
            rw [this]
  | succ n ih =>
    by_cases h : m = n + 1
    · rw [h]
    · obtain ⟨i1, i2, i3, _⟩ := oneshot_inv hc h0 h1 hd s0 hs inp rcv hi hp n
      have := (oneshot_step hc (n + 1) (run3 c s0 inp rcv n) (inp (n + 1)) (rcv (n + 1)) (hi (n + 1)) i1 i2 i3).2.2.2.1
        (hpost (n + 1) (by omega) (le_refl _))
      show (step3 c (n + 1) _ _ _).w = _
      rw [this]
      exact ih (by omega) (fun j a b => hpost j a (by omega))

/-! ## C107 -/

/-- **C107 (one synapse).** The post-synaptic neuron sends one back-propagating action potential, in step `k`, with `y1 = 127`. Until then the
weight is 0; from then on, whatever patterns follow, it is a value `w` within `p - 4 ≤ w ≤ p + 1` of the payload `p` seen last at step `k`,
provided that no random number is within `(1 - d) * 127` (about 0.002) of 1, and `p - 6 - 2 * age ≤ w ≤ p + 1` in any case. -/
theorem C107_stores_pattern (c : Cfg) (d : ℚ) (hc : OneShotCfg c d) (h0 : 0 ≤ d) (h1 : d ≤ 1) (hd : (1 - d) * 127 ≤ 1) (s0 : St)
    (hs : FreshSyn s0) (inp : Nat → Inp) (rcv : Nat → Rcv) (hi : ∀ n, (inp n).ok) (hp : ∀ n, (inp n).pre ≤ 254) (k N : Nat)
    (hpost : ∀ n, 1 ≤ n → n ≤ N → ((inp n).post = true ↔ n = k)) (hy : (rcv k).y1 = 127) :
    (∀ n, n < k → n ≤ N → (run3 c s0 inp rcv n).w = 0) ∧
    (1 ≤ k → k ≤ N → ∃ w : Int, (∀ n, k ≤ n → n ≤ N → (run3 c s0 inp rcv n).w = w) ∧ 0 ≤ w ∧
      (lastPat inp k : Int) - 6 - 2 * age inp k ≤ w ∧ w ≤ lastPat inp k + 1 ∧
      ((∀ m, (inp m).xDecay < 1 - (1 - d) * 127) → (inp k).yDecay < 1 - (1 - d) * 127 →
        (lastPat inp k : Int) - 4 ≤ w)) := by
  have hno : ∀ n, 1 ≤ n → n ≤ N → n ≠ k → (inp n).post = false := by
    intro n a b hne
    cases hb : (inp n).post with
    | false => rfl
    | true => exact absurd ((hpost n a b).1 hb) hne
  have hbefore : ∀ n, n < k → n ≤ N → (run3 c s0 inp rcv n).w = 0 := by
    intro n hn hN
    rw [oneshot_keeps hc h0 h1 hd s0 hs inp rcv hi hp 0 n (Nat.zero_le _) (fun j a b => hno j (by omega) (by omega) (by omega))]
    exact hs.w
  refine ⟨hbefore, fun hk hkN => ?_⟩
  obtain ⟨k, rfl⟩ : ∃ k', k = k' + 1 := ⟨k - 1, by omega⟩
  obtain ⟨i1, i2, i3, _⟩ := oneshot_inv hc h0 h1 hd s0 hs inp rcv hi hp k
  obtain ⟨_, _, _, j4, j5, j6, j7⟩ := oneshot_inv hc h0 h1 hd s0 hs inp rcv hi hp (k + 1)
  obtain ⟨env, hl, hdep, hx, hyv⟩ := (oneshot_step hc (k + 1) (run3 c s0 inp rcv k) (inp (k + 1)) (rcv (k + 1)) (hi (k + 1)) i1 i2 i3).2.2.2.2
    ((hpost (k + 1) hk hkN).2 rfl)
  rw [hbefore k (by omega) (by omega)] at hl
  have hxr : env.val .y0 .x1 = (run3 c s0 inp rcv (k + 1)).x1 := hx
  have hsb := scaled_bounds (lastPat_le hp (k + 1))
  have hx7 : In7 (run3 c s0 inp rcv (k + 1)).x1 := ⟨j4, by have := hsb.1.2; omega⟩
  rw [hy] at hyv
  have hyb := hist_received_bounds (rD := (inp (k + 1)).yDecay) (rI := (inp (k + 1)).yImp) (y := 127) h1 (hi (k + 1)).b (hi (k + 1)).f.1
    (by norm_num) (by norm_num) hd h0 1 1
  rw [← hyv] at hyb
  obtain ⟨y1, y2, y3⟩ := hyb
  have hst := stored_bounds (rnd := (inp (k + 1)).rndW) (hi (k + 1)).c (a := env.val .y0 .y1) (b := env.val .y0 .x1)
    ⟨by push_cast at y3; omega, y2⟩ (by rw [hxr]; exact hx7)
  rw [(learnW_allocate hc (hi (k + 1)).c hdep rfl rfl ⟨y1, y2⟩ (by rw [hxr]; exact hx7)).1] at hl
  rw [← hl, hxr] at hst
  obtain ⟨s1, s2, s3, s4⟩ := hst
  refine ⟨_, ?_, s3, ?_, ?_, ?_⟩
  · intro n hn hN
    exact oneshot_keeps hc h0 h1 hd s0 hs inp rcv hi hp (k + 1) n hn (fun j a b => hno j (by omega) (by omega) (by omega))
  · have := hsb.2.1; omega
  · have := hsb.2.2; omega
  · intro hxd hyd
    have hy127 : env.val .y0 .y1 = 127 := by
      rw [hyv]
      exact hist_received h1 (hi (k + 1)).b (hi (k + 1)).f.1 (by norm_num) (le_refl _) (by push_cast; linarith) 1 1
    have := s4 hy127
    have := j7 hxd
    have := hsb.2.1
    omega

open Verif.CLP in
/-- **C107 (with the allocator and the prototypes).** Allocator, broadcast, `n` prototypes and the synapse to prototype `i` together; `trig` is
any history of novelty signals with at most `n` of them. Up to the `i`-th of them (counted from 0) the weight is 0; from then on and whatever
follows, later allocations included, it is a value within `p - 4 ≤ w ≤ p + 1` of the payload `p` seen last at that moment – unless a random
number is within `(1 - d) * 127` of 1, in which case the lower bound is `p - 6 - 2 * age`. -/
theorem C107_prototype_stores_pattern (n : Nat) (p : Verif.LIF.Par) (eff : Int) (st : Nat → Verif.LIF.St) (trig : Nat → Int)
    (x : Nat → ProtoIn) (hx : ∀ t, (x t).third = broadcast (allocStep (allocAt 1 trig t) (trig t)).2) (T : Nat)
    (hT : triggers (fun t => trig t != 0) T ≤ n)
    (c : Cfg) (d : ℚ) (hc : OneShotCfg c d) (h0 : 0 ≤ d) (h1 : d ≤ 1) (hd : (1 - d) * 127 ≤ 1) (s0 : St)
    (hs : FreshSyn s0) (inp : Nat → Inp) (rcv : Nat → Rcv) (hi : ∀ t, (inp t).ok) (hp : ∀ t, (inp t).pre ≤ 254) (i : Nat)
    (hconn : ∀ t, t < T → ∀ r r' o, protoAt n p eff { st := st, y1 := fun _ => 0 } x t = some r → protoStep n p eff r (x t) = some (r', o) →
      (inp (t + 1)).post = o.bap i ∧ (rcv (t + 1)).y1 = o.y1 i) :
    (∀ t, t ≤ T → triggers (fun t => trig t != 0) t ≤ i → (run3 c s0 inp rcv t).w = 0) ∧
    (∀ k, k < T → trig k ≠ 0 → triggers (fun t => trig t != 0) k = i →
      ∃ w : Int, (∀ t, k < t → t ≤ T → (run3 c s0 inp rcv t).w = w) ∧ 0 ≤ w ∧
      (lastPat inp (k + 1) : Int) - 6 - 2 * age inp (k + 1) ≤ w ∧ w ≤ lastPat inp (k + 1) + 1 ∧
      ((∀ m, (inp m).xDecay < 1 - (1 - d) * 127) → (inp (k + 1)).yDecay < 1 - (1 - d) * 127 →
        (lastPat inp (k + 1) : Int) - 4 ≤ w)) := by
  have hstep : ∀ t, t < T → (inp (t + 1)).post = decide (trig t ≠ 0 ∧ i = triggers (fun t => trig t != 0) t) ∧
      (rcv (t + 1)).y1 = if i + 1 = triggers (fun t => trig t != 0) (t + 1) then 127 else 0 := by
    intro t ht
    obtain ⟨r, hr, _, hrest⟩ := C82_trigger_allocates_next n p eff st trig x hx T hT t (by omega)
    obtain ⟨r', o, hpo, hb, _, hy, _⟩ := hrest ht
    obtain ⟨c1, c2⟩ := hconn t ht r r' o hr hpo
    exact ⟨by rw [c1]; exact hb i, by rw [c2]; exact hy i⟩
  have mono : ∀ a b, a ≤ b → triggers (fun t => trig t != 0) a ≤ triggers (fun t => trig t != 0) b := by
    intro a b hab
    induction b with
    | zero => have : a = 0 := by omega
              rw [this]
    | succ b ih =>
      by_cases h : a = b + 1
      · rw [h]
      · have := ih (by omega)
        rw [triggers_succ]
        omega
  constructor
  · intro t ht htr
    rw [oneshot_keeps hc h0 h1 hd s0 hs inp rcv hi hp 0 t (Nat.zero_le _) ?_]
    · exact hs.w
    · intro j hj hjt
      obtain ⟨j, rfl⟩ : ∃ j', j = j' + 1 := ⟨j - 1, by omega⟩
      rw [(hstep j (by omega)).1, decide_eq_false_iff_not]
      rintro ⟨a, b⟩
      have := mono (j + 1) t hjt
      rw [triggers_succ] at this
      simp only [bne_iff_ne, ne_eq, a, not_false_eq_true, if_true] at this
      omega
  · intro k hk htk hki
    have hpost : ∀ m, 1 ≤ m → m ≤ T → ((inp m).post = true ↔ m = k + 1) := by
      intro m hm hmT
      obtain ⟨m, rfl⟩ : ∃ m', m = m' + 1 := ⟨m - 1, by omega⟩
      rw [(hstep m (by omega)).1, decide_eq_true_eq]
      constructor
      · rintro ⟨a, b⟩
        rcases Nat.lt_trichotomy m k with h | h | h
        · have := mono (m + 1) k h
          rw [triggers_succ] at this
          simp only [bne_iff_ne, ne_eq, a, not_false_eq_true, if_true] at this
          omega
        · omega
        · have := mono (k + 1) m h
          rw [triggers_succ] at this
          simp only [bne_iff_ne, ne_eq, htk, not_false_eq_true, if_true] at this
          omega
      · intro h
        have : m = k := by omega
        subst this
        exact ⟨htk, hki.symm⟩
    have hy : (rcv (k + 1)).y1 = 127 := by
      rw [(hstep k hk).2, triggers_succ]
      simp [htk, hki]
    obtain ⟨w, a, b⟩ := (C107_stores_pattern c d hc h0 h1 hd s0 hs inp rcv hi hp (k + 1) T hpost hy).2 (by omega) (by omega)
    exact ⟨w, fun t h h' => a t (by omega) h', b⟩

/-! ## A concrete network -/

/-- The tutorial's rule for one synapse, decay 65535/65536. -/
def cfg1 : Cfg :=
  { tEpoch := 1
    graded := .overwrite
    cx1 := ⟨0, 0, 65535 / 65536⟩
    cx2 := ⟨0, 0, 0⟩
    cy1 := ⟨0, 0, 65535 / 65536⟩
    cy2 := ⟨0, 0, 65535 / 65536⟩
    cy3 := ⟨0, 0, 65535 / 65536⟩
    mode := .excitatory
    dw := some [⟨.y0, 1, 4, [⟨.v .y1, none, false⟩, ⟨.v .x1, none, false⟩], none⟩]
    dd := none
    dt := none
    dec := none }

def st1 : St := ⟨0, 0, 0, 0, 0, 0, 0, 0, 0, 0⟩

/-- The payload 200 in step 2, 100 in step 9; post-synaptic spikes in the steps `l`. -/
def inp1 (l : List Nat) (n : Nat) : Inp :=
  ⟨if n == 2 then 200 else if n == 9 then 100 else 0, l.contains n, 0, 1 / 2, 0, 1 / 2, 0, 1 / 2⟩

/-- The configuration meets the hypotheses, and the pattern is stored as 198. -/
example : OneShotCfg cfg1 (65535 / 65536) ∧ (1 - (65535 / 65536 : ℚ)) * 127 ≤ 1 ∧ FreshSyn st1 ∧ (∀ n, (inp1 [5] n).ok) ∧
    (∀ n, (inp1 [5] n).pre ≤ 254) ∧ (∀ n, (inp1 [5] n).xDecay < 1 - (1 - (65535 / 65536 : ℚ)) * 127) ∧
    lastPat (inp1 [5]) 5 = 200 ∧ (run3 cfg1 st1 (inp1 [5]) (fun _ => ⟨127, 0, 0⟩) 12).w = 198 := by
  refine ⟨⟨⟨rfl, rfl, rfl⟩, rfl, rfl, rfl, by rw [oneshot_compiles]; rfl, Or.inr rfl⟩, by norm_num, ⟨rfl, rfl, rfl, rfl⟩, ?_, ?_, ?_, ?_, ?_⟩
  · intro n
    exact ⟨by norm_num [inp1], by norm_num [inp1], by norm_num [inp1], by norm_num [inp1], by norm_num [inp1], by norm_num [inp1]⟩
  · intro n
    show (if n == 2 then 200 else if n == 9 then 100 else 0) ≤ 254
    split
    · omega
    · split <;> omega
  · intro n; norm_num [inp1]
  · decide
  · decide +kernel

open Verif.CLP in
/-- The hypothesis on the wiring in `C107_prototype_stores_pattern` is met: one novelty signal in step 4 of the allocator (counted from 0),
two prototypes, the synapse to the first. -/
example (p : Verif.LIF.Par) (eff : Int) (st : Nat → Verif.LIF.St) (x : Nat → ProtoIn)
    (hx : ∀ t, (x t).third = broadcast (allocStep (allocAt 1 (fun t => if t = 4 then 1 else 0) t) (if t = 4 then 1 else 0)).2) :
    ∀ t, t < 12 → ∀ r r' o, protoAt 2 p eff { st := st, y1 := fun _ => 0 } x t = some r → protoStep 2 p eff r (x t) = some (r', o) →
      (inp1 [5] (t + 1)).post = o.bap 0 ∧ (if t + 1 < 5 then 0 else 127 : Int) = o.y1 0 := by
  intro t ht r r' o hr ho
  obtain ⟨r0, e0, _, hrest⟩ := C82_trigger_allocates_next 2 p eff st (fun t => if t = 4 then 1 else 0) x hx 12 (by decide) t (by omega)
  rw [hr] at e0
  obtain ⟨r1, o1, e1, hb, _, hy, _⟩ := hrest ht
  rw [← Option.some.inj e0, ho] at e1
  have e2 : o = o1 := (Prod.mk.inj (Option.some.inj e1)).2
  rw [e2, hb 0, hy 0]
  have key : ∀ t, t < 12 → (inp1 [5] (t + 1)).post =
      decide ((if t = 4 then (1 : Int) else 0) ≠ 0 ∧ 0 = triggers (fun t => (if t = 4 then (1 : Int) else 0) != 0) t) ∧
      (if t + 1 < 5 then 0 else 127 : Int) = if 0 + 1 = triggers (fun t => (if t = 4 then (1 : Int) else 0) != 0) (t + 1) then 127 else 0 := by
    decide
  exact key t ht

/-- **C107.** A second back-propagating action potential adds to what is stored instead of replacing it: 198 + 99, clipped to 255. -/
theorem C107_second_allocation_adds : (run3 cfg1 st1 (inp1 [5, 11]) (fun _ => ⟨127, 0, 0⟩) 11).w = 255 := by decide +kernel

end Verif.Learning
