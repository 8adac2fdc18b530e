import Verif.Learning.PlastProps

/-!
# C133: random numbers of a learning connection

Models `TraceRandom` and `ConnVarRandom` (`src/lava/magma/core/learning/random.py:18-139`) and their
use by `LearningConnectionModelBitApproximate`
(`src/lava/magma/core/model/py/connection.py:384-437, 680-692, 790-797`).  The generator
`np.random.default_rng` is a parameter: what the `k`-th draw of a generator with a given seed
returns.  The modelling of the connection itself is that of `Verif.Learning.Plasticity`.
-/

namespace Verif.Learning

/-- `np.random.default_rng(seed)`: the `k`-th draw of `random(1)[0]` and of
`integers(0, 2 ** W_TRACE, size=1)[0]`. -/
structure Gen where
  floats : Nat → Nat → ℚ
  ints : Nat → Nat → Int

/-- The documented ranges of both draws. -/
structure Gen.ok (g : Gen) : Prop where
  floats : ∀ s k, 0 ≤ g.floats s k ∧ g.floats s k < 1
  ints : ∀ s k, 0 ≤ g.ints s k ∧ g.ints s k < 2 ^ 7

/-- A `TraceRandom` object: both generators (seed, number of draws so far) and the current numbers. -/
structure TraceRandom where
  seedDecay : Nat
  seedImp : Nat
  drawnDecay : Nat
  drawnImp : Nat
  decay : ℚ
  imp : Int

/-- `TraceRandom.__init__` (random.py:36-51): one draw at construction. -/
def TraceRandom.new (g : Gen) (sd si : Nat) : TraceRandom :=
  ⟨sd, si, 1, 1, g.floats sd 0, g.ints si 0⟩

/-- `TraceRandom.advance` (random.py:78-95). -/
def TraceRandom.advance (g : Gen) (r : TraceRandom) : TraceRandom :=
  { r with
    drawnDecay := r.drawnDecay + 1
    drawnImp := r.drawnImp + 1
    decay := g.floats r.seedDecay r.drawnDecay
    imp := g.ints r.seedImp r.drawnImp }

/-- A `ConnVarRandom` object. -/
structure ConnVarRandom where
  seed : Nat
  drawn : Nat
  rnd : ℚ

/-- `ConnVarRandom.__init__` (random.py:114-117). -/
def ConnVarRandom.new (g : Gen) (s : Nat) : ConnVarRandom := ⟨s, 1, g.floats s 0⟩

/-- `ConnVarRandom.advance` (random.py:131-139). -/
def ConnVarRandom.advance (g : Gen) (r : ConnVarRandom) : ConnVarRandom :=
  { r with drawn := r.drawn + 1, rnd := g.floats r.seed r.drawn }

/-- The connection with its three random objects. -/
structure Conn where
  st : St
  xr : TraceRandom
  yr : TraceRandom
  wr : ConnVarRandom

/-- `_init_randoms` (connection.py:680-692): `ConnVarRandom()` takes its default seed 2. -/
def Conn.new (g : Gen) (rngSeed : Nat) (s : St) : Conn :=
  ⟨s, TraceRandom.new g rngSeed (rngSeed + 1), TraceRandom.new g (rngSeed + 2) (rngSeed + 3),
    ConnVarRandom.new g 2⟩

/-- What arrives in one step: pre-synaptic payload and post-synaptic spike. -/
structure Spikes where
  pre : Nat
  post : Bool

/-- The current random numbers, as arguments of the functions of `Plasticity`; only `rndPost` is used by
`postSpike`, all others by `runLrn`. -/
def Conn.numbers (o : Conn) (p : Spikes) : Inp :=
  ⟨p.pre, p.post, o.yr.imp, o.xr.decay, o.xr.imp, o.yr.decay, o.yr.imp, o.wr.rnd⟩

/-- `_update_trace_randoms` (connection.py:790-793). -/
def Conn.updateTraceRandoms (g : Gen) (o : Conn) : Conn :=
  { o with xr := o.xr.advance g, yr := o.yr.advance g }

/-- `recv_traces` for a two-factor rule (connection.py:384-414). -/
def Conn.recvTraces (g : Gen) (c : Cfg) (time : Nat) (o : Conn) (p : Spikes) : Conn :=
  let o1 := { o with st := preSpike c time o.st p.pre }
  let o2 := o1.updateTraceRandoms g
  let o3 := { o2 with st := postSpike c time o2.st (o2.numbers p) }
  o3.updateTraceRandoms g

/-- `run_lrn` (connection.py:431-437): the random number of the synaptic variables is renewed first. -/
def Conn.runLrn (g : Gen) (c : Cfg) (time : Nat) (o : Conn) (p : Spikes) : Conn :=
  let o1 := { o with wr := o.wr.advance g }
  { o1 with st := Learning.runLrn c time o1.st (o1.numbers p) }

/-- One time step (connection.py:384-437; model.py:392-400, 438-439). -/
def Conn.step (g : Gen) (c : Cfg) (time : Nat) (o : Conn) (p : Spikes) : Conn :=
  let o1 := o.recvTraces g c time p
  if lrnGuard c.tEpoch time then o1.runLrn g c time p else o1

/-- The connection after `n` time steps; the first one is time step 1. -/
def Conn.run (g : Gen) (c : Cfg) (rngSeed : Nat) (s0 : St) (p : Nat → Spikes) : Nat → Conn
  | 0 => Conn.new g rngSeed s0
  | n + 1 => (Conn.run g c rngSeed s0 p n).step g c (n + 1) (p (n + 1))

/-! ## Specification -/

/-- Which draw of which stream is used in time step `n`: a post-synaptic spike uses draw `2n - 1` of the
integers of seed `rng_seed + 3`; the end of an epoch uses draw `2n` of the four trace streams and
the draw with the number of the epoch of the stream with seed 2. -/
def drawsOf (g : Gen) (c : Cfg) (rngSeed : Nat) (p : Nat → Spikes) (n : Nat) : Inp :=
  { pre := (p n).pre
    post := (p n).post
    rndPost := g.ints (rngSeed + 3) (2 * n - 1)
    xDecay := g.floats rngSeed (2 * n)
    xImp := g.ints (rngSeed + 1) (2 * n)
    yDecay := g.floats (rngSeed + 2) (2 * n)
    yImp := g.ints (rngSeed + 3) (2 * n)
    rndW := g.floats 2 (n / c.tEpoch) }

/-! ## Proofs -/

/-- What holds after `n` steps. -/
structure RndInv (g : Gen) (c : Cfg) (rngSeed n : Nat) (o : Conn) : Prop where
  x : o.xr = ⟨rngSeed, rngSeed + 1, 2 * n + 1, 2 * n + 1, g.floats rngSeed (2 * n),
    g.ints (rngSeed + 1) (2 * n)⟩
  y : o.yr = ⟨rngSeed + 2, rngSeed + 3, 2 * n + 1, 2 * n + 1, g.floats (rngSeed + 2) (2 * n),
    g.ints (rngSeed + 3) (2 * n)⟩
  w : o.wr = ⟨2, n / c.tEpoch + 1, g.floats 2 (n / c.tEpoch)⟩

theorem succ_div_guard (e n : Nat) :
    (n + 1) / e = if lrnGuard e (n + 1) then n / e + 1 else n / e := by
  rw [Nat.succ_div]
  unfold lrnGuard
  by_cases h : e ∣ n + 1
  · simp [h, Nat.mod_eq_zero_of_dvd h]
  · have : ¬ (n + 1) % e = 0 := fun h' => h (Nat.dvd_of_mod_eq_zero h')
    simp [h, this]

theorem step_inv {g : Gen} {c : Cfg} {rs n : Nat} {o : Conn} (p : Spikes) (h : RndInv g c rs n o) :
    RndInv g c rs (n + 1) (o.step g c (n + 1) p) := by
  obtain ⟨hx, hy, hw⟩ := h
  have h2 : 2 * (n + 1) = 2 * n + 1 + 1 := by omega
  have hd := succ_div_guard c.tEpoch n
  unfold Conn.step
  split
  · rename_i hg
    rw [if_pos hg] at hd
    refine ⟨?_, ?_, ?_⟩ <;>
    simp only [Conn.runLrn, Conn.recvTraces, Conn.updateTraceRandoms, hx, hy, hw,
      TraceRandom.advance, ConnVarRandom.advance, h2, hd]
  · rename_i hg
    rw [if_neg hg] at hd
    refine ⟨?_, ?_, ?_⟩ <;>
    simp only [Conn.recvTraces, Conn.updateTraceRandoms, hx, hy, hw,
      TraceRandom.advance, h2, hd]

theorem run_inv (g : Gen) (c : Cfg) (rs : Nat) (s0 : St) (p : Nat → Spikes) (n : Nat) :
    RndInv g c rs n (Conn.run g c rs s0 p n) := by
  induction n with
  | zero => exact ⟨rfl, rfl, by simp [Conn.run, Conn.new, ConnVarRandom.new]⟩
  | succ n ih => exact step_inv _ ih

theorem step_st {g : Gen} {c : Cfg} {rs n : Nat} {o : Conn} (p : Nat → Spikes)
    (h : RndInv g c rs n o) :
    (o.step g c (n + 1) (p (n + 1))).st = step c (n + 1) o.st (drawsOf g c rs p (n + 1)) := by
  obtain ⟨hx, hy, hw⟩ := h
  have h2 : 2 * (n + 1) = 2 * n + 1 + 1 := by omega
  have hd := succ_div_guard c.tEpoch n
  unfold Conn.step step
  split
  · rename_i hg
    rw [if_pos hg] at hd
    simp only [Conn.runLrn, Conn.recvTraces, Conn.updateTraceRandoms, hx, hy, hw, Conn.numbers,
      TraceRandom.advance, ConnVarRandom.advance, Learning.recvTraces, drawsOf, h2, hd]
    rfl
  · simp only [Conn.recvTraces, Conn.updateTraceRandoms, hx, hy, hw, Conn.numbers,
      TraceRandom.advance, Learning.recvTraces, drawsOf, h2]
    rfl

/-- **C133, which numbers are used.**  For every generator, configuration, seed and history of spikes,
after any number of time steps the connection is in the state reached with the random numbers
`drawsOf`. -/
theorem C133_which_numbers (g : Gen) (c : Cfg) (rngSeed : Nat) (s0 : St) (p : Nat → Spikes) (n : Nat) :
    (Conn.run g c rngSeed s0 p n).st = run c s0 (drawsOf g c rngSeed p) n := by
  induction n with
  | zero => rfl
  | succ n ih =>
    show ((Conn.run g c rngSeed s0 p n).step g c (n + 1) (p (n + 1))).st = _
    rw [step_st p (run_inv g c rngSeed s0 p n), ih]
    rfl

/-- No draw of a stream is used at the end of an epoch and again at the end of a later one, and a
post-synaptic spike never uses a draw that an epoch end uses. -/
theorem C133_draws_fresh (e : Nat) (m n : Nat) (hm : m < n) (gm : lrnGuard e m = true)
    (gn : lrnGuard e n = true) (he : 0 < e) :
    2 * m < 2 * n ∧ m / e < n / e ∧ ∀ k, 1 ≤ k → 2 * k - 1 ≠ 2 * n := by
  refine ⟨by omega, ?_, by intros; omega⟩
  simp only [lrnGuard, beq_iff_eq] at gm gn
  obtain ⟨a, rfl⟩ := Nat.dvd_of_mod_eq_zero gm
  obtain ⟨b, rfl⟩ := Nat.dvd_of_mod_eq_zero gn
  rw [Nat.mul_div_cancel_left _ he, Nat.mul_div_cancel_left _ he]
  exact Nat.lt_of_mul_lt_mul_left hm

theorem drawsOf_ok {g : Gen} (hg : g.ok) (c : Cfg) (rs : Nat) (p : Nat → Spikes) (n : Nat) :
    (drawsOf g c rs p n).ok :=
  ⟨(hg.floats _ _).1, (hg.floats _ _).1, (hg.floats _ _).1, hg.ints _ _, hg.ints _ _, hg.ints _ _⟩

/-- **C133, traces stay in range.**  With generators that keep their ranges, all traces are 7-bit
values at all times, for payloads of at most 254 (any in the regular mode). -/
theorem C133_traces_in_range (g : Gen) (hg : g.ok) (c : Cfg) (hc : c.decaysOk) (rngSeed : Nat)
    (s0 : St) (h0 : s0.tracesOk) (p : Nat → Spikes) (hp : ∀ n, payloadOk c (p n).pre) (n : Nat) :
    (Conn.run g c rngSeed s0 p n).st.tracesOk := by
  rw [C133_which_numbers]
  exact C56_traces_in_range_partial c s0 _ hc h0 (drawsOf_ok hg c rngSeed p) hp n

/-- **Finding.**  `rng_seed` does not reach the rounding of synaptic variables: in two connections with
the same epoch length, whatever their seeds, states, configurations and spikes, the number that
rounds weights, delays and tags is the same at all times. -/
theorem C133_weight_numbers_shared (g : Gen) (c c' : Cfg) (hc : c.tEpoch = c'.tEpoch) (r r' : Nat)
    (s s' : St) (p p' : Nat → Spikes) (n : Nat) :
    (Conn.run g c r s p n).wr = (Conn.run g c' r' s' p' n).wr := by
  rw [(run_inv g c r s p n).w, (run_inv g c' r' s' p' n).w, hc]

/-- **Finding.**  Streams of neighbouring seeds coincide: the post-synaptic numbers of a connection
with seed `r` are the pre-synaptic ones of a connection with seed `r + 2`, at all times. -/
theorem C133_seeds_overlap (g : Gen) (c c' : Cfg) (r : Nat) (s s' : St) (p p' : Nat → Spikes)
    (n : Nat) :
    (Conn.run g c r s p n).yr = (Conn.run g c' (r + 2) s' p' n).xr := by
  rw [(run_inv g c r s p n).y, (run_inv g c' (r + 2) s' p' n).x]

/-- **Finding.**  With `rng_seed = 2` the numbers that round the traces and the weights come from the same
stream: at an epoch end at time `n` the weight uses a draw that the decay of the pre-synaptic traces
has used or will use at time `n / (2 * tEpoch)`, if that is a whole number. -/
theorem C133_seed_two (g : Gen) (c : Cfg) (s0 : St) (p : Nat → Spikes) (k : Nat) (he : 0 < c.tEpoch) :
    (Conn.run g c 2 s0 p (2 * k * c.tEpoch)).wr.rnd = (Conn.run g c 2 s0 p k).xr.decay := by
  rw [(run_inv g c 2 s0 p _).w, (run_inv g c 2 s0 p k).x]
  simp only [Nat.mul_div_cancel _ he]

/-! ### When the seed does not matter -/

/-- A trace whose impulse is a whole number and that either does not decay or decays at once. -/
def TrCfg.exact (c : TrCfg) : Prop := c.frac = 0 ∧ (c.decay = 0 ∨ c.decay = 1)

theorem addImpulse_exact {c : TrCfg} (h : c.exact) {r : Int} (hr : 0 ≤ r) (tr : Int) :
    addImpulse c r tr = clipI 0 (2 ^ 7 - 1) (tr + c.imp) := by
  unfold addImpulse stochRound
  rw [h.1, if_neg]
  have : (0 : ℚ) ≤ (r : ℚ) := by exact_mod_cast hr
  push_cast
  linarith

theorem decayTrace_exact {c : TrCfg} (h : c.exact) {r : ℚ} (hr : 0 ≤ r) (tr : Int) :
    decayTrace c r tr = if c.decay = 0 then 0 else tr := by
  unfold decayTrace stochRound
  rcases h.2 with h | h
  · rw [h]; simp; linarith
  · rw [h]; simp; linarith

theorem hist_exact {c : TrCfg} (h : c.exact) {a b : ℚ} {i j : Int} (ha : 0 ≤ a) (hb : 0 ≤ b)
    (hi : 0 ≤ i) (hj : 0 ≤ j) (ts : Nat) (tr : Int) (t : Nat) :
    hist c a i ts tr t = hist c b j ts tr t := by
  induction t with
  | zero => rfl
  | succ t ih =>
    simp only [hist, histStep, ih, addImpulse_exact h hi, addImpulse_exact h hj,
      decayTrace_exact h ha, decayTrace_exact h hb]

/-- All five traces are exact. -/
def Cfg.exact (c : Cfg) : Prop :=
  ∀ k ∈ [c.cx1, c.cx2, c.cy1, c.cy2, c.cy3], k.exact

theorem step_exact {c : Cfg} (h : c.exact) {i j : Inp} (hi : i.ok) (hj : j.ok) (h1 : i.pre = j.pre)
    (h2 : i.post = j.post) (h3 : i.rndW = j.rndW) (time : Nat) (s : St) :
    step c time s i = step c time s j := by
  have e1 : c.cx1.exact := h _ (by simp)
  have e2 : c.cx2.exact := h _ (by simp)
  have e3 : c.cy1.exact := h _ (by simp)
  have e4 : c.cy2.exact := h _ (by simp)
  have e5 : c.cy3.exact := h _ (by simp)
  have hr : recvTraces c time s i = recvTraces c time s j := by
    simp only [recvTraces, postSpike, h1, h2, addImpulse_exact e3 hi.d.1,
      addImpulse_exact e3 hj.d.1, addImpulse_exact e4 hi.d.1, addImpulse_exact e4 hj.d.1,
      addImpulse_exact e5 hi.d.1, addImpulse_exact e5 hj.d.1]
  have ht : ∀ s t v, traceAt c s i t v = traceAt c s j t v := by
    intro s t v
    cases v <;> simp only [traceAt]
    · exact hist_exact e1 hi.a hj.a hi.e.1 hj.e.1 _ _ _
    · exact hist_exact e2 hi.a hj.a hi.e.1 hj.e.1 _ _ _
    · exact hist_exact e3 hi.b hj.b hi.f.1 hj.f.1 _ _ _
    · exact hist_exact e4 hi.b hj.b hi.f.1 hj.f.1 _ _ _
    · exact hist_exact e5 hi.b hj.b hi.f.1 hj.f.1 _ _ _
  have hl : ∀ s, runLrn c time s i = runLrn c time s j := by
    intro s
    simp only [runLrn, applierArgs, ht, h3]
  simp only [step, hr, hl]

/-- **C133, the seed does not matter without rounding of traces.**  If impulses are whole numbers and
traces do not decay or decay at once, two connections with different `rng_seed` and the same spikes
are in the same state (traces, spike times, weights, delays, tags) at all times, even though weights
are rounded stochastically. -/
theorem C133_seed_irrelevant (g : Gen) (hg : g.ok) (c : Cfg) (hc : c.exact) (r r' : Nat) (s0 : St)
    (p : Nat → Spikes) (n : Nat) :
    (Conn.run g c r s0 p n).st = (Conn.run g c r' s0 p n).st := by
  rw [C133_which_numbers, C133_which_numbers]
  induction n with
  | zero => rfl
  | succ n ih =>
    show step c (n + 1) (run c s0 (drawsOf g c r p) n) (drawsOf g c r p (n + 1)) =
      step c (n + 1) (run c s0 (drawsOf g c r' p) n) (drawsOf g c r' p (n + 1))
    rw [ih]
    exact step_exact hc (drawsOf_ok hg c r p (n + 1)) (drawsOf_ok hg c r' p (n + 1)) rfl rfl rfl _ _

/-! ### Examples -/

/-- A generator that depends on the seed and on the draw. -/
def exGen : Gen where
  floats s k := if (s + k) % 2 = 0 then 1 / 4 else 3 / 4
  ints s k := ((s + k) % 128 : Nat)

theorem exGen_ok : exGen.ok where
  floats s k := by unfold exGen; dsimp only; split <;> norm_num
  ints s k := by unfold exGen; dsimp only; constructor <;> omega

/-- Epochs of two steps; all traces get impulse 10 and are multiplied by `q` in every step; the
weight grows by half of `x1` at every epoch end. -/
def rndCfg (q : ℚ) : Cfg :=
  { tEpoch := 2, graded := .regular, cx1 := ⟨10, 0, q⟩, cx2 := ⟨10, 0, q⟩, cy1 := ⟨10, 0, q⟩,
    cy2 := ⟨10, 0, q⟩, cy3 := ⟨10, 0, q⟩, mode := .mixed,
    dw := some [⟨.u, 1, 6, [⟨.v .x1, none, false⟩], some 0⟩], dd := none, dt := none, dec := some 0 }

/-- A spike in every step. -/
def rndSpikes : Nat → Spikes := fun _ => ⟨1, true⟩

/-- Without decay the hypotheses of `C133_seed_irrelevant` hold, traces and weight change; with
decay 1/2 the seed matters. -/
theorem C133_example : (rndCfg 1).exact ∧
    ((Conn.run exGen (rndCfg 1) 0 exSt rndSpikes 4).st.x1 ≠ exSt.x1) ∧
    ((Conn.run exGen (rndCfg (1 / 2)) 0 exSt rndSpikes 4).st ≠
      (Conn.run exGen (rndCfg (1 / 2)) 1 exSt rndSpikes 4).st) := by
  refine ⟨?_, ?_, ?_⟩
  · intro k hk
    simp only [rndCfg, List.mem_cons, List.not_mem_nil, or_false, or_self] at hk
    subst hk
    exact ⟨rfl, Or.inr rfl⟩
  · decide +kernel
  · decide +kernel

end Verif.Learning
