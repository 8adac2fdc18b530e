import Verif.Plastic.Theorems

/-!
# C116: what a user sees of a network with spike-timing dependent plasticity
-/

namespace Verif.Plastic

open Verif.Wired.Spec (Script Proper)
open Verif.Wiring (Port Builders)
open Verif.EndToEnd (Call Res)
open Verif.PortGraph (G run)
open Verif.Snn.Spec (Feeds Gives recorded)
open Verif.Neurons (FLSt flStep)
open Verif.Learning.Spec (Later trace pairStdp OnePerEpoch epochOf)
open Spec

namespace Spec

/-- What a user may read: the recorded spikes of a population, the weights of a learning connection. -/
inductive Query where
  | spikes (q : Nat)
  | weights (c : Nat)

/-- The call: `get` of the `data` of the sink or of the `weights` of the connection. -/
def Query.call (net : PNet) (np : Nat) : Query → Call ℚ
  | .spikes q => .get (np + net.conns.length + np + q) 0
  | .weights c => .get (np + c) 0

/-- What the call shows after `T` steps: recorded spikes column by column, weights row by row. -/
def Query.answer (net : PNet) (size : Nat → Nat) (buf : Nat) (spk : Nat → Nat → Nat → Bool) (T : Nat) : Query → Res ℚ
  | .spikes q => .value (recorded (size q) buf T fun t i => spk q i (t + 1))
  | .weights c => .value (match net.conns[c]? with
    | some k => (List.range (size k.dst * k.nIn)).map fun m => weight k spk T (m / k.nIn) (m % k.nIn)
    | none => [])

/-- The population exists; the connection exists and learns. -/
def Query.Valid (net : PNet) (np : Nat) : Query → Prop
  | .spikes q => q < np
  | .weights c => ∃ h : c < net.conns.length, net.conns[c].rule ≠ none

end Spec

/-- **C116.** A network of LIF populations with `Dense` connections and `LearningDense` connections with an STDP rule (each of which gets the spikes of the population it goes to back), with a source and a sink for every
population, run with the floating-point models on any platform. There are spikes `spk` that solve the equations of the network, in which weights change according to STDP, and whatever the schedule, a program
that runs `T` steps and then reads sinks and weights in any order shows these spikes and the weights that the STDP law gives for them. -/
theorem C116_stdp_network (net : PNet) (np : Nat) (size : Nat → Nat) (len buf : Nat) (data : Nat → Nat → Nat → ℚ) (lim : Nat) (calls : List PortGraph.Op) (k : Nat) (svc : Nat → Nat) (pms : Nat → List Nat)
    (cap : Nat → Nat) (own : Nat → Nat) (name : Nat → String) (outs : Nat → List Nat) (ps : List Nat) (has : Nat → String → Bool) (b : Builders)
    (hd : Deployed lim calls (np + net.conns.length + np + np) (procs net np size len buf data) k svc pms cap own name outs ps has b)
    (ha : Arrangement (run lim G.empty calls) own name np net.conns) (hok : ∀ c ∈ net.conns, ∀ r, c.rule = some r → Rule.Ok r) :
    ∃ spk, Solves net np (extOf len data) spk ∧ ∀ T, T ≤ buf → ∀ qs : List Query, (∀ x ∈ qs, x.Valid net np) →
      Gives (platform (np + net.conns.length + np + np) (procs net np size len buf data) k svc pms cap) b (.run T :: qs.map (Query.call net np))
        (.ran :: qs.map (Query.answer net size buf spk T) ++ [.stopped]) := by
  have hi := PortGraph.inv_run PortGraph.inv_empty lim calls hd.good
  refine ⟨spk net np size len buf data (run lim G.empty calls) own name, spk_solves hi ha hd.script hok, ?_⟩
  intro T hT qs hv
  have hp : Proper (np + net.conns.length + np + np) (fun p => (procs net np size len buf data p).pm) (.run T :: qs.map (Query.call net np)) := by
    refine ⟨?_, ?_, ⟨T, by simp⟩⟩
    · intro p x h
      simp only [List.mem_cons, reduceCtorEq, List.mem_map, false_or] at h
      obtain ⟨y, hy, e⟩ := h
      have := hv y hy
      cases y with
      | spikes q => cases e; have : q < np := this; omega
      | weights c => cases e; obtain ⟨h, _⟩ := this; omega
    · intro p x ws h
      simp only [List.mem_cons, reduceCtorEq, List.mem_map, false_or] at h
      obtain ⟨y, _, e⟩ := h
      cases y <;> cases e
  have h := C116_simulated lim calls _ _ k svc pms cap own name outs ps has b hd (fed_procs hi ha hd.script) _ hp
  have hat := state_at hi ha hd.script hok T
  have e : ∀ qs : List Query, (∀ x ∈ qs, x.Valid net np) →
      results (procs net np size len buf data) (next (run lim G.empty calls) (np + net.conns.length + np + np) own name (procs net np size len buf data)) true
        (stateAt net np size len buf data (run lim G.empty calls) own name T) (qs.map (Query.call net np)) =
      qs.map (Query.answer net size buf (spk net np size len buf data (run lim G.empty calls) own name) T) ++ [.stopped] := by
    intro qs
    induction qs with
    | nil => intro _; rfl
    | cons x xs ih =>
      intro hv
      rw [List.map_cons, List.map_cons, List.cons_append, ← ih fun y hy => hv y (by simp [hy])]
      have hx := hv x (by simp)
      cases x with
      | spikes q =>
        have hq : q < np := hx
        show Res.value _ :: _ = Res.value _ :: _
        rw [hat.snk q hq, procs_snk hq]
        congr 2
        unfold recorded
        apply List.map_congr_left
        intro j hj
        have hb : 0 < buf := by
          rw [List.mem_range] at hj
          rcases Nat.eq_zero_or_pos buf with h0 | h0
          · have hj : j < size q * buf := hj
            rw [h0, Nat.mul_zero] at hj; omega
          · exact h0
        have e := Snn.sink_column (R := ℚ) hT (Nat.mod_lt j hb) (fun τ i => if spk net np size len buf data (run lim G.empty calls) own name q i (τ + 1) then 1 else 0)
        have e' : IO.sinkAt (fun _ => (0 : ℚ)) buf (fun τ i => if spk net np size len buf data (run lim G.empty calls) own name q i τ then 1 else 0) T =
            IO.sinkAt (fun _ => 0) buf (fun τ i => if spk net np size len buf data (run lim G.empty calls) own name q i (τ - 1 + 1) then 1 else 0) T := by
          have hcong : ∀ T, IO.sinkAt (fun _ => (0 : ℚ)) buf (fun τ i => if spk net np size len buf data (run lim G.empty calls) own name q i τ then 1 else 0) T =
              IO.sinkAt (fun _ => 0) buf (fun τ i => if spk net np size len buf data (run lim G.empty calls) own name q i (τ - 1 + 1) then 1 else 0) T := by
            intro T
            induction T with
            | zero => rfl
            | succ T ih' =>
              show IO.upd (IO.sinkAt _ _ _ T) _ _ = IO.upd (IO.sinkAt _ _ _ T) _ _
              rw [ih']
              rfl
          exact hcong T
        show IO.sinkAt (fun _ => (0 : ℚ)) buf (fun τ i => if spk net np size len buf data (run lim G.empty calls) own name q i τ then 1 else 0) T (j % buf) (j / buf) = _
        rw [e', e]
        by_cases h1 : j % buf < T
        · simp [h1]
        · simp [h1]
      | weights c =>
        obtain ⟨hc, hr⟩ := hx
        show Res.value _ :: _ = Res.value _ :: _
        rw [procs_conn hc, List.getElem?_eq_getElem hc]
        congr 2
        have hst := hat.conn c hc
        obtain ⟨r, hr⟩ := Option.ne_none_iff_exists'.1 hr
        unfold ConnState at hst
        rw [hr] at hst
        obtain ⟨a, hst, hsyn⟩ := hst
        have ec : connOf size net.conns[c] = learnProc (size net.conns[c].dst) net.conns[c].nIn net.conns[c].w0 r.cfg := by unfold connOf; rw [hr]
        rw [ec, hst]
        show (List.range (size net.conns[c].dst * net.conns[c].nIn)).map _ = _
        apply List.map_congr_left
        intro m _
        have hw := synapse_weight hr (hok _ (List.getElem_mem hc) r hr) (spk net np size len buf data (run lim G.empty calls) own name) (m / net.conns[c].nIn) (m % net.conns[c].nIn) T
        rw [← hsyn] at hw
        have hw : a.w (m / net.conns[c].nIn) (m % net.conns[c].nIn) = _ := hw
        show (a.w (m / net.conns[c].nIn) (m % net.conns[c].nIn)).getD 0 = _
        rw [hw]
        rfl
  have e2 : results (procs net np size len buf data) (next (run lim G.empty calls) (np + net.conns.length + np + np) own name (procs net np size len buf data)) false
      (fun p => (procs net np size len buf data p).init) (.run T :: qs.map (Query.call net np)) =
      .ran :: qs.map (Query.answer net size buf (spk net np size len buf data (run lim G.empty calls) own name) T) ++ [.stopped] := by
    exact congrArg (Res.ran :: ·) (e qs hv)
  rw [e2] at h
  exact h

/-- **C116.** If no neuron spikes twice in an epoch, the STDP law is the sum over all pairs of spikes of the two neurons. -/
theorem C116_spike_pairs {c : PConn} {r : Rule} (hr : c.rule = some r) (hok : Rule.Ok r) (spk : Nat → Nat → Nat → Bool) (i j n : Nat)
    (h1 : OnePerEpoch r.cfg.tEpoch (spk c.src j)) (h2 : OnePerEpoch r.cfg.tEpoch (spk c.dst i)) :
    weight c spk (n * r.cfg.tEpoch) i j = c.w0 i j +
      pairStdp (amount r.lr r.aMinus) (amount r.lr r.aPlus) r.cfg.cx1.imp r.dx r.cfg.cy1.imp r.dy (spk c.src j) (spk c.dst i) (n * r.cfg.tEpoch) := by
  have e := synapse_weight hr hok spk i j (n * r.cfg.tEpoch)
  rw [Learning.C86_stdp_loihi r.cfg hok.epoch hok.graded hok.two hok.mode r.lr r.aMinus r.aPlus hok.dw hok.parses r.dx r.dy hok.dx hok.dy _
    ⟨rfl, rfl, rfl, rfl, rfl, rfl, rfl⟩ (c.w0 i j) rfl _ (by rw [preSpk_synInp]; exact h1) (by rw [postSpk_synInp]; exact h2) n, preSpk_synInp, postSpk_synInp] at e
  exact (Option.some.inj e).symm

/-! ## The equations determine the spikes -/

theorem later_congr {T n : Nat} (hT : 0 < T) {a b : Nat → Bool} (h : ∀ t, t ≤ n * T → a t = b t) {t : Nat} (ht : 1 ≤ t) (htn : t ≤ n * T) : Later T a t ↔ Later T b t := by
  have he : (epochOf T t + 1) * T ≤ n * T := by
    unfold epochOf
    apply Nat.mul_le_mul_right
    have : (t - 1) / T < n := (Nat.div_lt_iff_lt_mul hT).2 (by omega)
    omega
  unfold Later
  constructor
  · rintro ⟨s, h1, h2, h3⟩; exact ⟨s, h1, h2, by rw [← h s (by omega)]; exact h3⟩
  · rintro ⟨s, h1, h2, h3⟩; exact ⟨s, h1, h2, by rw [h s (by omega)]; exact h3⟩

theorem trace_congr {T n : Nat} (hT : 0 < T) {a b : Nat → Bool} (h : ∀ t, t ≤ n * T → a t = b t) {t : Nat} (htn : t ≤ n * T) (ht : 1 ≤ t) (imp d : ℚ) :
    trace imp d T a t = trace imp d T b t := by
  have he : (epochOf T t + 1) * T ≤ n * T := by
    unfold epochOf
    apply Nat.mul_le_mul_right
    have : (t - 1) / T < n := (Nat.div_lt_iff_lt_mul hT).2 (by omega)
    omega
  unfold trace
  apply Finset.sum_congr rfl
  intro s hs
  rw [Finset.mem_Icc] at hs
  have hcr : Learning.Spec.credit T a s = Learning.Spec.credit T b s := by
    unfold Learning.Spec.credit
    simp only [later_congr hT h hs.1 (by omega : s ≤ n * T)]
  rw [hcr, h s (by omega)]

theorem stdp_congr {T n : Nat} (hT : 0 < T) {a b a' b' : Nat → Bool} (h : ∀ t, t ≤ n * T → a t = a' t) (h' : ∀ t, t ≤ n * T → b t = b' t) (x y z u v w : ℚ) :
    stdpChange T x y z u v w a b (n * T) = stdpChange T x y z u v w a' b' (n * T) := by
  unfold stdpChange
  apply Finset.sum_congr rfl
  intro t ht
  rw [Finset.mem_Icc] at ht
  simp only [h t ht.2, h' t ht.2, later_congr hT h ht.1 ht.2, later_congr hT h' ht.1 ht.2, trace_congr hT h ht.2 ht.1, trace_congr hT h' ht.2 ht.1]

/-- **C116.** The equations of a network have only one solution: spikes, and with them weights, are determined by the input. -/
theorem C116_unique (net : PNet) (np : Nat) (ext : Nat → Nat → Nat → ℚ) (hin : ∀ c ∈ net.conns, c.src < np ∧ (c.rule ≠ none → c.dst < np))
    (hok : ∀ c ∈ net.conns, ∀ r, c.rule = some r → Rule.Ok r) (spk spk' : Nat → Nat → Nat → Bool) (h : Solves net np ext spk) (h' : Solves net np ext spk') :
    (∀ q, q < np → ∀ i t, spk q i t = spk' q i t) ∧ ∀ c ∈ net.conns, ∀ t i j, weight c spk t i j = weight c spk' t i j := by
  have hw : ∀ N, (∀ q, q < np → ∀ i t, t ≤ N → spk q i t = spk' q i t) → ∀ c ∈ net.conns, ∀ t, t ≤ N → ∀ i j, weight c spk t i j = weight c spk' t i j := by
    intro N hN c hc t ht i j
    unfold weight
    cases hr : c.rule with
    | none => rfl
    | some r =>
      have hT := (hok c hc r hr).epoch
      have hle : t / r.cfg.tEpoch * r.cfg.tEpoch ≤ t := Nat.div_mul_le_self _ _
      dsimp only
      rw [stdp_congr hT (a' := spk' c.src j) (b' := spk' c.dst i)]
      · intro s hs; exact hN _ (hin c hc).1 j s (by omega)
      · intro s hs; exact hN _ ((hin c hc).2 (by rw [hr]; simp)) i s (by omega)
  have hm : ∀ N, (∀ q, q < np → ∀ i t, t ≤ N → spk q i t = spk' q i t) → ∀ q i t, t ≤ N + 1 → input net ext spk t q i = input net ext spk' t q i := by
    intro N hN q i t ht
    unfold input
    congr 2
    apply List.map_congr_left
    intro c hc
    by_cases hd : c.dst = q
    · rw [if_pos hd, if_pos hd]
      apply Finset.sum_congr
      · apply Finset.filter_congr
        intro j _
        rw [hN _ (hin c hc).1 j (t - 1) (by omega)]
      · intro j _
        exact hw N hN c hc (t - 2) (by omega) i j
    · rw [if_neg hd, if_neg hd]
  have hv : ∀ N, (∀ q, q < np → ∀ i t, t ≤ N → spk q i t = spk' q i t) → ∀ q i t, t ≤ N + 1 → membrane net ext spk q i t = membrane net ext spk' q i t := by
    intro N hN q i t
    induction t with
    | zero => intro _; rfl
    | succ t ih =>
      intro ht
      show (flStep _ (membrane net ext spk q i t) (input net ext spk (t + 1) q i)).1 = (flStep _ (membrane net ext spk' q i t) (input net ext spk' (t + 1) q i)).1
      rw [ih (by omega), hm N hN q i (t + 1) ht]
  have key : ∀ N, ∀ q, q < np → ∀ i t, t ≤ N → spk q i t = spk' q i t := by
    intro N
    induction N with
    | zero =>
      intro q _ i t ht
      obtain rfl : t = 0 := by omega
      rw [h.start, h'.start]
    | succ N ih =>
      intro q hq i t ht
      by_cases hl : t ≤ N
      · exact ih q hq i t hl
      · obtain rfl : t = N + 1 := by omega
        rw [h.step q hq, h'.step q hq, hv N ih q i N (by omega), hm N ih q i (N + 1) (by omega)]
  exact ⟨fun q hq i t => key t q hq i t (le_refl _), fun c hc t i j => hw t (key t) c hc t (le_refl _) i j⟩

end Verif.Plastic
