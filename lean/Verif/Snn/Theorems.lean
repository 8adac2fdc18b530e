import Verif.Snn.Precision

/-!
# C115: recorded spikes
-/

namespace Verif.Snn

open Verif.Wired.Spec (Script Hosted Proper)
open Verif.Wiring (Builders)
open Verif.EndToEnd (Call Res)
open Verif.PortGraph (G run)
open Verif.SpikeNet (Net Conn fixAt fixSpike fltAt fltSpike fltPre)
open Spec

namespace Spec

/-- A ring buffer of `rows` rows and `buf` columns in C order after `T` steps: column `k` holds the spikes of step `k`. -/
def recorded {R : Type} [Zero R] [One R] (rows buf T : Nat) (spike : Nat → Nat → Bool) : List R :=
  (List.range (rows * buf)).map fun j => if j % buf < T ∧ spike (j % buf) (j / buf) = true then 1 else 0

end Spec

theorem sink_column {R : Type} [Zero R] [One R] {buf T k : Nat} (hT : T ≤ buf) (hk : k < buf) (x : Nat → Nat → R) :
    IO.sinkAt (fun _ => 0) buf (fun τ => x (τ - 1)) T k = if k < T then x k else fun _ => 0 := by
  by_cases h : k < T
  · rw [if_pos h]
    have := IO.C50_sink_recent (fun _ => (0 : R)) buf (fun τ => x (τ - 1)) T (k + 1) (by omega) (by omega) (by omega)
    rwa [Nat.add_sub_cancel, Nat.mod_eq_of_lt hk] at this
  · rw [if_neg h]
    exact IO.C50_sink_untouched _ _ _ k hk T (by omega)

theorem proper_get {X V W : Type} [AddCommMonoid V] {n p T : Nat} {P : Nat → Proc X V W} (hp : p < n) : Proper n (fun p => (P p).pm) [.run T, .get p 0] where
  gets q x h := by simp at h; omega
  sets q x ws h := by simp at h
  runs := ⟨T, by simp⟩

/-- **C115.** A network of LIF populations and Dense connections, with a source and a sink for every population, run with the fixed-point models: whatever the schedule, reading the sink of a population after
`T` steps (at most its number of columns) shows the spikes of the network's equations, column by column. -/
theorem C115_recorded_fixed (net : Net) (np : Nat) (size : Nat → Nat) (len buf : Nat) (data : Nat → Nat → Nat → Int) (lim : Nat) (calls : List PortGraph.Op) (k : Nat) (svc : Nat → Nat) (pms : Nat → List Nat)
    (cap : Nat → Nat) (own : Nat → Nat) (name : Nat → String) (outs : Nat → List Nat) (procs : List Nat) (has : Nat → String → Bool) (b : Builders)
    (hd : Deployed lim calls (np + net.conns.length + np + np) (fixProcs net np size len buf data) k svc pms cap own name outs procs has b)
    (ha : Arrangement (run lim G.empty calls) own name np net.conns) (T : Nat) (hT : T ≤ buf) (q : Nat) (hq : q < np) :
    Gives (platform (np + net.conns.length + np + np) (fixProcs net np size len buf data) k svc pms cap) b [.run T, .get (np + net.conns.length + np + q) 0]
      [.ran, .value (recorded (size q) buf T fun t i => fixSpike net (extOf len data) t q i), .stopped] := by
  have hi := PortGraph.inv_run PortGraph.inv_empty lim calls hd.good
  have hf : Fed (run lim G.empty calls) (np + net.conns.length + np + np) own name (fixProcs net np size len buf data) :=
    fed_arranged (by intro c hc; rw [fix_conn_kind net size c hc]; rfl) (fun _ => rfl) (fun _ => rfl) hi ha
  have h := C115_simulated lim calls _ _ k svc pms cap own name outs procs has b hd hf [.run T, .get (np + net.conns.length + np + q) 0] (proper_get (by omega))
  have hst := (fix_states net size len buf data hi ha hd.script T).2.2.2 q hq
  have hsnk : fixProcs net np size len buf data (np + net.conns.length + np + q) = sinkProc (size q) buf := arr_snk hq
  have e : results (fixProcs net np size len buf data) (next (run lim G.empty calls) (np + net.conns.length + np + np) own name (fixProcs net np size len buf data)) false
      (fun p => (fixProcs net np size len buf data p).init) [.run T, .get (np + net.conns.length + np + q) 0] =
      [.ran, .value (recorded (size q) buf T fun t i => fixSpike net (extOf len data) t q i), .stopped] := by
    simp only [results]
    rw [hst, hsnk]
    congr 3
    unfold recorded
    apply List.map_congr_left
    intro j hj
    have hb : 0 < buf := by
      rw [List.mem_range] at hj
      rcases Nat.eq_zero_or_pos buf with h0 | h0
      · have hj : j < size q * buf := hj
        rw [h0, Nat.mul_zero] at hj; omega
      · exact h0
    show IO.sinkAt (fun _ => 0) buf (fun τ => SpikeNet.spikeVec fun j => fixSpike net (extOf len data) (τ - 1) q j) T (j % buf) (j / buf) = _
    rw [sink_column hT (Nat.mod_lt _ hb) fun τ => SpikeNet.spikeVec fun j => fixSpike net (extOf len data) τ q j]
    by_cases h1 : j % buf < T
    · simp [h1, SpikeNet.spikeVec]
    · simp [h1]
  rw [e] at h
  exact h

/-- **C115.** ... run with the floating-point models (over exact numbers). -/
theorem C115_recorded_float (net : Net) (np : Nat) (size : Nat → Nat) (len buf : Nat) (data : Nat → Nat → Nat → Int) (lim : Nat) (calls : List PortGraph.Op) (k : Nat) (svc : Nat → Nat) (pms : Nat → List Nat)
    (cap : Nat → Nat) (own : Nat → Nat) (name : Nat → String) (outs : Nat → List Nat) (procs : List Nat) (has : Nat → String → Bool) (b : Builders)
    (hd : Deployed lim calls (np + net.conns.length + np + np) (fltProcs net np size len buf data) k svc pms cap own name outs procs has b)
    (ha : Arrangement (run lim G.empty calls) own name np net.conns) (T : Nat) (hT : T ≤ buf) (q : Nat) (hq : q < np) :
    Gives (platform (np + net.conns.length + np + np) (fltProcs net np size len buf data) k svc pms cap) b [.run T, .get (np + net.conns.length + np + q) 0]
      [.ran, .value (recorded (size q) buf T fun t i => fltSpike net (extOf len data) t q i), .stopped] := by
  have hi := PortGraph.inv_run PortGraph.inv_empty lim calls hd.good
  have hf : Fed (run lim G.empty calls) (np + net.conns.length + np + np) own name (fltProcs net np size len buf data) :=
    fed_arranged (by intro c hc; rw [flt_conn_kind net size c hc]; rfl) (fun _ => rfl) (fun _ => rfl) hi ha
  have h := C115_simulated lim calls _ _ k svc pms cap own name outs procs has b hd hf [.run T, .get (np + net.conns.length + np + q) 0] (proper_get (by omega))
  have hst := (flt_states net size len buf data hi ha hd.script T).2.2.2 q hq
  have hsnk : fltProcs net np size len buf data (np + net.conns.length + np + q) = sinkProc (size q) buf := arr_snk hq
  have e : results (fltProcs net np size len buf data) (next (run lim G.empty calls) (np + net.conns.length + np + np) own name (fltProcs net np size len buf data)) false
      (fun p => (fltProcs net np size len buf data p).init) [.run T, .get (np + net.conns.length + np + q) 0] =
      [.ran, .value (recorded (size q) buf T fun t i => fltSpike net (extOf len data) t q i), .stopped] := by
    simp only [results]
    rw [hst, hsnk]
    congr 3
    unfold recorded
    apply List.map_congr_left
    intro j hj
    have hb : 0 < buf := by
      rw [List.mem_range] at hj
      rcases Nat.eq_zero_or_pos buf with h0 | h0
      · have hj : j < size q * buf := hj
        rw [h0, Nat.mul_zero] at hj; omega
      · exact h0
    show IO.sinkAt (fun _ => 0) buf (fun τ => spikeVecQ fun j => fltSpike net (extOf len data) (τ - 1) q j) T (j % buf) (j / buf) = _
    rw [sink_column hT (Nat.mod_lt _ hb) fun τ => spikeVecQ fun j => fltSpike net (extOf len data) τ q j]
    by_cases h1 : j % buf < T
    · simp [h1, spikeVecQ]
    · simp [h1]
  rw [e] at h
  exact h

theorem recorded_congr {R : Type} [Zero R] [One R] {rows buf T : Nat} {s s' : Nat → Nat → Bool} (h : ∀ t, t < T → ∀ i, i < rows → s t i = s' t i) :
    (recorded rows buf T s : List R) = recorded rows buf T s' := by
  unfold recorded
  apply List.map_congr_left
  intro j hj
  rw [List.mem_range] at hj
  by_cases h1 : j % buf < T
  · rw [h _ h1 _ (Nat.div_lt_of_lt_mul (by rw [Nat.mul_comm]; exact hj))]
  · simp [h1]

theorem recorded_cast (rows buf T : Nat) (s : Nat → Nat → Bool) : (recorded rows buf T s : List ℚ) = (recorded rows buf T s : List Int).map Int.cast := by
  unfold recorded
  rw [List.map_map]
  apply List.map_congr_left
  intro j _
  dsimp only [Function.comp]
  split <;> simp

/-- **C115.** The same network run with the fixed-point and with the floating-point models, on different platforms and under different schedules: if the floating-point voltages stay away from the thresholds
(the margins of C111), the sinks show the same spikes. -/
theorem C115_same_recordings (net : Net) (np : Nat) (size : Nat → Nat) (len buf : Nat) (data : Nat → Nat → Nat → Int) (lim : Nat) (calls : List PortGraph.Op) (k k' : Nat) (svc svc' : Nat → Nat)
    (pms pms' : Nat → List Nat) (cap cap' : Nat → Nat) (own : Nat → Nat) (name : Nat → String) (outs : Nat → List Nat) (procs procs' : List Nat) (has has' : Nat → String → Bool) (b b' : Builders)
    (hd : Deployed lim calls (np + net.conns.length + np + np) (fixProcs net np size len buf data) k svc pms cap own name outs procs has b)
    (hd' : Deployed lim calls (np + net.conns.length + np + np) (fltProcs net np size len buf data) k' svc' pms' cap' own name outs procs' has' b')
    (ha : Arrangement (run lim G.empty calls) own name np net.conns) (T : Nat) (hT : T ≤ buf) (q : Nat) (hq : q < np)
    (hs : ∀ c ∈ net.conns, c.par.nIn ≤ size c.src)
    (hw : ∀ c ∈ net.conns, 0 ≤ c.par.weightExp ∧ ∀ i, ∀ j < c.par.nIn, c.wf i j = (Dense.prepared c.par c.w i j : ℚ) * 2 ^ c.par.weightExp)
    (hp : ∀ q, ∀ i < size q, (0 ≤ (net.lif q i).du ∧ (net.lif q i).du ≤ 4095) ∧ (0 < (net.lif q i).dv ∧ (net.lif q i).dv ≤ 4096))
    (Eu Ev : Nat → Nat → ℚ) (eu : ∀ q i, Eu q i = 4096 / (((net.lif q i).du : ℚ) + 1))
    (ev : ∀ q i, Ev q i = (Eu q i + 1) * 4096 / ((net.lif q i).dv : ℚ))
    (hr : ∀ t < T, ∀ q, ∀ i < size q, |64 * (fltPre net (extOf len data) t q i).u| + Eu q i ≤ 2 ^ 23 - 1 ∧
      |64 * (fltPre net (extOf len data) t q i).v| + Ev q i ≤ 2 ^ 23 - 1)
    (hm : ∀ t < T, ∀ q, ∀ i < size q, Ev q i < 64 * |(fltPre net (extOf len data) t q i).v - (net.vth q i : ℚ)|) :
    ∃ spikes : List Int,
      Gives (platform (np + net.conns.length + np + np) (fixProcs net np size len buf data) k svc pms cap) b [.run T, .get (np + net.conns.length + np + q) 0] [.ran, .value spikes, .stopped] ∧
      Gives (platform (np + net.conns.length + np + np) (fltProcs net np size len buf data) k' svc' pms' cap') b' [.run T, .get (np + net.conns.length + np + q) 0]
        [.ran, .value (spikes.map Int.cast), .stopped] := by
  refine ⟨recorded (size q) buf T fun t i => fixSpike net (extOf len data) t q i, ?_, ?_⟩
  · exact C115_recorded_fixed net np size len buf data lim calls k svc pms cap own name outs procs has b hd ha T hT q hq
  · have h := C115_recorded_float net np size len buf data lim calls k' svc' pms' cap' own name outs procs' has' b' hd' ha T hT q hq
    rw [recorded_congr (s' := fun t i => fixSpike net (extOf len data) t q i), recorded_cast] at h
    · exact h
    · intro t ht i hi
      exact (SpikeNet.C111_same_weights net (extOf len data) size T hs hw hp Eu Ev eu ev hr hm t ht q i hi).symm

end Verif.Snn
