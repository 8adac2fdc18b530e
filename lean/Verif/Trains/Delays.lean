import Verif.Trains.Lif
import Verif.Dense.Props

/-!
# C119: networks with a delay for every synapse
-/

namespace Verif.Trains

open Verif.Wiring (Builders)
open Verif.PortGraph (G run)
open Verif.Snn (Proc platform noProc fed_arranged)
open Verif.Snn.Spec (Gives Deployed Fed Arrangement recorded)
open Verif.Swap.Spec (stateAt sentAt)
open Verif.Swap (AnyVars lifC anyProcs delayDenseC denseC sparseC)
open Verif.SpikeNet (Net Conn spikeVec)
open Spec

theorem bit_one (b : Bool) : decide ((if b then (1 : Int) else 0) = 1) = b := by cases b <;> rfl

theorem bit_back (b : Bool) : (if decide ((if b then (1 : Int) else 0) = 1) = true then (1 : Int) else 0) = if b then 1 else 0 := by cases b <;> rfl

/-- **C119.** The equations between the spikes of a network have exactly one solution. -/
theorem C119_spikes_unique (net : Net) (np : Nat) (size : Nat → Nat) (len buf : Nat) (data : Nat → Nat → Nat → Int) (conn : Nat → Proc AnyVars (Nat → Int) Int)
    (ans : Nat → (Nat → Nat → Int) → Nat → Nat → Int)
    (hconn : ∀ c, c < net.conns.length → (conn c).kind = .synapse ∧ ∀ a t, sentAt (conn c) a t = some (ans c a t))
    (lim : Nat) (calls : List PortGraph.Op) (k : Nat) (svc : Nat → Nat) (pms : Nat → List Nat) (cap : Nat → Nat) (own : Nat → Nat) (name : Nat → String) (outs : Nat → List Nat) (procs : List Nat)
    (has : Nat → String → Bool) (b : Builders) (hd : Deployed lim calls (np + net.conns.length + np + np) (anyProcs net np size len buf data conn) k svc pms cap own name outs procs has b)
    (ha : Arrangement (run lim G.empty calls) own name np net.conns) :
    (∃ s, SpikeEq net np ans (Snn.extOf len data) s) ∧
    ∀ s s', SpikeEq net np ans (Snn.extOf len data) s → SpikeEq net np ans (Snn.extOf len data) s' → ∀ q, q < np → s q = s' q := by
  have hi := PortGraph.inv_run PortGraph.inv_empty lim calls hd.good
  have hf : Fed (run lim G.empty calls) (np + net.conns.length + np + np) own name (anyProcs net np size len buf data conn) :=
    fed_arranged (fun c hc => (hconn c hc).1) (fun _ => rfl) (fun _ => rfl) hi ha
  constructor
  · obtain ⟨⟨y, hy⟩, _⟩ := C119_one_solution lim calls _ _ k svc pms cap own name outs procs has b hd hf
    refine ⟨fun q t i => decide (y q t i = 1), ?_⟩
    have ppop : ∀ {q}, q < np → anyProcs net np size len buf data conn q = lifC (size q) (net.lif q) (net.vth q) := fun h => Snn.arr_pop h
    have pconn : ∀ {c}, c < net.conns.length → anyProcs net np size len buf data conn (np + c) = conn c := fun h => Snn.arr_conn h
    have psrc : ∀ {q}, q < np → anyProcs net np size len buf data conn (np + net.conns.length + q) = Snn.sourceProc (size q) len (data q) := fun h => Snn.arr_src h
    have hpop : ∀ q, q < np → ∀ t, y q t = spikeVec fun i => lifSpike (net.lif q i) (net.vth q i)
        (fun u => received (run lim G.empty calls) (np + net.conns.length + np + np) own name (anyProcs net np size len buf data conn) y q u i) t := by
      intro q hq t
      refine hy q t _ (by omega) ?_
      rw [ppop hq]
      show some ((lifC (size q) (net.lif q) (net.vth q)).fire (stateAt (lifC (size q) (net.lif q) (net.vth q)) _ t) _).2 = _
      rw [stateAt_lif]
      rfl
    have hbit : ∀ q, q < np → ∀ t i, (if decide (y q t i = 1) = true then (1 : Int) else 0) = y q t i := by
      intro q hq t i
      rw [hpop q hq t]
      exact bit_back _
    intro q hq t i
    have hr : ∀ u, received (run lim G.empty calls) (np + net.conns.length + np + np) own name (anyProcs net np size len buf data conn) y q u =
        fun i => input net.conns ans (Snn.extOf len data) (fun q t i => decide (y q t i = 1)) q u i := by
      intro u
      rw [received_pop hi ha hd.script y hq (by rw [ppop hq]; rfl)]
      funext i
      rw [Pi.add_apply, sum_filter_apply]
      unfold input
      have e0 : y (np + net.conns.length + q) u = Snn.extOf len data u q := by
        refine hy _ u _ (by omega) ?_
        rw [psrc hq]
        show some ((Snn.sourceProc (size q) len (data q) : Proc AnyVars _ _).out ((Snn.sourceProc (size q) len (data q) : Proc AnyVars _ _).begin_ (stateAt _ _ u))) = _
        rw [stateAt_source]
        rfl
      rw [e0]
      congr 2
      apply List.map_congr_left
      intro c hc
      rw [List.mem_range] at hc
      have e1 : y (np + c) u = ans c (fun u j => if decide (y net.conns[c].src u j = 1) = true then 1 else 0) u := by
        refine hy _ u _ (by omega) ?_
        have hr : ∀ u, received (run lim G.empty calls) (np + net.conns.length + np + np) own name (anyProcs net np size len buf data conn) y (np + c) u =
            fun j => if decide (y net.conns[c].src u j = 1) = true then 1 else 0 := by
          intro u
          rw [received_one hi hd.script y (x := "s_in") (by rw [pconn hc, (hconn c hc).1]; rfl) (ha.links c hc).2]
          funext j
          exact (hbit _ (ha.links c hc).1 u j).symm
        rw [funext hr, pconn hc, (hconn c hc).2]
      rw [List.getElem?_eq_getElem hc, e1]
      simp only [Option.map_some, Option.some.injEq, decide_eq_true_eq]
    have e := hpop q hq t
    rw [funext hr] at e
    show decide (y q t i = 1) = _
    rw [e]
    exact bit_one _
  · intro s s' h h' q hq
    funext t i
    have h1 := solves_trains hconn hi hd.script ha h
    have h2 := solves_trains hconn hi hd.script ha h'
    have e := agree hi hd.script hf h1 h2 t q (by omega) (.inl (by
      show (Snn.arranged np net.conns.length _ conn _ _ q).kind = .neuron
      rw [Snn.arr_pop hq]; rfl))
    unfold trains at e
    rw [if_pos hq, if_pos hq] at e
    have e := congrFun e i
    unfold spikeVec at e
    cases h1 : s q t i <;> cases h2 : s' q t i <;> simp [h1, h2] at e ⊢

/-- Parameters of a `DelayDense` process for connection `k` with the given delays: buffers for delays below `d` (`max_delay + 1`), weights prepared as in the first step (dense/models.py:316-331). -/
def delayPar (size : Nat → Nat) (d : Nat) (delay : Nat → Nat → Nat) (k : Conn) : Dense.DelayPar :=
  ⟨k.par.nIn, size k.dst, d, Dense.prepared k.par k.w, delay, k.par.weightExp⟩

/-- The network with a `DelayDense` process (dense/models.py:286-352) for every connection. -/
def delayProcs (net : Net) (np : Nat) (size : Nat → Nat) (len buf : Nat) (data : Nat → Nat → Nat → Int) (d : Nat → Nat) (delay : Nat → Nat → Nat → Nat) : Nat → Proc AnyVars (Nat → Int) Int :=
  anyProcs net np size len buf data fun c => match net.conns[c]? with | some k => delayDenseC (delayPar size (d c) (delay c) k) | none => noProc

/-- What connection `c` delivers: the prepared weights times the spikes that are due. -/
def delayAns (net : Net) (size : Nat → Nat) (delay : Nat → Nat → Nat → Nat) (c : Nat) (a : Nat → Nat → Int) (t i : Nat) : Int :=
  match net.conns[c]? with
  | some k => if i < size k.dst then delivered k.par.nIn (Dense.prepared k.par k.w) (delay c) a t i else 0
  | none => 0

/-- **C119.** LIF populations and `DelayDense` connections (no weight exponent, delays within the buffers): the sinks record the spikes of the network in which a spike that synapse `(i, j)` of a connection gets in
step `t` arrives in step `t + 1 + delay i j`. -/
theorem C119_delays (net : Net) (np : Nat) (size : Nat → Nat) (len buf : Nat) (data : Nat → Nat → Nat → Int) (d : Nat → Nat) (delay : Nat → Nat → Nat → Nat)
    (hexp : ∀ k ∈ net.conns, k.par.weightExp = 0) (hdelay : ∀ c i j, delay c i j < d c)
    (lim : Nat) (calls : List PortGraph.Op) (k : Nat) (svc : Nat → Nat) (pms : Nat → List Nat) (cap : Nat → Nat) (own : Nat → Nat) (name : Nat → String) (outs : Nat → List Nat) (procs : List Nat)
    (has : Nat → String → Bool) (b : Builders) (hd : Deployed lim calls (np + net.conns.length + np + np) (delayProcs net np size len buf data d delay) k svc pms cap own name outs procs has b)
    (ha : Arrangement (run lim G.empty calls) own name np net.conns) :
    ∃ s, SpikeEq net np (delayAns net size delay) (Snn.extOf len data) s ∧ (∀ s', SpikeEq net np (delayAns net size delay) (Snn.extOf len data) s' → ∀ q, q < np → s' q = s q) ∧
      ∀ T, T ≤ buf → ∀ q, q < np →
        Gives (platform (np + net.conns.length + np + np) (delayProcs net np size len buf data d delay) k svc pms cap) b [.run T, .get (np + net.conns.length + np + q) 0]
          [.ran, .value (recorded (size q) buf T fun t i => s q t i), .stopped] := by
  have hconn : ∀ c, c < net.conns.length → ((fun c => match net.conns[c]? with | some k => delayDenseC (delayPar size (d c) (delay c) k) | none => noProc : Nat → Proc AnyVars (Nat → Int) Int) c).kind = .synapse ∧
      ∀ a t, sentAt ((fun c => match net.conns[c]? with | some k => delayDenseC (delayPar size (d c) (delay c) k) | none => noProc : Nat → Proc AnyVars (Nat → Int) Int) c) a t =
        some (delayAns net size delay c a t) := by
    intro c hc
    dsimp only
    rw [List.getElem?_eq_getElem hc]
    refine ⟨rfl, fun a t => ?_⟩
    show some ((delayDenseC (delayPar size (d c) (delay c) net.conns[c]) : Proc AnyVars _ _).out (stateAt (delayDenseC (delayPar size (d c) (delay c) net.conns[c]) : Proc AnyVars _ _) a t)) = _
    rw [Swap.stateAt_delayDense]
    congr 1
    funext i
    unfold delayAns
    rw [List.getElem?_eq_getElem hc]
    show (if i < size net.conns[c].dst then Dense.delaySent (delayPar size (d c) (delay c) net.conns[c]) a t i else 0) = if i < size net.conns[c].dst then _ else 0
    split
    · rename_i h
      exact Dense.C40_delay_delivery (delayPar size (d c) (delay c) net.conns[c]) a t i h (hexp _ (List.getElem_mem hc)) (Nat.lt_of_le_of_lt (Nat.zero_le _) (hdelay c 0 0)) (fun j _ => hdelay c i j)
    · rfl
  obtain ⟨⟨s, hs⟩, hu⟩ := C119_spikes_unique net np size len buf data _ (delayAns net size delay) hconn lim calls k svc pms cap own name outs procs has b hd ha
  exact ⟨s, hs, fun s' h q hq => hu s' s h hs q hq, fun T hT q hq => C119_recorded net np size len buf data _ (delayAns net size delay) hconn lim calls k svc pms cap own name outs procs has b hd ha s hs T hT q hq⟩

end Verif.Trains
