import Verif.Trains.Props
import Verif.Swap.Sparse

/-!
# C119: networks of LIF populations with any connections
-/

namespace Verif.Trains

open Verif.Wired.Spec (linkedSum Linked Script Proper)
open Verif.Wiring (Builders Port)
open Verif.EndToEnd (Call Res)
open Verif.PortGraph (G run)
open Verif.Snn (Proc Kind Vars platform arranged popProc sourceProc sinkProc noProc linkedSum_feeds arr_pop arr_conn arr_src arr_snk fed_arranged)
open Verif.Snn.Spec (Gives Deployed Fed Feeds Arrangement recorded)
open Verif.Swap.Spec (stateAt sentAt)
open Verif.Swap (AnyVars lifC anyProcs delayDenseC denseC)
open Verif.SpikeNet (Net Conn spikeVec)
open Spec

namespace Spec

/-- A LIF neuron on its own: its state before step `t` if it receives `a u` in step `u`. -/
def lifObj (par : LIF.Par) (vth : Int) (a : Nat → Int) : Nat → LIF.Obj
  | 0 => ⟨⟨0, 0⟩, none⟩
  | t + 1 => (LIF.runSpk par vth (lifObj par vth a t) (a t)).1

/-- Does it spike in step `t`? -/
def lifSpike (par : LIF.Par) (vth : Int) (a : Nat → Int) (t : Nat) : Bool := (LIF.runSpk par vth (lifObj par vth a t) (a t)).2

/-- What neuron `i` of population `q` receives in step `t`: the external input and what each connection to `q` answers (`ans c a t i`: to the train `a`, in step `t`, on output `i`) to the spikes `s` of its
source population. -/
def input (conns : List Conn) (ans : Nat → (Nat → Nat → Int) → Nat → Nat → Int) (ext : Nat → Nat → Nat → Int) (s : Nat → Nat → Nat → Bool) (q t i : Nat) : Int :=
  ext t q i + ((List.range conns.length).map fun c => match conns[c]? with
    | some k => if k.dst = q then ans c (fun u j => if s k.src u j then 1 else 0) t i else 0
    | none => 0).sum

/-- The spikes of `np` populations satisfy the equations of the network. -/
def SpikeEq (net : Net) (np : Nat) (ans : Nat → (Nat → Nat → Int) → Nat → Nat → Int) (ext : Nat → Nat → Nat → Int) (s : Nat → Nat → Nat → Bool) : Prop :=
  ∀ q, q < np → ∀ t i, s q t i = lifSpike (net.lif q i) (net.vth q i) (fun u => input net.conns ans ext s q u i) t

/-- What `DelayDense` delivers on output `i` in step `t`: each synapse the spike that its source has sent `1 + delay` steps before. -/
def delivered (nIn : Nat) (w : Nat → Nat → Int) (delay : Nat → Nat → Nat) (a : Nat → Nat → Int) (t i : Nat) : Int :=
  ∑ j ∈ Finset.range nIn, if delay i j + 1 ≤ t then w i j * a (t - 1 - delay i j) j else 0

end Spec

theorem stateAt_lif (size : Nat) (par : Nat → LIF.Par) (vth : Nat → Int) (a : Nat → Nat → Int) : ∀ t,
    stateAt (lifC size par vth) a t = .pop fun i => lifObj (par i) (vth i) (fun u => a u i) t
  | 0 => rfl
  | t + 1 => by
    show ((lifC size par vth).fire (stateAt (lifC size par vth) a t) (a t)).1 = _
    rw [stateAt_lif size par vth a t]
    rfl

theorem stateAt_source (rows len : Nat) (data : Nat → Nat → Int) (a : Nat → Nat → Int) : ∀ t, stateAt (sourceProc rows len data : Proc AnyVars _ _) a t = .ring t data
  | 0 => rfl
  | t + 1 => by
    show (sourceProc rows len data : Proc AnyVars _ _).begin_ (stateAt (sourceProc rows len data : Proc AnyVars _ _) a t) = _
    rw [stateAt_source rows len data a t]
    rfl

theorem stateAt_sink (rows buf : Nat) (a : Nat → Nat → Int) : ∀ t, stateAt (sinkProc rows buf : Proc AnyVars _ _) a t = .ring t (IO.sinkAt (fun _ => 0) buf (fun τ => a (τ - 1)) t)
  | 0 => rfl
  | t + 1 => by
    show (sinkProc rows buf : Proc AnyVars _ _).absorb ((sinkProc rows buf : Proc AnyVars _ _).begin_ (stateAt (sinkProc rows buf : Proc AnyVars _ _) a t)) (a t) = _
    rw [stateAt_sink rows buf a t]
    rfl

section
variable {X V W : Type} [AddCommMonoid V] {g : G} {n : Nat} {own : Nat → Nat} {name : Nat → String} {P : Nat → Proc X V W} {outs : Nat → List Nat}

theorem received_one (hi : PortGraph.Inv g) (hs : Script g n own name outs fun p => (P p).pm) (y : Nat → Nat → V) {p q : Nat} {x : String} (hx : inName (P p).kind = x)
    (h : ∀ r, Feeds g n own name r p x ↔ r = q) (t : Nat) : received g n own name P y p t = y q t := by
  unfold received
  rw [hx]
  have e := linkedSum_feeds hi hs (fun r => y r t) (p := p) (x := x) (l := [q]) (by simp) (by intro r; rw [h]; simp)
  refine e.trans ?_
  simp

theorem received_pop (hi : PortGraph.Inv g) {np : Nat} {conns : List Conn} (ha : Arrangement g own name np conns)
    (hs : Script g (np + conns.length + np + np) own name outs fun p => (P p).pm) (y : Nat → Nat → V) {q : Nat} (hq : q < np) (hk : (P q).kind = .neuron) (t : Nat) :
    received g (np + conns.length + np + np) own name P y q t = y (np + conns.length + q) t +
      (((List.range conns.length).filter fun c => (conns[c]?.map Conn.dst) = some q).map fun c => y (np + c) t).sum := by
  unfold received
  rw [hk]
  have e := linkedSum_feeds hi hs (fun r => y r t) (p := q) (x := "a_in")
    (l := (np + conns.length + q) :: ((List.range conns.length).filter fun c => (conns[c]?.map Conn.dst) = some q).map fun c => np + c) ?_ ?_
  · refine e.trans ?_
    rw [List.map_cons, List.sum_cons, List.map_map]
    rfl
  · rw [List.nodup_cons]
    refine ⟨?_, List.Nodup.map_on (fun a _ b _ h => by omega) (List.nodup_range.filter _)⟩
    simp only [List.mem_map, List.mem_filter, List.mem_range, not_exists, not_and]
    intro c hc h
    omega
  · intro p
    rw [ha.pops q hq, List.mem_cons]
    apply or_congr Iff.rfl
    simp only [List.mem_map, List.mem_filter, List.mem_range, decide_eq_true_eq]
    constructor
    · rintro ⟨c, ⟨hc, h⟩, rfl⟩
      rw [List.getElem?_eq_getElem hc] at h
      exact ⟨c, hc, by simpa using h, rfl⟩
    · rintro ⟨c, hc, h, rfl⟩
      exact ⟨c, ⟨hc, by rw [List.getElem?_eq_getElem hc]; simpa using h⟩, rfl⟩

end

theorem sum_filter_apply (f : Nat → Nat → Int) (p : Nat → Bool) (i : Nat) : ∀ l : List Nat, ((l.filter p).map f).sum i = (l.map fun c => if p c then f c i else 0).sum
  | [] => rfl
  | c :: l => by
    have ih := sum_filter_apply f p i l
    rw [List.filter_cons]
    by_cases h : p c = true
    · rw [if_pos h, List.map_cons, List.sum_cons, List.map_cons, List.sum_cons, if_pos h, Pi.add_apply, ih]
    · rw [if_neg h, List.map_cons, List.sum_cons, if_neg h, zero_add, ih]

/-- The trains of the network: spikes, answers of the connections, external inputs. -/
def trains (np : Nat) (conns : List Conn) (ans : Nat → (Nat → Nat → Int) → Nat → Nat → Int) (ext : Nat → Nat → Nat → Int) (s : Nat → Nat → Nat → Bool) (p t : Nat) : Nat → Int :=
  if p < np then spikeVec (s p t)
  else if p < np + conns.length then match conns[p - np]? with
    | some k => ans (p - np) (fun u j => if s k.src u j then 1 else 0) t
    | none => fun _ => 0
  else ext t (p - (np + conns.length))

section
variable {net : Net} {np : Nat} {size : Nat → Nat} {len buf : Nat} {data : Nat → Nat → Nat → Int} {conn : Nat → Proc AnyVars (Nat → Int) Int} {ans : Nat → (Nat → Nat → Int) → Nat → Nat → Int}
  {g : G} {own : Nat → Nat} {name : Nat → String} {outs : Nat → List Nat}

/-- The trains of spikes that satisfy the equations solve the equations of the processes. -/
theorem solves_trains (hconn : ∀ c, c < net.conns.length → (conn c).kind = .synapse ∧ ∀ a t, sentAt (conn c) a t = some (ans c a t)) (hi : PortGraph.Inv g)
    (hsc : Script g (np + net.conns.length + np + np) own name outs fun p => (anyProcs net np size len buf data conn p).pm) (ha : Arrangement g own name np net.conns)
    {s : Nat → Nat → Nat → Bool} (hs : SpikeEq net np ans (Snn.extOf len data) s) :
    Solves g (np + net.conns.length + np + np) own name (anyProcs net np size len buf data conn) (trains np net.conns ans (Snn.extOf len data) s) := by
  have ppop : ∀ {q}, q < np → anyProcs net np size len buf data conn q = lifC (size q) (net.lif q) (net.vth q) := fun h => arr_pop h
  have pconn : ∀ {c}, c < net.conns.length → anyProcs net np size len buf data conn (np + c) = conn c := fun h => arr_conn h
  have psrc : ∀ {q}, q < np → anyProcs net np size len buf data conn (np + net.conns.length + q) = sourceProc (size q) len (data q) := fun h => arr_src h
  have psnk : ∀ {q}, q < np → anyProcs net np size len buf data conn (np + net.conns.length + np + q) = sinkProc (size q) buf := fun h => arr_snk h
  let y := trains np net.conns ans (Snn.extOf len data) s
  have ypop : ∀ {q}, q < np → ∀ t, y q t = spikeVec (s q t) := fun h t => if_pos h
  have yconn : ∀ {c}, (hc : c < net.conns.length) → ∀ t, y (np + c) t = ans c (fun u j => if s net.conns[c].src u j then 1 else 0) t := by
    intro c hc t
    show trains np net.conns ans (Snn.extOf len data) s (np + c) t = _
    unfold trains
    rw [if_neg (by omega), if_pos (by omega), Nat.add_sub_cancel_left, List.getElem?_eq_getElem hc]
  have ysrc : ∀ q t, y (np + net.conns.length + q) t = Snn.extOf len data t q := by
    intro q t
    show trains np net.conns ans (Snn.extOf len data) s (np + net.conns.length + q) t = _
    unfold trains
    rw [if_neg (by omega), if_neg (by omega), Nat.add_sub_cancel_left]
  show Solves g (np + net.conns.length + np + np) own name (anyProcs net np size len buf data conn) y
  intro p t v hp hv
  rcases Nat.lt_or_ge p np with h | h
  · have hr : ∀ u, received g (np + net.conns.length + np + np) own name (anyProcs net np size len buf data conn) y p u =
        fun i => input net.conns ans (Snn.extOf len data) s p u i := by
      intro u
      rw [received_pop hi ha hsc y h (by rw [ppop h]; rfl)]
      funext i
      rw [Pi.add_apply, ysrc, sum_filter_apply]
      unfold input
      congr 2
      apply List.map_congr_left
      intro c hc
      rw [List.mem_range] at hc
      rw [List.getElem?_eq_getElem hc, yconn hc]
      simp only [Option.map_some, Option.some.injEq, decide_eq_true_eq]
    rw [funext hr, ppop h] at hv
    rw [ypop h, ← Option.some.inj hv]
    show _ = ((lifC (size p) (net.lif p) (net.vth p)).fire (stateAt (lifC (size p) (net.lif p) (net.vth p)) _ t) _).2
    rw [stateAt_lif]
    funext i
    show (if s p t i then (1 : Int) else 0) = if lifSpike (net.lif p i) (net.vth p i) (fun u => input net.conns ans (Snn.extOf len data) s p u i) t then 1 else 0
    rw [hs p h t i]
  · rcases Nat.lt_or_ge p (np + net.conns.length) with h1 | h1
    · obtain ⟨c, rfl⟩ : ∃ c, p = np + c := ⟨p - np, by omega⟩
      have hc : c < net.conns.length := by omega
      have hr : ∀ u, received g (np + net.conns.length + np + np) own name (anyProcs net np size len buf data conn) y (np + c) u =
          fun j => if s net.conns[c].src u j then 1 else 0 := by
        intro u
        rw [received_one hi hsc y (x := "s_in") (by rw [pconn hc, (hconn c hc).1]; rfl) (ha.links c hc).2, ypop (ha.links c hc).1]
        rfl
      rw [funext hr, pconn hc, (hconn c hc).2] at hv
      rw [yconn hc, ← Option.some.inj hv]
    · rcases Nat.lt_or_ge p (np + net.conns.length + np) with h2 | h2
      · obtain ⟨q, rfl⟩ : ∃ q, p = np + net.conns.length + q := ⟨p - (np + net.conns.length), by omega⟩
        have hq : q < np := by omega
        rw [psrc hq] at hv
        rw [ysrc, ← Option.some.inj hv]
        show _ = (sourceProc (size q) len (data q) : Proc AnyVars _ _).out ((sourceProc (size q) len (data q) : Proc AnyVars _ _).begin_ (stateAt _ _ t))
        rw [stateAt_source]
        rfl
      · obtain ⟨q, rfl⟩ : ∃ q, p = np + net.conns.length + np + q := ⟨p - (np + net.conns.length + np), by omega⟩
        rw [psnk (by omega)] at hv
        cases hv

end

/-- **C119.** A network of LIF populations and any connections, with a source and a sink for every population. `ans c a` is what connection `c`, on its own, answers to the train `a`. Spikes that satisfy the
equations of the network are what the sinks record, whatever the schedule. -/
theorem C119_recorded (net : Net) (np : Nat) (size : Nat → Nat) (len buf : Nat) (data : Nat → Nat → Nat → Int) (conn : Nat → Proc AnyVars (Nat → Int) Int)
    (ans : Nat → (Nat → Nat → Int) → Nat → Nat → Int)
    (hconn : ∀ c, c < net.conns.length → (conn c).kind = .synapse ∧ ∀ a t, sentAt (conn c) a t = some (ans c a t))
    (lim : Nat) (calls : List PortGraph.Op) (k : Nat) (svc : Nat → Nat) (pms : Nat → List Nat) (cap : Nat → Nat) (own : Nat → Nat) (name : Nat → String) (outs : Nat → List Nat) (procs : List Nat)
    (has : Nat → String → Bool) (b : Builders) (hd : Deployed lim calls (np + net.conns.length + np + np) (anyProcs net np size len buf data conn) k svc pms cap own name outs procs has b)
    (ha : Arrangement (run lim G.empty calls) own name np net.conns) (s : Nat → Nat → Nat → Bool) (hs : SpikeEq net np ans (Snn.extOf len data) s) (T : Nat) (hT : T ≤ buf) (q : Nat) (hq : q < np) :
    Gives (platform (np + net.conns.length + np + np) (anyProcs net np size len buf data conn) k svc pms cap) b [.run T, .get (np + net.conns.length + np + q) 0]
      [.ran, .value (recorded (size q) buf T fun t i => s q t i), .stopped] := by
  have hi := PortGraph.inv_run PortGraph.inv_empty lim calls hd.good
  have psnk : ∀ {q}, q < np → anyProcs net np size len buf data conn (np + net.conns.length + np + q) = sinkProc (size q) buf := fun h => arr_snk h
  have hf : Fed (run lim G.empty calls) (np + net.conns.length + np + np) own name (anyProcs net np size len buf data conn) :=
    fed_arranged (fun c hc => (hconn c hc).1) (fun _ => rfl) (fun _ => rfl) hi ha
  let y := trains np net.conns ans (Snn.extOf len data) s
  have ypop : ∀ {q}, q < np → ∀ t, y q t = spikeVec (s q t) := fun h t => if_pos h
  have hsol := solves_trains hconn hi hd.script ha hs
  have hg := C119_network_is_its_parts lim calls _ _ k svc pms cap own name outs procs has b hd hf y hsol [.run T, .get (np + net.conns.length + np + q) 0] (Snn.proper_get (by omega)) (by simp)
  have e : shown (anyProcs net np size len buf data conn) (received (run lim G.empty calls) (np + net.conns.length + np + np) own name (anyProcs net np size len buf data conn) y) false 0
      [.run T, .get (np + net.conns.length + np + q) 0] = [.ran, .value (recorded (size q) buf T fun t i => s q t i), .stopped] := by
    have hr : ∀ u, received (run lim G.empty calls) (np + net.conns.length + np + np) own name (anyProcs net np size len buf data conn) y (np + net.conns.length + np + q) u = spikeVec (s q u) := by
      intro u
      rw [received_one hi hd.script y (x := "a_in") (by rw [psnk hq]; rfl) (ha.sinks q hq), ypop hq]
    simp only [shown, Nat.zero_add]
    rw [funext hr, psnk hq, stateAt_sink]
    congr 3
    unfold recorded
    apply List.map_congr_left
    intro j hj
    have hb : 0 < buf := by
      rw [List.mem_range] at hj
      rcases Nat.eq_zero_or_pos buf with h0 | h0
      · have hj : j < size q * buf := hj
        rw [h0, Nat.mul_zero] at hj; omega
      · exact h0
    show IO.sinkAt (fun _ => 0) buf (fun τ => spikeVec (s q (τ - 1))) T (j % buf) (j / buf) = _
    rw [Snn.sink_column hT (Nat.mod_lt _ hb) fun τ => spikeVec (s q τ)]
    by_cases h1 : j % buf < T
    · simp [h1, spikeVec]
    · simp [h1]
  rw [e] at hg
  exact hg

end Verif.Trains
