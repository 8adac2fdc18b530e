import Verif.Plastic.Stdp
import Mathlib.Tactic.IntervalCases
import Mathlib.Tactic.NormNum

/-!
# C116: an example

A neuron excites another one through a connection that learns. A spike of the first makes the second spike one step later, and the weight grows at the end of the epoch.
-/

namespace Verif.Plastic

open Verif.PortGraph (G Reaches dstPorts run)
open Verif.Wired.Spec (Script Hosted Linked)
open Verif.Wiring (Builders buildChannels)
open Verif.Wired (connections POp)
open Verif.Snn.Spec (Feeds Gives recorded)
open Verif.Learning (exFCfg)
open Spec

/-- `STDPLoihi(learning_rate=1/2, A_plus=1, A_minus=-1, t_epoch=4)` with decays one half. -/
def exRule : Rule := ⟨exFCfg 4, 1 / 2, -1, 1, 1 / 2, 1 / 2⟩

def exNet : PNet := ⟨fun _ _ => ⟨1, 1, 0, 1⟩, [⟨0, 1, 1, fun _ _ => 2, some exRule⟩]⟩

/-- Input to neuron 0 in the first of eight steps. -/
def exData : Nat → Nat → Nat → ℚ := fun q t _ => if q = 0 ∧ t = 0 then 10 else 0

abbrev exProcs : Nat → Proc Vars (Nat → ℚ) ℚ := procs exNet 2 (fun _ => 1) 8 4 exData

/-- Ports: `a_in`, `s_out` of the populations, `s_in`, `s_in_bap`, `a_out` of the connection, `s_out` of the sources, `a_in` of the sinks. -/
def exCalls : List PortGraph.Op :=
  [.new .inp [1], .new .out [1], .new .inp [1], .new .out [1], .new .inp [1], .new .inp [1], .new .out [1], .new .out [1], .new .out [1], .new .inp [1], .new .inp [1],
    .connect 1 (.one 4) 1, .connect 6 (.one 2) 1, .connect 3 (.one 5) 1, .connectFrom 0 (.one 7) 1, .connect 8 (.one 2) 1, .connect 1 (.one 9) 1, .connect 3 (.one 10) 1]

def exOwn : Nat → Nat
  | 0 => 0 | 1 => 0 | 2 => 1 | 3 => 1 | 4 => 2 | 5 => 2 | 6 => 2 | 7 => 3 | 8 => 4 | 9 => 5 | 10 => 6 | _ => 99

def exName : Nat → String
  | 0 => "a_in" | 1 => "s_out" | 2 => "a_in" | 3 => "s_out" | 4 => "s_in" | 5 => "s_in_bap" | 6 => "a_out" | 7 => "s_out" | 8 => "s_out" | 9 => "a_in" | 10 => "a_in" | _ => ""

def exOuts : Nat → List Nat
  | 0 => [1] | 1 => [3] | 2 => [6] | 3 => [7] | 4 => [8] | _ => []

/-- The graph after the calls. -/
abbrev exG : G := run 50 G.empty exCalls

theorem ex_good : ∀ op ∈ exCalls, op.Good := by
  intro op hop
  simp only [exCalls, List.mem_cons, List.not_mem_nil, or_false] at hop
  rcases hop with rfl | rfl | rfl | rfl | rfl | rfl | rfl | rfl | rfl | rfl | rfl | rfl | rfl | rfl | rfl | rfl | rfl | rfl <;>
    simp [PortGraph.Op.Good, PortGraph.Arg.toList, PortGraph.CfgOk]

theorem ex_next : exG.next = 11 := by decide +kernel

theorem ex_inv : PortGraph.Inv exG := PortGraph.inv_run PortGraph.inv_empty 50 exCalls ex_good

/-- All connections are direct. -/
theorem ex_reaches {o i : Nat} : Reaches exG o i ↔ o < 11 ∧ i ∈ (exG.port o).outs := by
  have hflat : ∀ o, o < 11 → ∀ m ∈ (exG.port o).outs, (exG.port m).outs = [] := by decide +kernel
  constructor
  · intro h
    have ho : o < 11 := by have := (Wired.reaches_ends ex_inv h).1; rwa [ex_next] at this
    refine ⟨ho, ?_⟩
    rcases PortGraph.reaches_cases.1 h with h | ⟨m, hm, h⟩
    · exact h
    · exact absurd (hflat o ho m hm) (Wired.reaches_ends ex_inv h).2.2.1
  · rintro ⟨_, h⟩; exact .direct h

def exFeeds (p q : Nat) (x : String) : Bool :=
  (List.range 11).any fun o => (List.range 11).any fun i =>
    exOwn o = p && exOwn o < 7 && (exG.port o).kind = .out && exOwn i = q && exName i = x && (exG.port i).kind = .inp && i ∈ (exG.port o).outs

theorem ex_feeds {p q : Nat} {x : String} : Feeds exG 7 exOwn exName p q x ↔ exFeeds p q x = true := by
  unfold exFeeds
  simp only [List.any_eq_true, Bool.and_eq_true, decide_eq_true_eq, and_assoc]
  constructor
  · rintro ⟨o, ho, h1, h2, h3, i, h4, h5, h6, h7⟩
    rw [ex_next] at ho
    have hi := (Wired.reaches_ends ex_inv h7).2.1
    rw [ex_next] at hi
    exact ⟨o, List.mem_range.2 ho, i, List.mem_range.2 hi, h1, h2, h3, h4, h5, h6, (ex_reaches.1 h7).2⟩
  · rintro ⟨o, ho, i, hi, h1, h2, h3, h4, h5, h6, h7⟩
    rw [List.mem_range] at ho hi
    exact ⟨o, by rw [ex_next]; exact ho, h1, h2, h3, i, h4, h5, h6, ex_reaches.2 ⟨ho, h7⟩⟩

theorem feeds_lt {p q : Nat} {x : String} (h : exFeeds p q x = true) : p < 7 := by
  rw [← ex_feeds] at h; obtain ⟨o, _, h1, h2, _⟩ := h; omega

theorem ex_arrangement : Arrangement exG exOwn exName 2 exNet.conns where
  pops := by
    intro q hq p
    show Feeds exG 7 exOwn exName p q "a_in" ↔ _
    rw [ex_feeds]
    have h : ∀ q, q < 2 → ∀ p, p < 7 → (exFeeds p (q) "a_in" = true ↔ (p = 3 + q ∨ (1 = q ∧ p = 2))) := by decide +kernel
    have e : (p = 2 + exNet.conns.length + q ∨ ∃ c, ∃ h : c < exNet.conns.length, exNet.conns[c].dst = q ∧ p = 2 + c) ↔ (p = 3 + q ∨ (1 = q ∧ p = 2)) := by
      apply or_congr Iff.rfl
      constructor
      · rintro ⟨c, hc, h1, h2⟩
        have hc : c < 1 := hc
        interval_cases c
        exact ⟨h1, h2⟩
      · rintro ⟨h1, h2⟩
        exact ⟨0, by decide, h1, h2⟩
    rw [e]
    by_cases hp : p < 7
    · exact h q hq p hp
    · exact ⟨fun h => absurd (feeds_lt h) hp, fun h => by omega⟩
  links := by
    intro c hc
    have hc : c < 1 := hc
    have h : ∀ p, p < 7 → (exFeeds p 2 "s_in" = true ↔ p = 0) := by decide +kernel
    interval_cases c
    refine ⟨Nat.zero_lt_two, fun p => ?_⟩
    show Feeds exG 7 exOwn exName p 2 "s_in" ↔ p = 0
    rw [ex_feeds]
    by_cases hp : p < 7
    · exact h p hp
    · exact ⟨fun h => absurd (feeds_lt h) hp, fun h => by omega⟩
  baps := by
    intro c hc _
    have hc : c < 1 := hc
    have h : ∀ p, p < 7 → (exFeeds p 2 "s_in_bap" = true ↔ p = 1) := by decide +kernel
    interval_cases c
    refine ⟨Nat.one_lt_two, fun p => ?_⟩
    show Feeds exG 7 exOwn exName p 2 "s_in_bap" ↔ p = 1
    rw [ex_feeds]
    by_cases hp : p < 7
    · exact h p hp
    · exact ⟨fun h => absurd (feeds_lt h) hp, fun h => by omega⟩
  sinks := by
    intro q hq p
    show Feeds exG 7 exOwn exName p (5 + q) "a_in" ↔ p = q
    rw [ex_feeds]
    have h : ∀ q, q < 2 → ∀ p, p < 7 → (exFeeds p (5 + q) "a_in" = true ↔ p = q) := by decide +kernel
    by_cases hp : p < 7
    · exact h q hq p hp
    · exact ⟨fun h => absurd (feeds_lt h) hp, fun h => by omega⟩

/-- The port operations of the processes. -/
def exOps : Nat → List POp
  | 0 => [.recv "a_in", .send "s_out"] | 1 => [.recv "a_in", .send "s_out"] | 2 => [.send "a_out", .recv "s_in", .recv "s_in_bap"] | 3 => [.send "s_out"] | 4 => [.send "s_out"]
  | 5 => [.recv "a_in"] | 6 => [.recv "a_in"] | _ => []

theorem ex_ops (p : Nat) : (exProcs p).ops = exOps p := by
  rcases p with _ | _ | _ | _ | _ | _ | _ | p
  iterate 7 rfl
  unfold exProcs procs
  rw [show exNet.conns.length = 1 from rfl, if_neg (by omega), if_neg (by omega), if_neg (by omega), if_neg (by omega)]
  rfl

theorem ex_key : ∀ p, p < 7 → ∀ op ∈ exOps p, ∃ i ∈ List.range 11, exOwn i = p ∧ op = (if (exG.port i).kind = .inp then .recv (exName i) else .send (exName i)) ∧
    ((exG.port i).kind = .inp ∨ (exG.port i).kind = .out) := by decide +kernel

theorem ex_ops_lt {p : Nat} {op : POp} (h : op ∈ exOps p) : p < 7 := by
  rcases p with _ | _ | _ | _ | _ | _ | _ | p
  iterate 7 omega
  simp [exOps] at h

theorem ex_script : Script exG 7 exOwn exName exOuts fun p => (exProcs p).pm where
  io := by rw [ex_next]; decide +kernel
  names := by
    have h : ∀ i, i < 11 → ∀ j, j < 11 → exOwn i = exOwn j → exName i = exName j → i = j := by decide +kernel
    rw [ex_next]
    exact fun i j hi hj => h i hi j hj
  members := by
    intro p hp i
    rw [ex_next]
    have h : ∀ p, p < 7 → ∀ i, i < 11 → (i ∈ exOuts p ↔ exOwn i = p ∧ (exG.port i).kind = .out) := by decide +kernel
    constructor
    · intro hm
      have hi : i < 11 := by
        have : ∀ p, p < 7 → ∀ i ∈ exOuts p, i < 11 := by decide
        exact this p hp i hm
      exact ⟨hi, (h p hp i hi).1 hm⟩
    · rintro ⟨hi, hx⟩
      exact (h p hp i hi).2 hx
  leafOut := by rw [ex_next]; decide +kernel
  leafIn := by rw [ex_next]; decide +kernel
  once := by
    intro p
    show (exProcs p).ops.Nodup
    rw [ex_ops]
    rcases p with _ | _ | _ | _ | _ | _ | _ | p
    iterate 7 decide
    simp [exOps]
  recvs := by
    intro p x h
    have h : POp.recv x ∈ (exProcs p).ops := h
    rw [ex_ops] at h
    rw [ex_next]
    obtain ⟨i, h1, h2, h3, h4⟩ := ex_key p (ex_ops_lt h) _ h
    refine ⟨i, List.mem_range.1 h1, h2, ?_⟩
    split at h3
    · rename_i hki
      cases h3
      exact ⟨rfl, hki⟩
    · cases h3
  sends := by
    intro p x h
    have h : POp.send x ∈ (exProcs p).ops := h
    rw [ex_ops] at h
    rw [ex_next]
    obtain ⟨i, h1, h2, h3, h4⟩ := ex_key p (ex_ops_lt h) _ h
    refine ⟨i, List.mem_range.1 h1, h2, ?_⟩
    split at h3
    · cases h3
    · rename_i hki
      cases h3
      exact ⟨rfl, h4.resolve_left hki⟩
  usesIn := by
    rw [ex_next]
    intro i hi h1 h2 _
    show POp.recv (exName i) ∈ (exProcs (exOwn i)).ops
    rw [ex_ops]
    have : ∀ i, i < 11 → (exG.port i).kind = .inp → POp.recv (exName i) ∈ exOps (exOwn i) := by decide +kernel
    exact this i hi h2
  usesOut := by
    rw [ex_next]
    intro i hi h1 h2 _
    show POp.send (exName i) ∈ (exProcs (exOwn i)).ops
    rw [ex_ops]
    have : ∀ i, i < 11 → (exG.port i).kind = .out → POp.send (exName i) ∈ exOps (exOwn i) := by decide +kernel
    exact this i hi h2

def exBuilders : Builders := (buildChannels (fun _ _ => true) (connections exG 50 (List.range 7) exOuts exOwn exName)).getD Wiring.empty

/-- Two runtime services. -/
def exPms (i : Nat) : List Nat := if i < 2 then (List.range 7).filter fun p => p % 2 = i else []

theorem ex_deployed : Deployed 50 exCalls 7 exProcs 2 (fun p => p % 2) exPms (fun _ => 1) exOwn exName exOuts (List.range 7) (fun _ _ => true) exBuilders where
  good := ex_good
  hosted := {
    cap := fun _ => Nat.le_refl 1
    svc := fun p _ => Nat.mod_lt p (by decide)
    pms := by
      intro i
      show (exPms i).Nodup ∧ ∀ p, p ∈ exPms i ↔ p < 7 ∧ p % 2 = i
      unfold exPms
      split
      · exact ⟨List.nodup_range.filter _, fun p => by simp⟩
      · exact ⟨by simp, fun p => by simp; omega⟩ }
  all p := List.mem_range
  script := ex_script
  found := by
    intro p hp s hs
    have h : ∀ p, p < 7 → ∀ s ∈ exOuts p, (dstPorts exG false 50 s).isSome = true := by decide +kernel
    exact Option.isSome_iff_exists.1 (h p hp s hs)
  built := by
    have h : (buildChannels (fun _ _ => true) (connections exG 50 (List.range 7) exOuts exOwn exName)).isSome = true := by decide +kernel
    unfold exBuilders
    obtain ⟨b, hb⟩ := Option.isSome_iff_exists.1 h
    rw [hb]; rfl

theorem ex_ok : ∀ c ∈ exNet.conns, ∀ r, c.rule = some r → Rule.Ok r := by
  intro c hc r hr
  simp only [exNet, List.mem_singleton] at hc
  subst hc
  cases hr
  exact ⟨by decide, rfl, rfl, rfl, rfl, by decide +kernel, rfl, rfl⟩

/-- The spikes of the first four steps. -/
theorem ex_spikes {spk : Nat → Nat → Nat → Bool} (h : Solves exNet 2 (extOf 8 exData) spk) :
    ∀ t, t ≤ 4 → spk 0 0 t = decide (t = 1) ∧ spk 1 0 t = decide (t = 2) := by
  have w : ∀ t, t < 4 → weight ⟨0, 1, 1, fun _ _ => 2, some exRule⟩ spk t 0 0 = 2 := by
    intro t ht
    have e : t / exRule.cfg.tEpoch * exRule.cfg.tEpoch = 0 := by
      show t / 4 * 4 = 0
      omega
    simp only [weight]
    rw [e]
    simp [stdpChange]
  have i0 : ∀ t, input exNet (extOf 8 exData) spk t 0 0 = extOf 8 exData t 0 0 := by intro t; simp [input, exNet]
  have i1 : ∀ t, t < 6 → input exNet (extOf 8 exData) spk t 1 0 = if spk 0 0 (t - 1) = true then 2 else 0 := by
    intro t ht
    have hx : extOf 8 exData t 1 0 = 0 := by simp [extOf, exData]
    simp only [input, exNet, hx, List.map_cons, List.map_nil, if_true, List.sum_cons, List.sum_nil]
    by_cases hs : spk 0 0 (t - 1) = true <;> simp [Finset.range_one, Finset.sum_filter, hs, w (t - 2) (by omega)]
  have hl : ∀ q i, exNet.lif q i = ⟨1, 1, 0, 1⟩ := fun _ _ => rfl
  have a0 := h.start 0 0
  have b0 := h.start 1 0
  have a1 := h.step 0 (by decide) 0 0
  have a2 := h.step 0 (by decide) 0 1
  have a3 := h.step 0 (by decide) 0 2
  have a4 := h.step 0 (by decide) 0 3
  have b1 := h.step 1 (by decide) 0 0
  have b2 := h.step 1 (by decide) 0 1
  have b3 := h.step 1 (by decide) 0 2
  have b4 := h.step 1 (by decide) 0 3
  simp [membrane, i0, extOf, exData, hl, Neurons.flStep, Neurons.flSub] at a1 a2 a3 a4
  norm_num at a1 a2 a3 a4
  simp [membrane, i1, hl, Neurons.flStep, Neurons.flSub, a0, a1, a2, a3] at b1 b2 b3 b4
  norm_num at b1 b2 b3 b4
  intro t ht
  interval_cases t <;> simp [a0, a1, a2, a3, a4, b0, b1, b2, b3, b4]

/-- The weight after the first epoch: the pre-synaptic trace one step after a spike is 8, and the learning rate is one half. -/
theorem ex_weight {spk : Nat → Nat → Nat → Bool} (h : Solves exNet 2 (extOf 8 exData) spk) : weight ⟨0, 1, 1, fun _ _ => 2, some exRule⟩ spk 4 0 0 = 6 := by
  have hs := ex_spikes h
  have e : stdpChange 4 (amount (1 / 2) (-1)) (amount (1 / 2) 1) 16 (1 / 2) 16 (1 / 2) (spk 0 0) (spk 1 0) (1 * 4) =
      stdpChange 4 (amount (1 / 2) (-1)) (amount (1 / 2) 1) 16 (1 / 2) 16 (1 / 2) (fun t => decide (t = 1)) (fun t => decide (t = 2)) (1 * 4) :=
    stdp_congr (by decide) (fun t ht => (hs t (by omega)).1) (fun t ht => (hs t (by omega)).2) _ _ _ _ _ _
  have e2 : stdpChange 4 (amount (1 / 2) (-1)) (amount (1 / 2) 1) 16 (1 / 2) 16 (1 / 2) (fun t => decide (t = 1)) (fun t => decide (t = 2)) (1 * 4) = 4 := by
    decide +kernel
  show 2 + stdpChange 4 (amount (1 / 2) (-1)) (amount (1 / 2) 1) 16 (1 / 2) 16 (1 / 2) (spk 0 0) (spk 1 0) (4 / 4 * 4) = 6
  rw [show 4 / 4 * 4 = 1 * 4 from rfl, e, e2]
  norm_num

/-- **C116, example.** The network, connected by the calls `exCalls` and run for four steps on two runtime services: under every schedule the sinks show a spike in step 1 and one in step 2, and the weight has
grown from 2 to 6. -/
theorem C116_example :
    Gives (platform 7 exProcs 2 (fun p => p % 2) exPms fun _ => 1) exBuilders [.run 4, .get 5 0, .get 6 0, .get 2 0] [.ran, .value [1, 0, 0, 0], .value [0, 1, 0, 0], .value [6], .stopped] := by
  obtain ⟨spk, hs, h⟩ := C116_stdp_network exNet 2 (fun _ => 1) 8 4 exData 50 exCalls 2 _ _ _ _ _ _ _ _ _ ex_deployed ex_arrangement ex_ok
  have g := h 4 (le_refl 4) [.spikes 0, .spikes 1, .weights 0] (by
    intro x hx
    simp only [List.mem_cons, List.not_mem_nil, or_false] at hx
    rcases hx with rfl | rfl | rfl
    · exact Nat.zero_lt_two
    · exact Nat.one_lt_two
    · exact ⟨by decide, by simp [exNet]⟩)
  have v := ex_spikes hs
  have w := ex_weight hs
  have e0 : (recorded 1 4 4 fun t i => spk 0 i (t + 1) : List ℚ) = [1, 0, 0, 0] := by
    simp [recorded, List.range_succ, (v 1 (by decide)).1, (v 2 (by decide)).1, (v 3 (by decide)).1, (v 4 (by decide)).1]
  have e1 : (recorded 1 4 4 fun t i => spk 1 i (t + 1) : List ℚ) = [0, 1, 0, 0] := by
    simp [recorded, List.range_succ, (v 1 (by decide)).2, (v 2 (by decide)).2, (v 3 (by decide)).2, (v 4 (by decide)).2]
  have ea : [Query.spikes 0, Query.spikes 1, Query.weights 0].map (Query.answer exNet (fun _ => 1) 4 spk 4) = [.value [1, 0, 0, 0], .value [0, 1, 0, 0], .value [6]] := by
    simp only [List.map_cons, List.map_nil, Query.answer, e0, e1]
    show [_, _, EndToEnd.Res.value [weight ⟨0, 1, 1, fun _ _ => 2, some exRule⟩ spk 4 0 0]] = _
    rw [w]
  rw [ea] at g
  exact g

end Verif.Plastic
