import Verif.Snn.Theorems
import Mathlib.Tactic.IntervalCases

/-!
# C115: an example

The oscillator of `Verif.SpikeNet.Props`: population 0 gets a constant input from its source and excites population 1, which inhibits it.
-/

namespace Verif.Snn

open Verif.PortGraph (G Reaches dstPorts run)
open Verif.Wired.Spec (Script Hosted Linked)
open Verif.Wiring (Builders buildChannels)
open Verif.SpikeNet (osc oscIn oscSize fixSpike)
open Verif.Wired (connections POp)
open Spec

/-- Ports: `a_in`, `s_out` of the populations, `s_in`, `a_out` of the connections, `s_out` of the sources, `a_in` of the sinks. -/
def exCalls : List PortGraph.Op :=
  [.new .inp [1], .new .out [1], .new .inp [1], .new .out [1], .new .inp [1], .new .out [1], .new .inp [1], .new .out [1], .new .out [1], .new .out [1], .new .inp [1], .new .inp [1],
    .connect 1 (.one 4) 1, .connect 5 (.one 2) 1, .connect 3 (.one 6) 1, .connect 7 (.one 0) 1, .connectFrom 0 (.one 8) 1, .connect 9 (.one 2) 1, .connect 1 (.one 10) 1, .connect 3 (.one 11) 1]

def exOwn : Nat → Nat
  | 0 => 0 | 1 => 0 | 2 => 1 | 3 => 1 | 4 => 2 | 5 => 2 | 6 => 3 | 7 => 3 | 8 => 4 | 9 => 5 | 10 => 6 | 11 => 7 | _ => 99

def exName : Nat → String
  | 0 => "a_in" | 1 => "s_out" | 2 => "a_in" | 3 => "s_out" | 4 => "s_in" | 5 => "a_out" | 6 => "s_in" | 7 => "a_out" | 8 => "s_out" | 9 => "s_out" | 10 => "a_in" | 11 => "a_in" | _ => ""

def exOuts : Nat → List Nat
  | 0 => [1] | 1 => [3] | 2 => [5] | 3 => [7] | 4 => [8] | 5 => [9] | _ => []

/-- The graph after the calls. -/
abbrev exG : G := run 50 G.empty exCalls

def exData : Nat → Nat → Nat → Int := fun q _ _ => if q = 0 then 10 else 0

theorem ex_good : ∀ op ∈ exCalls, op.Good := by
  intro op hop
  simp only [exCalls, List.mem_cons, List.not_mem_nil, or_false] at hop
  rcases hop with rfl | rfl | rfl | rfl | rfl | rfl | rfl | rfl | rfl | rfl | rfl | rfl | rfl | rfl | rfl | rfl | rfl | rfl | rfl | rfl <;>
    simp [PortGraph.Op.Good, PortGraph.Arg.toList, PortGraph.CfgOk]

theorem ex_next : exG.next = 12 := by decide +kernel

theorem ex_inv : PortGraph.Inv exG := PortGraph.inv_run PortGraph.inv_empty 50 exCalls ex_good

/-- All connections are direct. -/
theorem ex_reaches {o i : Nat} : Reaches exG o i ↔ o < 12 ∧ i ∈ (exG.port o).outs := by
  have hflat : ∀ o, o < 12 → ∀ m ∈ (exG.port o).outs, (exG.port m).outs = [] := by decide +kernel
  constructor
  · intro h
    have ho : o < 12 := by have := (Wired.reaches_ends ex_inv h).1; rwa [ex_next] at this
    refine ⟨ho, ?_⟩
    rcases PortGraph.reaches_cases.1 h with h | ⟨m, hm, h⟩
    · exact h
    · exact absurd (hflat o ho m hm) (Wired.reaches_ends ex_inv h).2.2.1
  · rintro ⟨_, h⟩; exact .direct h

def exFeeds (p q : Nat) (x : String) : Bool :=
  (List.range 12).any fun o => (List.range 12).any fun i =>
    exOwn o = p && exOwn o < 8 && (exG.port o).kind = .out && exOwn i = q && exName i = x && (exG.port i).kind = .inp && i ∈ (exG.port o).outs

theorem ex_feeds {p q : Nat} {x : String} : Feeds exG 8 exOwn exName p q x ↔ exFeeds p q x = true := by
  unfold exFeeds
  simp only [List.any_eq_true, Bool.and_eq_true, decide_eq_true_eq, and_assoc]
  constructor
  · rintro ⟨o, ho, h1, h2, h3, i, h4, h5, h6, h7⟩
    rw [ex_next] at ho
    have hi := (Wired.reaches_ends ex_inv h7).2.1
    rw [ex_next] at hi
    exact ⟨o, List.mem_range.2 ho, i, List.mem_range.2 hi, h1, h2, h3, h4, h5, h6, (ex_reaches.1 h7).2⟩
  · rintro ⟨o, ho, i, hi, h1, h2, h3, h4, h5, h6, h7⟩
    rw [List.mem_range] at ho hi
    exact ⟨o, by rw [ex_next]; exact ho, h1, h2, h3, i, h4, h5, h6, ex_reaches.2 ⟨ho, h7⟩⟩

theorem ex_arrangement : Arrangement exG exOwn exName 2 osc.conns where
  pops := by
    intro q hq p
    show Feeds exG 8 exOwn exName p q "a_in" ↔ _
    rw [ex_feeds]
    have h : ∀ q, q < 2 → ∀ p, p < 8 → (exFeeds p (q) "a_in" = true ↔ (p = 4 + q ∨ (1 = q ∧ p = 2) ∨ (0 = q ∧ p = 3))) := by decide +kernel
    have e : (p = 2 + osc.conns.length + q ∨ ∃ c, ∃ h : c < osc.conns.length, osc.conns[c].dst = q ∧ p = 2 + c) ↔ (p = 4 + q ∨ (1 = q ∧ p = 2) ∨ (0 = q ∧ p = 3)) := by
      apply or_congr Iff.rfl
      constructor
      · rintro ⟨c, hc, h1, h2⟩
        have hc : c < 2 := hc
        interval_cases c
        · exact .inl ⟨h1, h2⟩
        · exact .inr ⟨h1, h2⟩
      · rintro (⟨h1, h2⟩ | ⟨h1, h2⟩)
        · exact ⟨0, by decide, h1, h2⟩
        · exact ⟨1, by decide, h1, h2⟩
    rw [e]
    by_cases hp : p < 8
    · exact h q hq p hp
    · constructor
      · intro h; rw [← ex_feeds] at h; obtain ⟨o, _, h1, h2, _⟩ := h; omega
      · intro h; omega
  links := by
    intro c hc
    have hc : c < 2 := hc
    have h : ∀ p, p < 8 → (exFeeds p (2) "s_in" = true ↔ p = 0) ∧ (exFeeds p (3) "s_in" = true ↔ p = 1) := by decide +kernel
    interval_cases c
    · refine ⟨Nat.zero_lt_two, fun p => ?_⟩
      show Feeds exG 8 exOwn exName p 2 "s_in" ↔ p = 0
      rw [ex_feeds]
      by_cases hp : p < 8
      · exact (h p hp).1
      · constructor
        · intro h; rw [← ex_feeds] at h; obtain ⟨o, _, h1, h2, _⟩ := h; omega
        · intro h; omega
    · refine ⟨Nat.one_lt_two, fun p => ?_⟩
      show Feeds exG 8 exOwn exName p 3 "s_in" ↔ p = 1
      rw [ex_feeds]
      by_cases hp : p < 8
      · exact (h p hp).2
      · constructor
        · intro h; rw [← ex_feeds] at h; obtain ⟨o, _, h1, h2, _⟩ := h; omega
        · intro h; omega
  sinks := by
    intro q hq p
    show Feeds exG 8 exOwn exName p (6 + q) "a_in" ↔ p = q
    rw [ex_feeds]
    have h : ∀ q, q < 2 → ∀ p, p < 8 → (exFeeds p (6 + q) "a_in" = true ↔ p = q) := by decide +kernel
    by_cases hp : p < 8
    · exact h q hq p hp
    · constructor
      · intro h; rw [← ex_feeds] at h; obtain ⟨o, _, h1, h2, _⟩ := h; omega
      · intro h; omega

/-- How the processes use their ports. -/
def exKind (p : Nat) : Kind := if p < 2 then .neuron else if p < 4 then .synapse else if p < 6 then .source else if p < 8 then .sink else .silent

theorem ex_script {X V W : Type} [AddCommMonoid V] (P : Nat → Proc X V W) (hk : ∀ p, (P p).kind = exKind p) : Script exG 8 exOwn exName exOuts fun p => (P p).pm where
  io := by rw [ex_next]; decide +kernel
  names := by
    have h : ∀ i, i < 12 → ∀ j, j < 12 → exOwn i = exOwn j → exName i = exName j → i = j := by decide +kernel
    rw [ex_next]
    exact fun i j hi hj => h i hi j hj
  members := by
    intro p hp i
    rw [ex_next]
    have h : ∀ p, p < 8 → ∀ i, i < 12 → (i ∈ exOuts p ↔ exOwn i = p ∧ (exG.port i).kind = .out) := by decide +kernel
    constructor
    · intro hm
      have hi : i < 12 := by
        have : ∀ p, p < 8 → ∀ i ∈ exOuts p, i < 12 := by decide
        exact this p hp i hm
      exact ⟨hi, (h p hp i hi).1 hm⟩
    · rintro ⟨hi, hx⟩
      exact (h p hp i hi).2 hx
  leafOut := by rw [ex_next]; decide +kernel
  leafIn := by rw [ex_next]; decide +kernel
  once := by
    intro p
    show (P p).kind.ops.Nodup
    cases (P p).kind <;> decide
  recvs := by
    intro p x h
    have h : POp.recv x ∈ (P p).kind.ops := h
    rw [hk] at h
    rw [ex_next]
    by_cases hp : p < 8
    · have key : ∀ p, p < 8 → ∀ op ∈ (exKind p).ops, ∃ i ∈ List.range 12, exOwn i = p ∧ op = (if (exG.port i).kind = .inp then .recv (exName i) else .send (exName i)) ∧
          ((exG.port i).kind = .inp ∨ (exG.port i).kind = .out) := by decide +kernel
      obtain ⟨i, h1, h2, h3, h4⟩ := key p hp _ h
      refine ⟨i, List.mem_range.1 h1, h2, ?_⟩
      split at h3
      · rename_i hki
        cases h3
        exact ⟨rfl, hki⟩
      · cases h3
    · simp [exKind, Kind.ops, show ¬ p < 2 by omega, show ¬ p < 4 by omega, show ¬ p < 6 by omega, hp] at h
  sends := by
    intro p x h
    have h : POp.send x ∈ (P p).kind.ops := h
    rw [hk] at h
    rw [ex_next]
    by_cases hp : p < 8
    · have key : ∀ p, p < 8 → ∀ op ∈ (exKind p).ops, ∃ i ∈ List.range 12, exOwn i = p ∧ op = (if (exG.port i).kind = .inp then .recv (exName i) else .send (exName i)) ∧
          ((exG.port i).kind = .inp ∨ (exG.port i).kind = .out) := by decide +kernel
      obtain ⟨i, h1, h2, h3, h4⟩ := key p hp _ h
      refine ⟨i, List.mem_range.1 h1, h2, ?_⟩
      split at h3
      · cases h3
      · rename_i hki
        cases h3
        exact ⟨rfl, h4.resolve_left hki⟩
    · simp [exKind, Kind.ops, show ¬ p < 2 by omega, show ¬ p < 4 by omega, show ¬ p < 6 by omega, hp] at h
  usesIn := by
    rw [ex_next]
    intro i hi h1 h2 _
    show POp.recv (exName i) ∈ (P (exOwn i)).kind.ops
    rw [hk]
    have : ∀ i, i < 12 → (exG.port i).kind = .inp → POp.recv (exName i) ∈ (exKind (exOwn i)).ops := by decide +kernel
    exact this i hi h2
  usesOut := by
    rw [ex_next]
    intro i hi h1 h2 _
    show POp.send (exName i) ∈ (P (exOwn i)).kind.ops
    rw [hk]
    have : ∀ i, i < 12 → (exG.port i).kind = .out → POp.send (exName i) ∈ (exKind (exOwn i)).ops := by decide +kernel
    exact this i hi h2

def exBuilders : Builders := (buildChannels (fun _ _ => true) (connections exG 50 (List.range 8) exOuts exOwn exName)).getD Wiring.empty

/-- Two runtime services with four processes each. -/
def exPms (i : Nat) : List Nat := if i < 2 then (List.range 8).filter fun p => p % 2 = i else []

theorem ex_deployed {X V W : Type} [AddCommMonoid V] (P : Nat → Proc X V W) (hk : ∀ p, (P p).kind = exKind p) :
    Deployed 50 exCalls 8 P 2 (fun p => p % 2) exPms (fun _ => 1) exOwn exName exOuts (List.range 8) (fun _ _ => true) exBuilders where
  good := ex_good
  hosted := {
    cap := fun _ => Nat.le_refl 1
    svc := fun p _ => Nat.mod_lt p (by decide)
    pms := by
      intro i
      show (exPms i).Nodup ∧ ∀ p, p ∈ exPms i ↔ p < 8 ∧ p % 2 = i
      unfold exPms
      split
      · exact ⟨List.nodup_range.filter _, fun p => by simp⟩
      · exact ⟨by simp, fun p => by simp; omega⟩ }
  all p := List.mem_range
  script := ex_script P hk
  found := by
    intro p hp s hs
    have h : ∀ p, p < 8 → ∀ s ∈ exOuts p, (dstPorts exG false 50 s).isSome = true := by decide +kernel
    exact Option.isSome_iff_exists.1 (h p hp s hs)
  built := by
    have h : (buildChannels (fun _ _ => true) (connections exG 50 (List.range 8) exOuts exOwn exName)).isSome = true := by decide +kernel
    unfold exBuilders
    obtain ⟨b, hb⟩ := Option.isSome_iff_exists.1 h
    rw [hb]; rfl

theorem ex_kind_fix (p : Nat) : (fixProcs osc 2 oscSize 1 6 exData p).kind = exKind p := by
  rcases p with _ | _ | _ | _ | _ | _ | _ | _ | p
  iterate 8 exact rfl
  unfold fixProcs arranged exKind
  rw [show osc.conns.length = 2 from rfl]
  rw [if_neg (by omega), if_neg (by omega), if_neg (by omega), if_neg (by omega), if_neg (by omega), if_neg (by omega), if_neg (by omega), if_neg (by omega)]
  try rfl

theorem ex_kind_flt (p : Nat) : (fltProcs osc 2 oscSize 1 6 exData p).kind = exKind p := by
  rcases p with _ | _ | _ | _ | _ | _ | _ | _ | p
  iterate 8 exact rfl
  unfold fltProcs arranged exKind
  rw [show osc.conns.length = 2 from rfl]
  rw [if_neg (by omega), if_neg (by omega), if_neg (by omega), if_neg (by omega), if_neg (by omega), if_neg (by omega), if_neg (by omega), if_neg (by omega)]
  try rfl

/-- **C115, example.** The oscillator, connected by the calls `exCalls` and run for six steps on two runtime services: under every schedule both sinks show two spikes, two steps of silence, and so on. -/
theorem C115_example :
    Gives (platform 8 (fixProcs osc 2 oscSize 1 6 exData) 2 (fun p => p % 2) exPms fun _ => 1) exBuilders [.run 6, .get 6 0] [.ran, .value [1, 1, 0, 0, 1, 1], .stopped] ∧
    Gives (platform 8 (fixProcs osc 2 oscSize 1 6 exData) 2 (fun p => p % 2) exPms fun _ => 1) exBuilders [.run 6, .get 7 0] [.ran, .value [0, 1, 1, 0, 0, 1], .stopped] ∧
    Gives (platform 8 (fltProcs osc 2 oscSize 1 6 exData) 2 (fun p => p % 2) exPms fun _ => 1) exBuilders [.run 6, .get 6 0] [.ran, .value [1, 1, 0, 0, 1, 1], .stopped] := by
  have f0 := C115_recorded_fixed osc 2 oscSize 1 6 exData 50 exCalls 2 _ _ _ _ _ _ _ _ _ (ex_deployed _ ex_kind_fix) ex_arrangement 6 (le_refl 6) 0 (by decide)
  have f1 := C115_recorded_fixed osc 2 oscSize 1 6 exData 50 exCalls 2 _ _ _ _ _ _ _ _ _ (ex_deployed _ ex_kind_fix) ex_arrangement 6 (le_refl 6) 1 (by decide)
  have g0 := C115_recorded_float osc 2 oscSize 1 6 exData 50 exCalls 2 _ _ _ _ _ _ _ _ _ (ex_deployed _ ex_kind_flt) ex_arrangement 6 (le_refl 6) 0 (by decide)
  have e0 : (recorded (oscSize 0) 6 6 fun t i => fixSpike osc (extOf 1 exData) t 0 i : List Int) = [1, 1, 0, 0, 1, 1] := by decide +kernel
  have e1 : (recorded (oscSize 1) 6 6 fun t i => fixSpike osc (extOf 1 exData) t 1 i : List Int) = [0, 1, 1, 0, 0, 1] := by decide +kernel
  rw [e0] at f0
  rw [e1] at f1
  rw [recorded_congr (s' := fun t i => fixSpike osc (extOf 1 exData) t 0 i), recorded_cast, e0] at g0
  · exact ⟨f0, f1, by
      simp only [List.map_cons, List.map_nil, Int.cast_one, Int.cast_zero] at g0
      exact g0⟩
  · intro t ht i hi
    have hi : i < 1 := hi
    interval_cases i
    exact (SpikeNet.osc_same 6 t ht 0 (by decide)).symm

end Verif.Snn
