import Verif.Sdnn.Settle
import Mathlib.Tactic.IntervalCases

/-!
# C120: an example

Two inputs, two hidden neurons with ReLU, one output; thresholds 1/2.
-/

namespace Verif.Sdnn

open Verif.PortGraph (G Reaches dstPorts run)
open Verif.Wired.Spec (Script Hosted Linked)
open Verif.Wiring (Builders buildChannels)
open Verif.Wired (connections POp)
open Verif.Snn (Proc Kind platform)
open Verif.Snn.Spec (Gives Deployed Feeds)
open Verif.Trains.Spec (inName)
open Verif.Pipe.Spec (Chain train)
open Spec

/-- Ports: `s_out` of the source, `a_in`, `s_out` of `Delta`, `s_in`, `a_out` of the first `Dense`, and so on up to `a_in` of the sink. -/
def exCalls : List PortGraph.Op :=
  [.new .out [2], .new .inp [2], .new .out [2], .new .inp [2], .new .out [2], .new .inp [2], .new .out [2], .new .inp [2], .new .out [1], .new .inp [1], .new .out [1], .new .inp [1],
    .connect 0 (.one 1) 1, .connect 2 (.one 3) 1, .connectFrom 5 (.one 4) 1, .connect 6 (.one 7) 1, .connect 8 (.one 9) 1, .connect 10 (.one 11) 1]

def exOwn (i : Nat) : Nat := if i < 12 then (i + 1) / 2 else 99

def exName : Nat → String
  | 0 => "s_out" | 1 => "a_in" | 2 => "s_out" | 3 => "s_in" | 4 => "a_out" | 5 => "a_in" | 6 => "s_out" | 7 => "s_in" | 8 => "a_out" | 9 => "a_in" | 10 => "s_out" | 11 => "a_in" | _ => ""

def exOuts (p : Nat) : List Nat := if p < 6 then [2 * p] else []

abbrev exG : G := run 50 G.empty exCalls

theorem ex_good : ∀ op ∈ exCalls, op.Good := by
  intro op hop
  simp only [exCalls, List.mem_cons, List.not_mem_nil, or_false] at hop
  rcases hop with rfl | rfl | rfl | rfl | rfl | rfl | rfl | rfl | rfl | rfl | rfl | rfl | rfl | rfl | rfl | rfl | rfl | rfl <;>
    simp [PortGraph.Op.Good, PortGraph.Arg.toList, PortGraph.CfgOk]

theorem ex_next : exG.next = 12 := by decide +kernel

theorem ex_inv : PortGraph.Inv exG := PortGraph.inv_run PortGraph.inv_empty 50 exCalls ex_good

/-- All connections are direct. -/
theorem ex_reaches {o i : Nat} : Reaches exG o i ↔ o < 12 ∧ i ∈ (exG.port o).outs := by
  have hflat : ∀ o, o < 12 → ∀ m ∈ (exG.port o).outs, (exG.port m).outs = [] := by decide +kernel
  constructor
  · intro h
    have ho : o < 12 := by have := (Wired.reaches_ends ex_inv h).1; rwa [ex_next] at this
    refine ⟨ho, ?_⟩
    rcases PortGraph.reaches_cases.1 h with h | ⟨m, hm, h⟩
    · exact h
    · exact absurd (hflat o ho m hm) (Wired.reaches_ends ex_inv h).2.2.1
  · rintro ⟨_, h⟩; exact .direct h

def exFeeds (p q : Nat) (x : String) : Bool :=
  (List.range 12).any fun o => (List.range 12).any fun i =>
    exOwn o = p && exOwn o < 7 && (exG.port o).kind = .out && exOwn i = q && exName i = x && (exG.port i).kind = .inp && i ∈ (exG.port o).outs

theorem ex_feeds {p q : Nat} {x : String} : Feeds exG 7 exOwn exName p q x ↔ exFeeds p q x = true := by
  unfold exFeeds
  simp only [List.any_eq_true, Bool.and_eq_true, decide_eq_true_eq, and_assoc]
  constructor
  · rintro ⟨o, ho, h1, h2, h3, i, h4, h5, h6, h7⟩
    rw [ex_next] at ho
    have hi := (Wired.reaches_ends ex_inv h7).2.1
    rw [ex_next] at hi
    exact ⟨o, List.mem_range.2 ho, i, List.mem_range.2 hi, h1, h2, h3, h4, h5, h6, (ex_reaches.1 h7).2⟩
  · rintro ⟨o, ho, i, hi, h1, h2, h3, h4, h5, h6, h7⟩
    rw [List.mem_range] at ho hi
    exact ⟨o, by rw [ex_next]; exact ho, h1, h2, h3, i, h4, h5, h6, ex_reaches.2 ⟨ho, h7⟩⟩

/-- How the processes use their ports. -/
def exKind (p : Nat) : Kind := if p = 0 then .source else if p = 6 then .sink else if p < 7 then (if p % 2 = 1 then .neuron else .synapse) else .silent

theorem ex_chain {X V W : Type} (P : Nat → Proc X V W) (hk : ∀ p, (P p).kind = exKind p) : Chain exG 7 exOwn exName P where
  first := hk 0
  feeds := by
    intro p hp r
    rw [ex_feeds, hk]
    have h : ∀ p, p < 6 → ∀ r, r < 7 → (exFeeds r (p + 1) (inName (exKind (p + 1))) = true ↔ r = p) := by decide +kernel
    by_cases hr : r < 7
    · exact h p (by omega) r hr
    · constructor
      · intro h; rw [← ex_feeds] at h; obtain ⟨o, _, h1, h2, _⟩ := h; omega
      · intro h; omega
  turns := by
    intro p hp
    rw [hk, hk]
    have h : ∀ p, p < 6 → exKind (p + 1) = .neuron → exKind p ≠ .neuron := by decide
    exact h p (by omega)

theorem ex_script {X V W : Type} [AddCommMonoid V] (P : Nat → Proc X V W) (hk : ∀ p, (P p).kind = exKind p) : Script exG 7 exOwn exName exOuts fun p => (P p).pm where
  io := by rw [ex_next]; decide +kernel
  names := by
    have h : ∀ i, i < 12 → ∀ j, j < 12 → exOwn i = exOwn j → exName i = exName j → i = j := by decide +kernel
    rw [ex_next]
    exact fun i j hi hj => h i hi j hj
  members := by
    intro p hp i
    rw [ex_next]
    have h : ∀ p, p < 7 → ∀ i, i < 12 → (i ∈ exOuts p ↔ exOwn i = p ∧ (exG.port i).kind = .out) := by decide +kernel
    constructor
    · intro hm
      have hi : i < 12 := by
        have : ∀ p, p < 7 → ∀ i ∈ exOuts p, i < 12 := by decide
        exact this p hp i hm
      exact ⟨hi, (h p hp i hi).1 hm⟩
    · rintro ⟨hi, hx⟩
      exact (h p hp i hi).2 hx
  leafOut := by rw [ex_next]; decide +kernel
  leafIn := by rw [ex_next]; decide +kernel
  once := by
    intro p
    show (P p).kind.ops.Nodup
    cases (P p).kind <;> decide
  recvs := by
    intro p x h
    have h : POp.recv x ∈ (P p).kind.ops := h
    rw [hk] at h
    rw [ex_next]
    by_cases hp : p < 7
    · have key : ∀ p, p < 7 → ∀ op ∈ (exKind p).ops, ∃ i ∈ List.range 12, exOwn i = p ∧ op = (if (exG.port i).kind = .inp then .recv (exName i) else .send (exName i)) ∧
          ((exG.port i).kind = .inp ∨ (exG.port i).kind = .out) := by decide +kernel
      obtain ⟨i, h1, h2, h3, h4⟩ := key p hp _ h
      refine ⟨i, List.mem_range.1 h1, h2, ?_⟩
      split at h3
      · rename_i hki
        cases h3
        exact ⟨rfl, hki⟩
      · cases h3
    · simp [exKind, Kind.ops, show p ≠ 0 by omega, show p ≠ 6 by omega, hp] at h
  sends := by
    intro p x h
    have h : POp.send x ∈ (P p).kind.ops := h
    rw [hk] at h
    rw [ex_next]
    by_cases hp : p < 7
    · have key : ∀ p, p < 7 → ∀ op ∈ (exKind p).ops, ∃ i ∈ List.range 12, exOwn i = p ∧ op = (if (exG.port i).kind = .inp then .recv (exName i) else .send (exName i)) ∧
          ((exG.port i).kind = .inp ∨ (exG.port i).kind = .out) := by decide +kernel
      obtain ⟨i, h1, h2, h3, h4⟩ := key p hp _ h
      refine ⟨i, List.mem_range.1 h1, h2, ?_⟩
      split at h3
      · cases h3
      · rename_i hki
        cases h3
        exact ⟨rfl, h4.resolve_left hki⟩
    · simp [exKind, Kind.ops, show p ≠ 0 by omega, show p ≠ 6 by omega, hp] at h
  usesIn := by
    rw [ex_next]
    intro i hi h1 h2 _
    show POp.recv (exName i) ∈ (P (exOwn i)).kind.ops
    rw [hk]
    have : ∀ i, i < 12 → (exG.port i).kind = .inp → POp.recv (exName i) ∈ (exKind (exOwn i)).ops := by decide +kernel
    exact this i hi h2
  usesOut := by
    rw [ex_next]
    intro i hi h1 h2 _
    show POp.send (exName i) ∈ (P (exOwn i)).kind.ops
    rw [hk]
    have : ∀ i, i < 12 → (exG.port i).kind = .out → POp.send (exName i) ∈ (exKind (exOwn i)).ops := by decide +kernel
    exact this i hi h2

def exBuilders : Builders := (buildChannels (fun _ _ => true) (connections exG 50 (List.range 7) exOuts exOwn exName)).getD Wiring.empty

/-- Two runtime services with three or four processes. -/
def exPms (i : Nat) : List Nat := if i < 2 then (List.range 7).filter fun p => p % 2 = i else []

theorem ex_deployed {X V W : Type} [AddCommMonoid V] (P : Nat → Proc X V W) (hk : ∀ p, (P p).kind = exKind p) :
    Deployed 50 exCalls 7 P 2 (fun p => p % 2) exPms (fun _ => 1) exOwn exName exOuts (List.range 7) (fun _ _ => true) exBuilders where
  good := ex_good
  hosted := {
    cap := fun _ => Nat.le_refl 1
    svc := fun p _ => Nat.mod_lt p (by decide)
    pms := by
      intro i
      show (exPms i).Nodup ∧ ∀ p, p ∈ exPms i ↔ p < 7 ∧ p % 2 = i
      unfold exPms
      split
      · exact ⟨List.nodup_range.filter _, fun p => by simp⟩
      · exact ⟨by simp, fun p => by simp; omega⟩ }
  all p := List.mem_range
  script := ex_script P hk
  found := by
    intro p hp s hs
    have h : ∀ p, p < 7 → ∀ s ∈ exOuts p, (dstPorts exG false 50 s).isSome = true := by decide +kernel
    exact Option.isSome_iff_exists.1 (h p hp s hs)
  built := by
    have h : (buildChannels (fun _ _ => true) (connections exG 50 (List.range 7) exOuts exOwn exName)).isSome = true := by decide +kernel
    unfold exBuilders
    obtain ⟨b, hb⟩ := Option.isSome_iff_exists.1 h
    rw [hb]; rfl

/-- Layer 0 is the encoder, layer 1 has ReLU and biases 0 and -1, layer 2 is the read-out. -/
def exLay (k : Nat) : Layer :=
  if k = 0 then ⟨2, 0, fun _ _ => 0, fun _ => 0, fun _ => 1 / 2, false, false⟩
  else if k = 1 then ⟨2, 2, fun i j => if i = j then 2 else -1, fun i => if i = 0 then 0 else -1, fun _ => 1 / 2, false, true⟩
  else ⟨1, 2, fun _ j => if j = 0 then 1 else 3, fun _ => 0, fun _ => 0, false, false⟩

/-- Both inputs change in step 1; the first one changes again, by less than the threshold, in step 2. -/
def exData (k i : Nat) : ℚ := if k = 0 then 0 else if i = 0 then (if k = 1 then 2 else 9 / 4) else 13 / 4

theorem ex_kind (len : Nat) (p : Nat) : (chain 1 exLay len 8 exData p).kind = exKind p := by
  rcases p with _ | _ | _ | _ | _ | _ | _ | p
  iterate 7 exact rfl
  unfold chain exKind
  rw [if_neg (by omega), if_neg (by omega), if_neg (by omega), if_neg (by omega), if_neg (by omega), if_neg (by omega), if_neg (by omega), if_neg (by omega)]
  rfl

/-- **C120, example.** The sink shows 45/4 from step 3 on; the network without thresholds would show 11 from step 4 on, and an error of 8 is allowed. -/
theorem C120_example :
    Gives (platform 7 (chain 1 exLay 8 8 exData) 2 (fun p => p % 2) exPms fun _ => 1) exBuilders [.run 8, .get 6 0] [.ran, .value [0, 0, 0, 45 / 4, 45 / 4, 45 / 4, 45 / 4, 45 / 4], .stopped] ∧
    output 1 exLay (exData 5) 0 = 11 ∧ outSlack 1 exLay 0 = 8 := by
  have h := recorded_chain 1 exLay 8 8 exData 50 exCalls 2 _ _ _ _ _ _ _ _ _ (ex_deployed _ (ex_kind 8)) (ex_chain _ (ex_kind 8)) 8 (Nat.le_refl 8)
  have e : table (exLay (1 + 1)).rows 8 8 (train (chain 1 exLay 8 8 exData) (2 * 1 + 3)) = [0, 0, 0, 45 / 4, 45 / 4, 45 / 4, 45 / 4, 45 / 4] := by decide +kernel
  rw [e] at h
  exact ⟨h, by decide +kernel, by decide +kernel⟩

/-- The hypotheses of the theorems are met. -/
example := C120_sdn_is_ann 1 exLay 8 8 exData (by intro k _ i; unfold exLay; split; · norm_num
                                                  split <;> norm_num) 50 exCalls 2 _ _ _ _ _ _ _ _ _ (ex_deployed _ (ex_kind 8)) (ex_chain _ (ex_kind 8))

/-- ... with a source of one column. -/
example := C120_settles 1 exLay 1 8 exData (by intro k hk; unfold exLay; split; · rfl
                                               rw [if_pos (by omega)]) 0 (by intro t _; rw [Nat.mod_one]) 50 exCalls 2 _ _ _ _ _ _ _ _ _ (ex_deployed _ (ex_kind 1)) (ex_chain _ (ex_kind 1))

end Verif.Sdnn
