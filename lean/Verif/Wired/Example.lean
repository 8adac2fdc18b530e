import Verif.Wired.Theorems
import Mathlib.Tactic.IntervalCases

/-!
# C114: an example

Two sources (processes 0 and 1), a hierarchical process (3) around the first one, and an integrator (2) with two InPorts, one of which is not connected; the integrator's output goes back to
source 0, which sends before it receives.
-/

namespace Verif.Wired

open Verif.PortGraph (G Reaches dstPorts run Kind)
open Verif.EndToEnd (net initial seen Call Res)
open Verif.System (exec)
open Verif.Wiring (Port Builders buildChannels)
open Spec

/-- Ports of the example: 0 `out` and 1 `fb` of process 0, 2 `h_out` of process 3, 3 `inp`, 4 `bias` and 5 `s_out` of process 2, 6 `out` of process 1. -/
def exCalls : List PortGraph.Op :=
  [.new .out [1], .new .inp [1], .new .out [1], .new .inp [1], .new .inp [1], .new .out [1], .new .out [1], .connect 0 (.one 2) 1, .connect 2 (.one 3) 1, .connectFrom 3 (.one 6) 1,
    .connect 5 (.one 1) 1, .connect 0 (.one 2) 1]

def exOwn : Nat → Nat
  | 0 => 0 | 1 => 0 | 2 => 3 | 3 => 2 | 4 => 2 | 5 => 2 | 6 => 1 | _ => 9

def exName : Nat → String
  | 0 => "out" | 1 => "fb" | 2 => "h_out" | 3 => "inp" | 4 => "bias" | 5 => "s_out" | 6 => "out" | _ => ""

def exOuts : Nat → List Nat
  | 0 => [0] | 1 => [6] | 2 => [5] | _ => []

/-- A process model with one Var. -/
def exPM (init : Int) (ops : List POp) (store : Int → String → Int → Int) : PM Int Int Int where
  init := init
  start s := s
  ops := ops
  value s _ := s
  store := store
  finish s := s
  preGuard _ := false
  lrnGuard _ := false
  postGuard _ := false
  runPre s := s
  runLrn s := s
  runPost s := s
  vsize _ := 1
  peek s _ _ := s
  poke _ _ _ w := w
  updated s := s

def exPms : Nat → PM Int Int Int
  | 0 => exPM 1 [.send "out", .recv "fb"] (fun s _ v => s + v)
  | 1 => exPM 10 [.send "out"] (fun s _ _ => s)
  | 2 => exPM 0 [.recv "inp", .recv "bias", .send "s_out"] (fun s x v => if x = "inp" then s + v else 2 * s + v)
  | _ => exPM 0 [] (fun s _ _ => s)

def exPlatform : Platform Int Int Int where
  n := 3
  pm := exPms
  k := 1
  svc _ := 0
  pms i := if i = 0 then [0, 1, 2] else []
  cap _ := 1

def exConns : List (Port × Port) := connections (run 50 G.empty exCalls) 50 [2, 0, 1] exOuts exOwn exName

theorem exConns_eq : exConns = [(⟨2, "s_out", .out⟩, ⟨0, "fb", .inp⟩), (⟨0, "out", .out⟩, ⟨2, "inp", .inp⟩), (⟨1, "out", .out⟩, ⟨2, "inp", .inp⟩)] := by decide +kernel

theorem ex_next : (run 50 G.empty exCalls).next = 7 := by decide +kernel

theorem exOps : ∀ p, (exPms p).ops = if p = 0 then [.send "out", .recv "fb"] else if p = 1 then [.send "out"] else
    if p = 2 then [.recv "inp", .recv "bias", .send "s_out"] else [] := by
  intro p
  rcases p with _ | _ | _ | p <;> rfl

theorem ex_script : Script (run 50 G.empty exCalls) 3 exOwn exName exOuts exPms where
  io := by rw [ex_next]; decide +kernel
  names := by
    have h : ∀ i, i < 7 → ∀ j, j < 7 → exOwn i = exOwn j → exName i = exName j → i = j := by decide +kernel
    rw [ex_next]
    exact fun i j hi hj => h i hi j hj
  members := by
    intro p hp i
    rw [ex_next]
    have h : ∀ p, p < 3 → ∀ i, i < 7 → (i ∈ exOuts p ↔ exOwn i = p ∧ ((run 50 G.empty exCalls).port i).kind = .out) := by decide +kernel
    constructor
    · intro hm
      have hi : i < 7 := by
        have : ∀ p, p < 3 → ∀ i ∈ exOuts p, i < 7 := by decide
        exact this p hp i hm
      exact ⟨hi, (h p hp i hi).1 hm⟩
    · rintro ⟨hi, hx⟩
      exact (h p hp i hi).2 hx
  leafOut := by rw [ex_next]; decide +kernel
  leafIn := by rw [ex_next]; decide +kernel
  once := by
    intro p
    rw [exOps]
    split
    · decide
    · split
      · decide
      · split <;> decide
  recvs := by
    intro p x h
    rw [exOps] at h
    rw [ex_next]
    split at h
    · subst p; simp at h; subst h; exact ⟨1, by decide +kernel⟩
    · split at h
      · simp at h
      · split at h
        · subst p; simp at h; rcases h with h | h
          · subst h; exact ⟨3, by decide +kernel⟩
          · subst h; exact ⟨4, by decide +kernel⟩
        · simp at h
  sends := by
    intro p x h
    rw [exOps] at h
    rw [ex_next]
    split at h
    · subst p; simp at h; subst h; exact ⟨0, by decide +kernel⟩
    · split at h
      · subst p; simp at h; subst h; exact ⟨6, by decide +kernel⟩
      · split at h
        · subst p; simp at h; subst h; exact ⟨5, by decide +kernel⟩
        · simp at h
  usesIn := by
    rw [ex_next]
    intro i hi _ h2 _
    interval_cases i <;> first | exact absurd h2 (by decide +kernel) | decide +kernel
  usesOut := by
    rw [ex_next]
    intro i hi h1 h2 _
    interval_cases i <;> first | exact absurd h1 (by decide) | exact absurd h2 (by decide +kernel) | decide +kernel

theorem ex_noCircle : NoCircleOfPorts (run 50 G.empty exCalls) 3 exOwn exName exPms := by
  have hi := PortGraph.inv_run PortGraph.inv_empty 50 exCalls (by
    intro op hop
    simp only [exCalls, List.mem_cons, List.not_mem_nil, or_false] at hop
    rcases hop with rfl | rfl | rfl | rfl | rfl | rfl | rfl | rfl | rfl | rfl | rfl | rfl <;> simp [PortGraph.Op.Good, PortGraph.Arg.toList, PortGraph.CfgOk])
  rintro ⟨K, ⟨o, ho⟩, hK⟩
  -- before a source sends, nothing is received
  have hsrc : ∀ o, K o → exOwn o = 2 := by
    intro o ho
    obtain ⟨_, h2, o', x, _, _, a, b, c, hb⟩ := hK o ho
    have : exOwn o = 0 ∨ exOwn o = 1 ∨ exOwn o = 2 := by omega
    rcases this with h | h | h
    · exfalso
      have e : (exPms (exOwn o)).ops = [.send "out", .recv "fb"] := by rw [h]; rfl
      rw [e] at hb
      rcases a with _ | ⟨a0, _ | ⟨a1, _ | ⟨a2, a⟩⟩⟩ <;> simp at hb
    · exfalso
      have e : (exPms (exOwn o)).ops = [.send "out"] := by rw [h]; rfl
      rw [e] at hb
      rcases a with _ | ⟨a0, _ | ⟨a1, a⟩⟩ <;> simp at hb
    · exact h
  obtain ⟨_, _, o', x, hK', ⟨_, _, i, h1, _, _, hr⟩, _⟩ := hK o ho
  have h5 : o' = 5 := by
    have : ∀ i, i < 7 → exOwn i = 2 → i = 5 ∨ ((run 50 G.empty exCalls).port i).outs = [] := by decide +kernel
    have hlt := reaches_ends hi hr
    rcases this o' (by have := hlt.1; rw [ex_next] at this; exact this) (hsrc o' hK') with h | h
    · exact h
    · exact absurd h hlt.2.2.1
  subst h5
  rw [hsrc o ho] at h1
  have houts5 : ((run 50 G.empty exCalls).port 5).outs = [1] := by decide +kernel
  have houts1 : ((run 50 G.empty exCalls).port 1).outs = [] := by decide +kernel
  rcases PortGraph.reaches_cases.1 hr with h | ⟨m, hm, h⟩
  · rw [houts5] at h
    simp only [List.mem_singleton] at h
    subst h
    exact absurd h1 (by decide)
  · rw [houts5] at hm
    simp only [List.mem_singleton] at hm
    subst hm
    rcases PortGraph.reaches_cases.1 h with h | ⟨m, hm, _⟩
    · rw [houts1] at h; cases h
    · rw [houts1] at hm; cases hm

theorem ex_hosted : Hosted exPlatform where
  cap _ := Nat.le_refl 1
  svc _ _ := Nat.lt_succ_self 0
  pms i := by
    show (if i = 0 then [0, 1, 2] else [] : List Nat).Nodup ∧ ∀ p, p ∈ (if i = 0 then [0, 1, 2] else [] : List Nat) ↔ p < 3 ∧ 0 = i
    split
    · exact ⟨by decide, fun p => by simp; omega⟩
    · exact ⟨by simp, fun p => by simp; omega⟩

def exProg : List (Call Int) := [.get 2 0, .run 2, .get 2 0, .set 1 0 [7], .run 1, .get 0 0]

def exBuilders : Builders := (buildChannels (fun _ _ => true) exConns).getD Wiring.empty

/-- An execution: the actors that do a step, one after another. -/
def exSched : List Nat :=
  [0, 0, 0, 1, 0, 1, 1, 2, 1, 2, 4, 1, 4, 6, 1, 4, 6, 4, 6, 4, 6, 2, 6, 2, 6, 2, 6, 1, 2, 1, 1, 1, 1, 1, 2, 1, 2, 4, 1, 4, 6, 1, 4, 6, 4, 6, 4, 6, 2, 6, 2, 6, 2, 6, 1, 2, 1, 1, 1,
    1, 1, 2, 1, 4, 1, 6, 1, 1, 0, 0, 0, 0, 1, 0, 1, 0, 1, 0, 1, 6, 1, 6, 1, 6, 1, 6, 1, 6, 0, 1, 1, 0, 1, 0, 0, 0, 1, 0, 1, 0, 1, 0, 1, 4, 1, 4, 1, 1, 0, 1, 4, 0, 1, 1, 4, 1, 4, 1,
    4, 1, 0, 0, 0, 1, 0, 1, 1, 2, 1, 2, 4, 1, 4, 6, 1, 4, 6, 4, 6, 4, 6, 2, 6, 2, 6, 2, 6, 1, 2, 1, 1, 1, 1, 1, 2, 1, 4, 1, 6, 1, 1, 0, 0, 0, 0, 1, 0, 1, 0, 1, 0, 1, 2, 1, 2, 1, 2,
    1, 2, 1, 2, 0, 1, 1, 0, 1, 0, 0, 0, 1, 0, 1, 2, 1, 2, 4, 1, 4, 6, 1, 6, 1, 1, 1, 1, 1, 0, 0]

/-- **C114, example.** The hypotheses of `C114_from_connect_calls` are met, and the execution `exSched` shows the results: after two steps process 2 holds ((0 + 1 + 10) * 2 + 23 + 10) * 2 = 110, and after a third step, with the
second source set to 7, it holds (110 + 133 + 7) * 2 = 500 and process 0 holds 1 + 22 + 110 + 500. -/
theorem C114_example :
    (∀ op ∈ exCalls, op.Good) ∧ (∀ p, p ∈ [2, 0, 1] ↔ p < 3) ∧ Script (run 50 G.empty exCalls) 3 exOwn exName exOuts exPms ∧
      (∀ p, p < 3 → ∀ s ∈ exOuts p, ∃ l, dstPorts (run 50 G.empty exCalls) false 50 s = some l) ∧
      NoCircleOfPorts (run 50 G.empty exCalls) 3 exOwn exName exPms ∧ Hosted exPlatform ∧
      buildChannels (fun _ _ => true) exConns = some exBuilders ∧ Proper 3 exPms exProg ∧
      seen (exec (net (sys exPlatform exBuilders fun _ => [])) (initial (sys exPlatform exBuilders fun _ => []) exProg)
        exSched) = [.notStarted, .ran, .value [110], .wasSet, .ran, .value [633], .stopped] := by
  refine ⟨?_, by intro p; simp; omega, ex_script, ?_, ex_noCircle, ex_hosted, ?_, ?_, ?_⟩
  · intro op hop
    simp only [exCalls, List.mem_cons, List.not_mem_nil, or_false] at hop
    rcases hop with rfl | rfl | rfl | rfl | rfl | rfl | rfl | rfl | rfl | rfl | rfl | rfl <;> simp [PortGraph.Op.Good, PortGraph.Arg.toList, PortGraph.CfgOk]
  · intro p hp s hs
    have h : ∀ p, p < 3 → ∀ s ∈ exOuts p, (dstPorts (run 50 G.empty exCalls) false 50 s).isSome = true := by decide +kernel
    exact Option.isSome_iff_exists.1 (h p hp s hs)
  · have h : (buildChannels (fun _ _ => true) exConns).isSome = true := by decide +kernel
    unfold exBuilders
    obtain ⟨b, hb⟩ := Option.isSome_iff_exists.1 h
    rw [hb]; rfl
  · refine ⟨?_, ?_, 2, by simp [exProg]⟩
    · intro p x h
      simp [exProg] at h
      omega
    · intro p x ws h
      simp [exProg] at h
      obtain ⟨rfl, rfl, rfl⟩ := h
      exact ⟨by omega, Nat.le_refl 1⟩
  · decide +kernel

end Verif.Wired
