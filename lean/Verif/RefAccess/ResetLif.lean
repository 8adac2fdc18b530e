import Verif.RefAccess.Theorems
import Verif.LIF.Model
import Verif.IO.Model
import Mathlib.Data.Int.ModEq

/-!
# C128: LIF neurons with `Reset` processes on their Vars

A process sends input to a population of LIF neurons (`PyLifModelBitAcc`, lif/models.py:194-216), whose spikes another process keeps; two `Reset`
processes (io/reset.py:17-66) refer to the Vars `u` and `v` of the neurons. Everything runs as in `Verif.RefAccess.Model`: process models
with RefPorts and VarPorts, one runtime service, any schedule.
-/

namespace Verif.RefAccess.ResetLif

open Verif.EndToEnd (Phase Flags noFlags nextPhase)
open Verif.LIF (Par spikeReset subthr)

/-- A value per neuron. -/
abbrev Vec := Nat → Int

/-- Vars: `time_step`, the state of the neurons, what was received. Each process uses some of them. -/
structure Vars where
  t : Nat
  u : Vec
  v : Vec
  log : List Vec

/-- A `Reset` process: interval, offset and value (io/reset.py:29-45). -/
structure ResetPar where
  interval : Nat
  offset : Nat
  value : Int

/-- The network: parameters and scaled threshold of the neurons, initial `u` and `v`, input of each time step, the two `Reset`
processes, sizes of channels. -/
structure Net where
  p : Par
  eff : Int
  u0 : Vec
  v0 : Vec
  x : Nat → Vec
  ru : ResetPar
  rv : ResetPar
  cap : Ch → Nat

/-- One neuron in one time step (lif/models.py:194-216). -/
def Net.neuron (n : Net) (u v : Vec) (a : Vec) (i : Nat) : Verif.LIF.St × Bool := spikeReset n.eff (subthr n.p ⟨u i, v i⟩ (a i))

/-- A spike vector as it is sent. -/
def bits (f : Nat → Bool) : Vec := fun i => if f i then 1 else 0

/-- Models 0 (input), 1 (neurons), 2 (keeps the spikes), 3 and 4 (`Reset` of `u` and of `v`: guard and write with `wait`, io/reset.py:59-65). -/
def Net.sys (n : Net) : Sys Vars Vec where
  n := 5
  ne := 2
  src e := e + 3
  dst _ := 1
  rd e s := if e = 0 then s.u else s.v
  wr e w s := if e = 0 then { s with u := w } else { s with v := w }
  cap := n.cap
  init i := if i = 1 then ⟨0, n.u0, n.v0, []⟩ else ⟨0, fun _ => 0, fun _ => 0, []⟩
  spk i s := match i with
    | 0 => .send 0 (n.x s.t) (.ret { s with t := s.t + 1 })
    | 1 => .recv 0 fun a => .send 1 (bits fun i => (n.neuron s.u s.v a i).2)
        (.ret { s with t := s.t + 1, u := fun i => (n.neuron s.u s.v a i).1.u, v := fun i => (n.neuron s.u s.v a i).1.v })
    | 2 => .recv 1 fun a => .ret { s with t := s.t + 1, log := s.log ++ [a] }
    | _ => .ret { s with t := s.t + 1 }
  pre _ s := .ret s
  lrn _ s := .ret s
  post i s := match i with
    | 3 => .write 0 (fun _ => n.ru.value) (.wait 0 (.ret s))
    | 4 => .write 1 (fun _ => n.rv.value) (.wait 1 (.ret s))
    | _ => .ret s
  preGuard _ _ := false
  lrnGuard _ _ := false
  postGuard i s := match i with
    | 3 => Verif.IO.guard n.ru.interval n.ru.offset s.t
    | 4 => Verif.IO.guard n.rv.interval n.rv.offset s.t
    | _ => false

/-! ### What it is to compute -/

/-- The neurons after `t` time steps: in every time step the dynamics, then the resets. -/
def Net.after (n : Net) : Nat → Vec × Vec
  | 0 => (n.u0, n.v0)
  | t + 1 =>
    (fun i => if Verif.IO.guard n.ru.interval n.ru.offset (t + 1) then n.ru.value
        else (n.neuron (n.after t).1 (n.after t).2 (n.x t) i).1.u,
      fun i => if Verif.IO.guard n.rv.interval n.rv.offset (t + 1) then n.rv.value
        else (n.neuron (n.after t).1 (n.after t).2 (n.x t) i).1.v)

/-- The spikes of time step `t + 1`. -/
def Net.spikes (n : Net) (t : Nat) : Vec := bits fun i => (n.neuron (n.after t).1 (n.after t).2 (n.x t) i).2

/-! ### The reference -/

def vals (t : Nat) (u v : Vec) (log : List Vec) : Nat → Vars
  | 0 => ⟨t, fun _ => 0, fun _ => 0, []⟩
  | 1 => ⟨t, u, v, []⟩
  | 2 => ⟨t, fun _ => 0, fun _ => 0, log⟩
  | 3 => ⟨t, fun _ => 0, fun _ => 0, []⟩
  | 4 => ⟨t, fun _ => 0, fun _ => 0, []⟩
  | _ => ⟨0, fun _ => 0, fun _ => 0, []⟩

def turns : Order Vars Vec := fun _ _ => [0, 1, 2, 3, 4]

theorem lt5 {P : Nat → Prop} (h0 : P 0) (h1 : P 1) (h2 : P 2) (h3 : P 3) (h4 : P 4) : ∀ i, i < 5 → P i := by
  intro i hi
  match i, hi with
  | 0, _ => exact h0
  | 1, _ => exact h1
  | 2, _ => exact h2
  | 3, _ => exact h3
  | 4, _ => exact h4

theorem spk_phase (n : Net) (hc : ∀ c, 1 ≤ n.cap c) (t : Nat) (u v : Vec) (log : List Vec) :
    phaseRef n.sys turns .spk (vals t u v log, fun _ => []) =
      some (vals (t + 1) (fun i => (n.neuron u v (n.x t) i).1.u) (fun i => (n.neuron u v (n.x t) i).1.v)
        (log ++ [bits fun i => (n.neuron u v (n.x t) i).2]), fun _ => []) := by
  have h0 : 0 < n.cap (.data 0) := hc _
  have h1 : 0 < n.cap (.data 1) := hc _
  have hrun : ((turns .spk (vals t u v log, fun _ => [])).foldl (turn n.sys) (called n.sys .spk (vals t u v log, fun _ => []))) =
      ⟨vals (t + 1) (fun i => (n.neuron u v (n.x t) i).1.u) (fun i => (n.neuron u v (n.x t) i).1.v)
        (log ++ [bits fun i => (n.neuron u v (n.x t) i).2]), fun _ => none, fun _ => []⟩ := by
    simp only [turns, List.foldl_cons, List.foldl_nil]
    simp [turn, called, goOn, duty, Net.sys, put, vals, h0, h1]
    refine ⟨?_, ?_, ?_⟩
    · funext i
      match i with
      | 0 => rfl
      | 1 => rfl
      | 2 => rfl
      | 3 => rfl
      | 4 => rfl
      | i + 5 => simp (disch := omega) only [put_ne, vals]
    · funext i
      match i with
      | 0 => rfl
      | 1 => rfl
      | 2 => rfl
      | 3 => rfl
      | 4 => rfl
      | i + 5 => (repeat refine (if_neg (by omega)).trans ?_); rfl
    · funext i
      match i with
      | 0 => rfl
      | 1 => rfl
      | i + 2 => (repeat refine (if_neg (by omega)).trans ?_); rfl
  unfold phaseRef
  rw [hrun, if_pos]
  intro i _
  rfl

theorem post_phase (n : Net) (t : Nat) (u v : Vec) (log : List Vec) :
    phaseRef n.sys turns .post (vals t u v log, fun _ => []) =
      some (vals t (fun i => if Verif.IO.guard n.ru.interval n.ru.offset t then n.ru.value else u i)
        (fun i => if Verif.IO.guard n.rv.interval n.rv.offset t then n.rv.value else v i) log, fun _ => []) := by
  have hrun : ((turns .post (vals t u v log, fun _ => [])).foldl (turn n.sys) (called n.sys .post (vals t u v log, fun _ => []))) =
      ⟨vals t (fun i => if Verif.IO.guard n.ru.interval n.ru.offset t then n.ru.value else u i)
        (fun i => if Verif.IO.guard n.rv.interval n.rv.offset t then n.rv.value else v i) log, fun _ => none, fun _ => []⟩ := by
    simp only [turns, List.foldl_cons, List.foldl_nil]
    cases hg3 : Verif.IO.guard n.ru.interval n.ru.offset t <;> cases hg4 : Verif.IO.guard n.rv.interval n.rv.offset t <;>
    · simp [turn, called, goOn, duty, Net.sys, put, vals, hg3, hg4, Prog.wait]
      refine ⟨?_, ?_⟩
      · funext i
        match i with
        | 0 => rfl
        | 1 => rfl
        | 2 => rfl
        | 3 => rfl
        | 4 => rfl
        | i + 5 => simp (disch := omega) only [put_ne, vals]
      · funext i
        match i with
        | 0 => rfl
        | 1 => rfl
        | 2 => rfl
        | 3 => rfl
        | 4 => rfl
        | i + 5 => (repeat refine (if_neg (by omega)).trans ?_); rfl
  unfold phaseRef
  rw [hrun, if_pos]
  intro i _
  rfl

/-- One time step of the reference. -/
theorem step_ref (n : Net) (hc : ∀ c, 1 ≤ n.cap c) (t : Nat) (u v : Vec) (log : List Vec) :
    stepRef n.sys turns (vals t u v log, fun _ => []) =
      some (vals (t + 1)
        (fun i => if Verif.IO.guard n.ru.interval n.ru.offset (t + 1) then n.ru.value else (n.neuron u v (n.x t) i).1.u)
        (fun i => if Verif.IO.guard n.rv.interval n.rv.offset (t + 1) then n.rv.value else (n.neuron u v (n.x t) i).1.v)
        (log ++ [bits fun i => (n.neuron u v (n.x t) i).2]), fun _ => []) := by
  have hfalse : ∀ σ, anyOf n.sys n.sys.lrnGuard σ = false := by intro σ; simp [anyOf, Net.sys]
  have hpre : ∀ r, wantPre n.sys r = false := by intro r; simp [wantPre, anyOf, Net.sys]
  have hlrn : ∀ r, wantLrn n.sys r = false := fun r => hfalse r.1
  rw [stepRef, spk_phase n hc, Option.bind_some, hpre, phaseIf, if_neg (by simp), Option.bind_some, hlrn, phaseIf, if_neg (by simp),
    Option.bind_some]
  generalize hr : (vals (t + 1) (fun i => (n.neuron u v (n.x t) i).1.u) (fun i => (n.neuron u v (n.x t) i).1.v)
        (log ++ [bits fun i => (n.neuron u v (n.x t) i).2]), fun _ : Nat => ([] : List Vec)) = r
  have hw : wantPost n.sys r r = (Verif.IO.guard n.ru.interval n.ru.offset (t + 1) || Verif.IO.guard n.rv.interval n.rv.offset (t + 1)) := by
    subst hr
    simp [wantPost, anyOf, Net.sys, List.range_succ, vals]
  rw [hw, phaseIf]
  cases hg3 : Verif.IO.guard n.ru.interval n.ru.offset (t + 1) <;> cases hg4 : Verif.IO.guard n.rv.interval n.rv.offset (t + 1) <;>
    · subst hr
      simp [post_phase, hg3, hg4]

theorem steps_ref (n : Net) (hc : ∀ c, 1 ≤ n.cap c) : ∀ k t,
    stepsRef n.sys turns k (vals t (n.after t).1 (n.after t).2 ((List.range t).map n.spikes), fun _ => []) =
      some (vals (t + k) (n.after (t + k)).1 (n.after (t + k)).2 ((List.range (t + k)).map n.spikes), fun _ => []) := by
  intro k
  induction k with
  | zero => intro t; rfl
  | succ k ih =>
    intro t
    rw [stepsRef, step_ref n hc, Option.bind_some]
    have := ih (t + 1)
    rw [show t + 1 + k = t + (k + 1) by omega, List.range_succ, List.map_append] at this
    exact this

theorem run_ref (n : Net) (hc : ∀ c, 1 ≤ n.cap c) (runs : List Nat) :
    runAll n.sys turns runs =
      some (vals runs.sum (n.after runs.sum).1 (n.after runs.sum).2 ((List.range runs.sum).map n.spikes), fun _ => []) := by
  have h := steps_ref n hc runs.sum 0
  rw [Nat.zero_add] at h
  rw [← h]
  unfold runAll
  congr 2
  funext i
  match i with
  | 0 => rfl
  | 1 => rfl
  | 2 => rfl
  | 3 => rfl
  | 4 => rfl
  | i + 5 => simp [Net.sys, vals]

/-- Who sends and receives on the channels between ports. -/
def cs (c : Nat) : Nat := c
def cd (c : Nat) : Nat := c + 1

theorem tidy (n : Net) (hc : ∀ c, 1 ≤ n.cap c) : Tidy n.sys cs cd (fun _ => True) where
  some_model := by show 0 < 5; omega
  src_lt e he := by show e + 3 < 5; have : e < 2 := he; omega
  dst_lt e he := by show 1 < 5; omega
  room := hc
  own i ph s := by
    match i with
    | 0 => cases ph <;> simp [duty, Net.sys, Prog.Own, cs]
    | 1 => cases ph <;> simp [duty, Net.sys, Prog.Own, cs, cd]
    | 2 => cases ph <;> simp [duty, Net.sys, Prog.Own, cd]
    | 3 =>
      cases ph <;> simp [duty, Net.sys, Prog.Own]
      cases Verif.IO.guard n.ru.interval n.ru.offset s.t <;> simp [Prog.Own, Prog.wait]
    | 4 =>
      cases ph <;> simp [duty, Net.sys, Prog.Own]
      cases Verif.IO.guard n.rv.interval n.rv.offset s.t <;> simp [Prog.Own, Prog.wait]
    | i + 5 => cases ph <;> simp [duty, Net.sys, Prog.Own]
  noRef_spk i s := by
    match i with
    | 0 => trivial
    | 1 => intro a; trivial
    | 2 => intro a; trivial
    | i + 3 => trivial
  noRef_lrn i s := trivial
  waits i ph s := by
    match i with
    | 0 => cases ph <;> simp [duty, Net.sys, Prog.Waits]
    | 1 => cases ph <;> simp [duty, Net.sys, Prog.Waits]
    | 2 => cases ph <;> simp [duty, Net.sys, Prog.Waits]
    | 3 =>
      cases ph <;> simp [duty, Net.sys, Prog.Waits]
      cases Verif.IO.guard n.ru.interval n.ru.offset s.t <;> simp [Prog.Waits, Prog.wait]
    | 4 =>
      cases ph <;> simp [duty, Net.sys, Prog.Waits]
      cases Verif.IO.guard n.rv.interval n.rv.offset s.t <;> simp [Prog.Waits, Prog.wait]
    | i + 5 => cases ph <;> simp [duty, Net.sys, Prog.Waits]
  alone_read e e' v s he he' _ hne _ := by
    have h1 : e < 2 := he
    have h2 : e' < 2 := he'
    have : (e = 0 ∧ e' = 1) ∨ (e = 1 ∧ e' = 0) := by omega
    rcases this with ⟨rfl, rfl⟩ | ⟨rfl, rfl⟩ <;> simp [Net.sys]
  alone_write e e' v v' s he he' _ _ hne _ := by
    have h1 : e < 2 := he
    have h2 : e' < 2 := he'
    have : (e = 0 ∧ e' = 1) ∨ (e = 1 ∧ e' = 0) := by omega
    rcases this with ⟨rfl, rfl⟩ | ⟨rfl, rfl⟩ <;> simp [Net.sys]

/-! ### Any schedule -/

/-- **C128.** Whatever the schedule and the division into runs: no more than some number of steps is ever taken, every schedule can be continued
until nothing can happen any more, and then all runs are finished, the neurons are as in the time steps one after the other, each
`Reset` having acted after its time steps, and the spikes kept are those. -/
theorem C128_every_schedule (n : Net) (hc : ∀ c, 1 ≤ n.cap c) (runs : List Nat) :
    (∃ N, ∀ ls, effective (net n.sys) (initial n.sys runs) ls ≤ N) ∧
    (∀ ls, ∃ more, Stuck (net n.sys) (exec (net n.sys) (initial n.sys runs) (ls ++ more))) ∧
    ∀ ls, Stuck (net n.sys) (exec (net n.sys) (initial n.sys runs) ls) →
      Finished (exec (net n.sys) (initial n.sys runs) ls) ∧
      (∃ s, varsOf (exec (net n.sys) (initial n.sys runs) ls) 1 = some s ∧ s.t = runs.sum ∧ s.u = (n.after runs.sum).1 ∧ s.v = (n.after runs.sum).2) ∧
      (∃ s, varsOf (exec (net n.sys) (initial n.sys runs) ls) 2 = some s ∧ s.log = (List.range runs.sum).map n.spikes) := by
  obtain ⟨h1, h2, h3⟩ := C113_outcome (tidy n hc) turns runs (run_ref n hc runs)
  refine ⟨h1, h2, fun ls hs => ?_⟩
  obtain ⟨hf, hv, _⟩ := h3 ls hs
  exact ⟨hf, ⟨_, hv 1, rfl, rfl, rfl⟩, ⟨_, hv 2, rfl⟩⟩

/-! ### The neuron that resets itself -/

/-- What `PyLifResetModelBitAcc` does to a neuron before a time step (lif/models.py:435-437). -/
def cleared (I o : Nat) (t : Nat) (s : Verif.LIF.St) : Verif.LIF.St := if t % I = o % I then ⟨0, 0⟩ else s

theorem shift_mod (I k o : Nat) : (k + 1 + 1) % I = (o + 2) % I ↔ k % I = o % I :=
  ⟨fun h => Nat.ModEq.add_right_cancel' 2 h, fun h => Nat.ModEq.add_right 2 h⟩

theorem from_step (n : Net) {I o : Nat} (hu : n.ru = ⟨I, o, 0⟩) (hv : n.rv = ⟨I, o, 0⟩) (i : Nat) : ∀ m k s,
    cleared I (o + 2) (k + 1) s = ⟨(n.after k).1 i, (n.after k).2 i⟩ →
    (Verif.LIF.resetRun n.p n.eff I (o + 2) s (k + 1) ((List.range' k m).map fun t => n.x t i)).2 =
      (List.range' k m).map (fun t => (n.neuron (n.after t).1 (n.after t).2 (n.x t) i).2) ∧
    cleared I (o + 2) (k + m + 1) (Verif.LIF.resetRun n.p n.eff I (o + 2) s (k + 1) ((List.range' k m).map fun t => n.x t i)).1 =
      ⟨(n.after (k + m)).1 i, (n.after (k + m)).2 i⟩ := by
  intro m
  induction m with
  | zero => intro k s h; exact ⟨rfl, h⟩
  | succ m ih =>
    intro k s h
    have hstep : Verif.LIF.resetRunSpk n.p n.eff I (o + 2) s (k + 1) (n.x k i) = n.neuron (n.after k).1 (n.after k).2 (n.x k) i := by
      unfold Verif.LIF.resetRunSpk Net.neuron
      rw [← h]
      rfl
    have hnext : cleared I (o + 2) (k + 1 + 1) (Verif.LIF.resetRunSpk n.p n.eff I (o + 2) s (k + 1) (n.x k i)).1 =
        ⟨(n.after (k + 1)).1 i, (n.after (k + 1)).2 i⟩ := by
      rw [hstep, cleared]
      have e : Verif.IO.guard I o (k + 1) = decide (k % I = o % I) := rfl
      by_cases hm : k % I = o % I
      · rw [if_pos ((shift_mod I k o).2 hm)]
        simp [Net.after, hu, hv, e, hm]
      · rw [if_neg (fun h => hm ((shift_mod I k o).1 h))]
        simp [Net.after, hu, hv, e, hm]
    obtain ⟨h1, h2⟩ := ih (k + 1) _ hnext
    rw [List.range'_succ, List.map_cons, List.map_cons]
    refine ⟨?_, ?_⟩
    · rw [Verif.LIF.resetRun]
      show _ :: _ = _ :: _
      rw [h1, hstep]
    · rw [Verif.LIF.resetRun, show k + (m + 1) = k + 1 + m by omega]
      exact h2

/-- **C128.** Neurons with a `Reset` to zero of `u` and one of `v`, of the same interval and offset, spike in every time step as `LIFReset` neurons
of that interval whose offset is two more (if these are reset before the very first time step, provided that `u` and `v` start at zero); and their state is that of the `LIFReset` neurons as it is when these
begin their next time step. -/
theorem C128_is_lif_reset (n : Net) {I o : Nat} (hu : n.ru = ⟨I, o, 0⟩) (hv : n.rv = ⟨I, o, 0⟩) (i : Nat)
    (h0 : 1 % I = (o + 2) % I → n.u0 i = 0 ∧ n.v0 i = 0) (T : Nat) :
    ((List.range T).map n.spikes).map (· i) =
      (Verif.LIF.resetRun n.p n.eff I (o + 2) ⟨n.u0 i, n.v0 i⟩ 1 ((List.range T).map fun t => n.x t i)).2.map (fun b => if b then 1 else 0) ∧
    (⟨(n.after T).1 i, (n.after T).2 i⟩ : Verif.LIF.St) =
      (if (T + 1) % I = (o + 2) % I then ⟨0, 0⟩
       else (Verif.LIF.resetRun n.p n.eff I (o + 2) ⟨n.u0 i, n.v0 i⟩ 1 ((List.range T).map fun t => n.x t i)).1) := by
  have hs : cleared I (o + 2) (0 + 1) ⟨n.u0 i, n.v0 i⟩ = ⟨(n.after 0).1 i, (n.after 0).2 i⟩ := by
    unfold cleared
    split
    · next h => simp [Net.after, h0 h]
    · rfl
  obtain ⟨h1, h2⟩ := from_step n hu hv i T 0 _ hs
  rw [Nat.zero_add, ← List.range_eq_range'] at h1 h2
  refine ⟨?_, ?_⟩
  · rw [h1]
    simp [Net.spikes, bits, Function.comp_def]
  · rw [← h2, Nat.zero_add]
    rfl

/-- **C128.** The same of every schedule: what the other process has kept of neuron `i` when the runs are over are the spikes of the `LIFReset`
neuron. -/
theorem C128_kept_spikes (n : Net) (hc : ∀ c, 1 ≤ n.cap c) {I o : Nat} (hu : n.ru = ⟨I, o, 0⟩) (hv : n.rv = ⟨I, o, 0⟩) (i : Nat)
    (h0 : 1 % I = (o + 2) % I → n.u0 i = 0 ∧ n.v0 i = 0) (runs : List Nat) (ls : List (Nat × Nat)) (hs : Stuck (net n.sys) (exec (net n.sys) (initial n.sys runs) ls)) :
    ∃ s, varsOf (exec (net n.sys) (initial n.sys runs) ls) 2 = some s ∧
      s.log.map (· i) = (Verif.LIF.resetRun n.p n.eff I (o + 2) ⟨n.u0 i, n.v0 i⟩ 1 ((List.range runs.sum).map fun t => n.x t i)).2.map
        (fun b => if b then 1 else 0) := by
  obtain ⟨_, _, s, h1, h2⟩ := (C128_every_schedule n hc runs).2.2 ls hs
  exact ⟨s, h1, by rw [h2]; exact (C128_is_lif_reset n hu hv i h0 _).1⟩

/-! ### Examples -/

/-- One neuron that leaks little, an input of 40 in every time step, a `Reset` of `u` and one of `v`. -/
def example1 (u0 : Int) (ru rv : ResetPar) : Net where
  p := ⟨2000, 500, 0, 0⟩
  eff := 100 * 2 ^ 6
  u0 := fun _ => u0
  v0 := fun _ => 0
  x := fun _ _ => 40
  ru := ru
  rv := rv
  cap := fun _ => 1

/-- **C128.** Eight time steps with `Reset`s of interval 3 and offset 1: the spikes are those of `LIFReset` with offset 3. With the numbers the `Reset`s
have, `LIFReset` is reset in other time steps, and spikes in others. -/
theorem C128_example :
    ((List.range 8).map fun t => (example1 0 ⟨3, 1, 0⟩ ⟨3, 1, 0⟩).spikes t 0) = [0, 0, 0, 0, 1, 0, 0, 1] ∧
    (Verif.LIF.resetRun ⟨2000, 500, 0, 0⟩ (100 * 2 ^ 6) 3 3 ⟨0, 0⟩ 1 (List.replicate 8 40)).2 =
      [false, false, false, false, true, false, false, true] ∧
    (Verif.LIF.resetRun ⟨2000, 500, 0, 0⟩ (100 * 2 ^ 6) 3 1 ⟨0, 0⟩ 1 (List.replicate 8 40)).2 =
      [false, false, true, false, false, true, false, false] := by decide +kernel

/-- **C128.** The first time step: `LIFReset` throws the initial `u` away when its offset is 1, the `Reset`s with the offset two less act only after
the first time step; from the second on nothing differs. -/
theorem C128_first_step :
    ((List.range 5).map fun t => (example1 9000 ⟨3, 2, 0⟩ ⟨3, 2, 0⟩).spikes t 0) = [1, 0, 1, 0, 0] ∧
    (Verif.LIF.resetRun ⟨2000, 500, 0, 0⟩ (100 * 2 ^ 6) 3 4 ⟨9000, 0⟩ 1 (List.replicate 5 40)).2 = [false, false, true, false, false] := by
  decide +kernel

/-- **C128.** Without the `Reset` of `v` the neuron is another one. -/
theorem C128_both_needed :
    ((List.range 8).map fun t => (example1 0 ⟨3, 1, 0⟩ ⟨20, 19, 0⟩).spikes t 0) ≠
      (List.range 8).map fun t => (example1 0 ⟨3, 1, 0⟩ ⟨3, 1, 0⟩).spikes t 0 := by
  decide +kernel

end Verif.RefAccess.ResetLif
