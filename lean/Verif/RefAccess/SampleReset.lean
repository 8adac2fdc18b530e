import Verif.RefAccess.ResetLif
import Verif.IO.Props

/-!
# C132: samples one after the other, with a `Reset` in between

As `Verif.RefAccess.SpikeLoad`, with two `Reset`s (io/reset.py:17-66) that refer to Vars of the process that is fed.
-/

namespace Verif.RefAccess.SampleReset

open Verif.EndToEnd (Phase Flags noFlags nextPhase)
open Verif.LIF (Par spikeReset subthr)
open Verif.RefAccess.ResetLif (ResetPar)
open Verif.IO (SpkSt spkAt spkSent spkData gtSent loadAt guard)

/-- Vars: `time_step`, those of the process that is fed, those of the loader with the ground truth, what was received. Each process uses some
of them. -/
structure Vars (β : Type) where
  t : Nat
  st : β
  sp : SpkSt
  gt : Int
  log : List (Int × Int)

/-- The process that is fed (initial Vars; from time step, Vars and input: what it sends, and its Vars after that), the dataset of spike trains and
ground truths, interval and offset, the ground truth sent at first; how the Vars the `Reset`s refer to are set, the `Reset`s; sizes of channels. -/
structure Net (β : Type) where
  start : β
  out : Nat → β → Int → Int
  f : Nat → β → Int → β
  spikes : Nat → List Int
  label : Nat → Int
  len : Nat
  interval : Nat
  offset : Nat
  gt0 : Int
  setA : Int → β → β
  setB : Int → β → β
  ra : ResetPar
  rb : ResetPar
  cap : Ch → Nat

variable {β : Type}

/-- `run_post_mgmt` of the loader (io/dataloader.py:190-201). -/
def Net.reload (n : Net β) (s : Vars β) : Vars β :=
  { s with
    gt := n.label s.sp.sampleId
    sp := { sampleId := if s.sp.sampleId + 1 = n.len then 0 else s.sp.sampleId + 1
            sampleTime := 0
            data := spkData n.interval (n.spikes s.sp.sampleId) } }

/-- Models 0 (loader: spikes on channel 1, ground truth on channel 0, io/dataloader.py:182-188), 1 (receives spikes, sends on channel 2), 2 (receives
ground truths and outputs), 3 and 4 (`Reset`s: guard and write with `wait`, io/reset.py:59-65). -/
def Net.sys (n : Net β) : Sys (Vars β) Int where
  n := 5
  ne := 2
  src e := e + 3
  dst _ := 1
  rd _ _ := 0
  wr e w s := if e = 0 then { s with st := n.setA w s.st } else { s with st := n.setB w s.st }
  cap := n.cap
  init _ := ⟨0, n.start, ⟨0, 0, fun _ => 0⟩, n.gt0, []⟩
  spk i s := match i with
    | 0 => .send 1 (s.sp.data (s.sp.sampleTime % n.interval)) (.send 0 s.gt
        (.ret { s with t := s.t + 1, sp := { s.sp with sampleTime := s.sp.sampleTime + 1 } }))
    | 1 => .recv 1 fun a => .send 2 (n.out (s.t + 1) s.st a) (.ret { s with t := s.t + 1, st := n.f (s.t + 1) s.st a })
    | 2 => .recv 0 fun g => .recv 2 fun a => .ret { s with t := s.t + 1, log := s.log ++ [(a, g)] }
    | 3 => .ret { s with t := s.t + 1 }
    | 4 => .ret { s with t := s.t + 1 }
    | _ => .ret s
  pre _ s := .ret s
  lrn _ s := .ret s
  post i s := match i with
    | 0 => .ret (n.reload s)
    | 3 => .write 0 n.ra.value (.wait 0 (.ret s))
    | 4 => .write 1 n.rb.value (.wait 1 (.ret s))
    | _ => .ret s
  preGuard _ _ := false
  lrnGuard _ _ := false
  postGuard i s := match i with
    | 0 => guard n.interval n.offset s.t
    | 3 => guard n.ra.interval n.ra.offset s.t
    | 4 => guard n.rb.interval n.rb.offset s.t
    | _ => false

/-! ### What it is to compute -/

/-- What the loader sends in time step `t + 1` (C51). -/
def Net.sent (n : Net β) (t : Nat) : Int := spkSent n.spikes n.len n.interval n.offset (t + 1)

/-- The ground truth it sends in time step `t + 1` (C51). -/
def Net.truth (n : Net β) (t : Nat) : Int := gtSent (fun k => ((), n.label k)) n.len n.interval n.offset n.gt0 (t + 1)

/-- What the `Reset`s do at the end of time step `t`. -/
def Net.resets (n : Net β) (t : Nat) (x : β) : β :=
  let y := if guard n.ra.interval n.ra.offset t then n.setA n.ra.value x else x
  if guard n.rb.interval n.rb.offset t then n.setB n.rb.value y else y

/-- The process that is fed after `t` time steps; the `Reset`s act at their ends. -/
def Net.after (n : Net β) : Nat → β
  | 0 => n.start
  | t + 1 => n.resets (t + 1) (n.f (t + 1) (n.after t) (n.sent t))

/-- Output and ground truth of time step `t + 1`. -/
def Net.pair (n : Net β) (t : Nat) : Int × Int := (n.out (t + 1) (n.after t) (n.sent t), n.truth t)

/-! ### The reference -/

def vals (n : Net β) (t : Nat) (x : β) (sp : SpkSt) (g : Int) (log : List (Int × Int)) : Nat → Vars β
  | 0 => ⟨t, n.start, sp, g, []⟩
  | 1 => ⟨t, x, ⟨0, 0, fun _ => 0⟩, n.gt0, []⟩
  | 2 => ⟨t, n.start, ⟨0, 0, fun _ => 0⟩, n.gt0, log⟩
  | 3 => ⟨t, n.start, ⟨0, 0, fun _ => 0⟩, n.gt0, []⟩
  | 4 => ⟨t, n.start, ⟨0, 0, fun _ => 0⟩, n.gt0, []⟩
  | _ => ⟨0, n.start, ⟨0, 0, fun _ => 0⟩, n.gt0, []⟩

def turns : Order (Vars β) Int := fun _ _ => [0, 1, 2, 3, 4]

theorem spk_phase (n : Net β) (hc : ∀ c, 1 ≤ n.cap c) (t : Nat) (x : β) (sp : SpkSt) (g : Int) (log : List (Int × Int)) :
    phaseRef n.sys turns .spk (vals n t x sp g log, fun _ => []) =
      some (vals n (t + 1) (n.f (t + 1) x (sp.data (sp.sampleTime % n.interval))) { sp with sampleTime := sp.sampleTime + 1 } g
        (log ++ [(n.out (t + 1) x (sp.data (sp.sampleTime % n.interval)), g)]), fun _ => []) := by
  have h0 : 0 < n.cap (.data 0) := hc _
  have h1 : 0 < n.cap (.data 1) := hc _
  have h2 : 0 < n.cap (.data 2) := hc _
  have hrun : ((turns .spk (vals n t x sp g log, fun _ => [])).foldl (turn n.sys) (called n.sys .spk (vals n t x sp g log, fun _ => []))) =
      ⟨vals n (t + 1) (n.f (t + 1) x (sp.data (sp.sampleTime % n.interval))) { sp with sampleTime := sp.sampleTime + 1 } g
        (log ++ [(n.out (t + 1) x (sp.data (sp.sampleTime % n.interval)), g)]), fun _ => none, fun _ => []⟩ := by
    simp only [turns, List.foldl_cons, List.foldl_nil]
    simp [turn, called, goOn, duty, Net.sys, put, vals, h0, h1, h2]
    refine ⟨?_, ?_, ?_⟩
    · funext i
      match i with
      | 0 => rfl
      | 1 => rfl
      | 2 => rfl
      | 3 => rfl
      | 4 => rfl
      | i + 5 => (repeat refine (if_neg (by omega)).trans ?_); rfl
    · funext i
      match i with
      | 0 => rfl
      | 1 => rfl
      | 2 => rfl
      | 3 => rfl
      | 4 => rfl
      | i + 5 => (repeat refine (if_neg (by omega)).trans ?_); rfl
    · funext i
      match i with
      | 0 => rfl
      | 1 => rfl
      | 2 => rfl
      | 3 => rfl
      | 4 => rfl
      | i + 5 => (repeat refine (if_neg (by omega)).trans ?_); rfl
  unfold phaseRef
  rw [hrun, if_pos]
  intro i _
  rfl

/-- What the loader does in post-management, if it is time. -/
def nextSp (n : Net β) (t : Nat) (sp : SpkSt) : SpkSt :=
  if guard n.interval n.offset t then
    ⟨if sp.sampleId + 1 = n.len then 0 else sp.sampleId + 1, 0, spkData n.interval (n.spikes sp.sampleId)⟩ else sp

def nextGt (n : Net β) (t : Nat) (sp : SpkSt) (g : Int) : Int := if guard n.interval n.offset t then n.label sp.sampleId else g

theorem post_phase (n : Net β) (t : Nat) (x : β) (sp : SpkSt) (g : Int) (log : List (Int × Int)) :
    phaseRef n.sys turns .post (vals n t x sp g log, fun _ => []) =
      some (vals n t (n.resets t x) (nextSp n t sp) (nextGt n t sp g) log, fun _ => []) := by
  have hrun : ((turns .post (vals n t x sp g log, fun _ => [])).foldl (turn n.sys) (called n.sys .post (vals n t x sp g log, fun _ => []))) =
      ⟨vals n t (n.resets t x) (nextSp n t sp) (nextGt n t sp g) log, fun _ => none, fun _ => []⟩ := by
    simp only [turns, List.foldl_cons, List.foldl_nil]
    cases hg : guard n.interval n.offset t <;> cases hr : guard n.ra.interval n.ra.offset t <;>
      cases hq : guard n.rb.interval n.rb.offset t <;>
    · simp [turn, called, goOn, duty, Net.sys, put, vals, hg, hr, hq, Net.resets, Net.reload, nextSp, nextGt, Prog.wait]
      refine ⟨?_, ?_⟩
      · funext i
        match i with
        | 0 => rfl
        | 1 => rfl
        | 2 => rfl
        | 3 => rfl
        | 4 => rfl
        | i + 5 => (repeat refine (if_neg (by omega)).trans ?_); rfl
      · funext i
        match i with
        | 0 => rfl
        | 1 => rfl
        | 2 => rfl
        | 3 => rfl
        | 4 => rfl
        | i + 5 => (repeat refine (if_neg (by omega)).trans ?_); rfl
  unfold phaseRef
  rw [hrun, if_pos]
  intro i _
  rfl

/-- The two loaders of C51 count samples alike. -/
theorem same_id (n : Net β) (t : Nat) :
    (loadAt (fun k => ((), n.label k)) n.len n.interval n.offset n.gt0 t).sampleId = (spkAt n.spikes n.len n.interval n.offset t).sampleId := by
  induction t with
  | zero => rfl
  | succ t ih =>
    simp only [loadAt, spkAt, Verif.IO.spkStep]
    split
    · simp only [Verif.IO.load, ih]
    · exact ih

/-- One time step of the reference. -/
theorem step_ref (n : Net β) (hc : ∀ c, 1 ≤ n.cap c) (t : Nat) (log : List (Int × Int)) :
    stepRef n.sys turns (vals n t (n.after t) (spkAt n.spikes n.len n.interval n.offset t) (n.truth t) log, fun _ => []) =
      some (vals n (t + 1) (n.after (t + 1)) (spkAt n.spikes n.len n.interval n.offset (t + 1)) (n.truth (t + 1)) (log ++ [n.pair t]), fun _ => []) := by
  have hfalse : ∀ σ, anyOf n.sys n.sys.lrnGuard σ = false := by intro σ; simp [anyOf, Net.sys]
  have hpre : ∀ r, wantPre n.sys r = false := by intro r; simp [wantPre, anyOf, Net.sys]
  have hlrn : ∀ r, wantLrn n.sys r = false := fun r => hfalse r.1
  have hsent : (spkAt n.spikes n.len n.interval n.offset t).data ((spkAt n.spikes n.len n.interval n.offset t).sampleTime % n.interval) = n.sent t := by
    unfold Net.sent spkSent
    rw [Nat.add_sub_cancel]
    unfold Verif.IO.spkStep
    dsimp only
    split <;> rfl
  rw [stepRef, spk_phase n hc, Option.bind_some, hpre, phaseIf, if_neg (by simp), Option.bind_some, hlrn, phaseIf, if_neg (by simp),
    Option.bind_some, hsent]
  generalize hr : (vals n (t + 1) (n.f (t + 1) (n.after t) (n.sent t))
    { spkAt n.spikes n.len n.interval n.offset t with sampleTime := (spkAt n.spikes n.len n.interval n.offset t).sampleTime + 1 } (n.truth t)
    (log ++ [(n.out (t + 1) (n.after t) (n.sent t), n.truth t)]), fun _ : Nat => ([] : List Int)) = r
  have hw : wantPost n.sys r r = (guard n.interval n.offset (t + 1) || (guard n.ra.interval n.ra.offset (t + 1) || guard n.rb.interval n.rb.offset (t + 1))) := by
    subst hr
    simp [wantPost, anyOf, Net.sys, List.range_succ, vals]
  have h1 : n.truth (t + 1) = nextGt n (t + 1) (spkAt n.spikes n.len n.interval n.offset t) (n.truth t) := by
    unfold Net.truth gtSent nextGt
    rw [Nat.add_sub_cancel, Nat.add_sub_cancel, loadAt]
    split
    · simp only [Verif.IO.load, same_id]
    · rfl
  have h2 : spkAt n.spikes n.len n.interval n.offset (t + 1) = nextSp n (t + 1)
      { spkAt n.spikes n.len n.interval n.offset t with sampleTime := (spkAt n.spikes n.len n.interval n.offset t).sampleTime + 1 } := by
    rw [spkAt]
    unfold nextSp Verif.IO.spkStep
    dsimp only
    split <;> rfl
  have h3 : n.after (t + 1) = n.resets (t + 1) (n.f (t + 1) (n.after t) (n.sent t)) := rfl
  have hpost := post_phase n (t + 1) (n.f (t + 1) (n.after t) (n.sent t))
    { spkAt n.spikes n.len n.interval n.offset t with sampleTime := (spkAt n.spikes n.len n.interval n.offset t).sampleTime + 1 } (n.truth t)
    (log ++ [(n.out (t + 1) (n.after t) (n.sent t), n.truth t)])
  rw [hw, phaseIf, h1, h2, h3]
  cases hb : (guard n.interval n.offset (t + 1) || (guard n.ra.interval n.ra.offset (t + 1) || guard n.rb.interval n.rb.offset (t + 1)))
  · simp only [Bool.or_eq_false_iff] at hb
    rw [if_neg (by simp), ← hr]
    simp [nextSp, nextGt, Net.resets, hb.1, hb.2.1, hb.2.2, Net.pair]
  · rw [if_pos rfl, ← hr, hpost]
    rfl

theorem steps_ref (n : Net β) (hc : ∀ c, 1 ≤ n.cap c) : ∀ k t,
    stepsRef n.sys turns k (vals n t (n.after t) (spkAt n.spikes n.len n.interval n.offset t) (n.truth t) ((List.range t).map n.pair), fun _ => []) =
      some (vals n (t + k) (n.after (t + k)) (spkAt n.spikes n.len n.interval n.offset (t + k)) (n.truth (t + k)) ((List.range (t + k)).map n.pair),
        fun _ => []) := by
  intro k
  induction k with
  | zero => intro t; rfl
  | succ k ih =>
    intro t
    rw [stepsRef, step_ref n hc, Option.bind_some]
    have := ih (t + 1)
    rw [show t + 1 + k = t + (k + 1) by omega, List.range_succ, List.map_append] at this
    exact this

theorem run_ref (n : Net β) (hc : ∀ c, 1 ≤ n.cap c) (runs : List Nat) :
    runAll n.sys turns runs =
      some (vals n runs.sum (n.after runs.sum) (spkAt n.spikes n.len n.interval n.offset runs.sum) (n.truth runs.sum)
        ((List.range runs.sum).map n.pair), fun _ => []) := by
  have h := steps_ref n hc runs.sum 0
  rw [Nat.zero_add] at h
  rw [← h]
  unfold runAll
  congr 2
  funext i
  match i with
  | 0 => rfl
  | 1 => rfl
  | 2 => rfl
  | 3 => rfl
  | 4 => rfl
  | i + 5 => rfl

/-- Who sends and receives on the channels between ports. -/
def cs (c : Nat) : Nat := if c = 2 then 1 else 0
def cd (c : Nat) : Nat := if c = 1 then 1 else 2

theorem tidy (n : Net β) (hc : ∀ c, 1 ≤ n.cap c) (hcomm : ∀ v w x, n.setA v (n.setB w x) = n.setB w (n.setA v x)) : Tidy n.sys cs cd (fun _ => True) where
  some_model := Nat.succ_pos _
  src_lt e he := by show e + 3 < 5; have : e < 2 := he; omega
  dst_lt e he := by show 1 < 5; omega
  room := hc
  own i ph s := by
    match i with
    | 0 =>
      cases ph <;> simp [duty, Net.sys, Prog.Own, cs]
      cases guard n.interval n.offset s.t <;> simp [Prog.Own]
    | 1 => cases ph <;> simp [duty, Net.sys, Prog.Own, cs, cd]
    | 2 => cases ph <;> simp [duty, Net.sys, Prog.Own, cd]
    | 3 =>
      cases ph <;> simp [duty, Net.sys, Prog.Own]
      cases guard n.ra.interval n.ra.offset s.t <;> simp [Prog.Own, Prog.wait]
    | 4 =>
      cases ph <;> simp [duty, Net.sys, Prog.Own]
      cases guard n.rb.interval n.rb.offset s.t <;> simp [Prog.Own, Prog.wait]
    | i + 5 => cases ph <;> simp [duty, Net.sys, Prog.Own]
  noRef_spk i s := by
    match i with
    | 0 => trivial
    | 1 => intro a; trivial
    | 2 => intro a b; trivial
    | 3 => trivial
    | 4 => trivial
    | i + 5 => trivial
  noRef_lrn i s := trivial
  waits i ph s := by
    match i with
    | 0 =>
      cases ph <;> simp [duty, Net.sys, Prog.Waits]
      cases guard n.interval n.offset s.t <;> simp [Prog.Waits]
    | 1 => cases ph <;> simp [duty, Net.sys, Prog.Waits]
    | 2 => cases ph <;> simp [duty, Net.sys, Prog.Waits]
    | 3 =>
      cases ph <;> simp [duty, Net.sys, Prog.Waits]
      cases guard n.ra.interval n.ra.offset s.t <;> simp [Prog.Waits, Prog.wait]
    | 4 =>
      cases ph <;> simp [duty, Net.sys, Prog.Waits]
      cases guard n.rb.interval n.rb.offset s.t <;> simp [Prog.Waits, Prog.wait]
    | i + 5 => cases ph <;> simp [duty, Net.sys, Prog.Waits]
  alone_read e e' v s he he' _ hne _ := rfl
  alone_write e e' v v' s he he' _ _ hne _ := by
    have h1 : e < 2 := he
    have h2 : e' < 2 := he'
    have : (e = 0 ∧ e' = 1) ∨ (e = 1 ∧ e' = 0) := by omega
    rcases this with ⟨rfl, rfl⟩ | ⟨rfl, rfl⟩ <;> simp [Net.sys, hcomm]

/-! ### Any schedule -/

/-- **C132.** Whatever the schedule and the division into runs: no more than some number of steps is ever taken, every schedule can be continued
until nothing can happen any more, and then all runs are finished, the process has been fed and reset time step by time step, and the
third process has received the output and the ground truth of every time step together. -/
theorem C132_every_schedule (n : Net β) (hc : ∀ c, 1 ≤ n.cap c) (hcomm : ∀ v w x, n.setA v (n.setB w x) = n.setB w (n.setA v x)) (runs : List Nat) :
    (∃ N, ∀ ls, effective (net n.sys) (initial n.sys runs) ls ≤ N) ∧
    (∀ ls, ∃ more, Stuck (net n.sys) (exec (net n.sys) (initial n.sys runs) (ls ++ more))) ∧
    ∀ ls, Stuck (net n.sys) (exec (net n.sys) (initial n.sys runs) ls) →
      Finished (exec (net n.sys) (initial n.sys runs) ls) ∧
      (∃ s, varsOf (exec (net n.sys) (initial n.sys runs) ls) 1 = some s ∧ s.t = runs.sum ∧ s.st = n.after runs.sum) ∧
      (∃ s, varsOf (exec (net n.sys) (initial n.sys runs) ls) 2 = some s ∧ s.log = (List.range runs.sum).map n.pair) := by
  obtain ⟨h1, h2, h3⟩ := C113_outcome (tidy n hc hcomm) turns runs (run_ref n hc runs)
  refine ⟨h1, h2, fun ls hs => ?_⟩
  obtain ⟨hf, hv, _⟩ := h3 ls hs
  exact ⟨hf, ⟨_, hv 1, rfl, rfl⟩, ⟨_, hv 2, rfl⟩⟩

/-- Between two loads nothing is loaded. -/
theorem no_guard {I o : Nat} (hI : 0 < I) (k j : Nat) (hj : j + 1 < I) : guard I o (o % I + 1 + k * I + j + 1) = false := by
  have h1 := Verif.IO.loads_eq I o k (j + 1) hI hj
  have h2 := Verif.IO.loads_eq I o k j hI (by omega)
  rw [show o % I + 1 + k * I + (j + 1) = (o % I + 1 + k * I + j) + 1 by omega, Verif.IO.loads, h2] at h1
  cases hg : guard I o (o % I + 1 + k * I + j + 1)
  · rfl
  · rw [hg] at h1; simp at h1

/-- The process in the `j`-th time step after a load, when it is reset together with the loads. -/
theorem fresh (n : Net β) (hI : 0 < n.interval) (hlen : 0 < n.len) (hra : n.ra.interval = n.interval ∧ n.ra.offset = n.offset)
    (hrb : n.rb.interval = n.interval ∧ n.rb.offset = n.offset) (x0 : β) (hset : ∀ x, n.setB n.rb.value (n.setA n.ra.value x) = x0) (hf : ∀ t x a, n.f t x a = n.f 0 x a) (k : Nat) : ∀ j, j < n.interval →
    n.after (n.offset % n.interval + 1 + k * n.interval + j) = ((List.range j).map fun i => (n.spikes (k % n.len)).getD i 0).foldl (n.f 0) x0 := by
  intro j
  induction j with
  | zero =>
    intro _
    have hg : guard n.interval n.offset (n.offset % n.interval + 1 + k * n.interval) = true := (Verif.IO.guard_iff _ _ _ hI (by omega)).mpr ⟨k, rfl⟩
    rw [show n.offset % n.interval + 1 + k * n.interval + 0 = (n.offset % n.interval + k * n.interval) + 1 by omega]
    rw [show n.offset % n.interval + 1 + k * n.interval = (n.offset % n.interval + k * n.interval) + 1 by omega] at hg
    simp [Net.after, Net.resets, hra.1, hra.2, hrb.1, hrb.2, hg, hset]
  | succ j ih =>
    intro hj
    have hg := no_guard (o := n.offset) hI k j hj
    have ha := Verif.IO.C51_spike_loader n.spikes n.len n.interval n.offset hlen hI k j (by omega)
    rw [show n.offset % n.interval + 1 + k * n.interval + 1 + j = n.offset % n.interval + 1 + k * n.interval + j + 1 by omega] at ha
    have hnone : ∀ x, n.resets (n.offset % n.interval + 1 + k * n.interval + j + 1) x = x := by
      intro x
      simp [Net.resets, hra.1, hra.2, hrb.1, hrb.2, hg]
    rw [← Nat.add_assoc, Net.after, hnone, ih (by omega), hf, List.range_succ, List.map_append, List.foldl_append]
    unfold Net.sent
    rw [ha]
    rfl

/-- **C132.** Samples do not influence each other, under every schedule: when the `Reset`s have the interval and the offset of the loader, together set all of
the state of the process, and the process does not look at the time, then what is received in the `j`-th time step after the `k`-th load is the output
of the process started afresh and fed with the first `j + 1` values of sample `k` modulo the size of the dataset and nothing else, together
with the ground truth of this sample. -/
theorem C132_samples_independent (n : Net β) (hc : ∀ c, 1 ≤ n.cap c) (hcomm : ∀ v w x, n.setA v (n.setB w x) = n.setB w (n.setA v x)) (hI : 0 < n.interval)
    (hlen : 0 < n.len) (hra : n.ra.interval = n.interval ∧ n.ra.offset = n.offset) (hrb : n.rb.interval = n.interval ∧ n.rb.offset = n.offset) (x0 : β)
    (hset : ∀ x, n.setB n.rb.value (n.setA n.ra.value x) = x0) (hf : ∀ t x a, n.f t x a = n.f 0 x a)
    (hout : ∀ t x a, n.out t x a = n.out 0 x a) (runs : List Nat) (ls : List (Nat × Nat))
    (hs : Stuck (net n.sys) (exec (net n.sys) (initial n.sys runs) ls)) :
    ∃ s, varsOf (exec (net n.sys) (initial n.sys runs) ls) 2 = some s ∧ s.log.length = runs.sum ∧
      ∀ k j, j < n.interval → n.offset % n.interval + 1 + k * n.interval + j < runs.sum →
        s.log[n.offset % n.interval + 1 + k * n.interval + j]? =
          some (n.out 0 (((List.range j).map fun i => (n.spikes (k % n.len)).getD i 0).foldl (n.f 0) x0) ((n.spikes (k % n.len)).getD j 0),
            n.label (k % n.len)) := by
  obtain ⟨_, _, s, h1, h2⟩ := (C132_every_schedule n hc hcomm runs).2.2 ls hs
  refine ⟨s, h1, by simp [h2], fun k j hj ht => ?_⟩
  have ha := Verif.IO.C51_spike_loader n.spikes n.len n.interval n.offset hlen hI k j hj
  have hb := (Verif.IO.C51_state_loader (fun k => ((), n.label k)) n.len n.interval n.offset n.gt0 hlen hI k j hj).2
  rw [show n.offset % n.interval + 1 + k * n.interval + 1 + j = n.offset % n.interval + 1 + k * n.interval + j + 1 by omega] at ha
  rw [h2, List.getElem?_map, List.getElem?_range ht, Option.map_some, Net.pair, Net.sent, Net.truth, ha, hb, hout,
    fresh n hI hlen hra hrb x0 hset hf k j hj]

/-! ### A LIF neuron -/

/-- The Vars `u` and `v` of a LIF neuron (`PyLifModelBitAcc`, lif/models.py:194-216) with a weight, one `Reset` on each. -/
def lif (p : Par) (eff : Int) (weight : Int) (start : Verif.LIF.St) (spikes : Nat → List Int) (label : Nat → Int) (len interval offset : Nat) (gt0 : Int)
    (ra rb : ResetPar) (cap : Ch → Nat) : Net Verif.LIF.St where
  start := start
  out _ x a := if (spikeReset eff (subthr p x (weight * a))).2 then 1 else 0
  f _ x a := (spikeReset eff (subthr p x (weight * a))).1
  spikes := spikes
  label := label
  len := len
  interval := interval
  offset := offset
  gt0 := gt0
  setA w x := { x with u := w }
  setB w x := { x with v := w }
  ra := ra
  rb := rb
  cap := cap

/-- **C132.** A LIF neuron with `Reset`s to zero of `u` and of `v`, of interval and offset of the loader: under every schedule, its output in the `j`-th time
step after the `k`-th load is that of a neuron which starts at zero and gets the first `j + 1` values of the sample. -/
theorem C132_lif (p : Par) (eff weight : Int) (start : Verif.LIF.St) (spikes : Nat → List Int) (label : Nat → Int) {len interval : Nat} (offset : Nat)
    (gt0 : Int) (cap : Ch → Nat) (hc : ∀ c, 1 ≤ cap c) (hI : 0 < interval) (hlen : 0 < len) (runs : List Nat) (ls : List (Nat × Nat))
    (hs : Stuck (net (lif p eff weight start spikes label len interval offset gt0 ⟨interval, offset, 0⟩ ⟨interval, offset, 0⟩ cap).sys)
      (exec (net (lif p eff weight start spikes label len interval offset gt0 ⟨interval, offset, 0⟩ ⟨interval, offset, 0⟩ cap).sys)
        (initial (lif p eff weight start spikes label len interval offset gt0 ⟨interval, offset, 0⟩ ⟨interval, offset, 0⟩ cap).sys runs) ls)) :
    ∃ s, varsOf (exec (net (lif p eff weight start spikes label len interval offset gt0 ⟨interval, offset, 0⟩ ⟨interval, offset, 0⟩ cap).sys)
        (initial (lif p eff weight start spikes label len interval offset gt0 ⟨interval, offset, 0⟩ ⟨interval, offset, 0⟩ cap).sys runs) ls) 2 = some s ∧
      ∀ k j, j < interval → offset % interval + 1 + k * interval + j < runs.sum →
        s.log[offset % interval + 1 + k * interval + j]? =
          some (if (spikeReset eff (subthr p
              (((List.range j).map fun i => (spikes (k % len)).getD i 0).foldl (fun x a => (spikeReset eff (subthr p x (weight * a))).1) ⟨0, 0⟩)
              (weight * (spikes (k % len)).getD j 0))).2 then 1 else 0, label (k % len)) := by
  obtain ⟨s, h1, _, h2⟩ := C132_samples_independent (lif p eff weight start spikes label len interval offset gt0 ⟨interval, offset, 0⟩ ⟨interval, offset, 0⟩ cap)
    hc (fun _ _ _ => rfl) hI hlen ⟨rfl, rfl⟩ ⟨rfl, rfl⟩ ⟨0, 0⟩ (fun _ => rfl) (fun _ _ _ => rfl) (fun _ _ _ => rfl) runs ls hs
  exact ⟨s, h1, h2⟩

/-! ### Examples -/

/-- Two samples; the process adds up its input and counts time steps, both are reset with the offset `o`. -/
def adding (o : Nat) : Net (Int × Int) where
  start := (0, 0)
  out _ x a := 10 * x.2 + x.1 + a
  f _ x a := (x.1 + a, x.2 + 1)
  spikes k := if k = 0 then [1, 1] else [5, 0, 5, 7]
  label k := if k = 0 then 100 else 200
  len := 2
  interval := 3
  offset := 0
  gt0 := 0
  setA v x := (v, x.2)
  setB v x := (x.1, v)
  ra := ⟨3, o, 0⟩
  rb := ⟨3, 0, 0⟩
  cap _ := 1

/-- **C132.** The same sample gives the same outputs whenever it comes; the hypotheses are met. -/
theorem C132_example :
    (List.range 10).map (adding 0).pair =
      [(0, 0), (1, 100), (12, 100), (22, 100), (5, 200), (15, 200), (30, 200), (1, 100), (12, 100), (22, 100)] ∧
    (∀ x, (adding 0).setB (adding 0).rb.value ((adding 0).setA (adding 0).ra.value x) = (0, 0)) ∧
    (∀ v w x, (adding 0).setA v ((adding 0).setB w x) = (adding 0).setB w ((adding 0).setA v x)) ∧
    (∀ t x a, (adding 0).f t x a = (adding 0).f 0 x a) ∧ ∀ t x a, (adding 0).out t x a = (adding 0).out 0 x a :=
  ⟨by decide +kernel, fun _ => rfl, fun _ _ _ => rfl, fun _ _ _ => rfl, fun _ _ _ => rfl⟩

/-- **C132.** With one of the `Reset`s one time step later, the second time, the first sample gives other outputs than the first time. -/
theorem C132_other_offset :
    ((List.range 10).map (adding 1).pair).take 4 = [(0, 0), (1, 100), (11, 100), (21, 100)] ∧
    ((List.range 10).map (adding 1).pair).drop 7 = [(6, 100), (11, 100), (21, 100)] := by
  decide +kernel


end Verif.RefAccess.SampleReset
