import Verif.RefAccess.Theorems
import Verif.IO.Props

/-!
# C131: a `SpikeDataloader`, a process it feeds, and who gets outputs and ground truths

A `SpikeDataloader` (io/dataloader.py:143-201) sends spikes to a process and ground truths to another one, which also receives the outputs of the
first. Everything runs as in `Verif.RefAccess.Model`: one runtime service, any schedule. The loader is that of C51 (`Verif.IO.spkAt`,
`Verif.IO.loadAt`), one element of its output.
-/

namespace Verif.RefAccess.SpikeLoad

open Verif.EndToEnd (Phase Flags noFlags nextPhase)
open Verif.IO (SpkSt spkAt spkSent spkData gtSent loadAt guard)

/-- Vars: `time_step`, those of the process that is fed, those of the loader with the ground truth, what was received. Each process uses some
of them. -/
structure Vars (β : Type) where
  t : Nat
  st : β
  sp : SpkSt
  gt : Int
  log : List (Int × Int)

/-- The process that is fed (initial Vars; from time step, Vars and input: what it sends, and its Vars after that), the dataset of spike trains and
ground truths, interval and offset, the ground truth sent at first, sizes of channels. -/
structure Net (β : Type) where
  start : β
  out : Nat → β → Int → Int
  f : Nat → β → Int → β
  spikes : Nat → List Int
  label : Nat → Int
  len : Nat
  interval : Nat
  offset : Nat
  gt0 : Int
  cap : Ch → Nat

variable {β : Type}

/-- `run_post_mgmt` of the loader (io/dataloader.py:190-201). -/
def Net.reload (n : Net β) (s : Vars β) : Vars β :=
  { s with
    gt := n.label s.sp.sampleId
    sp := { sampleId := if s.sp.sampleId + 1 = n.len then 0 else s.sp.sampleId + 1
            sampleTime := 0
            data := spkData n.interval (n.spikes s.sp.sampleId) } }

/-- Models 0 (loader: spikes on channel 1, ground truth on channel 0, io/dataloader.py:182-188), 1 (receives spikes, sends on channel 2), 2 (receives
ground truths and outputs). -/
def Net.sys (n : Net β) : Sys (Vars β) Int where
  n := 3
  ne := 0
  src _ := 0
  dst _ := 0
  rd _ _ := 0
  wr _ _ s := s
  cap := n.cap
  init _ := ⟨0, n.start, ⟨0, 0, fun _ => 0⟩, n.gt0, []⟩
  spk i s := match i with
    | 0 => .send 1 (s.sp.data (s.sp.sampleTime % n.interval)) (.send 0 s.gt
        (.ret { s with t := s.t + 1, sp := { s.sp with sampleTime := s.sp.sampleTime + 1 } }))
    | 1 => .recv 1 fun a => .send 2 (n.out (s.t + 1) s.st a) (.ret { s with t := s.t + 1, st := n.f (s.t + 1) s.st a })
    | 2 => .recv 0 fun g => .recv 2 fun a => .ret { s with t := s.t + 1, log := s.log ++ [(a, g)] }
    | _ => .ret s
  pre _ s := .ret s
  lrn _ s := .ret s
  post i s := match i with
    | 0 => .ret (n.reload s)
    | _ => .ret s
  preGuard _ _ := false
  lrnGuard _ _ := false
  postGuard i s := match i with
    | 0 => guard n.interval n.offset s.t
    | _ => false

/-! ### What it is to compute -/

/-- What the loader sends in time step `t + 1` (C51). -/
def Net.sent (n : Net β) (t : Nat) : Int := spkSent n.spikes n.len n.interval n.offset (t + 1)

/-- The ground truth it sends in time step `t + 1` (C51). -/
def Net.truth (n : Net β) (t : Nat) : Int := gtSent (fun k => ((), n.label k)) n.len n.interval n.offset n.gt0 (t + 1)

/-- The process that is fed after `t` time steps. -/
def Net.after (n : Net β) : Nat → β
  | 0 => n.start
  | t + 1 => n.f (t + 1) (n.after t) (n.sent t)

/-- Output and ground truth of time step `t + 1`. -/
def Net.pair (n : Net β) (t : Nat) : Int × Int := (n.out (t + 1) (n.after t) (n.sent t), n.truth t)

/-! ### The reference -/

def vals (n : Net β) (t : Nat) (x : β) (sp : SpkSt) (g : Int) (log : List (Int × Int)) : Nat → Vars β
  | 0 => ⟨t, n.start, sp, g, []⟩
  | 1 => ⟨t, x, ⟨0, 0, fun _ => 0⟩, n.gt0, []⟩
  | 2 => ⟨t, n.start, ⟨0, 0, fun _ => 0⟩, n.gt0, log⟩
  | _ => ⟨0, n.start, ⟨0, 0, fun _ => 0⟩, n.gt0, []⟩

def turns : Order (Vars β) Int := fun _ _ => [0, 1, 2]

theorem spk_phase (n : Net β) (hc : ∀ c, 1 ≤ n.cap c) (t : Nat) (x : β) (sp : SpkSt) (g : Int) (log : List (Int × Int)) :
    phaseRef n.sys turns .spk (vals n t x sp g log, fun _ => []) =
      some (vals n (t + 1) (n.f (t + 1) x (sp.data (sp.sampleTime % n.interval))) { sp with sampleTime := sp.sampleTime + 1 } g
        (log ++ [(n.out (t + 1) x (sp.data (sp.sampleTime % n.interval)), g)]), fun _ => []) := by
  have h0 : 0 < n.cap (.data 0) := hc _
  have h1 : 0 < n.cap (.data 1) := hc _
  have h2 : 0 < n.cap (.data 2) := hc _
  have hrun : ((turns .spk (vals n t x sp g log, fun _ => [])).foldl (turn n.sys) (called n.sys .spk (vals n t x sp g log, fun _ => []))) =
      ⟨vals n (t + 1) (n.f (t + 1) x (sp.data (sp.sampleTime % n.interval))) { sp with sampleTime := sp.sampleTime + 1 } g
        (log ++ [(n.out (t + 1) x (sp.data (sp.sampleTime % n.interval)), g)]), fun _ => none, fun _ => []⟩ := by
    simp only [turns, List.foldl_cons, List.foldl_nil]
    simp [turn, called, goOn, duty, Net.sys, put, vals, h0, h1, h2]
    refine ⟨?_, ?_, ?_⟩
    · funext i
      match i with
      | 0 => rfl
      | 1 => rfl
      | 2 => rfl
      | i + 3 => (repeat refine (if_neg (by omega)).trans ?_); rfl
    · funext i
      match i with
      | 0 => rfl
      | 1 => rfl
      | 2 => rfl
      | i + 3 => (repeat refine (if_neg (by omega)).trans ?_); rfl
    · funext i
      match i with
      | 0 => rfl
      | 1 => rfl
      | 2 => rfl
      | i + 3 => (repeat refine (if_neg (by omega)).trans ?_); rfl
  unfold phaseRef
  rw [hrun, if_pos]
  intro i _
  rfl

theorem post_phase (n : Net β) (t : Nat) (x : β) (sp : SpkSt) (g : Int) (log : List (Int × Int)) (hg : guard n.interval n.offset t = true) :
    phaseRef n.sys turns .post (vals n t x sp g log, fun _ => []) =
      some (vals n t x ⟨if sp.sampleId + 1 = n.len then 0 else sp.sampleId + 1, 0, spkData n.interval (n.spikes sp.sampleId)⟩ (n.label sp.sampleId) log,
        fun _ => []) := by
  have hrun : ((turns .post (vals n t x sp g log, fun _ => [])).foldl (turn n.sys) (called n.sys .post (vals n t x sp g log, fun _ => []))) =
      ⟨vals n t x ⟨if sp.sampleId + 1 = n.len then 0 else sp.sampleId + 1, 0, spkData n.interval (n.spikes sp.sampleId)⟩ (n.label sp.sampleId) log,
        fun _ => none, fun _ => []⟩ := by
    simp only [turns, List.foldl_cons, List.foldl_nil]
    simp [turn, called, goOn, duty, Net.sys, put, vals, hg, Net.reload]
    refine ⟨?_, ?_⟩
    · funext i
      match i with
      | 0 => rfl
      | 1 => rfl
      | 2 => rfl
      | i + 3 => (repeat refine (if_neg (by omega)).trans ?_); rfl
    · funext i
      match i with
      | 0 => rfl
      | 1 => rfl
      | 2 => rfl
      | i + 3 => (repeat refine (if_neg (by omega)).trans ?_); rfl
  unfold phaseRef
  rw [hrun, if_pos]
  intro i _
  rfl

/-- The two loaders of C51 count samples alike. -/
theorem same_id (n : Net β) (t : Nat) :
    (loadAt (fun k => ((), n.label k)) n.len n.interval n.offset n.gt0 t).sampleId = (spkAt n.spikes n.len n.interval n.offset t).sampleId := by
  induction t with
  | zero => rfl
  | succ t ih =>
    simp only [loadAt, spkAt, Verif.IO.spkStep]
    split
    · simp only [Verif.IO.load, ih]
    · exact ih

/-- One time step of the reference. -/
theorem step_ref (n : Net β) (hc : ∀ c, 1 ≤ n.cap c) (t : Nat) (log : List (Int × Int)) :
    stepRef n.sys turns (vals n t (n.after t) (spkAt n.spikes n.len n.interval n.offset t) (n.truth t) log, fun _ => []) =
      some (vals n (t + 1) (n.after (t + 1)) (spkAt n.spikes n.len n.interval n.offset (t + 1)) (n.truth (t + 1)) (log ++ [n.pair t]), fun _ => []) := by
  have hfalse : ∀ σ, anyOf n.sys n.sys.lrnGuard σ = false := by intro σ; simp [anyOf, Net.sys]
  have hpre : ∀ r, wantPre n.sys r = false := by intro r; simp [wantPre, anyOf, Net.sys]
  have hlrn : ∀ r, wantLrn n.sys r = false := fun r => hfalse r.1
  have hsent : (spkAt n.spikes n.len n.interval n.offset t).data ((spkAt n.spikes n.len n.interval n.offset t).sampleTime % n.interval) = n.sent t := by
    unfold Net.sent spkSent
    rw [Nat.add_sub_cancel]
    unfold Verif.IO.spkStep
    dsimp only
    split <;> rfl
  rw [stepRef, spk_phase n hc, Option.bind_some, hpre, phaseIf, if_neg (by simp), Option.bind_some, hlrn, phaseIf, if_neg (by simp),
    Option.bind_some, hsent]
  have hw : ∀ r : Vals (Vars β) Int, (r.1 0).t = t + 1 → wantPost n.sys r r = guard n.interval n.offset (t + 1) := by
    intro r hr
    simp [wantPost, anyOf, Net.sys, List.range_succ, hr]
  rw [hw _ rfl, phaseIf]
  cases hg : guard n.interval n.offset (t + 1)
  · rw [if_neg (by simp)]
    congr 2
    have h1 : n.truth (t + 1) = n.truth t := by
      unfold Net.truth gtSent
      rw [Nat.add_sub_cancel, Nat.add_sub_cancel, loadAt]
      simp [hg]
    have h2 : spkAt n.spikes n.len n.interval n.offset (t + 1) =
        { spkAt n.spikes n.len n.interval n.offset t with sampleTime := (spkAt n.spikes n.len n.interval n.offset t).sampleTime + 1 } := by
      rw [spkAt]
      simp [Verif.IO.spkStep, hg]
    rw [h1, h2]
    rfl
  · rw [if_pos rfl, post_phase n _ _ _ _ _ hg]
    congr 2
    have h1 : n.truth (t + 1) = n.label (spkAt n.spikes n.len n.interval n.offset t).sampleId := by
      unfold Net.truth gtSent
      rw [Nat.add_sub_cancel, loadAt]
      simp only [hg, if_true, Verif.IO.load, same_id]
    have h2 : spkAt n.spikes n.len n.interval n.offset (t + 1) =
        ⟨if (spkAt n.spikes n.len n.interval n.offset t).sampleId + 1 = n.len then 0 else (spkAt n.spikes n.len n.interval n.offset t).sampleId + 1, 0,
          spkData n.interval (n.spikes (spkAt n.spikes n.len n.interval n.offset t).sampleId)⟩ := by
      rw [spkAt]
      simp [Verif.IO.spkStep, hg]
    rw [h1, h2]
    rfl

theorem steps_ref (n : Net β) (hc : ∀ c, 1 ≤ n.cap c) : ∀ k t,
    stepsRef n.sys turns k (vals n t (n.after t) (spkAt n.spikes n.len n.interval n.offset t) (n.truth t) ((List.range t).map n.pair), fun _ => []) =
      some (vals n (t + k) (n.after (t + k)) (spkAt n.spikes n.len n.interval n.offset (t + k)) (n.truth (t + k)) ((List.range (t + k)).map n.pair),
        fun _ => []) := by
  intro k
  induction k with
  | zero => intro t; rfl
  | succ k ih =>
    intro t
    rw [stepsRef, step_ref n hc, Option.bind_some]
    have := ih (t + 1)
    rw [show t + 1 + k = t + (k + 1) by omega, List.range_succ, List.map_append] at this
    exact this

theorem run_ref (n : Net β) (hc : ∀ c, 1 ≤ n.cap c) (runs : List Nat) :
    runAll n.sys turns runs =
      some (vals n runs.sum (n.after runs.sum) (spkAt n.spikes n.len n.interval n.offset runs.sum) (n.truth runs.sum)
        ((List.range runs.sum).map n.pair), fun _ => []) := by
  have h := steps_ref n hc runs.sum 0
  rw [Nat.zero_add] at h
  rw [← h]
  unfold runAll
  congr 2
  funext i
  match i with
  | 0 => rfl
  | 1 => rfl
  | 2 => rfl
  | i + 3 => rfl

/-- Who sends and receives on the channels between ports. -/
def cs (c : Nat) : Nat := if c = 2 then 1 else 0
def cd (c : Nat) : Nat := if c = 1 then 1 else 2

theorem tidy (n : Net β) (hc : ∀ c, 1 ≤ n.cap c) : Tidy n.sys cs cd (fun _ => True) where
  some_model := Nat.succ_pos _
  src_lt e he := absurd he (Nat.not_lt_zero _)
  dst_lt e he := absurd he (Nat.not_lt_zero _)
  room := hc
  own i ph s := by
    match i with
    | 0 =>
      cases ph <;> simp [duty, Net.sys, Prog.Own, cs]
      cases guard n.interval n.offset s.t <;> simp [Prog.Own]
    | 1 => cases ph <;> simp [duty, Net.sys, Prog.Own, cs, cd]
    | 2 => cases ph <;> simp [duty, Net.sys, Prog.Own, cd]
    | i + 3 => cases ph <;> simp [duty, Net.sys, Prog.Own]
  noRef_spk i s := by
    match i with
    | 0 => trivial
    | 1 => intro a; trivial
    | 2 => intro a b; trivial
    | i + 3 => trivial
  noRef_lrn i s := trivial
  waits i ph s := by
    match i with
    | 0 =>
      cases ph <;> simp [duty, Net.sys, Prog.Waits]
      cases guard n.interval n.offset s.t <;> simp [Prog.Waits]
    | 1 => cases ph <;> simp [duty, Net.sys, Prog.Waits]
    | 2 => cases ph <;> simp [duty, Net.sys, Prog.Waits]
    | i + 3 => cases ph <;> simp [duty, Net.sys, Prog.Waits]
  alone_read e e' v s he := absurd he (Nat.not_lt_zero _)
  alone_write e e' v v' s he := absurd he (Nat.not_lt_zero _)

/-! ### Any schedule -/

/-- **C131.** Whatever the schedule and the division into runs: no more than some number of steps is ever taken, every schedule can be continued
until nothing can happen any more, and then all runs are finished, the process has been fed with what the loader of C51 sends, time step by time
step, and the third process has received the output and the ground truth of every time step together. -/
theorem C131_every_schedule (n : Net β) (hc : ∀ c, 1 ≤ n.cap c) (runs : List Nat) :
    (∃ N, ∀ ls, effective (net n.sys) (initial n.sys runs) ls ≤ N) ∧
    (∀ ls, ∃ more, Stuck (net n.sys) (exec (net n.sys) (initial n.sys runs) (ls ++ more))) ∧
    ∀ ls, Stuck (net n.sys) (exec (net n.sys) (initial n.sys runs) ls) →
      Finished (exec (net n.sys) (initial n.sys runs) ls) ∧
      (∃ s, varsOf (exec (net n.sys) (initial n.sys runs) ls) 1 = some s ∧ s.t = runs.sum ∧ s.st = n.after runs.sum) ∧
      (∃ s, varsOf (exec (net n.sys) (initial n.sys runs) ls) 2 = some s ∧ s.log = (List.range runs.sum).map n.pair) := by
  obtain ⟨h1, h2, h3⟩ := C113_outcome (tidy n hc) turns runs (run_ref n hc runs)
  refine ⟨h1, h2, fun ls hs => ?_⟩
  obtain ⟨hf, hv, _⟩ := h3 ls hs
  exact ⟨hf, ⟨_, hv 1, rfl, rfl⟩, ⟨_, hv 2, rfl⟩⟩

/-- **C131.** Outputs and ground truths belong together, under every schedule: in the `j`-th time step after the `k`-th load, the process gets value `j` of
spike train `k` modulo the size of the dataset (zero after its end), and what the third process receives is the output for it, together with
the ground truth of this spike train. -/
theorem C131_belong_together (n : Net β) (hc : ∀ c, 1 ≤ n.cap c) (hI : 0 < n.interval) (hlen : 0 < n.len)
    (runs : List Nat) (ls : List (Nat × Nat)) (hs : Stuck (net n.sys) (exec (net n.sys) (initial n.sys runs) ls)) :
    ∃ s, varsOf (exec (net n.sys) (initial n.sys runs) ls) 2 = some s ∧ s.log.length = runs.sum ∧
      (∀ k j, j < n.interval → n.offset % n.interval + 1 + k * n.interval + j < runs.sum →
        s.log[n.offset % n.interval + 1 + k * n.interval + j]? =
          some (n.out (n.offset % n.interval + 1 + k * n.interval + j + 1) (n.after (n.offset % n.interval + 1 + k * n.interval + j))
            ((n.spikes (k % n.len)).getD j 0), n.label (k % n.len))) ∧
      ∀ t, t ≤ n.offset % n.interval → t < runs.sum → s.log[t]? = some (n.out (t + 1) (n.after t) 0, n.gt0) := by
  obtain ⟨_, _, s, h1, h2⟩ := (C131_every_schedule n hc runs).2.2 ls hs
  refine ⟨s, h1, by simp [h2], fun k j hj ht => ?_, fun t hlt ht => ?_⟩
  · have ha := Verif.IO.C51_spike_loader n.spikes n.len n.interval n.offset hlen hI k j hj
    have hb := (Verif.IO.C51_state_loader (fun k => ((), n.label k)) n.len n.interval n.offset n.gt0 hlen hI k j hj).2
    rw [show n.offset % n.interval + 1 + k * n.interval + 1 + j = n.offset % n.interval + 1 + k * n.interval + j + 1 by omega] at ha
    rw [h2, List.getElem?_map, List.getElem?_range ht, Option.map_some, Net.pair, Net.sent, Net.truth, ha, hb]
  · have ha := Verif.IO.C51_spike_loader_before n.spikes n.len n.interval n.offset hI (t + 1) (by omega) (by omega)
    have hb := (Verif.IO.C51_before_first_load (fun k => ((), n.label k)) n.len n.interval n.offset n.gt0 hI t hlt).2
    rw [h2, List.getElem?_map, List.getElem?_range ht, Option.map_some, Net.pair, Net.sent, Net.truth, ha, hb]

/-! ### Example -/

/-- Two spike trains, one shorter and one longer than the interval of three; the process adds up its input. -/
def adding : Net Int where
  start := 0
  out _ x a := x + a
  f _ x a := x + a
  spikes k := if k = 0 then [1, 1] else [5, 0, 5, 7]
  label k := if k = 0 then 100 else 200
  len := 2
  interval := 3
  offset := 0
  gt0 := 0
  cap _ := 1

/-- **C131.** The pairs received: the sum goes on over the samples (nothing resets it), the ground truths change with them. -/
theorem C131_example :
    (List.range 10).map adding.pair =
      [(0, 0), (1, 100), (2, 100), (2, 100), (7, 200), (7, 200), (12, 200), (13, 100), (14, 100), (14, 100)] := by
  decide +kernel

end Verif.RefAccess.SpikeLoad
