import Verif.RefAccess.Theorems
import Verif.IO.Props

/-!
# C130: a `StateDataloader`, what it loads into, and who gets outputs and ground truths

A `StateDataloader` (io/dataloader.py:67-127) writes the samples of a dataset into a Var of a process and sends ground truths; this process
computes something in every time step and sends it; a third process receives both. Everything runs as in `Verif.RefAccess.Model`: process models
with RefPorts and VarPorts, one runtime service, any schedule. The loader is that of C51 (`Verif.IO.loadAt`).
-/

namespace Verif.RefAccess.LoadVar

open Verif.EndToEnd (Phase Flags noFlags nextPhase)
open Verif.IO (LoadSt load loadAt guard)

/-- Vars: `time_step`, those of the computing process, those of the loader, what was received. Each process uses some of them. -/
structure Vars (V β : Type) where
  t : Nat
  st : β
  ld : LoadSt V V
  log : List (V × V)

/-- The computing process (initial Vars; in each time step what it sends, and its Vars after that; how the Var of the loader is set), the dataset,
interval and offset, the ground truth sent at first, sizes of channels. -/
structure Net (V β : Type) where
  start : β
  out : Nat → β → V
  f : Nat → β → β
  set : V → β → β
  rd : β → V
  dataset : Nat → V × V
  len : Nat
  interval : Nat
  offset : Nat
  gt0 : V
  cap : Ch → Nat

variable {V β : Type}

/-- Models 0 (loader: `run_spk`, `post_guard`, `run_post_mgmt`, io/dataloader.py:114-127), 1 (computes), 2 (receives the ground truth on channel 0
and the output on channel 1). -/
def Net.sys (n : Net V β) : Sys (Vars V β) V where
  n := 3
  ne := 1
  src _ := 0
  dst _ := 1
  rd _ s := n.rd s.st
  wr _ w s := { s with st := n.set w s.st }
  cap := n.cap
  init _ := ⟨0, n.start, ⟨0, n.gt0, none⟩, []⟩
  spk i s := match i with
    | 0 => .send 0 s.ld.gt (.ret { s with t := s.t + 1 })
    | 1 => .send 1 (n.out (s.t + 1) s.st) (.ret { s with t := s.t + 1, st := n.f (s.t + 1) s.st })
    | 2 => .recv 0 fun g => .recv 1 fun a => .ret { s with t := s.t + 1, log := s.log ++ [(a, g)] }
    | _ => .ret s
  pre _ s := .ret s
  lrn _ s := .ret s
  post i s := match i with
    | 0 => .write 0 (n.dataset s.ld.sampleId).1 (.wait 0 (.ret { s with ld := load n.dataset n.len s.ld }))
    | _ => .ret s
  preGuard _ _ := false
  lrnGuard _ _ := false
  postGuard i s := match i with
    | 0 => guard n.interval n.offset s.t
    | _ => false

/-! ### What it is to compute -/

/-- The loader after `t` time steps (C51). -/
def Net.loader (n : Net V β) (t : Nat) : LoadSt V V := loadAt n.dataset n.len n.interval n.offset n.gt0 t

/-- The computing process after `t` time steps: it computes, then the next sample is loaded if it is time. -/
def Net.after (n : Net V β) : Nat → β
  | 0 => n.start
  | t + 1 => if guard n.interval n.offset (t + 1) then n.set (n.dataset (n.loader t).sampleId).1 (n.f (t + 1) (n.after t)) else n.f (t + 1) (n.after t)

/-- Output and ground truth of time step `t + 1`. -/
def Net.pair (n : Net V β) (t : Nat) : V × V := (n.out (t + 1) (n.after t), (n.loader t).gt)

/-! ### The reference -/

def vals (n : Net V β) (t : Nat) (x : β) (l : LoadSt V V) (log : List (V × V)) : Nat → Vars V β
  | 0 => ⟨t, n.start, l, []⟩
  | 1 => ⟨t, x, ⟨0, n.gt0, none⟩, []⟩
  | 2 => ⟨t, n.start, ⟨0, n.gt0, none⟩, log⟩
  | _ => ⟨0, n.start, ⟨0, n.gt0, none⟩, []⟩

/-- The loader has to wait for the process it loads into, and has another turn. -/
def turns : Order (Vars V β) V := fun _ _ => [0, 1, 2, 0]

theorem spk_phase (n : Net V β) (hc : ∀ c, 1 ≤ n.cap c) (t : Nat) (x : β) (l : LoadSt V V) (log : List (V × V)) :
    phaseRef n.sys turns .spk (vals n t x l log, fun _ => []) =
      some (vals n (t + 1) (n.f (t + 1) x) l (log ++ [(n.out (t + 1) x, l.gt)]), fun _ => []) := by
  have h0 : 0 < n.cap (.data 0) := hc _
  have h1 : 0 < n.cap (.data 1) := hc _
  have hrun : ((turns .spk (vals n t x l log, fun _ => [])).foldl (turn n.sys) (called n.sys .spk (vals n t x l log, fun _ => []))) =
      ⟨vals n (t + 1) (n.f (t + 1) x) l (log ++ [(n.out (t + 1) x, l.gt)]), fun _ => none, fun _ => []⟩ := by
    simp only [turns, List.foldl_cons, List.foldl_nil]
    simp [turn, called, goOn, duty, Net.sys, put, vals, h0, h1]
    refine ⟨?_, ?_, ?_⟩
    · funext i
      match i with
      | 0 => rfl
      | 1 => rfl
      | 2 => rfl
      | i + 3 => (repeat refine (if_neg (by omega)).trans ?_); rfl
    · funext i
      match i with
      | 0 => rfl
      | 1 => rfl
      | 2 => rfl
      | i + 3 => (repeat refine (if_neg (by omega)).trans ?_); rfl
    · funext i
      match i with
      | 0 => rfl
      | 1 => rfl
      | i + 2 => (repeat refine (if_neg (by omega)).trans ?_); rfl
  unfold phaseRef
  rw [hrun, if_pos]
  intro i _
  rfl

theorem post_phase (n : Net V β) (t : Nat) (x : β) (l : LoadSt V V) (log : List (V × V)) :
    phaseRef n.sys turns .post (vals n t x l log, fun _ => []) =
      some (vals n t (if guard n.interval n.offset t then n.set (n.dataset l.sampleId).1 x else x)
        (if guard n.interval n.offset t then load n.dataset n.len l else l) log, fun _ => []) := by
  have hrun : ((turns .post (vals n t x l log, fun _ => [])).foldl (turn n.sys) (called n.sys .post (vals n t x l log, fun _ => []))) =
      ⟨vals n t (if guard n.interval n.offset t then n.set (n.dataset l.sampleId).1 x else x)
        (if guard n.interval n.offset t then load n.dataset n.len l else l) log, fun _ => none, fun _ => []⟩ := by
    simp only [turns, List.foldl_cons, List.foldl_nil]
    cases hg : guard n.interval n.offset t <;>
    · simp [turn, called, goOn, duty, Net.sys, put, vals, hg, Prog.wait]
      refine ⟨?_, ?_⟩
      · funext i
        match i with
        | 0 => rfl
        | 1 => rfl
        | 2 => rfl
        | i + 3 => (repeat refine (if_neg (by omega)).trans ?_); rfl
      · funext i
        match i with
        | 0 => rfl
        | 1 => rfl
        | 2 => rfl
        | i + 3 => (repeat refine (if_neg (by omega)).trans ?_); rfl
  unfold phaseRef
  rw [hrun, if_pos]
  intro i _
  rfl

/-- One time step of the reference. -/
theorem step_ref (n : Net V β) (hc : ∀ c, 1 ≤ n.cap c) (t : Nat) (log : List (V × V)) :
    stepRef n.sys turns (vals n t (n.after t) (n.loader t) log, fun _ => []) =
      some (vals n (t + 1) (n.after (t + 1)) (n.loader (t + 1)) (log ++ [n.pair t]), fun _ => []) := by
  have hfalse : ∀ σ, anyOf n.sys n.sys.lrnGuard σ = false := by intro σ; simp [anyOf, Net.sys]
  have hpre : ∀ r, wantPre n.sys r = false := by intro r; simp [wantPre, anyOf, Net.sys]
  have hlrn : ∀ r, wantLrn n.sys r = false := fun r => hfalse r.1
  rw [stepRef, spk_phase n hc, Option.bind_some, hpre, phaseIf, if_neg (by simp), Option.bind_some, hlrn, phaseIf, if_neg (by simp),
    Option.bind_some]
  generalize hr : (vals n (t + 1) (n.f (t + 1) (n.after t)) (n.loader t) (log ++ [(n.out (t + 1) (n.after t), (n.loader t).gt)]),
    fun _ : Nat => ([] : List V)) = r
  have hw : wantPost n.sys r r = guard n.interval n.offset (t + 1) := by
    subst hr
    simp [wantPost, anyOf, Net.sys, List.range_succ, vals]
  rw [hw, phaseIf]
  have hl : n.loader (t + 1) = if guard n.interval n.offset (t + 1) then load n.dataset n.len (n.loader t) else n.loader t := rfl
  have ha : n.after (t + 1) = if guard n.interval n.offset (t + 1) then n.set (n.dataset (n.loader t).sampleId).1 (n.f (t + 1) (n.after t))
    else n.f (t + 1) (n.after t) := rfl
  rw [hl, ha]
  cases hg : guard n.interval n.offset (t + 1)
  · subst hr; rfl
  · subst hr
    rw [if_pos rfl, post_phase, hg]
    rfl

theorem steps_ref (n : Net V β) (hc : ∀ c, 1 ≤ n.cap c) : ∀ k t,
    stepsRef n.sys turns k (vals n t (n.after t) (n.loader t) ((List.range t).map n.pair), fun _ => []) =
      some (vals n (t + k) (n.after (t + k)) (n.loader (t + k)) ((List.range (t + k)).map n.pair), fun _ => []) := by
  intro k
  induction k with
  | zero => intro t; rfl
  | succ k ih =>
    intro t
    rw [stepsRef, step_ref n hc, Option.bind_some]
    have := ih (t + 1)
    rw [show t + 1 + k = t + (k + 1) by omega, List.range_succ, List.map_append] at this
    exact this

theorem run_ref (n : Net V β) (hc : ∀ c, 1 ≤ n.cap c) (runs : List Nat) :
    runAll n.sys turns runs =
      some (vals n runs.sum (n.after runs.sum) (n.loader runs.sum) ((List.range runs.sum).map n.pair), fun _ => []) := by
  have h := steps_ref n hc runs.sum 0
  rw [Nat.zero_add] at h
  rw [← h]
  unfold runAll
  congr 2
  funext i
  match i with
  | 0 => rfl
  | 1 => rfl
  | 2 => rfl
  | i + 3 => rfl

/-- Who receives on the channels between ports. -/
def cd (_ : Nat) : Nat := 2

theorem tidy (n : Net V β) (hc : ∀ c, 1 ≤ n.cap c) : Tidy n.sys id cd (fun _ => True) where
  some_model := Nat.succ_pos _
  src_lt e he := Nat.succ_pos _
  dst_lt e he := by show 1 < 3; omega
  room := hc
  own i ph s := by
    match i with
    | 0 =>
      cases ph <;> simp [duty, Net.sys, Prog.Own]
      cases guard n.interval n.offset s.t <;> simp [Prog.Own, Prog.wait]
    | 1 => cases ph <;> simp [duty, Net.sys, Prog.Own]
    | 2 => cases ph <;> simp [duty, Net.sys, Prog.Own, cd]
    | i + 3 => cases ph <;> simp [duty, Net.sys, Prog.Own]
  noRef_spk i s := by
    match i with
    | 0 => trivial
    | 1 => trivial
    | 2 => intro a b; trivial
    | i + 3 => trivial
  noRef_lrn i s := trivial
  waits i ph s := by
    match i with
    | 0 =>
      cases ph <;> simp [duty, Net.sys, Prog.Waits]
      cases guard n.interval n.offset s.t <;> simp [Prog.Waits, Prog.wait]
    | 1 => cases ph <;> simp [duty, Net.sys, Prog.Waits]
    | 2 => cases ph <;> simp [duty, Net.sys, Prog.Waits]
    | i + 3 => cases ph <;> simp [duty, Net.sys, Prog.Waits]
  alone_read e e' v s he he' _ hne _ := by
    have h1 : e < 1 := he
    have h2 : e' < 1 := he'
    omega
  alone_write e e' v v' s he he' _ _ hne _ := by
    have h1 : e < 1 := he
    have h2 : e' < 1 := he'
    omega

/-! ### Any schedule -/

/-- **C130.** Whatever the schedule and the division into runs: no more than some number of steps is ever taken, every schedule can be continued
until nothing can happen any more, and then all runs are finished, the process has computed and been given the samples in turn, time
step by time step, and the third process has received the output and the ground truth of every time step together. -/
theorem C130_every_schedule (n : Net V β) (hc : ∀ c, 1 ≤ n.cap c) (runs : List Nat) :
    (∃ N, ∀ ls, effective (net n.sys) (initial n.sys runs) ls ≤ N) ∧
    (∀ ls, ∃ more, Stuck (net n.sys) (exec (net n.sys) (initial n.sys runs) (ls ++ more))) ∧
    ∀ ls, Stuck (net n.sys) (exec (net n.sys) (initial n.sys runs) ls) →
      Finished (exec (net n.sys) (initial n.sys runs) ls) ∧
      (∃ s, varsOf (exec (net n.sys) (initial n.sys runs) ls) 1 = some s ∧ s.t = runs.sum ∧ s.st = n.after runs.sum) ∧
      (∃ s, varsOf (exec (net n.sys) (initial n.sys runs) ls) 2 = some s ∧ s.log = (List.range runs.sum).map n.pair) := by
  obtain ⟨h1, h2, h3⟩ := C113_outcome (tidy n hc) turns runs (run_ref n hc runs)
  refine ⟨h1, h2, fun ls hs => ?_⟩
  obtain ⟨hf, hv, _⟩ := h3 ls hs
  exact ⟨hf, ⟨_, hv 1, rfl, rfl⟩, ⟨_, hv 2, rfl⟩⟩

/-- A process that does not change the Var that is loaded has in it what was loaded last. -/
theorem holds (n : Net V β) (hf : ∀ t x, n.rd (n.f t x) = n.rd x) (hset : ∀ v x, n.rd (n.set v x) = v) :
    ∀ t, n.rd (n.after t) = (n.loader t).var.getD (n.rd n.start) := by
  intro t
  induction t with
  | zero => rfl
  | succ t ih =>
    have hl : n.loader (t + 1) = if guard n.interval n.offset (t + 1) then load n.dataset n.len (n.loader t) else n.loader t := rfl
    rw [hl]
    simp only [Net.after]
    cases guard n.interval n.offset (t + 1)
    · simpa [hf] using ih
    · simp [hset, load]

/-- **C130.** Outputs and ground truths belong together, under every schedule: when the process does not change the Var that is loaded and sends something
that is computed from it in the same time step, then what is received in a time step after the `k`-th load and before the next one (the first load
has number 0) is the result for sample `k` modulo the size of the dataset, and the ground truth of this sample; before the first load,
the result for the initial value and the initial ground truth. -/
theorem C130_belong_together (n : Net V β) (hc : ∀ c, 1 ≤ n.cap c) (hf : ∀ t x, n.rd (n.f t x) = n.rd x) (hset : ∀ v x, n.rd (n.set v x) = v)
    (φ : V → V) (hout : ∀ t x, n.out t x = φ (n.rd x)) (hI : 0 < n.interval) (hlen : 0 < n.len)
    (runs : List Nat) (ls : List (Nat × Nat)) (hs : Stuck (net n.sys) (exec (net n.sys) (initial n.sys runs) ls)) :
    ∃ s, varsOf (exec (net n.sys) (initial n.sys runs) ls) 2 = some s ∧ s.log.length = runs.sum ∧
      (∀ k j, j < n.interval → n.offset % n.interval + 1 + k * n.interval + j < runs.sum →
        s.log[n.offset % n.interval + 1 + k * n.interval + j]? = some (φ (n.dataset (k % n.len)).1, (n.dataset (k % n.len)).2)) ∧
      ∀ t, t ≤ n.offset % n.interval → t < runs.sum → s.log[t]? = some (φ (n.rd n.start), n.gt0) := by
  obtain ⟨_, _, s, h1, h2⟩ := (C130_every_schedule n hc runs).2.2 ls hs
  refine ⟨s, h1, by simp [h2], fun k j hj ht => ?_, fun t hlt ht => ?_⟩
  · obtain ⟨ha, hb⟩ := Verif.IO.C51_state_loader n.dataset n.len n.interval n.offset n.gt0 hlen hI k j hj
    unfold Verif.IO.gtSent at hb
    rw [Nat.add_sub_cancel] at hb
    rw [h2, List.getElem?_map, List.getElem?_range ht, Option.map_some, Net.pair, hout, holds n hf hset, Net.loader, ha, hb]
    rfl
  · obtain ⟨ha, hb⟩ := Verif.IO.C51_before_first_load n.dataset n.len n.interval n.offset n.gt0 hI t hlt
    unfold Verif.IO.gtSent at hb
    rw [Nat.add_sub_cancel] at hb
    rw [h2, List.getElem?_map, List.getElem?_range ht, Option.map_some, Net.pair, hout, holds n hf hset, Net.loader, ha, hb]
    rfl

/-! ### Examples -/

/-- A dataset of three samples, a new one in every second time step; the process sends the double of the Var. -/
def doubling : Net Nat Nat where
  start := 1
  out _ x := 2 * x
  f _ x := x
  set v _ := v
  rd x := x
  dataset k := if k = 0 then (10, 100) else if k = 1 then (20, 200) else (30, 300)
  len := 3
  interval := 2
  offset := 1
  gt0 := 0
  cap _ := 1

/-- **C130.** The pairs received, and that the hypotheses are met. -/
theorem C130_example :
    (List.range 10).map doubling.pair =
      [(2, 0), (2, 0), (20, 100), (20, 100), (40, 200), (40, 200), (60, 300), (60, 300), (20, 100), (20, 100)] ∧
    (∀ t x, doubling.rd (doubling.f t x) = doubling.rd x) ∧ (∀ v x, doubling.rd (doubling.set v x) = v) ∧
    ∀ t x, doubling.out t x = 2 * doubling.rd x :=
  ⟨by decide +kernel, fun _ _ => rfl, fun _ _ => rfl, fun _ _ => rfl⟩

/-- The same with a process that computes in one time step and sends the result in the next. -/
def late : Net Nat (Nat × Nat) where
  start := (1, 0)
  out _ x := x.2
  f _ x := (x.1, 2 * x.1)
  set v x := (v, x.2)
  rd x := x.1
  dataset := doubling.dataset
  len := 3
  interval := 2
  offset := 1
  gt0 := 0
  cap _ := 1

/-- **C130.** When results are sent one time step later, the ground truth that comes with them is that of another sample in the first time step of
each. -/
theorem C130_late :
    (List.range 8).map late.pair = [(0, 0), (2, 0), (2, 100), (20, 100), (20, 200), (40, 200), (40, 300), (60, 300)] := by
  decide +kernel

end Verif.RefAccess.LoadVar
