import Verif.EndToEnd.Local

/-!
# A concrete system, and systems for which a hypothesis fails
-/

namespace Verif.EndToEnd

open Verif.System (Op Act Net St upd exec Precedes)

/-- State of the two models: accumulated input or buffered message, time step. -/
structure Ex where
  v : Int
  t : Nat
deriving DecidableEq, Repr

/-- Model 0 receives on channel 1 and then sends on channel 0 what it has accumulated; it learns in even steps. Model 1 closes the loop: it
sends twice its buffer and then receives; it has post-management in every third step. Each has its own service. -/
def loop : Sys Ex Int Int where
  n := 2
  k := 2
  svc := fun p => p
  pms := fun i => if i < 2 then [i] else []
  cap := fun _ => 2
  init := fun p => if p = 0 then ⟨1, 0⟩ else ⟨10, 0⟩
  start := fun _ s => ⟨s.v, s.t + 1⟩
  body := fun p => if p = 0 then [.rcv 1, .snd 0] else if p = 1 then [.snd 1, .rcv 0] else []
  emit := fun p s _ => if p = 0 then s.v else 2 * s.v
  absorb := fun p s _ m => if p = 0 then ⟨s.v + m, s.t⟩ else ⟨m, s.t⟩
  tick := fun _ s => s
  preGuard := fun _ _ => false
  lrnGuard := fun p s => p == 0 && s.t % 2 == 0
  postGuard := fun p s => p == 1 && s.t % 3 == 0
  runPre := fun _ s => s
  runLrn := fun _ s => ⟨s.v + 100, s.t⟩
  runPost := fun _ s => ⟨s.v - 1, s.t⟩
  vsize := fun _ _ => 2
  peek := fun _ s _ j => if j = 0 then s.v else s.t
  poke := fun _ s _ j w => if j = 0 then ⟨w, s.t⟩ else s
  updated := fun _ s => s

theorem loop_wf : WF loop (fun c => c) (fun c => 1 - c) where
  nodup := by
    intro p
    show (if p = 0 then _ else if p = 1 then _ else _ : List Op).Nodup
    split
    · decide
    · split <;> decide
  snd := by
    intro p c hp h
    have hp' : p = 0 ∨ p = 1 := by have : p < 2 := hp; omega
    rcases hp' with rfl | rfl
    · have : c = 0 := by simpa [loop] using h
      subst this; exact ⟨rfl, by decide, by decide⟩
    · have : c = 1 := by simpa [loop] using h
      subst this; exact ⟨rfl, by decide, by decide⟩
  rcv := by
    intro p c hp h
    have hp' : p = 0 ∨ p = 1 := by have : p < 2 := hp; omega
    rcases hp' with rfl | rfl
    · have : c = 1 := by simpa [loop] using h
      subst this; exact ⟨rfl, by decide, by decide⟩
    · have : c = 0 := by simpa [loop] using h
      subst this; exact ⟨rfl, by decide, by decide⟩
  cap := fun _ => by show 1 ≤ 2; omega
  svc := fun p hp => hp
  pms := by
    intro i
    show (if i < 2 then [i] else [] : List Nat).Nodup ∧ ∀ p, p ∈ (if i < 2 then [i] else [] : List Nat) ↔ p < 2 ∧ p = i
    split
    · exact ⟨by simp, fun p => by rw [List.mem_singleton]; omega⟩
    · exact ⟨by simp, fun p => by simp; omega⟩

theorem precedes_pair {a b c d : Op} (h : Precedes [a, b] c d) : c = a ∧ d = b := by
  obtain ⟨x, y, z, h⟩ := h
  rcases x with _ | ⟨x, _ | ⟨x', x''⟩⟩
  · rcases y with _ | ⟨y, y'⟩
    · simp at h; exact ⟨h.1.symm, h.2.1.symm⟩
    · have := congrArg List.length h; simp at this
  · have := congrArg List.length h; simp at this
  · have := congrArg List.length h; simp at this

theorem loop_noCircle : NoCircle loop (fun c => c) := by
  rintro ⟨K, ⟨c, hc⟩, h⟩
  have h1 : ¬ K 1 := by
    intro hk
    obtain ⟨-, -, c', -, hp⟩ := h 1 hk
    have := precedes_pair (show Precedes [.snd 1, .rcv 0] (.rcv c') (.snd 1) from hp)
    exact absurd this.1 (by simp)
  have h0 : ¬ K 0 := by
    intro hk
    obtain ⟨-, -, c', hk', hp⟩ := h 0 hk
    have := precedes_pair (show Precedes [.rcv 1, .snd 0] (.rcv c') (.snd 0) from hp)
    have e : c' = 1 := by simpa using this.1
    exact h1 (e ▸ hk')
  have : c < 2 := (h c hc).1
  have : c = 0 ∨ c = 1 := by omega
  rcases this with rfl | rfl
  · exact h0 hc
  · exact h1 hc

theorem loop_tame : Tame loop where
  preLrn := by intro p s h; cases h
  lrnPre := fun _ _ => rfl
  postPre := fun _ _ => rfl
  postLrn := by
    intro p s
    unfold doLrn
    split <;> rfl

/-- A program: a `get` too early, two steps, read, write, three steps, read. -/
def loopProg : List (Call Int) := [.get 0 0, .run 2, .get 0 0, .get 1 0, .set 1 0 [7], .run 3, .get 0 0, .get 1 0]

theorem loop_proper : Proper loop loopProg where
  valid := by
    intro c hc
    simp only [loopProg, List.mem_cons, List.not_mem_nil, or_false] at hc
    rcases hc with rfl | rfl | rfl | rfl | rfl | rfl | rfl | rfl
    · show 0 < 2; omega
    · trivial
    · show 0 < 2; omega
    · show 1 < 2; omega
    · show 1 < 2 ∧ 1 ≤ 2; omega
    · trivial
    · show 0 < 2; omega
    · show 1 < 2; omega
  runs := ⟨2, by simp [loopProg]⟩

/-- The next state of the example, by hand: model 0 adds twice the buffer of model 1, model 1 buffers the result. -/
def loopMsg (σ : Nat → Ex) (c : Nat) : Int := if c = 1 then 2 * (σ 1).v else (σ 0).v + 2 * (σ 1).v

theorem loop_messages (σ : Nat → Ex) : Messages loop σ (loopMsg σ) := by
  intro p c x z hp hb
  have hp' : p = 0 ∨ p = 1 := by have : p < 2 := hp; omega
  rcases hp' with rfl | rfl
  · have hb : [Op.rcv 1, Op.snd 0] = x ++ .snd c :: z := hb
    rcases x with _ | ⟨x, _ | ⟨x', x''⟩⟩
    · simp at hb
    · simp only [List.cons_append, List.nil_append, List.cons.injEq, Op.snd.injEq] at hb
      obtain ⟨rfl, rfl, -⟩ := hb
      rfl
    · have := congrArg List.length hb; simp at this
  · have hb : [Op.snd 1, Op.rcv 0] = x ++ .snd c :: z := hb
    rcases x with _ | ⟨x, _ | ⟨x', x''⟩⟩
    · simp only [List.nil_append, List.cons.injEq, Op.snd.injEq] at hb
      obtain ⟨rfl, -⟩ := hb
      rfl
    · simp at hb
    · have := congrArg List.length hb; simp at this

def loopNext (σ : Nat → Ex) (p : Nat) : Ex :=
  if p < 2 then managed loop p (spiked loop (loopMsg σ) σ) p else σ p

theorem loop_steps (n : Nat) : ∀ σ : Nat → Ex, StepsTo loop n σ (loopNext^[n] σ) := by
  induction n with
  | zero => intro σ; rfl
  | succ n ih => intro σ; exact ⟨loopNext σ, ⟨loopMsg σ, loop_messages σ, fun p => rfl⟩, ih _⟩

/-- What the program of the example shows. -/
theorem loop_means : Means loop false loop.init loopProg
    [.notStarted, .ran, .value [163, 2], .value [63, 2], .wasSet, .ran, .value [1687, 5], .value [1687, 5], .stopped] :=
  .getEarly (.run (loop_steps 2 _) (Means.get (y := loop) (Means.get (y := loop) (.set (.run (loop_steps 3 _)
    (Means.get (y := loop) (Means.get (y := loop) (.stop _))))))))

/-- The hypotheses of the theorems are met, and the log is not trivial. -/
example (l : List Nat) (h : Verif.System.Stuck (net loop) (exec (net loop) (initial loop loopProg) l)) :
    seen (exec (net loop) (initial loop loopProg) l) =
      [.notStarted, .ran, .value [163, 2], .value [63, 2], .wasSet, .ran, .value [1687, 5], .value [1687, 5], .stopped] := by
  obtain ⟨log, m, -, hs, -⟩ := C96_every_schedule loop _ _ loop_wf loop_noCircle loopProg loop_proper
  rw [(hs l h).1]
  exact C96_meaning_unique loop_wf loop_noCircle _ _ _ _ _ m loop_means

/-- One service for both models. -/
theorem loop_wf_one : WF (loop.redistributed 1 (fun _ => 0) (fun i => if i = 0 then [0, 1] else []) (fun _ => 1))
    (fun c => c) (fun c => 1 - c) where
  nodup := loop_wf.nodup
  snd := loop_wf.snd
  rcv := loop_wf.rcv
  cap := fun _ => Nat.le_refl 1
  svc := fun p hp => by show 0 < 1; omega
  pms := by
    intro i
    show (if i = 0 then [0, 1] else [] : List Nat).Nodup ∧ ∀ p, p ∈ (if i = 0 then [0, 1] else [] : List Nat) ↔ p < 2 ∧ 0 = i
    split
    · exact ⟨by decide, fun p => by simp; omega⟩
    · exact ⟨by simp, fun p => by simp; omega⟩

/-- … and with one service for both the user sees the same. -/
example (l : List Nat)
    (h : Verif.System.Stuck (net (loop.redistributed 1 (fun _ => 0) (fun i => if i = 0 then [0, 1] else []) (fun _ => 1)))
      (exec (net (loop.redistributed 1 (fun _ => 0) (fun i => if i = 0 then [0, 1] else []) (fun _ => 1)))
        (initial (loop.redistributed 1 (fun _ => 0) (fun i => if i = 0 then [0, 1] else []) (fun _ => 1)) loopProg) l)) :
    seen (exec (net (loop.redistributed 1 (fun _ => 0) (fun i => if i = 0 then [0, 1] else []) (fun _ => 1)))
        (initial (loop.redistributed 1 (fun _ => 0) (fun i => if i = 0 then [0, 1] else []) (fun _ => 1)) loopProg) l) =
      [.notStarted, .ran, .value [163, 2], .value [63, 2], .wasSet, .ran, .value [1687, 5], .value [1687, 5], .stopped] := by
  obtain ⟨log, m, -, hs, -⟩ := C96_every_schedule _ _ _ loop_wf_one loop_noCircle loopProg ⟨loop_proper.valid, loop_proper.runs⟩
  rw [(hs l h).1]
  exact C96_meaning_unique loop_wf_one loop_noCircle _ _ _ _ _ m
    (C96_services_irrelevant loop_tame loop_wf loop_wf_one _ _ _ _ loop_means)

/-! ### A guard that is not tame -/

/-- Two models without ports. Model 0 has a pre-learning guard but no learning guard; model 1 has both. -/
def shy (svc : Nat → Nat) (pms : Nat → List Nat) (k : Nat) : Sys Ex Int Int where
  n := 2
  k := k
  svc := svc
  pms := pms
  cap := fun _ => 1
  init := fun _ => ⟨0, 0⟩
  start := fun _ s => ⟨s.v, s.t + 1⟩
  body := fun _ => []
  emit := fun _ _ _ => 0
  absorb := fun _ s _ _ => s
  tick := fun _ s => s
  preGuard := fun _ _ => true
  lrnGuard := fun p _ => p == 1
  postGuard := fun _ _ => false
  runPre := fun _ s => ⟨s.v + 1, s.t⟩
  runLrn := fun _ s => s
  runPost := fun _ s => s
  vsize := fun _ _ => 1
  peek := fun _ s _ _ => s.v
  poke := fun _ s _ _ w => ⟨w, s.t⟩
  updated := fun _ s => s

/-- **C96.** Whether the pre-learning management of a model is run can depend on which other models share its service: model 0 below counts how
often it is run. With a service of its own it is never run, with a service shared with model 1 it is run in every step. -/
theorem C96_witness_pre_guard :
    Means (shy (fun p => p) (fun i => if i < 2 then [i] else []) 2) false (fun _ => ⟨0, 0⟩) [.run 1, .get 0 0] [.ran, .value [0], .stopped] ∧
      Means (shy (fun _ => 0) (fun i => if i = 0 then [0, 1] else []) 1) false (fun _ => ⟨0, 0⟩) [.run 1, .get 0 0]
        [.ran, .value [1], .stopped] := by
  constructor
  · refine .run (σ' := fun p => if p < 2 then managed (shy (fun p => p) (fun i => if i < 2 then [i] else []) 2) p
      (spiked (shy (fun p => p) (fun i => if i < 2 then [i] else []) 2) (fun _ => 0) fun _ => ⟨0, 0⟩) p else ⟨0, 0⟩)
      ⟨_, ⟨fun _ => 0, ?_, fun p => rfl⟩, rfl⟩ ?_
    · intro p c x z _ h
      have h : [] = x ++ .snd c :: z := h
      simp at h
    · exact Means.get (y := shy (fun p => p) (fun i => if i < 2 then [i] else []) 2) (.stop _)
  · refine .run (σ' := fun p => if p < 2 then managed (shy (fun _ => 0) (fun i => if i = 0 then [0, 1] else []) 1) 0
      (spiked (shy (fun _ => 0) (fun i => if i = 0 then [0, 1] else []) 1) (fun _ => 0) fun _ => ⟨0, 0⟩) p else ⟨0, 0⟩)
      ⟨_, ⟨fun _ => 0, ?_, fun p => rfl⟩, rfl⟩ ?_
    · intro p c x z _ h
      have h : [] = x ++ .snd c :: z := h
      simp at h
    · exact Means.get (y := shy (fun _ => 0) (fun i => if i = 0 then [0, 1] else []) 1) (.stop _)

/-! ### A value with more items than its Var -/

/-- One model without ports and guards, one Var with one item. -/
def single : Sys Ex Int Int where
  n := 1
  k := 1
  svc := fun _ => 0
  pms := fun i => if i = 0 then [0] else []
  cap := fun _ => 2
  init := fun _ => ⟨0, 0⟩
  start := fun _ s => ⟨s.v, s.t + 1⟩
  body := fun _ => []
  emit := fun _ _ _ => 0
  absorb := fun _ s _ _ => s
  tick := fun _ s => s
  preGuard := fun _ _ => false
  lrnGuard := fun _ _ => false
  postGuard := fun _ _ => false
  runPre := fun _ s => s
  runLrn := fun _ s => s
  runPost := fun _ s => s
  vsize := fun _ _ => 1
  peek := fun _ s _ _ => s.v
  poke := fun _ s _ _ w => ⟨w, s.t⟩
  updated := fun _ s => s

theorem single_wf : WF single (fun _ => 0) (fun _ => 0) where
  nodup := fun _ => List.nodup_nil
  snd := by intro p c _ h; cases h
  rcv := by intro p c _ h; cases h
  cap := fun _ => by show 1 ≤ 2; omega
  svc := fun p hp => by show 0 < 1; omega
  pms := by
    intro i
    show (if i = 0 then [0] else [] : List Nat).Nodup ∧ ∀ p, p ∈ (if i = 0 then [0] else [] : List Nat) ↔ p < 1 ∧ 0 = i
    split
    · exact ⟨by decide, fun p => by simp; omega⟩
    · exact ⟨by simp, fun p => by simp; omega⟩

/-- A `set` with two items, then a run. -/
def oversize : List (Call Int) := [.run 0, .set 0 0 [5, 6], .run 1]

/-- A schedule after which nobody can do a step. -/
def oversizeSched : List Nat :=
  [0, 0, 0, 1, 1, 1, 1, 1, 0, 0, 0, 0, 0, 1, 0, 1, 0, 1, 0, 1, 2, 1, 1, 1, 0, 0, 2, 1, 1, 2, 1, 1, 2, 1, 1, 2, 2, 1, 1, 0,
    0, 0, 0, 1, 1, 1, 1, 2, 2]

/-- The position of model 0 in its code, and whether anything is left in its command channel. -/
def modelPc (s : St (Proc Ex Int Int) (Msg Int Int)) : Option (MdlPc Int Int) :=
  match s.q 2 with
  | .mdl m => some m.pc
  | _ => none

theorem oversize_stuck : Verif.System.Stuck (net single) (exec (net single) (initial single oversize) oversizeSched) := by
  have h : ∀ p, p < 3 → (Verif.System.step (net single) (exec (net single) (initial single oversize) oversizeSched) p).isNone = true := by
    decide +kernel
  intro p
  by_cases hp : p < 3
  · exact Option.isNone_iff_eq_none.1 (h p hp)
  · have : ∀ q, (net single).view p q = .halt := by
      intro q
      show view single p q = .halt
      cases q with
      | host h => simp only [view]; rw [if_neg (by omega)]
      | svc s => simp only [view]; rw [if_neg (by show ¬ (_ ∧ p / 2 < 1); omega)]
      | mdl m => simp only [view]; rw [if_neg (by show ¬ (_ ∧ _ ∧ p / 2 - 1 < 1); omega)]
    unfold Verif.System.step
    rw [this]

/-- **C96.** `set` with more items than the Var has: it is acknowledged, but whatever the schedule the next call is never completed: the
model takes the item that was left over for a command and fails. (In the code the exception then ends the program, C91; an item that happens to
be the number of a command would be obeyed.) -/
theorem C96_witness_oversize :
    (∀ l, seen (exec (net single) (initial single oversize) l) <+: [.ran, .wasSet]) ∧
      ∃ l, seen (exec (net single) (initial single oversize) l) = [.ran, .wasSet] ∧
        modelPc (exec (net single) (initial single oversize) l) = some .failed := by
  have e : seen (exec (net single) (initial single oversize) oversizeSched) = [.ran, .wasSet] := by decide +kernel
  refine ⟨?_, oversizeSched, e, by decide +kernel⟩
  intro l
  obtain ⟨l', h⟩ := Verif.System.C76_no_schedule_diverges (net single) _ _ _ (owned_initial single_wf oversize) oversizeSched l oversize_stuck
  have := seen_exec single l' (exec (net single) (initial single oversize) l)
  rw [h, e] at this
  exact this

end Verif.EndToEnd
