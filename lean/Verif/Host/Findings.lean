import Verif.Host.Progress

/-!
# C80: examples, and why the restriction to proper programs is needed
-/

namespace Verif.Host

/-- Two services whose data counts up by one and by two. -/
def exTick : Nat → Nat → Nat := fun i x => x + i + 1

/-- A program with blocking and non-blocking runs, reads, writes, a read that is refused, and a stop. -/
def exProg : List (Call Nat) :=
  [.get 0, .run 2 true, .get 1, .set 0 10, .run 3 false, .get 0, .wait, .get 0, .wait, .stop]

example : Proper 2 false false exProg := by simp [Proper, exProg]

example : ref 2 exTick (fun _ => 0) false false exProg =
    [.notStarted, .returned [2, 4], .value 4, .setOk, .started, .refused, .returned [13, 10], .value 13, .nothing, .stopped] := by
  decide

/-- The hypotheses of `C80_program_completes` are met. -/
example : (exec 2 exTick (init (fun _ => 0) exProg)
      (List.replicate 200 [.svc 1, .host 1, .peek 0, .svc 0, .host 0]).flatten).log =
    [.notStarted, .returned [2, 4], .value 4, .setOk, .started, .refused, .returned [13, 10], .value 13, .nothing, .stopped] := by
  have h := C80_program_completes 2 (by decide) exTick (fun _ => 0) exProg (by simp [Proper, exProg])
    (List.replicate 200 [.svc 1, .host 1, .peek 0, .svc 0, .host 0])
    (by
      intro rd hrd k hk
      have := List.eq_of_mem_replicate hrd
      subst this
      have : k = 0 ∨ k = 1 := by omega
      rcases this with rfl | rfl <;> simp)
    (by decide +kernel)
  rw [h.2.2]
  decide

/-- A second non-blocking run before `wait`: `wait` returns after the first of the two runs, and the following `get` takes the DONE of
the second run for its data. -/
theorem C80_overlapping_runs_garble :
    ∃ ls, (exec 1 exTick (init (fun _ => 0) [.run 1 false, .run 1 false, .wait, .get 0]) ls).log =
      [.started, .started, .returned [1], .garbage] := by
  refine ⟨[.host 0, .host 0, .host 0, .host 0, .host 0, .host 0, .svc 0, .svc 0, .svc 0, .host 0, .host 0, .host 0, .svc 0, .svc 0,
    .svc 0, .svc 0, .host 0], ?_⟩
  decide

/-- `stop` during a non-blocking run can raise: the DONE of the run is received, and TERMINATED is not there yet when the host probes. -/
theorem C80_stop_while_running_can_fail :
    ∃ ls, (exec 1 exTick (init (fun _ => 0) [.run 1 false, .stop]) ls).pc = .failed := by
  refine ⟨[.host 0, .host 0, .host 0, .host 0, .svc 0, .svc 0, .svc 0, .host 0, .host 0, .host 0, .host 0, .host 0], ?_⟩
  decide

/-- The same program can also stop in the middle of the run. -/
theorem C80_stop_while_running_can_succeed :
    ∃ ls, (exec 1 exTick (init (fun _ => 0) [.run 5 false, .stop]) ls).log = [.started, .stopped] ∧
      ((exec 1 exTick (init (fun _ => 0) [.run 5 false, .stop]) ls).svc 0).d = 1 := by
  refine ⟨[.host 0, .host 0, .host 0, .svc 0, .svc 0, .host 0, .host 0, .host 0, .peek 0, .svc 0, .svc 0, .svc 0, .host 0, .host 0, .host 0], ?_⟩
  decide

variable {D : Type}

/-- `stop` of a runtime that was initialised and never run does not return under any schedule: no service is told to stop, and the
host joins their operating system processes. -/
theorem C80_stop_before_run_hangs (S : Nat) (hS : 0 < S) (tick : Nat → D → D) (d : Nat → D) (p : List (Call D)) (ls : List Lbl) :
    (exec S tick (init d (.stop :: p)) ls).log = [] := by
  have key : ∀ (ls : List Lbl) (s : St D), (∀ k, Quiet (d k) (s.svc k)) → s.log = [] → s.started = false →
      ((s.pc = .ready ∧ s.prog = .stop :: p) ∨ s.pc = .joining) → (exec S tick s ls).log = [] := by
    intro ls
    induction ls with
    | nil => intro s _ h _ _; exact h
    | cons l ls ih =>
      intro s hq hl hst hpc
      rw [exec]
      cases hstep : step S tick s l with
      | none => exact ih s hq hl hst hpc
      | some a =>
        cases l with
        | host j =>
          rcases hpc with ⟨h1, h2⟩ | h1
          · simp only [step, hostStep, h1, h2, call, hst, Option.some.injEq, Bool.false_eq_true, if_false] at hstep
            subst hstep
            exact ih _ hq hl rfl (Or.inr rfl)
          · have hnd : allDead S s.svc = false := by
              rw [allDead, Bool.eq_false_iff]
              intro hall
              rw [List.all_eq_true] at hall
              have := hall 0 (List.mem_range.2 hS)
              rw [hq 0] at this
              simp at this
            simp [step, hostStep, h1, hnd] at hstep
        | svc i =>
          simp only [step] at hstep
          split at hstep
          · rw [hq i] at hstep
            simp [svcStep] at hstep
          · simp at hstep
        | peek i =>
          simp only [step] at hstep
          split at hstep
          · rw [hq i] at hstep
            simp [svcPeek] at hstep
          · simp at hstep
  exact key ls _ (fun _ => rfl) rfl rfl (Or.inl ⟨rfl, rfl⟩)

end Verif.Host
