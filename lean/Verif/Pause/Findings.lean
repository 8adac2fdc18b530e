import Verif.Pause.Progress

/-!
# C89: examples, and why the restriction to proper programs is needed
-/

namespace Verif.Pause

variable {D : Type}

/-- Two services whose data counts up by one and by two. -/
def exTick : Nat → Nat → Nat := fun i x => x + i + 1

/-- A program with runs, continuous runs, pauses, reads and writes, and a stop during a continuous run. -/
def exProg : List (Call Nat) := [.run 2 true, .cont, .get 0, .pause, .get 1, .set 0 10, .cont, .pause, .pause, .get 0, .cont, .stop]

/-- The hypotheses of `C89_results` and `C89_completes` are met by a program with all kinds of calls. -/
theorem C89_example : Proper 2 exProg ∧
    Ref 2 exTick (fun _ => 0) .off false exProg (exec 2 exTick (init (fun _ => 0) exProg) (List.replicate 120 [Lbl.svc 1, .host 1, .svc 0, .host 0]).flatten).log := by
  have hp : Proper 2 exProg := by simp [Proper, ProperTo, exProg]
  refine ⟨hp, (C89_completes 2 (by decide) exTick (fun _ => 0) exProg hp (List.replicate 120 [.svc 1, .host 1, .svc 0, .host 0]) ?_ (by decide +kernel)).2.2⟩
  intro rd hrd k hk
  have := List.eq_of_mem_replicate hrd
  subst this
  have : k = 0 ∨ k = 1 := by omega
  rcases this with rfl | rfl <;> simp

/-- **C89, finding.** Services of different sync domains may be paused at different time steps. -/
theorem C89_witness_paused_at_different_steps :
    ∃ ls, (exec 2 (fun _ x => x + 1) (init (fun _ => 0) [.cont, .pause]) ls).log = [.started, .paused [1, 3]] := by
  refine ⟨[.host 0, .host 0, .host 0, .host 0, .svc 1, .svc 1, .svc 1, .host 0, .host 0, .host 0, .host 0, .svc 0, .svc 0, .svc 0, .svc 0, .svc 1, .svc 1, .svc 1,
    .host 0, .host 0, .host 0], ?_⟩
  decide +kernel

/-- **C89, finding.** `pause` of a non-blocking run can raise: the DONE of the run is received, and PAUSED is not there yet when the host probes. -/
theorem C89_witness_pause_can_raise : ∃ ls, (exec 1 exTick (init (fun _ => 0) [.run 1 false, .pause]) ls).pc = .failed := by
  refine ⟨[.host 0, .host 0, .host 0, .svc 0, .svc 0, .svc 0, .host 0, .host 0, .host 0, .host 0, .host 0], ?_⟩
  decide +kernel

/-- The same program can also return. -/
theorem C89_witness_pause_can_succeed : ∃ ls, (exec 1 exTick (init (fun _ => 0) [.run 1 false, .pause]) ls).log = [.started, .paused [1]] := by
  refine ⟨[.host 0, .host 0, .host 0, .svc 0, .svc 0, .svc 0, .host 0, .host 0, .host 0, .svc 0, .host 0, .host 0, .host 0], ?_⟩
  decide +kernel

/-! ## A run of given length after a pause never returns -/

theorem call_prog (c : Call D) (s : St D) (q : List (Call D)) : call c { s with prog := q } = { call c s with prog := q } := by
  cases c <;> simp only [call, St.ret]
  all_goals (try split) <;> (try split) <;> rfl

theorem hostStep_append (S : Nat) (s : St D) (j : Nat) (q : List (Call D)) (h : ¬ (s.pc = .ready ∧ s.prog = [])) :
    hostStep S { s with prog := s.prog ++ q } j = (hostStep S s j).map fun a => { a with prog := a.prog ++ q } := by
  obtain ⟨svc, prog, pc, r, st, log⟩ := s
  have hcp : ∀ (c : Call D) (s : St D), (call c s).prog = s.prog := by
    intro c s
    cases c <;> simp only [call, St.ret]
    all_goals (try split) <;> (try split) <;> rfl
  cases pc with
  | ready =>
    cases prog with
    | nil => exact absurd ⟨rfl, rfl⟩ h
    | cons c p =>
      simp only [hostStep, List.cons_append, Option.map_some, hcp]
      rw [← call_prog]
  | sendRun n b i =>
    simp only [hostStep]
    split
    · rfl
    · split <;> rfl
  | collect got =>
    simp only [hostStep]
    split
    · cases (svc j).outq with
      | nil => rfl
      | cons x r =>
        cases x <;> simp only [pop]
        case done => split <;> rfl
        all_goals rfl
    · rfl
  | awaitVal i =>
    simp only [hostStep]
    cases (svc i).outq with
    | nil => rfl
    | cons x r => cases x <;> rfl
  | awaitSet i =>
    simp only [hostStep]
    cases (svc i).outq with
    | nil => rfl
    | cons x r => cases x <;> rfl
  | sendPause i => simp only [hostStep]; split <;> rfl
  | pauseRecv i =>
    simp only [hostStep]
    split
    · cases (svc i).outq with
      | nil => rfl
      | cons x r => cases x <;> rfl
    · rfl
  | pauseProbe i =>
    simp only [hostStep]
    cases (svc i).outq with
    | nil => rfl
    | cons x r => cases x <;> rfl
  | sendStop i => simp only [hostStep]; split <;> rfl
  | stopRecv i =>
    simp only [hostStep]
    split
    · cases (svc i).outq with
      | nil => rfl
      | cons x r => cases x <;> rfl
    · rfl
  | stopProbe i =>
    simp only [hostStep]
    cases (svc i).outq with
    | nil => rfl
    | cons x r => cases x <;> rfl
  | joining => simp only [hostStep]; split <;> rfl
  | failed => rfl

/-- A call in progress. -/
def pend : Pc → Nat
  | .ready => 0
  | _ => 1

/-- Every call returns at most once. -/
theorem hostStep_count (S : Nat) (s a : St D) (j : Nat) (h : hostStep S s j = some a) :
    a.log.length + a.prog.length + pend a.pc = s.log.length + s.prog.length + pend s.pc := by
  obtain ⟨svc, prog, pc, r, st, log⟩ := s
  cases pc with
  | ready =>
    cases prog with
    | nil => simp [hostStep] at h
    | cons c p =>
      simp only [hostStep, Option.some.injEq] at h
      subst h
      cases c <;> simp only [call, St.ret]
      all_goals (try split) <;> (try split) <;> simp [pend] <;> omega
  | sendRun n b i =>
    simp only [hostStep] at h
    split at h
    · simp only [Option.some.injEq] at h; subst h; simp [pend]
    · split at h <;> simp only [Option.some.injEq] at h <;> subst h <;> simp [pend, St.ret] <;> omega
  | collect got =>
    simp only [hostStep] at h
    split at h
    · cases ho : (svc j).outq with
      | nil => simp [ho] at h
      | cons x r =>
        rw [ho] at h
        cases x <;> simp only at h
        case done => split at h <;> simp only [Option.some.injEq] at h <;> subst h <;> simp [pend, St.ret, pop] <;> omega
        all_goals simp only [Option.some.injEq] at h; subst h; simp [pend, pop]
    · simp at h
  | awaitVal i =>
    simp only [hostStep] at h
    cases ho : (svc i).outq with
    | nil => simp [ho] at h
    | cons x r =>
      rw [ho] at h
      cases x <;> simp only [Option.some.injEq] at h <;> subst h <;> simp [pend, St.ret, pop] <;> omega
  | awaitSet i =>
    simp only [hostStep] at h
    cases ho : (svc i).outq with
    | nil => simp [ho] at h
    | cons x r =>
      rw [ho] at h
      cases x <;> simp only [Option.some.injEq] at h <;> subst h <;> simp [pend, St.ret, pop]
      all_goals omega
  | sendPause i =>
    simp only [hostStep] at h
    split at h <;> simp only [Option.some.injEq] at h <;> subst h <;> simp [pend]
  | pauseRecv i =>
    simp only [hostStep] at h
    split at h
    · cases ho : (svc i).outq with
      | nil => simp [ho] at h
      | cons x r =>
        rw [ho] at h
        cases x <;> simp only [Option.some.injEq] at h <;> subst h <;> simp [pend, pop]
    · simp only [Option.some.injEq] at h
      subst h
      simp [pend, St.ret]
      omega
  | pauseProbe i =>
    simp only [hostStep] at h
    cases ho : (svc i).outq with
    | nil => rw [ho] at h; simp only [Option.some.injEq] at h; subst h; simp [pend]
    | cons x r =>
      rw [ho] at h
      cases x <;> simp only [Option.some.injEq] at h <;> subst h <;> simp [pend, pop]
  | sendStop i =>
    simp only [hostStep] at h
    split at h <;> simp only [Option.some.injEq] at h <;> subst h <;> simp [pend]
  | stopRecv i =>
    simp only [hostStep] at h
    split at h
    · cases ho : (svc i).outq with
      | nil => simp [ho] at h
      | cons x r =>
        rw [ho] at h
        cases x <;> simp only [Option.some.injEq] at h <;> subst h <;> simp [pend, pop]
    · simp only [Option.some.injEq] at h
      subst h
      simp [pend]
  | stopProbe i =>
    simp only [hostStep] at h
    cases ho : (svc i).outq with
    | nil => rw [ho] at h; simp only [Option.some.injEq] at h; subst h; simp [pend]
    | cons x r =>
      rw [ho] at h
      cases x <;> simp only [Option.some.injEq] at h <;> subst h <;> simp [pend, pop]
  | joining =>
    simp only [hostStep] at h
    split at h
    · simp only [Option.some.injEq] at h
      subst h
      simp [pend, St.ret]
      omega
    · simp at h
  | failed => simp [hostStep] at h

theorem exec_count (S : Nat) (tick : Nat → D → D) : ∀ (ls : List Lbl) (s : St D),
    (exec S tick s ls).log.length + (exec S tick s ls).prog.length + pend (exec S tick s ls).pc = s.log.length + s.prog.length + pend s.pc
  | [], _ => rfl
  | l :: ls, s => by
    rw [exec, exec_count S tick ls]
    cases l with
    | host j =>
      cases h : step S tick s (.host j) with
      | none => rfl
      | some a => exact hostStep_count S s a j h
    | svc i =>
      cases h : step S tick s (.svc i) with
      | none => rfl
      | some a =>
        simp only [step] at h
        split at h
        · obtain ⟨y, _, rfl⟩ := Option.map_eq_some_iff.1 h
          rfl
        · simp at h

/-- A service that keeps the attribute `pausing`: it has only runs to do and says nothing. -/
def Mute (s : Svc D) : Prop := s.pausing = true ∧ s.outq = [] ∧ (∀ c ∈ s.inq, ∃ n, c = .run n) ∧ s.reqPause = false ∧ s.reqStop = false

theorem mute_step (f : D → D) (s y : Svc D) (hm : Mute s) (h : svcStep f s = some y) : Mute y := by
  obtain ⟨mode, inq, outq, d, pz, st, rp, rs⟩ := s
  obtain ⟨h1, h2, h3, h4, h5⟩ := hm
  simp only at h1 h2 h3 h4 h5
  subst h1 h2 h4 h5
  have hpr : ∀ m d', probe (⟨m, inq, [], d', true, st, false, false⟩ : Svc D) = ⟨m, inq, [], d', true, st, false, false⟩ := by
    intro m d'
    cases inq with
    | nil => rfl
    | cons c r =>
      obtain ⟨n, rfl⟩ := h3 c (by simp)
      rfl
  cases mode with
  | dead => simp [svcStep] at h
  | idle =>
    cases inq with
    | nil => simp [svcStep] at h
    | cons c r =>
      obtain ⟨n, rfl⟩ := h3 c (by simp)
      simp only [svcStep, Option.some.injEq] at h
      subst h
      exact ⟨rfl, rfl, fun c hc => h3 c (by simp [hc]), rfl, rfl⟩
  | busy left =>
    cases left with
    | none =>
      simp only [svcStep, Bool.false_eq_true, if_false, Option.some.injEq, hpr] at h
      subst h
      exact ⟨rfl, rfl, h3, rfl, rfl⟩
    | some k =>
      cases k with
      | zero =>
        simp only [svcStep, Bool.false_eq_true, if_false, Option.some.injEq, hpr, Bool.true_or, if_true, List.append_nil] at h
        subst h
        exact ⟨rfl, rfl, h3, rfl, rfl⟩
      | succ k =>
        simp only [svcStep, Bool.false_eq_true, if_false, Option.some.injEq, hpr] at h
        subst h
        exact ⟨rfl, rfl, h3, rfl, rfl⟩

/-- In the blocking run, waiting for services that say nothing. -/
def Stuck (S n : Nat) (s : St D) : Prop := ((∃ i, s.pc = .sendRun (some n) true i) ∨ s.pc = .collect 0) ∧ ∀ k, k < S → Mute (s.svc k)

theorem stuck_step (S n : Nat) (tick : Nat → D → D) (s a : St D) (l : Lbl) (hs : Stuck S n s) (h : step S tick s l = some a) : Stuck S n a := by
  obtain ⟨hpc, hm⟩ := hs
  cases l with
  | svc i =>
    simp only [step] at h
    split at h
    · rename_i hi
      obtain ⟨y, hy, rfl⟩ := Option.map_eq_some_iff.1 h
      refine ⟨hpc, fun k hk => ?_⟩
      by_cases he : k = i
      · subst he; simp only [upd_self]; exact mute_step _ _ _ (hm k hk) hy
      · simp only [upd_ne _ he]; exact hm k hk
    · simp at h
  | host j =>
    simp only [step, hostStep] at h
    rcases hpc with ⟨i, hpc⟩ | hpc
    · rw [hpc] at h
      simp only at h
      split at h
      · rename_i hi
        simp only [Option.some.injEq] at h
        subst h
        refine ⟨Or.inl ⟨_, rfl⟩, fun k hk => ?_⟩
        by_cases he : k = i
        · subst he
          simp only [upd_self]
          obtain ⟨h1, h2, h3, h4, h5⟩ := hm k hk
          refine ⟨h1, h2, fun c hc => ?_, h4, h5⟩
          simp only [push, List.mem_append, List.mem_singleton] at hc
          rcases hc with hc | hc
          · exact h3 c hc
          · exact ⟨_, hc⟩
        · simp only [upd_ne _ he]; exact hm k hk
      · simp only [if_true, Option.some.injEq] at h
        subst h
        exact ⟨Or.inr rfl, hm⟩
    · rw [hpc] at h
      simp only at h
      split at h
      · rename_i hj
        rw [(hm j hj).2.1] at h
        simp at h
      · simp at h

theorem ref_no_stop (S : Nat) (tick : Nat → D → D) {d : Nat → D} {g : Going} {st : Bool} {p : List (Call D)} {rs : List (Res D)} (h : Ref S tick d g st p rs)
    (hp : .stop ∉ p) : .stopped ∉ rs := by
  induction h with
  | nil => simp
  | run d g st n b p rs _ ih =>
    have := ih (fun h => hp (by simp [h]))
    cases b <;> simp [this]
  | cont d g st p rs _ ih => simpa using ih (fun h => hp (by simp [h]))
  | wait d g st p rs _ ih =>
    have := ih (fun h => hp (by simp [h]))
    split <;> simp [this]
  | pauseOff d st p rs _ ih => simpa using ih (fun h => hp (by simp [h]))
  | pauseCont d st p rs k _ _ ih => simpa using ih (fun h => hp (by simp [h]))
  | get d g st i p rs _ ih =>
    have := ih (fun h => hp (by simp [h]))
    split
    · simp [this]
    · split <;> simp [this]
  | set d g st i v p rs _ ih =>
    have := ih (fun h => hp (by simp [h]))
    split
    · simp [this]
    · split <;> simp [this]
  | stop d g st p => simp at hp

theorem never_returns (S : Nat) (hS : 0 < S) (tick : Nat → D → D) (n : Nat) : ∀ (ls : List Lbl) (s : St D),
    ((∃ s0, s = { s0 with prog := s0.prog ++ [.run n true] } ∧ Inv S tick (fun g pz => g = .off ∧ pz = true) (fun rs => .stopped ∉ rs) s0) ∨ Stuck S n s) →
      ¬ ((exec S tick s ls).prog = [] ∧ (exec S tick s ls).pc = .ready)
  | [], s, h => by
    rintro ⟨h1, h2⟩
    simp only [exec] at h1 h2
    rcases h with ⟨s0, rfl, _⟩ | ⟨⟨i, hpc⟩ | hpc, _⟩
    · simp at h1
    · rw [hpc] at h2; simp at h2
    · rw [hpc] at h2; simp at h2
  | l :: ls, s, h => by
    rw [exec]
    apply never_returns S hS tick n ls
    cases hl : step S tick s l with
    | none => exact h
    | some a =>
      simp only [Option.getD_some]
      rcases h with ⟨s0, rfl, hi⟩ | h
      · cases l with
        | svc i =>
          left
          simp only [step] at hl
          split at hl
          · rename_i hiS
            obtain ⟨y, hy, rfl⟩ := Option.map_eq_some_iff.1 hl
            refine ⟨{ s0 with svc := upd s0.svc i y }, rfl, ?_⟩
            exact inv_step S hS tick _ _ s0 _ (.svc i) hi (by simp [step, hiS, hy])
          · simp at hl
        | host j =>
          by_cases hr : s0.pc = .ready ∧ s0.prog = []
          · right
            obtain ⟨svc, prog, pc, r, st, log⟩ := s0
            obtain ⟨rfl, rfl⟩ := hr
            simp only [step, hostStep, List.nil_append, Option.some.injEq] at hl
            subst hl
            obtain ⟨F, hH, hF⟩ := hi
            dsimp only at hH hF
            cases hH with
            | idle dv pz _ _ _ hp ht =>
              obtain ⟨_, rfl⟩ := hp
              refine ⟨Or.inl ⟨0, rfl⟩, fun k hk => ?_⟩
              have := hF k hk
              simp only [Quiet] at this
              simp only [call, this]
              exact ⟨rfl, rfl, by simp, rfl, rfl⟩
            | going dv _ _ hp ht => simp [ProperTo] at hp
            | goingC dv pz _ _ hp ht => simp [ProperTo] at hp
            | stopped l ht => simp at ht
          · left
            simp only [step] at hl
            rw [hostStep_append S s0 j _ hr] at hl
            obtain ⟨b, hb, rfl⟩ := Option.map_eq_some_iff.1 hl
            exact ⟨b, rfl, inv_step S hS tick _ _ s0 b (.host j) hi hb⟩
      · exact Or.inr (stuck_step S n tick s a l h hl)

/-- **C89, finding.** After any proper use of the runtime in which a continuous run was paused, a blocking run of given length does not return under any schedule: at most
the calls before it return. -/
theorem C89_run_after_pause_never_returns (S : Nat) (hS : 0 < S) (tick : Nat → D → D) (d : Nat → D) (p : List (Call D)) (hns : .stop ∉ p)
    (hp : ProperTo S (fun g pz => g = .off ∧ pz = true) .off false false p) (n : Nat) (ls : List Lbl) :
    (exec S tick (init d (p ++ [.run n true])) ls).log.length ≤ p.length := by
  have hnr := never_returns S hS tick n ls (init d (p ++ [.run n true])) (Or.inl ⟨init d p, rfl, _, .idle d false p [] false hp
    (fun rest h => by simpa using ref_no_stop S tick h hns), fun _ _ => rfl⟩)
  have hc := exec_count S tick ls (init d (p ++ [.run n true]))
  have hi : (init d (p ++ [.run n true])).log.length + (init d (p ++ [.run n true])).prog.length + pend (init d (p ++ [.run n true])).pc = p.length + 1 := by
    simp [init, pend]
  rw [hi] at hc
  generalize exec S tick (init d (p ++ [.run n true])) ls = x at *
  obtain ⟨svc, prog, pc, r, st, log⟩ := x
  simp only at hnr hc ⊢
  by_contra hlt
  apply hnr
  refine ⟨List.length_eq_zero_iff.1 (by omega), ?_⟩
  cases pc <;> try rfl
  all_goals
    simp only [pend] at hc
    omega

/-- Its hypotheses are met: a continuous run that is paused, and data that is read. -/
example : ProperTo 2 (fun g pz => g = .off ∧ pz = true) .off false false ([.run 3 true, .cont, .pause, .get 1] : List (Call Nat)) := by simp [ProperTo]

/-! ## A second continuous run makes pause hang -/

/-- Service 0, which was sent the commands `c`, has not got beyond the first of two continuous runs. -/
def First (c : List (Cmd D)) (s : Svc D) : Prop :=
  s.outq = [] ∧ s.reqPause = false ∧ s.reqStop = false ∧ ((s.mode = .idle ∧ s.inq = c) ∨ (s.mode = .busy none ∧ c = .run none :: s.inq))

theorem first_step (f : D → D) (c : List (Cmd D)) (hc : c <+: [.run none, .run none, .pause]) (s y : Svc D) (h : First c s) (hs : svcStep f s = some y) :
    First c y := by
  obtain ⟨mode, inq, outq, d, pz, st, rp, rs⟩ := s
  obtain ⟨h1, h2, h3, h4⟩ := h
  simp only at h1 h2 h3 h4
  subst h1 h2 h3
  rcases h4 with ⟨rfl, rfl⟩ | ⟨rfl, rfl⟩
  · cases inq with
    | nil => simp [svcStep] at hs
    | cons x r =>
      obtain ⟨t, ht⟩ := hc
      simp only [List.cons_append, List.cons.injEq] at ht
      obtain ⟨rfl, _⟩ := ht
      simp only [svcStep, Option.some.injEq] at hs
      subst hs
      exact ⟨rfl, rfl, rfl, Or.inr ⟨rfl, rfl⟩⟩
  · have hpr : probe (⟨.busy none, inq, [], f d, pz, st, false, false⟩ : Svc D) = ⟨.busy none, inq, [], f d, pz, st, false, false⟩ := by
      cases inq with
      | nil => rfl
      | cons x r =>
        obtain ⟨t, ht⟩ := hc
        simp only [List.cons_append, List.cons.injEq] at ht
        obtain ⟨_, rfl, _⟩ := ht
        rfl
    simp only [svcStep, Bool.false_eq_true, if_false, Option.some.injEq, hpr] at hs
    subst hs
    exact ⟨rfl, rfl, rfl, Or.inr ⟨rfl, rfl⟩⟩

/-- Where the host is in the program run, run, pause, and what it has sent to service 0. -/
inductive Where : Pc → List (Call D) → Bool → List (Cmd D) → Prop where
  | a (r) : Where .ready [.cont, .cont, .pause] r []
  | b : Where (.sendRun none false 0) [.cont, .pause] true []
  | c (i) : Where (.sendRun none false (i + 1)) [.cont, .pause] true [.run none]
  | d : Where .ready [.cont, .pause] true [.run none]
  | e : Where (.sendRun none false 0) [.pause] true [.run none]
  | f (i) : Where (.sendRun none false (i + 1)) [.pause] true [.run none, .run none]
  | g : Where .ready [.pause] true [.run none, .run none]
  | h : Where (.sendPause 0) [] true [.run none, .run none]
  | i (i) : Where (.sendPause (i + 1)) [] true [.run none, .run none, .pause]
  | j : Where (.pauseRecv 0) [] true [.run none, .run none, .pause]

theorem first_push (c : List (Cmd D)) (x : Cmd D) (s : Svc D) (h : First c s) : First (c ++ [x]) (push s x) := by
  obtain ⟨h1, h2, h3, h4⟩ := h
  refine ⟨h1, h2, h3, ?_⟩
  rcases h4 with ⟨h4, h5⟩ | ⟨h4, h5⟩
  · exact Or.inl ⟨h4, by simp [push, h5]⟩
  · exact Or.inr ⟨h4, by simp [push, h5]⟩

/-- The state of that program. -/
def Twice (s : St D) : Prop := ∃ c, Where s.pc s.prog s.running c ∧ First c (s.svc 0)

theorem where_prefix {pc : Pc} {p : List (Call D)} {r : Bool} {c : List (Cmd D)} (h : Where pc p r c) : c <+: [.run none, .run none, .pause] := by
  cases h <;> simp [List.prefix_cons_iff]

theorem twice_step (S : Nat) (hS : 0 < S) (tick : Nat → D → D) (s a : St D) (l : Lbl) (h : Twice s) (hs : step S tick s l = some a) : Twice a := by
  obtain ⟨c, hw, hf⟩ := h
  cases l with
  | svc i =>
    simp only [step] at hs
    split at hs
    · obtain ⟨y, hy, rfl⟩ := Option.map_eq_some_iff.1 hs
      refine ⟨c, hw, ?_⟩
      by_cases he : 0 = i
      · subst he; simp only [upd_self]; exact first_step _ c (where_prefix hw) _ _ hf hy
      · simp only [upd_ne _ he]; exact hf
    · simp at hs
  | host j =>
    obtain ⟨svc, prog, pc, r, st, log⟩ := s
    simp only at hw hf
    have hne : ∀ i x, First c (upd svc (i + 1) x 0) := fun i x => by rw [upd_ne _ (by omega)]; exact hf
    cases hw with
    | a r => simp only [step, hostStep, call, Option.some.injEq] at hs; subst hs; exact ⟨_, .b, hf⟩
    | b =>
      simp only [step, hostStep, hS, if_true, Option.some.injEq] at hs
      subst hs
      exact ⟨_, .c 0, by simp only [upd_self]; exact first_push _ _ _ hf⟩
    | c i =>
      simp only [step, hostStep] at hs
      split at hs
      · simp only [Option.some.injEq] at hs
        subst hs
        exact ⟨_, .c (i + 1), hne i (push (svc (i + 1)) (.run none))⟩
      · simp only [Bool.false_eq_true, if_false, Option.some.injEq] at hs
        subst hs
        exact ⟨_, .d, hf⟩
    | d => simp only [step, hostStep, call, Option.some.injEq] at hs; subst hs; exact ⟨_, .e, hf⟩
    | e =>
      simp only [step, hostStep, hS, if_true, Option.some.injEq] at hs
      subst hs
      exact ⟨_, .f 0, by simp only [upd_self]; exact first_push _ _ _ hf⟩
    | f i =>
      simp only [step, hostStep] at hs
      split at hs
      · simp only [Option.some.injEq] at hs
        subst hs
        exact ⟨_, .f (i + 1), hne i (push (svc (i + 1)) (.run none))⟩
      · simp only [Bool.false_eq_true, if_false, Option.some.injEq] at hs
        subst hs
        exact ⟨_, .g, hf⟩
    | g => simp only [step, hostStep, call, if_true, Option.some.injEq] at hs; subst hs; exact ⟨_, .h, hf⟩
    | h =>
      simp only [step, hostStep, hS, if_true, Option.some.injEq] at hs
      subst hs
      exact ⟨_, .i 0, by simp only [upd_self]; exact first_push _ _ _ hf⟩
    | i i =>
      simp only [step, hostStep] at hs
      split at hs
      · simp only [Option.some.injEq] at hs
        subst hs
        exact ⟨_, .i (i + 1), hne i (push (svc (i + 1)) .pause)⟩
      · simp only [Option.some.injEq] at hs
        subst hs
        exact ⟨_, .j, hf⟩
    | j =>
      simp only [step, hostStep, hS, if_true] at hs
      rw [hf.1] at hs
      simp at hs

theorem twice_exec (S : Nat) (hS : 0 < S) (tick : Nat → D → D) : ∀ (ls : List Lbl) (s : St D), Twice s → Twice (exec S tick s ls)
  | [], _, h => h
  | l :: ls, s, h => by
    rw [exec]
    apply twice_exec S hS tick ls
    cases hl : step S tick s l with
    | none => exact h
    | some a => exact twice_step S hS tick s a l h hl

/-- **C89, finding.** A second continuous run while one is going on is accepted, and then `pause` does not return under any schedule: the command lies behind the second
run in the channel, and a service looks at the first command only. -/
theorem C89_pause_after_two_runs_hangs (S : Nat) (hS : 0 < S) (tick : Nat → D → D) (d : Nat → D) (ls : List Lbl) :
    (exec S tick (init d [.cont, .cont, .pause]) ls).log.length ≤ 2 := by
  have ht := twice_exec S hS tick ls (init d [.cont, .cont, .pause]) ⟨[], .a false, rfl, rfl, rfl, Or.inl ⟨rfl, rfl⟩⟩
  have hc := exec_count S tick ls (init d [.cont, .cont, .pause])
  have hi : (init d [Call.cont, .cont, .pause]).log.length + (init d [Call.cont, .cont, .pause]).prog.length + pend (init d [Call.cont, .cont, .pause]).pc = 3 := rfl
  rw [hi] at hc
  obtain ⟨c, hw, _⟩ := ht
  generalize exec S tick (init d [.cont, .cont, .pause]) ls = x at *
  obtain ⟨svc, prog, pc, r, st, log⟩ := x
  simp only at hw hc ⊢
  cases hw <;> simp only [pend, List.length_cons, List.length_nil] at hc <;> omega

end Verif.Pause
