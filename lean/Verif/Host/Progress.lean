import Verif.Host.Props

/-!
# C80: every program of calls completes, and what happens to programs that are not proper
-/

namespace Verif.Host

open Finset

variable {D : Type}

/-! ## Remaining work -/

def cmdCost : Cmd D → Nat
  | .run n => n + 4
  | _ => 3

def modeCost : Mode → Nat
  | .busy k => k + 2
  | _ => 0

def svcCost (s : Svc D) : Nat := modeCost s.mode + (s.inq.map cmdCost).sum + s.outq.length

def pcCost (S : Nat) : Pc D → Nat
  | .ready => 0
  | .sendRun n _ i => (S - i) * (n + 5) + 3
  | .collect _ => 1
  | .awaitVal _ => 1
  | .awaitSet _ => 1
  | .sendStop i => (S - i) * 4 + 5
  | .stopRecv _ => 3
  | .stopProbe _ => 2
  | .joining => 1
  | .failed => 0

def callCost (S : Nat) : Call D → Nat
  | .run n _ => S * (n + 5) + 4
  | .wait => 2
  | .get _ => 5
  | .set _ _ => 5
  | .stop => S * 4 + 6

def progCost (S : Nat) (p : List (Call D)) : Nat := (p.map (callCost S)).sum

/-- Bound on the number of steps left. -/
def work (S : Nat) (s : St D) : Nat := progCost S s.prog + pcCost S s.pc + ∑ i ∈ range S, svcCost (s.svc i)

theorem sum_upd (S : Nat) (f : Nat → Svc D) (i : Nat) (x : Svc D) (hi : i < S) :
    (∑ k ∈ range S, svcCost (upd f i x k)) + svcCost (f i) = (∑ k ∈ range S, svcCost (f k)) + svcCost x := by
  have h1 := Finset.add_sum_erase (range S) (fun k => svcCost (upd f i x k)) (Finset.mem_range.2 hi)
  have h2 := Finset.add_sum_erase (range S) (fun k => svcCost (f k)) (Finset.mem_range.2 hi)
  have h3 : ∑ k ∈ (range S).erase i, svcCost (upd f i x k) = ∑ k ∈ (range S).erase i, svcCost (f k) := by
    apply Finset.sum_congr rfl
    intro k hk
    rw [upd_ne _ (Finset.ne_of_mem_erase hk)]
  simp only [upd_self] at h1
  omega

theorem svcStep_cost (f : D → D) (s y : Svc D) (h : svcStep f s = some y ∨ svcPeek s = some y) : svcCost y < svcCost s := by
  obtain ⟨mode, inq, outq, d, stp⟩ := s
  rcases h with h | h
  · cases mode with
    | dead => simp [svcStep] at h
    | busy k =>
      cases k with
      | zero =>
        simp only [svcStep, Option.some.injEq] at h
        subst h
        cases stp
        · simp [svcCost, modeCost]; omega
        · simp [svcCost, modeCost]
      | succ k =>
        simp only [svcStep, Option.some.injEq] at h
        subst h
        simp [svcCost, modeCost]
    | idle =>
      cases inq with
      | nil => simp [svcStep] at h
      | cons c r =>
        cases c <;> simp only [svcStep, Option.some.injEq] at h <;> subst h <;> simp [svcCost, modeCost, cmdCost] <;> omega
  · cases mode with
    | dead => simp [svcPeek] at h
    | idle => simp [svcPeek] at h
    | busy k =>
      cases inq with
      | nil => simp [svcPeek] at h
      | cons c r =>
        cases c <;> simp only [svcPeek, Option.some.injEq, reduceCtorEq] at h
        subst h
        simp [svcCost, modeCost]

theorem push_cost (s : Svc D) (c : Cmd D) : svcCost (push s c) = svcCost s + cmdCost c := by
  simp [svcCost, push]; omega

theorem pop_cost (s : Svc D) (x : Rsp D) (r : List (Rsp D)) (h : s.outq = x :: r) :
    svcCost { s with outq := r } + 1 = svcCost s := by
  simp [svcCost, h]; omega

theorem host_work (S : Nat) (tick : Nat → D → D) (total : List (Res D)) (s a : St D) (j : Nat)
    (hi : Inv S tick total s) (h : hostStep S s j = some a) : work S a < work S s := by
  obtain ⟨svc, prog, pc, r, st, log⟩ := s
  obtain ⟨F, hH, hF⟩ := hi
  dsimp only at hH hF
  have hcall : ∀ (c : Call D) (p : List (Call D)), Proper S r st (c :: p) →
      work S (call c { svc := svc, prog := p, pc := .ready, running := r, started := st, log := log }) <
        work S { svc := svc, prog := c :: p, pc := .ready, running := r, started := st, log := log } := by
    intro c p hp
    cases c with
    | run n b =>
      simp only [call, work, pcCost, progCost, List.map_cons, List.sum_cons, callCost, Nat.sub_zero]
      omega
    | wait =>
      simp only [call]
      split <;> simp only [St.ret, work, pcCost, progCost, List.map_cons, List.sum_cons, callCost] <;> omega
    | get i =>
      have hsum := sum_upd S svc i (push (svc i) .get) hp.1
      rw [push_cost] at hsum
      simp only [cmdCost] at hsum
      simp only [call]
      split
      · simp only [St.ret, work, pcCost, progCost, List.map_cons, List.sum_cons, callCost]; omega
      · split <;> simp only [St.ret, work, pcCost, progCost, List.map_cons, List.sum_cons, callCost] <;> omega
    | set i v =>
      have hsum := sum_upd S svc i (push (svc i) (.set v)) hp.1
      rw [push_cost] at hsum
      simp only [cmdCost] at hsum
      simp only [call]
      split
      · simp only [St.ret, work, pcCost, progCost, List.map_cons, List.sum_cons, callCost]; omega
      · split <;> simp only [St.ret, work, pcCost, progCost, List.map_cons, List.sum_cons, callCost] <;> omega
    | stop =>
      simp only [call]
      split <;> simp only [work, pcCost, progCost, List.map_cons, List.sum_cons, callCost, Nat.sub_zero] <;> omega
  have hpop : ∀ (i : Nat) (x : Rsp D) (rest : List (Rsp D)), i < S → (svc i).outq = x :: rest →
      (∑ k ∈ range S, svcCost (upd svc i { mode := (svc i).mode, inq := (svc i).inq, outq := rest, d := (svc i).d, stopping := (svc i).stopping } k)) + 1 = ∑ k ∈ range S, svcCost (svc k) := by
    intro i x rest hiS he
    have h1 := sum_upd S svc i { mode := (svc i).mode, inq := (svc i).inq, outq := rest, d := (svc i).d, stopping := (svc i).stopping } hiS
    have h2 := pop_cost (svc i) x rest he
    omega
  cases hH with
  | idle dv _ _ _ hp ht =>
    cases prog with
    | nil => simp [hostStep] at h
    | cons c p =>
      simp only [hostStep, Option.some.injEq] at h
      subst h
      exact hcall c p hp
  | going dv _ _ hp ht =>
    cases prog with
    | nil => simp [hostStep] at h
    | cons c p =>
      simp only [hostStep, Option.some.injEq] at h
      subst h
      exact hcall c p hp
  | sendRun dv n b i _ _ hi hp ht =>
    simp only [hostStep] at h
    split at h
    · rename_i hlt
      simp only [Option.some.injEq] at h
      subst h
      have hsum := sum_upd S svc i (push (svc i) (.run n)) hlt
      rw [push_cost] at hsum
      simp only [cmdCost] at hsum
      obtain ⟨m, rfl⟩ : ∃ m, S = i + 1 + m := ⟨S - i - 1, by omega⟩
      have e1 : i + 1 + m - i = m + 1 := by omega
      have e2 : i + 1 + m - (i + 1) = m := by omega
      simp only [work, pcCost, e1, e2, Nat.succ_mul]
      omega
    · split at h <;> simp only [Option.some.injEq] at h <;> subst h <;> simp only [St.ret, work, pcCost] <;> omega
  | collect dv C _ _ hC hc hp ht =>
    simp only [hostStep] at h
    split at h
    · rename_i hj
      cases ho : (svc j).outq with
      | nil => rw [ho] at h; simp at h
      | cons x rest =>
        have hs := hpop j x rest hj ho
        rw [ho] at h
        cases x <;> dsimp only at h
        case done =>
          split at h <;> simp only [Option.some.injEq] at h <;> subst h <;> simp only [St.ret, work, pcCost] <;> omega
        all_goals
          simp only [Option.some.injEq] at h
          subst h
          simp only [work, pcCost]
          omega
    · simp at h
  | awaitVal dv i _ _ hi hp ht =>
    simp only [hostStep] at h
    cases ho : (svc i).outq with
    | nil => rw [ho] at h; simp at h
    | cons x rest =>
      have hs := hpop i x rest hi ho
      rw [ho] at h
      cases x <;> simp only [Option.some.injEq] at h <;> subst h <;> simp only [St.ret, work, pcCost] <;> omega
  | awaitSet dv i _ _ hi hp ht =>
    simp only [hostStep] at h
    cases ho : (svc i).outq with
    | nil => rw [ho] at h; simp at h
    | cons x rest =>
      have hs := hpop i x rest hi ho
      rw [ho] at h
      cases x <;> simp only [Option.some.injEq] at h <;> subst h <;> simp only [St.ret, work, pcCost] <;> omega
  | sendStop dv i _ hi ht =>
    simp only [hostStep] at h
    split at h
    · rename_i hlt
      simp only [Option.some.injEq] at h
      subst h
      have hsum := sum_upd S svc i (push (svc i) .stop) hlt
      rw [push_cost] at hsum
      simp only [cmdCost] at hsum
      simp only [work, pcCost]
      omega
    · simp only [Option.some.injEq] at h
      subst h
      simp only [work, pcCost]
      omega
  | stopRecv i _ hi ht =>
    simp only [hostStep] at h
    split at h
    · rename_i hlt
      cases ho : (svc i).outq with
      | nil => rw [ho] at h; simp at h
      | cons x rest =>
        have hs := hpop i x rest hlt ho
        rw [ho] at h
        cases x <;> simp only [Option.some.injEq] at h <;> subst h <;> simp only [work, pcCost] <;> omega
    · simp only [Option.some.injEq] at h
      subst h
      simp only [work, pcCost]
      omega
  | joining _ ht =>
    simp only [hostStep] at h
    split at h
    · simp only [Option.some.injEq] at h
      subst h
      simp only [St.ret, work, pcCost]
      omega
    · simp at h
  | stopped _ ht => simp [hostStep] at h

theorem step_work (S : Nat) (tick : Nat → D → D) (total : List (Res D)) (s a : St D) (l : Lbl)
    (hi : Inv S tick total s) (h : step S tick s l = some a) : work S a < work S s := by
  have key : ∀ (i : Nat) (y : Svc D), (svcStep (tick i) (s.svc i) = some y ∨ svcPeek (s.svc i) = some y) → i < S →
      work S { s with svc := upd s.svc i y } < work S s := by
    intro i y hy hiS
    have h1 := svcStep_cost (tick i) _ _ hy
    have h2 := sum_upd S s.svc i y hiS
    simp only [work]
    omega
  cases l with
  | host j => exact host_work S tick total s a j hi h
  | svc i =>
    simp only [step] at h
    split at h
    · rename_i hiS
      cases hy : svcStep (tick i) (s.svc i) with
      | none => rw [hy] at h; simp at h
      | some y =>
        rw [hy] at h
        simp only [Option.map_some, Option.some.injEq] at h
        subst h
        exact key i y (Or.inl hy) hiS
    · simp at h
  | peek i =>
    simp only [step] at h
    split at h
    · rename_i hiS
      cases hy : svcPeek (s.svc i) with
      | none => rw [hy] at h; simp at h
      | some y =>
        rw [hy] at h
        simp only [Option.map_some, Option.some.injEq] at h
        subst h
        exact key i y (Or.inr hy) hiS
    · simp at h

/-! ## Progress -/

/-- As long as the program is not finished, the host or a service can do a step. -/
theorem progress (S : Nat) (hS : 0 < S) (tick : Nat → D → D) (total : List (Res D)) (s : St D) (hi : Inv S tick total s)
    (hstuck : ∀ k, k < S → step S tick s (.host k) = none ∧ step S tick s (.svc k) = none) :
    s.pc = .ready ∧ s.prog = [] ∧ s.log = total := by
  obtain ⟨svc, prog, pc, r, st, log⟩ := s
  obtain ⟨F, hH, hF⟩ := hi
  dsimp only at hH hF ⊢
  have hsvc : ∀ k, k < S → svcStep (tick k) (svc k) = none := by
    intro k hk
    have := (hstuck k hk).2
    simp only [step, if_pos hk] at this
    cases hy : svcStep (tick k) (svc k) with
    | none => rfl
    | some y => rw [hy] at this; simp at this
  have hhost : ∀ k, k < S → hostStep S { svc := svc, prog := prog, pc := pc, running := r, started := st, log := log } k = none :=
    fun k hk => (hstuck k hk).1
  cases hH with
  | idle dv _ _ _ hp ht =>
    cases prog with
    | nil => exact ⟨rfl, rfl, by simpa [ref] using ht⟩
    | cons c p => have := hhost 0 hS; simp [hostStep] at this
  | going dv _ _ hp ht =>
    cases prog with
    | nil => exact ⟨rfl, rfl, by simpa [ref] using ht⟩
    | cons c p => have := hhost 0 hS; simp [hostStep] at this
  | sendRun dv n b i _ _ hi hp ht =>
    have := hhost 0 hS
    simp only [hostStep] at this
    split at this
    · simp at this
    · split at this <;> simp at this
  | collect dv C _ _ hC hc hp ht =>
    exfalso
    obtain ⟨k, hk, hkC⟩ : ∃ k, k < S ∧ k ∉ C := by
      by_contra hcon
      push Not at hcon
      have : range S ⊆ C := fun x hx => hcon x (Finset.mem_range.1 hx)
      have := Finset.card_le_card this
      rw [Finset.card_range] at this
      omega
    have hk' := hF k hk
    simp only [if_neg hkC] at hk'
    cases hk' with
    | todo n d hs _ => have := hsvc k hk; rw [hs] at this; simp [svcStep] at this
    | busy n d hs _ =>
      have := hsvc k hk
      rw [hs] at this
      cases n <;> simp [svcStep] at this
    | done hs =>
      have := hhost k hk
      simp only [hostStep, if_pos hk, hs] at this
      split at this <;> simp at this
  | awaitVal dv i _ _ hi hp ht =>
    exfalso
    have hk' := hF i hi
    simp only [if_true] at hk'
    cases hk' with
    | todo hs => have := hsvc i hi; rw [hs] at this; simp [svcStep] at this
    | done hs => have := hhost 0 hS; simp [hostStep, hs] at this
  | awaitSet dv i _ _ hi hp ht =>
    exfalso
    have hk' := hF i hi
    simp only [if_true] at hk'
    cases hk' with
    | todo d hs => have := hsvc i hi; rw [hs] at this; simp [svcStep] at this
    | done hs => have := hhost 0 hS; simp [hostStep, hs] at this
  | sendStop dv i _ hi ht =>
    have := hhost 0 hS
    simp only [hostStep] at this
    split at this <;> simp at this
  | stopRecv i _ hi ht =>
    exfalso
    by_cases hlt : i < S
    · have hk' := hF i hlt
      simp only [Nat.lt_irrefl, if_false] at hk'
      cases hk' with
      | todo d hs => have := hsvc i hlt; rw [hs] at this; simp [svcStep] at this
      | done d hs => have := hhost 0 hS; simp [hostStep, hs, hlt] at this
    · have := hhost 0 hS; simp [hostStep, hlt] at this
  | joining _ ht =>
    exfalso
    have := hhost 0 hS
    have hall : allDead S svc = true := by
      simp only [allDead, List.all_eq_true, List.mem_range]
      intro k hk
      obtain ⟨d, hd⟩ := hF k hk
      rw [hd]
    simp [hostStep, hall] at this
  | stopped _ ht => exact ⟨rfl, rfl, ht⟩

theorem exec_append (S : Nat) (tick : Nat → D → D) : ∀ (a b : List Lbl) (s : St D),
    exec S tick s (a ++ b) = exec S tick (exec S tick s a) b
  | [], _, _ => rfl
  | l :: a, b, s => by simp only [List.cons_append, exec]; exact exec_append S tick a b _

/-- A list of labels in which nothing happened. -/
theorem exec_work (S : Nat) (hS : 0 < S) (tick : Nat → D → D) (total : List (Res D)) : ∀ (ls : List Lbl) (s : St D),
    Inv S tick total s → work S (exec S tick s ls) < work S s ∨
      (exec S tick s ls = s ∧ ∀ l ∈ ls, step S tick s l = none)
  | [], s, _ => Or.inr ⟨rfl, by simp⟩
  | l :: ls, s, hi => by
    rw [exec]
    cases hl : step S tick s l with
    | some a =>
      left
      have h1 := step_work S tick total s a l hi hl
      have h2 := exec_work S hS tick total ls a (inv_step S hS tick total s a l hi hl)
      simp only [Option.getD_some]
      rcases h2 with h2 | h2
      · omega
      · rw [h2.1]; exact h1
    | none =>
      simp only [Option.getD_none]
      rcases exec_work S hS tick total ls s hi with h2 | h2
      · exact Or.inl h2
      · refine Or.inr ⟨h2.1, ?_⟩
        intro l' hl'
        rcases List.mem_cons.1 hl' with h | h
        · rw [h]; exact hl
        · exact h2.2 l' h

/-- Once all calls have returned, what the user sees does not change. -/
theorem finished_stays (S : Nat) (tick : Nat → D → D) : ∀ (ls : List Lbl) (s : St D), s.pc = .ready → s.prog = [] →
    (exec S tick s ls).pc = .ready ∧ (exec S tick s ls).prog = [] ∧ (exec S tick s ls).log = s.log
  | [], _, h1, h2 => ⟨h1, h2, rfl⟩
  | l :: ls, s, h1, h2 => by
    rw [exec]
    cases hl : step S tick s l with
    | none => exact finished_stays S tick ls s h1 h2
    | some a =>
      cases l with
      | host j => simp [step, hostStep, h1, h2] at hl
      | svc i =>
        simp only [step] at hl
        split at hl
        · simp only [Option.map_eq_some_iff] at hl
          obtain ⟨y, _, rfl⟩ := hl
          exact finished_stays S tick ls _ h1 h2
        · simp at hl
      | peek i =>
        simp only [step] at hl
        split at hl
        · simp only [Option.map_eq_some_iff] at hl
          obtain ⟨y, _, rfl⟩ := hl
          exact finished_stays S tick ls _ h1 h2
        · simp at hl

/-- **C80.** Every properly used runtime completes its program under every fair schedule: in a schedule of sufficiently many rounds, in
each of which the host (for every choice of `select`) and every service try to do a step, all calls return, with the results of the
sequential machine. Services may in addition look for STOP commands at any time. -/
theorem C80_program_completes (S : Nat) (hS : 0 < S) (tick : Nat → D → D) (d : Nat → D) (p : List (Call D))
    (hp : Proper S false false p) (rounds : List (List Lbl))
    (hr : ∀ rd ∈ rounds, ∀ k, k < S → Lbl.host k ∈ rd ∧ Lbl.svc k ∈ rd) (hlen : progCost S p ≤ rounds.length) :
    (exec S tick (init d p) rounds.flatten).prog = [] ∧
    (exec S tick (init d p) rounds.flatten).pc = .ready ∧
    (exec S tick (init d p) rounds.flatten).log = ref S tick d false false p := by
  have key : ∀ (rounds : List (List Lbl)) (s : St D), (∀ rd ∈ rounds, ∀ k, k < S → Lbl.host k ∈ rd ∧ Lbl.svc k ∈ rd) →
      Inv S tick (ref S tick d false false p) s → work S s ≤ rounds.length →
      (exec S tick s rounds.flatten).pc = .ready ∧ (exec S tick s rounds.flatten).prog = [] ∧
        (exec S tick s rounds.flatten).log = ref S tick d false false p := by
    intro rounds
    induction rounds with
    | nil =>
      intro s _ hi hw
      apply progress S hS tick _ s hi
      have hnone : ∀ l, step S tick s l = none := by
        intro l
        cases hl : step S tick s l with
        | none => rfl
        | some a =>
          have := step_work S tick _ s a l hi hl
          simp at hw
          omega
      exact fun k _ => ⟨hnone _, hnone _⟩
    | cons rd rounds ih =>
      intro s hr hi hw
      rw [List.flatten_cons, exec_append]
      rcases exec_work S hS tick _ rd s hi with h | ⟨he, hn⟩
      · exact ih _ (fun x hx => hr x (by simp [hx])) (inv_exec S hS tick _ rd s hi) (by simp at hw; omega)
      · rw [he]
        have hfin := progress S hS tick _ s hi fun k hk => ⟨hn _ (hr rd (by simp) k hk).1, hn _ (hr rd (by simp) k hk).2⟩
        have := finished_stays S tick rounds.flatten s hfin.1 hfin.2.1
        exact ⟨this.1, this.2.1, this.2.2.trans hfin.2.2⟩
  have := key rounds (init d p) hr (inv_init S tick d p hp) (by simpa [work, init, pcCost, svcCost, modeCost] using hlen)
  exact ⟨this.2.1, this.1, this.2.2⟩

end Verif.Host
