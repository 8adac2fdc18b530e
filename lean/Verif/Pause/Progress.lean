import Verif.Pause.Props
import Mathlib.Algebra.BigOperators.Group.Finset.Basic
import Mathlib.Algebra.Order.BigOperators.Group.Finset
import Mathlib.Tactic.Linarith

/-!
# C89: all calls return
-/

namespace Verif.Pause

open Finset

variable {D : Type}

/-! ## Remaining work -/

def cmdCost : Cmd D → Nat
  | .run none => 3
  | .run (some n) => n + 3
  | _ => 2

def modeCost (req : Bool) : Mode → Nat
  | .busy none => if req then 1 else 2
  | .busy (some k) => if req then 1 else k + 2
  | _ => 0

def svcCost (s : Svc D) : Nat := modeCost (s.reqPause || s.reqStop) s.mode + (s.inq.map cmdCost).sum + s.outq.length

def pcCost (D : Type) (S : Nat) : Pc → Nat
  | .ready => 0
  | .sendRun n _ i => (S - i) * (cmdCost (D := D) (.run n) + 1) + 2
  | .collect _ => 1
  | .awaitVal _ => 1
  | .awaitSet _ => 1
  | .sendPause i => (S - i) * 3 + 3
  | .pauseRecv _ => 2
  | .pauseProbe i => if i < S then 2 else 3
  | .sendStop i => (S - i) * 3 + 5
  | .stopRecv _ => 3
  | .stopProbe i => if i < S then 3 else 4
  | .joining => 1
  | .failed => 0

def callCost (S : Nat) : Call D → Nat
  | .run n _ => S * (n + 3 + 1) + 3
  | .cont => S * 4 + 3
  | .wait => 2
  | .pause => S * 3 + 4
  | .get _ => 4
  | .set _ _ => 4
  | .stop => S * 3 + 6

def progCost (S : Nat) (p : List (Call D)) : Nat := (p.map (callCost S)).sum

/-- Bound on the number of steps that matter. -/
def work (S : Nat) (s : St D) : Nat := progCost S s.prog + pcCost D S s.pc + ∑ i ∈ range S, svcCost (s.svc i)

theorem sum_upd (S : Nat) (f : Nat → Svc D) (i : Nat) (x : Svc D) (hi : i < S) :
    (∑ k ∈ range S, svcCost (upd f i x k)) + svcCost (f i) = (∑ k ∈ range S, svcCost (f k)) + svcCost x := by
  have h1 := Finset.add_sum_erase (range S) (fun k => svcCost (upd f i x k)) (Finset.mem_range.2 hi)
  have h2 := Finset.add_sum_erase (range S) (fun k => svcCost (f k)) (Finset.mem_range.2 hi)
  have h3 : ∑ k ∈ (range S).erase i, svcCost (upd f i x k) = ∑ k ∈ (range S).erase i, svcCost (f k) := by
    apply Finset.sum_congr rfl
    intro k hk
    rw [upd_ne _ (Finset.ne_of_mem_erase hk)]
  simp only [upd_self] at h1
  omega

theorem sum_upd_out (S : Nat) (f : Nat → Svc D) (i : Nat) (x : Svc D) (hi : ¬ i < S) : (∑ k ∈ range S, svcCost (upd f i x k)) = ∑ k ∈ range S, svcCost (f k) := by
  apply Finset.sum_congr rfl
  intro k hk
  rw [upd_ne _ (by have := Finset.mem_range.1 hk; omega)]

theorem push_cost (s : Svc D) (c : Cmd D) : svcCost (push s c) = svcCost s + cmdCost c := by
  simp [svcCost, push]; omega

theorem sum_push (S : Nat) (f : Nat → Svc D) (i : Nat) (c : Cmd D) :
    (∑ k ∈ range S, svcCost (upd f i (push (f i) c) k)) ≤ (∑ k ∈ range S, svcCost (f k)) + cmdCost c := by
  by_cases hi : i < S
  · have := sum_upd S f i (push (f i) c) hi
    rw [push_cost] at this
    omega
  · rw [sum_upd_out S f i _ hi]; omega

theorem pop_cost (s : Svc D) (x : Rsp D) (r : List (Rsp D)) (h : s.outq = x :: r) : svcCost { s with outq := r } + 1 = svcCost s := by
  simp [svcCost, h]; omega

theorem sum_pop (S : Nat) (s : St D) (i : Nat) (x : Rsp D) (r : List (Rsp D)) (h : (s.svc i).outq = x :: r) :
    (∑ k ∈ range S, svcCost ((pop s i r).svc k)) + (if i < S then 1 else 0) = ∑ k ∈ range S, svcCost (s.svc k) := by
  unfold pop
  by_cases hi : i < S
  · have := sum_upd S s.svc i { s.svc i with outq := r } hi
    have h2 := pop_cost (s.svc i) x r h
    rw [if_pos hi]
    simp only at this ⊢
    omega
  · rw [if_neg hi, Nat.add_zero]
    exact sum_upd_out S s.svc i _ hi

/-- A time step of a continuous run that sees no pause and no stop. -/
def Free (f : D → D) (s y : Svc D) : Prop := y = { s with d := f s.d } ∧ s.mode = .busy none

theorem svcStep_cost (f : D → D) (s y : Svc D) (h : svcStep f s = some y) : svcCost y < svcCost s ∨ (Free f s y ∧ svcCost y = svcCost s) := by
  obtain ⟨mode, inq, outq, d, pz, st, rp, rs⟩ := s
  cases mode with
  | dead => simp [svcStep] at h
  | idle =>
    left
    cases inq with
    | nil => simp [svcStep] at h
    | cons c r =>
      cases c <;> simp only [svcStep, Option.some.injEq] at h <;> subst h
      case run n =>
        cases n <;> simp only [svcCost, modeCost, cmdCost, List.map_cons, List.sum_cons] <;> split <;> omega
      all_goals simp [svcCost, modeCost, cmdCost]
      all_goals omega
  | busy left =>
    cases rp with
    | true =>
      simp only [svcStep, if_true, Option.some.injEq] at h
      subst h
      left
      cases left <;> simp [svcCost, modeCost]
    | false =>
      cases rs with
      | true =>
        simp only [svcStep, Bool.false_eq_true, if_false, if_true, Option.some.injEq] at h
        subst h
        left
        cases left <;> simp [svcCost, modeCost]
      | false =>
        cases left with
        | none =>
          simp only [svcStep, Bool.false_eq_true, if_false, Option.some.injEq] at h
          subst h
          cases inq with
          | nil => right; exact ⟨⟨rfl, rfl⟩, rfl⟩
          | cons c r =>
            cases c with
            | pause => left; simp [probe, svcCost, modeCost]
            | stop => left; simp [probe, svcCost, modeCost]
            | run n => right; exact ⟨⟨rfl, rfl⟩, rfl⟩
            | get => right; exact ⟨⟨rfl, rfl⟩, rfl⟩
            | set v => right; exact ⟨⟨rfl, rfl⟩, rfl⟩
        | some k =>
          left
          cases k with
          | zero =>
            simp only [svcStep, Bool.false_eq_true, if_false, Option.some.injEq] at h
            subst h
            have hp : (probe (⟨.busy (some 0), inq, outq, d, pz, st, false, false⟩ : Svc D)).inq = inq ∧
                (probe (⟨.busy (some 0), inq, outq, d, pz, st, false, false⟩ : Svc D)).outq = outq := by
              unfold probe
              split <;> exact ⟨rfl, rfl⟩
            have hm : ∀ b, modeCost b .idle = 0 := fun b => rfl
            simp only [svcCost, hp.1, hp.2, hm, List.length_append]
            simp only [modeCost, Bool.or_self, Bool.false_eq_true, if_false]
            split <;> simp <;> omega
          | succ k =>
            simp only [svcStep, Bool.false_eq_true, if_false, Option.some.injEq] at h
            subst h
            have hp : ∀ t : Svc D, (probe t).inq = t.inq ∧ (probe t).outq = t.outq ∧ (probe t).mode = t.mode := by
              intro t
              unfold probe
              split <;> exact ⟨rfl, rfl, rfl⟩
            have hm : ∀ b, modeCost b (.busy (some k)) ≤ k + 2 := fun b => by cases b <;> simp [modeCost]
            simp only [svcCost, (hp _).1, (hp _).2.1, (hp _).2.2]
            have h0 := hm ((probe (⟨.busy (some k), inq, outq, f d, pz, st, false, false⟩ : Svc D)).reqPause ||
              (probe (⟨.busy (some k), inq, outq, f d, pz, st, false, false⟩ : Svc D)).reqStop)
            have h1 : modeCost (false || false) (.busy (some (k + 1))) = k + 3 := by simp [modeCost]
            rw [h1]
            omega

theorem work_call (S : Nat) (svc : Nat → Svc D) (c : Call D) (p : List (Call D)) (r st : Bool) (log : List (Res D)) :
    work S (call c ⟨svc, p, .ready, r, st, log⟩) < work S ⟨svc, c :: p, .ready, r, st, log⟩ := by
  cases c with
  | run n b => simp only [call, work, pcCost, progCost, List.map_cons, List.sum_cons, callCost, cmdCost, Nat.sub_zero]; omega
  | cont => simp only [call, work, pcCost, progCost, List.map_cons, List.sum_cons, callCost, cmdCost, Nat.sub_zero]; omega
  | wait => simp only [call]; split <;> simp only [St.ret, work, pcCost, progCost, List.map_cons, List.sum_cons, callCost] <;> omega
  | pause => simp only [call]; split <;> simp only [St.ret, work, pcCost, progCost, List.map_cons, List.sum_cons, callCost] <;> omega
  | get i =>
    have hs := sum_push S svc i .get
    simp only [cmdCost] at hs
    simp only [call]
    split
    · simp only [St.ret, work, pcCost, progCost, List.map_cons, List.sum_cons, callCost]; omega
    · split <;> simp only [St.ret, work, pcCost, progCost, List.map_cons, List.sum_cons, callCost] <;> omega
  | set i v =>
    have hs := sum_push S svc i (.set v)
    simp only [cmdCost] at hs
    simp only [call]
    split
    · simp only [St.ret, work, pcCost, progCost, List.map_cons, List.sum_cons, callCost]; omega
    · split <;> simp only [St.ret, work, pcCost, progCost, List.map_cons, List.sum_cons, callCost] <;> omega
  | stop => simp only [call]; split <;> simp only [work, pcCost, progCost, List.map_cons, List.sum_cons, callCost, Nat.sub_zero] <;> omega

theorem work_pop (S : Nat) (s : St D) (i : Nat) (x : Rsp D) (r : List (Rsp D)) (h : (s.svc i).outq = x :: r) (pc : Pc) (rn st : Bool) (log : List (Res D))
    (hc : pcCost D S pc < pcCost D S s.pc + (if i < S then 1 else 0)) : work S ⟨(pop s i r).svc, s.prog, pc, rn, st, log⟩ < work S s := by
  have := sum_pop S s i x r h
  simp only [work]
  omega

theorem send_cost (S i c : Nat) (h : i < S) : (S - i) * (c + 1) = (S - (i + 1)) * (c + 1) + (c + 1) := by
  have : S - i = S - (i + 1) + 1 := by omega
  rw [this]; ring

theorem host_work (S : Nat) (s a : St D) (j : Nat) (h : hostStep S s j = some a) : work S a < work S s := by
  unfold hostStep at h
  cases hpc : s.pc with
  | ready =>
    rw [hpc] at h
    cases hp : s.prog with
    | nil => simp [hp] at h
    | cons c p =>
      simp only [hp, Option.some.injEq] at h
      subst h
      obtain ⟨svc, prog, pc, r, st, log⟩ := s
      simp only at hpc hp
      subst hpc hp
      exact work_call S svc c p r st log
  | sendRun n b i =>
    rw [hpc] at h
    simp only at h
    split at h
    · rename_i hi
      simp only [Option.some.injEq] at h
      subst h
      have hs := sum_push S s.svc i (.run n)
      have hc := send_cost S i (cmdCost (D := D) (.run n)) hi
      simp only [work, hpc, pcCost]
      omega
    · split at h <;> simp only [Option.some.injEq] at h <;> subst h <;> simp only [St.ret, work, hpc, pcCost] <;> omega
  | collect got =>
    rw [hpc] at h
    simp only at h
    split at h
    · rename_i hj
      cases ho : (s.svc j).outq with
      | nil => simp [ho] at h
      | cons x r =>
        have key := fun pc rn st log => work_pop S s j x r ho pc rn st log
        rw [ho] at h
        rw [hpc] at key
        cases x <;> simp only at h
        case done =>
          split at h <;> simp only [Option.some.injEq] at h <;> subst h
          · exact key _ _ _ _ (by simp [pcCost, hj])
          · exact key _ _ _ _ (by simp [pcCost, hj])
        all_goals simp only [Option.some.injEq] at h; subst h; exact key _ _ _ _ (by simp [pcCost, hj])
    · simp at h
  | awaitVal i =>
    rw [hpc] at h
    simp only at h
    cases ho : (s.svc i).outq with
    | nil => simp [ho] at h
    | cons x r =>
      have key := fun pc rn st log => work_pop S s i x r ho pc rn st log
      rw [ho] at h
      rw [hpc] at key
      cases x <;> simp only [Option.some.injEq] at h <;> subst h <;> exact key _ _ _ _ (by simp [pcCost])
  | awaitSet i =>
    rw [hpc] at h
    simp only at h
    cases ho : (s.svc i).outq with
    | nil => simp [ho] at h
    | cons x r =>
      have key := fun pc rn st log => work_pop S s i x r ho pc rn st log
      rw [ho] at h
      rw [hpc] at key
      cases x <;> simp only [Option.some.injEq] at h <;> subst h <;> exact key _ _ _ _ (by simp [pcCost])
  | sendPause i =>
    rw [hpc] at h
    simp only at h
    split at h
    · rename_i hi
      simp only [Option.some.injEq] at h
      subst h
      have hs := sum_push S s.svc i .pause
      have hc := send_cost S i 2 hi
      simp only [work, hpc, pcCost, cmdCost] at hs ⊢
      omega
    · simp only [Option.some.injEq] at h
      subst h
      simp only [work, hpc, pcCost]
      omega
  | pauseRecv i =>
    rw [hpc] at h
    simp only at h
    split at h
    · rename_i hj
      cases ho : (s.svc i).outq with
      | nil => simp [ho] at h
      | cons x r =>
        have key := fun pc rn st log => work_pop S s i x r ho pc rn st log
        rw [ho] at h
        rw [hpc] at key
        cases x <;> simp only [Option.some.injEq] at h <;> subst h <;> exact key _ _ _ _ (by simp [pcCost, hj])
    · simp only [Option.some.injEq] at h
      subst h
      simp only [St.ret, work, hpc, pcCost]
      omega
  | pauseProbe i =>
    rw [hpc] at h
    simp only at h
    cases ho : (s.svc i).outq with
    | nil =>
      simp only [ho, Option.some.injEq] at h
      subst h
      simp only [work, hpc, pcCost]
      split <;> omega
    | cons x r =>
      have key := fun pc rn st log => work_pop S s i x r ho pc rn st log
      rw [ho] at h
      rw [hpc] at key
      cases x <;> simp only [Option.some.injEq] at h <;> subst h <;> exact key _ _ _ _ (by simp only [pcCost]; split <;> omega)
  | sendStop i =>
    rw [hpc] at h
    simp only at h
    split at h
    · rename_i hi
      simp only [Option.some.injEq] at h
      subst h
      have hs := sum_push S s.svc i .stop
      have hc := send_cost S i 2 hi
      simp only [work, hpc, pcCost, cmdCost] at hs ⊢
      omega
    · simp only [Option.some.injEq] at h
      subst h
      simp only [work, hpc, pcCost]
      omega
  | stopRecv i =>
    rw [hpc] at h
    simp only at h
    split at h
    · rename_i hj
      cases ho : (s.svc i).outq with
      | nil => simp [ho] at h
      | cons x r =>
        have key := fun pc rn st log => work_pop S s i x r ho pc rn st log
        rw [ho] at h
        rw [hpc] at key
        cases x <;> simp only [Option.some.injEq] at h <;> subst h <;> exact key _ _ _ _ (by simp [pcCost, hj])
    · simp only [Option.some.injEq] at h
      subst h
      simp only [work, hpc, pcCost]
      omega
  | stopProbe i =>
    rw [hpc] at h
    simp only at h
    cases ho : (s.svc i).outq with
    | nil =>
      simp only [ho, Option.some.injEq] at h
      subst h
      simp only [work, hpc, pcCost]
      split <;> omega
    | cons x r =>
      have key := fun pc rn st log => work_pop S s i x r ho pc rn st log
      rw [ho] at h
      rw [hpc] at key
      cases x <;> simp only [Option.some.injEq] at h <;> subst h <;> exact key _ _ _ _ (by simp only [pcCost]; split <;> omega)
  | joining =>
    rw [hpc] at h
    simp only at h
    split at h
    · simp only [Option.some.injEq] at h
      subst h
      simp only [St.ret, work, hpc, pcCost]
      omega
    · simp at h
  | failed => rw [hpc] at h; simp at h

/-! ## Steps that matter -/

/-- A step that is possible and reduces the work. -/
def Productive (S : Nat) (tick : Nat → D → D) (s : St D) : Lbl → Prop
  | .host j => (hostStep S s j).isSome = true
  | .svc i => i < S ∧ ∃ y, svcStep (tick i) (s.svc i) = some y ∧ svcCost y < svcCost (s.svc i)

/-- Every step reduces the work, or is a time step of a continuous run. -/
theorem step_work (S : Nat) (tick : Nat → D → D) (s a : St D) (l : Lbl) (h : step S tick s l = some a) :
    work S a < work S s ∨ (work S a = work S s ∧ ¬ Productive S tick s l ∧ ∃ i, l = .svc i ∧
      a = { s with svc := upd s.svc i { s.svc i with d := tick i (s.svc i).d } }) := by
  cases l with
  | host j => exact Or.inl (host_work S s a j h)
  | svc i =>
    simp only [step] at h
    split at h
    · rename_i hi
      obtain ⟨y, hy, rfl⟩ := Option.map_eq_some_iff.1 h
      have hs := sum_upd S s.svc i y hi
      rcases svcStep_cost _ _ _ hy with hc | ⟨hf, hc⟩
      · left
        simp only [work]
        omega
      · right
        refine ⟨by simp only [work]; omega, ?_, i, rfl, by rw [hf.1]⟩
        rintro ⟨_, y', hy', hlt⟩
        rw [hy] at hy'
        simp only [Option.some.injEq] at hy'
        subst hy'
        omega
    · simp at h

theorem host_isSome_data (S : Nat) (s : St D) (i j : Nat) (x : D) (h : (hostStep S s j).isSome = true) :
    (hostStep S { s with svc := upd s.svc i { s.svc i with d := x } } j).isSome = true := by
  have ho : ∀ k, (upd s.svc i { s.svc i with d := x } k).outq = (s.svc k).outq := by
    intro k
    by_cases hk : k = i
    · subst hk; simp
    · rw [upd_ne _ hk]
  have hm : ∀ k, (upd s.svc i { s.svc i with d := x } k).mode = (s.svc k).mode := by
    intro k
    by_cases hk : k = i
    · subst hk; simp
    · rw [upd_ne _ hk]
  have had : allDead S (upd s.svc i { s.svc i with d := x }) = allDead S s.svc := by
    unfold allDead
    simp only [hm]
  unfold hostStep at h ⊢
  cases hpc : s.pc with
  | ready => simp only [hpc] at h ⊢; cases hp : s.prog with
    | nil => simp [hp] at h
    | cons c p => simp
  | sendRun n b k =>
    simp only
    split
    · rfl
    · split <;> rfl
  | collect got =>
    simp only [hpc, ho] at h ⊢
    split at h
    · rename_i hj
      rw [if_pos hj]
      cases hq : (s.svc j).outq with
      | nil => simp [hq] at h
      | cons y r =>
        cases y <;> simp only [Option.isSome_some]
        split <;> rfl
    · simp at h
  | awaitVal k =>
    simp only [hpc, ho] at h ⊢
    cases hq : (s.svc k).outq with
    | nil => simp [hq] at h
    | cons y r => cases y <;> rfl
  | awaitSet k =>
    simp only [hpc, ho] at h ⊢
    cases hq : (s.svc k).outq with
    | nil => simp [hq] at h
    | cons y r => cases y <;> rfl
  | sendPause k => simp only; split <;> rfl
  | pauseRecv k =>
    simp only [hpc, ho] at h ⊢
    split at h
    · rename_i hj
      rw [if_pos hj]
      cases hq : (s.svc k).outq with
      | nil => simp [hq] at h
      | cons y r => cases y <;> rfl
    · rename_i hj; rw [if_neg hj]; rfl
  | pauseProbe k =>
    simp only [ho]
    cases hq : (s.svc k).outq with
    | nil => rfl
    | cons y r => cases y <;> rfl
  | sendStop k => simp only; split <;> rfl
  | stopRecv k =>
    simp only [hpc, ho] at h ⊢
    split at h
    · rename_i hj
      rw [if_pos hj]
      cases hq : (s.svc k).outq with
      | nil => simp [hq] at h
      | cons y r => cases y <;> rfl
    · rename_i hj; rw [if_neg hj]; rfl
  | stopProbe k =>
    simp only [ho]
    cases hq : (s.svc k).outq with
    | nil => rfl
    | cons y r => cases y <;> rfl
  | joining =>
    simp only [hpc, had] at h ⊢
    split at h
    · rename_i hd; rw [if_pos hd]; rfl
    · simp at h
  | failed => simp [hpc] at h

theorem productive_persists (S : Nat) (tick : Nat → D → D) (s : St D) (i : Nat) (x : D) (l : Lbl) (hl : l ≠ .svc i) (h : Productive S tick s l) :
    Productive S tick { s with svc := upd s.svc i { s.svc i with d := x } } l := by
  cases l with
  | host j => exact host_isSome_data S s i j x h
  | svc k =>
    have hk : k ≠ i := fun h => hl (by rw [h])
    simp only [Productive, upd_ne _ hk]
    exact h

theorem exec_work_le (S : Nat) (tick : Nat → D → D) : ∀ (ls : List Lbl) (s : St D), work S (exec S tick s ls) ≤ work S s
  | [], _ => Nat.le_refl _
  | l :: ls, s => by
    rw [exec]
    cases hl : step S tick s l with
    | none => exact exec_work_le S tick ls s
    | some a =>
      have h := exec_work_le S tick ls a
      rcases step_work S tick s a l hl with h1 | h1
      · simp only [Option.getD_some]; omega
      · simp only [Option.getD_some]; omega

/-- A productive step that gets its turn, or something before it, reduces the work. -/
theorem exec_productive (S : Nat) (tick : Nat → D → D) (l : Lbl) : ∀ (ls : List Lbl) (s : St D), l ∈ ls → Productive S tick s l →
    work S (exec S tick s ls) < work S s
  | [], _, h, _ => by simp at h
  | x :: ls, s, hm, hp => by
    rw [exec]
    cases hx : step S tick s x with
    | none =>
      have hne : x ≠ l := by
        rintro rfl
        cases x with
        | host j => simp only [step] at hx; simp [Productive, hx] at hp
        | svc i =>
          obtain ⟨hi, y, hy, _⟩ := hp
          simp [step, hi, hy] at hx
      have hm' : l ∈ ls := by
        rcases List.mem_cons.1 hm with h | h
        · exact absurd h.symm hne
        · exact h
      exact exec_productive S tick l ls s hm' hp
    | some a =>
      simp only [Option.getD_some]
      rcases step_work S tick s a x hx with h1 | ⟨h1, hnp, i, rfl, ha⟩
      · exact Nat.lt_of_le_of_lt (exec_work_le S tick ls a) h1
      · have hne : l ≠ .svc i := fun h => hnp (h ▸ hp)
        have hm' : l ∈ ls := by
          rcases List.mem_cons.1 hm with h | h
          · exact absurd h hne
          · exact h
        rw [← h1]
        refine exec_productive S tick l ls a hm' ?_
        rw [ha]
        exact productive_persists S tick s i _ l hne hp

/-! ## There is always such a step -/

theorem prod_run (f : D → D) (x : D) (s : Svc D) (h : RunPh f x s) : (∃ y, svcStep f s = some y ∧ svcCost y < svcCost s) ∨ s.outq = [.done] := by
  cases h with
  | todo n d hs _ =>
    left
    subst hs
    have hst : svcStep f (⟨.idle, [.run (some n)], [], d, false, false, false, false⟩ : Svc D) =
      some ⟨.busy (some n), [], [], d, false, false, false, false⟩ := rfl
    refine ⟨_, hst, ?_⟩
    simp [svcCost, modeCost, cmdCost]
  | busy k d hs _ =>
    left
    subst hs
    have : ∃ y, svcStep f (⟨.busy (some k), [], [], d, false, false, false, false⟩ : Svc D) = some y := by cases k <;> exact ⟨_, rfl⟩
    obtain ⟨y, hy⟩ := this
    refine ⟨y, hy, ?_⟩
    rcases svcStep_cost f _ _ hy with h | h
    · exact h
    · have := h.1.2; simp at this
  | done hs => right; rw [hs]

theorem prod_pause (f : D → D) (x : D) (pz : Bool) (s : Svc D) (h : PausePh f x pz s) : (∃ y, svcStep f s = some y ∧ svcCost y < svcCost s) ∨ s.outq = [.paused] := by
  cases h with
  | todo hs =>
    subst hs
    refine Or.inl ⟨⟨.busy none, [.pause], [], x, pz, false, false, false⟩, rfl, ?_⟩
    simp [svcCost, modeCost, cmdCost]
  | busy m hs =>
    subst hs
    refine Or.inl ⟨⟨.busy none, [.pause], [], f (f^[m] x), true, false, true, false⟩, rfl, ?_⟩
    simp [svcCost, modeCost, cmdCost]
  | seen m hs =>
    subst hs
    refine Or.inl ⟨⟨.idle, [.pause], [], f^[m + 1] x, true, false, false, false⟩, rfl, ?_⟩
    simp [svcCost, modeCost, cmdCost]
  | left m hs =>
    subst hs
    refine Or.inl ⟨⟨.idle, [], [.paused], f^[m + 1] x, true, false, false, false⟩, rfl, ?_⟩
    simp [svcCost, modeCost, cmdCost]
  | done m hs => right; rw [hs]

theorem prod_val (f : D → D) (pz : Bool) (x : D) (s : Svc D) (h : ValPh pz x s) : (∃ y, svcStep f s = some y ∧ svcCost y < svcCost s) ∨ s.outq = [.val x] := by
  cases h with
  | todo hs =>
    subst hs
    refine Or.inl ⟨⟨.idle, [], [.val x], x, pz, false, false, false⟩, rfl, ?_⟩
    simp [svcCost, modeCost, cmdCost]
  | done hs => right; rw [hs]

theorem prod_set (f : D → D) (pz : Bool) (x : D) (s : Svc D) (h : SetPh pz x s) : (∃ y, svcStep f s = some y ∧ svcCost y < svcCost s) ∨ s.outq = [.setComplete] := by
  cases h with
  | todo d hs =>
    subst hs
    refine Or.inl ⟨⟨.idle, [], [.setComplete], x, pz, false, false, false⟩, rfl, ?_⟩
    simp [svcCost, modeCost, cmdCost]
  | done hs => right; rw [hs]

theorem prod_stop (f : D → D) (s : Svc D) (h : StopPh s) : (∃ y, svcStep f s = some y ∧ svcCost y < svcCost s) ∨ s.outq = [.terminated] := by
  cases h with
  | todo d pz hs =>
    subst hs
    refine Or.inl ⟨⟨.busy none, [.stop], [], d, pz, false, false, false⟩, rfl, ?_⟩
    simp [svcCost, modeCost, cmdCost]
  | busy d pz hs =>
    subst hs
    refine Or.inl ⟨⟨.busy none, [.stop], [], f d, pz, true, false, true⟩, rfl, ?_⟩
    simp [svcCost, modeCost, cmdCost]
  | seen d pz hs =>
    subst hs
    refine Or.inl ⟨⟨.idle, [.stop], [], d, pz, true, false, false⟩, rfl, ?_⟩
    simp [svcCost, modeCost, cmdCost]
  | left d pz st hs =>
    subst hs
    refine Or.inl ⟨⟨.dead, [], [.terminated], d, pz, st, false, false⟩, rfl, ?_⟩
    simp [svcCost, modeCost, cmdCost]
  | done d pz st hs => right; rw [hs]

/-- As long as calls are left, somebody can do a step that matters. -/
theorem progress (S : Nat) (hS : 0 < S) (tick : Nat → D → D) (E : Going → Bool → Prop) (ok : List (Res D) → Prop) (s : St D) (hi : Inv S tick E ok s) (hn : ¬ (s.pc = .ready ∧ s.prog = [])) :
    ∃ k, k < S ∧ (Productive S tick s (.host k) ∨ Productive S tick s (.svc k)) := by
  obtain ⟨svc, prog, pc, r, st, log⟩ := s
  obtain ⟨F, hH, hF⟩ := hi
  dsimp only at hH hF hn
  have hready : pc = .ready → ∃ k, k < S ∧ (Productive S tick ⟨svc, prog, pc, r, st, log⟩ (.host k) ∨ Productive S tick ⟨svc, prog, pc, r, st, log⟩ (.svc k)) := by
    intro h
    subst h
    refine ⟨0, hS, Or.inl ?_⟩
    cases prog with
    | nil => exact absurd ⟨rfl, rfl⟩ hn
    | cons c p => rfl
  have hsvc : ∀ k, k < S → (∃ y, svcStep (tick k) (svc k) = some y ∧ svcCost y < svcCost (svc k)) →
      ∃ k, k < S ∧ (Productive S tick ⟨svc, prog, pc, r, st, log⟩ (.host k) ∨ Productive S tick ⟨svc, prog, pc, r, st, log⟩ (.svc k)) :=
    fun k hk h => ⟨k, hk, Or.inr ⟨hk, h⟩⟩
  cases hH with
  | idle => exact hready rfl
  | going => exact hready rfl
  | goingC => exact hready rfl
  | sendRun dv n b i =>
    refine ⟨0, hS, Or.inl ?_⟩
    simp only [Productive, hostStep]
    split
    · rfl
    · split <;> rfl
  | sendCont dv pz i =>
    refine ⟨0, hS, Or.inl ?_⟩
    simp only [Productive, hostStep]
    split <;> rfl
  | collect dv C _ _ hC hc hp ht =>
    have : ∃ k, k ∈ range S ∧ k ∉ C := by
      by_contra hcon
      push Not at hcon
      have := Finset.card_le_card (show range S ⊆ C from fun x hx => hcon x hx)
      rw [Finset.card_range] at this
      omega
    obtain ⟨k, hk, hkC⟩ := this
    have hk := Finset.mem_range.1 hk
    have h := hF k hk
    simp only [hkC, if_false] at h
    rcases prod_run _ _ _ h with h | h
    · exact hsvc k hk h
    · refine ⟨k, hk, Or.inl ?_⟩
      simp only [Productive, hostStep, h, hk, if_true]
      split <;> rfl
  | awaitVal dv pz i _ _ hi =>
    have h := hF i hi
    simp only [if_true] at h
    rcases prod_val (tick i) _ _ _ h with h | h
    · exact hsvc i hi h
    · exact ⟨0, hS, Or.inl (by simp [Productive, hostStep, h])⟩
  | awaitSet dv pz i _ _ hi =>
    have h := hF i hi
    simp only [if_true] at h
    rcases prod_set (tick i) _ _ _ h with h | h
    · exact hsvc i hi h
    · exact ⟨0, hS, Or.inl (by simp [Productive, hostStep, h])⟩
  | sendPause dv pz i =>
    refine ⟨0, hS, Or.inl ?_⟩
    simp only [Productive, hostStep]
    split <;> rfl
  | pauseRecv dv pz i _ _ hi =>
    by_cases hlt : i < S
    · have h := hF i hlt
      simp only [Nat.lt_irrefl, if_false] at h
      rcases prod_pause _ _ _ _ h with h | h
      · exact hsvc i hlt h
      · exact ⟨0, hS, Or.inl (by simp [Productive, hostStep, h, hlt])⟩
    · exact ⟨0, hS, Or.inl (by simp [Productive, hostStep, hlt])⟩
  | sendStop dv pz i =>
    refine ⟨0, hS, Or.inl ?_⟩
    simp only [Productive, hostStep]
    split <;> rfl
  | stopRecv i _ _ hi =>
    by_cases hlt : i < S
    · have h := hF i hlt
      simp only [Nat.lt_irrefl, if_false] at h
      rcases prod_stop (tick i) _ h with h | h
      · exact hsvc i hlt h
      · exact ⟨0, hS, Or.inl (by simp [Productive, hostStep, h, hlt])⟩
    · exact ⟨0, hS, Or.inl (by simp [Productive, hostStep, hlt])⟩
  | joining =>
    refine ⟨0, hS, Or.inl ?_⟩
    have : allDead S svc = true := by
      rw [allDead, List.all_eq_true]
      intro k hk
      obtain ⟨d, pz, st', hd⟩ := hF k (List.mem_range.1 hk)
      rw [hd]
      rfl
    simp [Productive, hostStep, this]
  | stopped => exact absurd ⟨rfl, rfl⟩ hn

theorem exec_append (S : Nat) (tick : Nat → D → D) : ∀ (a b : List Lbl) (s : St D), exec S tick s (a ++ b) = exec S tick (exec S tick s a) b
  | [], _, _ => rfl
  | _ :: a, b, _ => exec_append S tick a b _

theorem finished_stays (S : Nat) (tick : Nat → D → D) : ∀ (ls : List Lbl) (s : St D), s.pc = .ready → s.prog = [] →
    (exec S tick s ls).pc = .ready ∧ (exec S tick s ls).prog = []
  | [], _, h1, h2 => ⟨h1, h2⟩
  | l :: ls, s, h1, h2 => by
    rw [exec]
    cases hl : step S tick s l with
    | none => exact finished_stays S tick ls s h1 h2
    | some a =>
      cases l with
      | host j => simp [step, hostStep, h1, h2] at hl
      | svc i =>
        simp only [step] at hl
        split at hl
        · obtain ⟨y, _, rfl⟩ := Option.map_eq_some_iff.1 hl
          exact finished_stays S tick ls _ h1 h2
        · simp at hl

/-- **C89.** Every properly used runtime completes its program under every fair schedule, although services run without end: in a schedule of sufficiently many rounds,
in each of which the host (for every choice of `select`) and every service try to do a step, all calls return, with results the specification allows. -/
theorem C89_completes (S : Nat) (hS : 0 < S) (tick : Nat → D → D) (d : Nat → D) (p : List (Call D)) (hp : Proper S p) (rounds : List (List Lbl))
    (hr : ∀ rd ∈ rounds, ∀ k, k < S → Lbl.host k ∈ rd ∧ Lbl.svc k ∈ rd) (hlen : progCost S p ≤ rounds.length) :
    (exec S tick (init d p) rounds.flatten).prog = [] ∧ (exec S tick (init d p) rounds.flatten).pc = .ready ∧
    Ref S tick d .off false p (exec S tick (init d p) rounds.flatten).log := by
  have key : ∀ (rounds : List (List Lbl)) (s : St D), (∀ rd ∈ rounds, ∀ k, k < S → Lbl.host k ∈ rd ∧ Lbl.svc k ∈ rd) →
      Inv S tick (fun _ _ => True) (Ref S tick d .off false p) s → work S s ≤ rounds.length →
      (exec S tick s rounds.flatten).pc = .ready ∧ (exec S tick s rounds.flatten).prog = [] := by
    intro rounds
    induction rounds with
    | nil =>
      intro s _ hi hw
      by_contra hn
      obtain ⟨k, hk, h⟩ := progress S hS tick _ _ s hi hn
      have h0 : work S s = 0 := by simpa using hw
      rcases h with h | h
      · have := exec_productive S tick (.host k) [.host k] s (by simp) h; omega
      · have := exec_productive S tick (.svc k) [.svc k] s (by simp) h; omega
    | cons rd rounds ih =>
      intro s hr hi hw
      rw [List.flatten_cons, exec_append]
      by_cases hn : s.pc = .ready ∧ s.prog = []
      · have h1 := finished_stays S tick rd s hn.1 hn.2
        exact finished_stays S tick rounds.flatten _ h1.1 h1.2
      · obtain ⟨k, hk, h⟩ := progress S hS tick _ _ s hi hn
        have hlt : work S (exec S tick s rd) < work S s := by
          rcases h with h | h
          · exact exec_productive S tick _ rd s (hr rd (by simp) k hk).1 h
          · exact exec_productive S tick _ rd s (hr rd (by simp) k hk).2 h
        exact ih _ (fun x hx => hr x (by simp [hx])) (inv_exec S hS tick _ _ rd s hi) (by simp at hw; omega)
  have hfin := key rounds (init d p) hr (inv_init S tick d p hp) (by simpa [work, init, pcCost, svcCost, modeCost] using hlen)
  refine ⟨hfin.2, hfin.1, ?_⟩
  have h := inv_exec S hS tick _ _ rounds.flatten _ (inv_init S tick d p hp)
  generalize exec S tick (init d p) rounds.flatten = s at h hfin ⊢
  obtain ⟨svc, prog, pc, r, st, log⟩ := s
  obtain ⟨F, hH, hF⟩ := h
  dsimp only at hH hfin ⊢
  obtain ⟨rfl, rfl⟩ := hfin
  cases hH with
  | idle dv pz _ _ _ hp ht => simpa using ht [] (.nil dv .off st)
  | going dv _ _ hp ht => simpa using ht [] (.nil dv .steps true)
  | goingC dv pz _ _ hp ht => simpa using ht [] (.nil dv .cont true)
  | stopped _ ht => exact ht

end Verif.Pause
