import Verif.Events.Props
import Mathlib.Data.Nat.Find

/-!
# C90: every call returns

Under every fair schedule, if every run ends.
-/

namespace Verif.Events

variable {D : Type}

/-- The service alone comes to rest after `k` steps. -/
inductive Halts (tick : D → Option (D × Ev)) : Svc D → Nat → Prop where
  | rest (s) : svcStep tick s = none → Halts tick s 0
  | step (s y k) : svcStep tick s = some y → Halts tick y k → Halts tick s (k + 1)

/-- Every run ends: no process model blocks forever, and in a continuous run there is a request or exception at last. -/
def EveryRunEnds (tick : D → Option (D × Ev)) : Prop := ∀ n d, ∃ e, Ends tick n d e

theorem quietly_inv {tick : D → Option (D × Ev)} {k : Nat} {d d2 : D} (h : Quietly tick (k + 1) d d2) :
    ∃ d1, tick d = some (d1, ⟨false, false, 0⟩) ∧ Quietly tick k d1 d2 := by
  generalize hk : k + 1 = m at h
  induction h generalizing k with
  | zero => simp at hk
  | succ j d d1 d2 hq ht ih =>
    obtain rfl : k = j := by omega
    cases k with
    | zero => cases hq; exact ⟨d2, ht, .zero _⟩
    | succ i =>
      obtain ⟨a, h1, h2⟩ := ih rfl
      exact ⟨a, h1, .succ _ _ _ _ h2 ht⟩

/-- `k` quiet steps of the service. -/
theorem halts_quiet {tick : D → Option (D × Ev)} : ∀ (k : Nat) (left left' : Option Nat) (d d' : D), Quietly tick k d d' →
    (left' = none ∧ left = none ∨ ∃ m, left' = some m ∧ left = some (m + k)) → (∃ j, Halts tick ⟨.busy left', [], [], d', false, false, false, false, 0⟩ j) →
    ∃ j, Halts tick ⟨.busy left, [], [], d, false, false, false, false, 0⟩ j
  | 0, left, left', d, d', hq, hl, hh => by
    cases hq
    rcases hl with ⟨rfl, rfl⟩ | ⟨m, rfl, rfl⟩ <;> exact hh
  | k + 1, left, left', d, d', hq, hl, hh => by
    obtain ⟨d1, ht, hq⟩ := quietly_inv hq
    rcases hl with ⟨rfl, rfl⟩ | ⟨m, rfl, rfl⟩
    · obtain ⟨j, hj⟩ := halts_quiet k none none d1 d' hq (Or.inl ⟨rfl, rfl⟩) hh
      exact ⟨j + 1, .step _ _ _ (by simp [svcStep, ht, timeStep, probe]) hj⟩
    · obtain ⟨j, hj⟩ := halts_quiet k (some (m + k)) (some m) d1 d' hq (Or.inr ⟨m, rfl, rfl⟩) hh
      exact ⟨j + 1, .step _ _ _ (by rw [← Nat.add_assoc]; simp [svcStep, ht, timeStep, probe]) hj⟩

theorem halts_flag {tick : D → Option (D × Ev)} (left : Option Nat) (x : D) (rp rs : Bool) (h : rp = true ∨ rs = true) :
    ∃ j, Halts tick ⟨.busy left, [], [], x, false, false, rp, rs, 0⟩ j := by
  refine ⟨1, ?_⟩
  cases rp with
  | true => exact .step _ _ _ (by simp [svcStep]; rfl) (.rest _ (by simp [svcStep]))
  | false =>
    obtain rfl : rs = true := by simpa using h
    exact .step _ _ _ (by simp [svcStep]; rfl) (.rest _ (by simp [svcStep]))

theorem halts_busy {tick : D → Option (D × Ev)} (left : Option Nat) (x : D) (hE : ∃ e, Ends tick left x e) (rp rs : Bool) :
    ∃ j, Halts tick ⟨.busy left, [], [], x, false, false, rp, rs, 0⟩ j := by
  by_cases h : rp = true ∨ rs = true
  · exact halts_flag left x rp rs h
  · obtain ⟨rfl, rfl⟩ : rp = false ∧ rs = false := by simpa using h
    have key : ∀ (k : Nat) (d1 d2 : D) (e : Ev), (∀ m, left = some m → k < m) → Quietly tick k x d1 → tick d1 = some (d2, e) →
        (e.errs ≠ 0 ∨ e.pause = true ∨ e.stop = true) → ∃ j, Halts tick ⟨.busy left, [], [], x, false, false, false, false, 0⟩ j := by
      intro k d1 d2 e hk hq ht he
      have last : ∀ left' left'' : Option Nat, (left' = none ∧ left'' = none ∨ ∃ m, left' = some (m + 1) ∧ left'' = some m) →
          ∃ j, Halts tick ⟨.busy left', [], [], d1, false, false, false, false, 0⟩ j := by
        intro left' left'' hl
        have h1 : svcStep tick (⟨.busy left', [], [], d1, false, false, false, false, 0⟩ : Svc D) =
            some (timeStep ⟨.busy left', [], [], d1, false, false, false, false, 0⟩ left'' (d2, e)) := by
          rcases hl with ⟨rfl, rfl⟩ | ⟨m, rfl, rfl⟩ <;> simp [svcStep, ht]
        by_cases h0 : e.errs = 0
        · obtain ⟨j, hj⟩ := halts_flag (tick := tick) left'' d2 e.pause e.stop (by simpa [h0] using he)
          refine ⟨j + 1, .step _ _ _ h1 ?_⟩
          have : timeStep (⟨.busy left', [], [], d1, false, false, false, false, 0⟩ : Svc D) left'' (d2, e) = ⟨.busy left'', [], [], d2, false, false, e.pause, e.stop, 0⟩ := by
            simp [timeStep, h0, probe]
          rw [this]
          exact hj
        · refine ⟨1, .step _ _ _ h1 (.rest _ ?_)⟩
          simp [timeStep, h0, svcStep]
      cases left with
      | none => exact halts_quiet k none none x d1 hq (Or.inl ⟨rfl, rfl⟩) (last none none (Or.inl ⟨rfl, rfl⟩))
      | some m =>
        have := hk m rfl
        obtain ⟨i, rfl⟩ : ∃ i, m = (i + 1) + k := ⟨m - k - 1, by omega⟩
        exact halts_quiet k _ (some (i + 1)) x d1 hq (Or.inr ⟨_, rfl, rfl⟩) (last (some (i + 1)) (some i) (Or.inr ⟨i, rfl, rfl⟩))
    obtain ⟨e, he⟩ := hE
    cases he with
    | done m d' hm hq =>
      subst hm
      refine halts_quiet m _ (some 0) x d' hq (Or.inr ⟨0, rfl, by simp⟩) ⟨1, .step _ _ _ (by simp [svcStep, probe]; rfl) (.rest _ (by simp [svcStep]))⟩
    | paused k d1 d2 e hk hq ht h0 h1 => exact key k d1 d2 e hk hq ht (Or.inr (Or.inl h1))
    | stopped k d1 d2 e hk hq ht h0 h1 h2 => exact key k d1 d2 e hk hq ht (Or.inr (Or.inr h2))
    | raised k d1 d2 e hk hq ht h0 => exact key k d1 d2 e hk hq ht (Or.inl h0)

theorem halts_run {tick : D → Option (D × Ev)} (hE : EveryRunEnds tick) {n : Option Nat} {d : D} {ps : Bool} {s : Svc D} (h : RunPh tick n d ps s) :
    ∃ j, Halts tick s j := by
  cases h with
  | todo h =>
    subst h
    obtain ⟨j, hj⟩ := halts_busy n d (hE n d) false ps
    exact ⟨j + 1, .step _ _ _ (by simp [svcStep]) hj⟩
  | busy left x rp rs h hf => subst h; exact halts_busy left x (hE left x) rp rs
  | done x h hf => subst h; exact ⟨0, .rest _ (by simp [svcStep])⟩
  | pause x rs last h hf hl => subst h; exact ⟨0, .rest _ (by simp [svcStep])⟩
  | stop x last h hf hl => subst h; exact ⟨0, .rest _ (by simp [svcStep])⟩
  | raised x c rp rs h hf => subst h; exact ⟨0, .rest _ (by simp [svcStep])⟩

theorem halts_pause {tick : D → Option (D × Ev)} {x : D} {rs : Bool} {X : List (Rsp D)} {s : Svc D} (h : PausePh x rs X s) : ∃ j, Halts tick s j := by
  cases h with
  | todo h => subst h; exact ⟨1, .step _ _ _ (by simp [svcStep]; rfl) (.rest _ (by simp [svcStep]))⟩
  | done h => subst h; exact ⟨0, .rest _ (by simp [svcStep])⟩

theorem halts_stop {tick : D → Option (D × Ev)} {X : List (Rsp D)} {s : Svc D} (h : StopPh X s) : ∃ j, Halts tick s j := by
  cases h with
  | todo x rs h => subst h; exact ⟨1, .step _ _ _ (by simp [svcStep]; rfl) (.rest _ (by simp [svcStep]))⟩
  | done x rs h => subst h; exact ⟨0, .rest _ (by simp [svcStep])⟩

theorem halts_gone {tick : D → Option (D × Ev)} {s : Svc D} (h : Gone s) : ∃ j, Halts tick s j := ⟨0, .rest _ (dead_step tick s h.1)⟩
theorem halts_rest {tick : D → Option (D × Ev)} {d : D} {ps : Bool} {s : Svc D} (h : Quiet d ps s) : ∃ j, Halts tick s j := ⟨0, .rest _ (quiet_step tick _ _ s h)⟩

theorem halts_inv {tick : D → Option (D × Ev)} (hE : EveryRunEnds tick) {G : List (Res D) → Prop} {s : St D} (h : Inv tick G s) (hnf : s.pc ≠ .failed) :
    ∃ j, Halts tick (s.svc 0) j := by
  obtain ⟨svc, prog, pc, r, st, log⟩ := s
  simp only [Inv] at h hnf ⊢
  generalize svc 0 = x at h
  cases h with
  | idle d ps _ _ _ _ hp ht hq => exact halts_rest hq
  | going n d ps _ _ _ hp ht hq => exact halts_run hE hq
  | over _ _ _ g _ hp ht hq => exact halts_gone hq
  | broken _ _ _ g _ hp ht hq => exact halts_gone hq
  | send n d ps _ _ _ hp ht hq => exact halts_rest hq
  | sent n d ps _ _ _ hp ht hq => exact halts_run hE hq
  | collect n d ps _ _ _ hp ht hq => exact halts_run hE hq
  | sendN n d ps _ _ _ hp hg ht hq => exact halts_rest hq
  | sentN n d ps _ _ _ hp hg ht hq => exact halts_run hE hq
  | sendG n i _ _ _ _ hg hq => exact halts_gone hq
  | sendGN n i _ _ _ _ hp hg ht hq => exact halts_gone hq
  | collectG _ _ _ _ hg hq => exact halts_gone hq
  | pauseG i _ _ _ _ hg hq => exact halts_gone hq
  | pauseRG _ _ _ _ hg hq => exact halts_gone hq
  | stopG i _ _ _ _ hg hq => exact halts_gone hq
  | stopRG _ _ _ _ hg hq => exact halts_gone hq
  | pause0 x rs last _ _ _ hp ht hq => subst hq; exact ⟨0, .rest _ (by simp [svcStep])⟩
  | pause1 x rs last _ _ _ hp ht hq => exact halts_pause hq
  | pauseR x rs last _ _ _ hp ht hq => exact halts_pause hq
  | pauseP x rs _ _ _ hp ht hq => exact halts_pause hq
  | pauseD x rs last _ _ _ hp ht hq => exact halts_rest hq
  | stop0 x rs last _ _ _ _ hp ht hq => subst hq; exact ⟨0, .rest _ (by simp [svcStep])⟩
  | stop1 last _ _ _ _ hp ht hq => exact halts_stop hq
  | stopR last _ _ _ _ hp ht hq => exact halts_stop hq
  | stopP _ _ _ _ hp ht hq => exact halts_stop hq
  | stopD _ _ _ _ hp ht hq => exact halts_gone hq
  | join _ _ _ _ _ g hp ht hq => exact halts_gone hq
  | joinNever d ps _ _ _ _ _ _ hg hq => exact halts_rest hq
  | joinErr c _ _ _ hp hg ht hq hc => exact halts_gone hq
  | val x ps _ _ _ hp hg ht hq =>
    cases hq with
    | todo h => subst h; exact ⟨1, .step _ _ _ (by simp [svcStep]; rfl) (.rest _ (by simp [svcStep]))⟩
    | done h => subst h; exact ⟨0, .rest _ (by simp [svcStep])⟩
  | set x ps _ _ _ hp hg ht hq =>
    cases hq with
    | todo d h => subst h; exact ⟨1, .step _ _ _ (by simp [svcStep]; rfl) (.rest _ (by simp [svcStep]))⟩
    | done h => subst h; exact ⟨0, .rest _ (by simp [svcStep])⟩
  | failed _ _ _ l _ hg => exact absurd rfl hnf

/-- Nothing more will happen for the user: all calls returned, or the model ended with a RuntimeError for an unexpected response, or the network was stopped or failed, or it
is being stopped without ever having run. -/
def Over (s : St D) : Prop := (s.pc = .ready ∧ s.prog = []) ∨ s.pc = .failed ∨ Ended s.log ∨ (s.pc = .joining ∧ s.started = false)

theorem busy_moves {tick : D → Option (D × Ev)} (left : Option Nat) (x : D) (hE : ∃ e, Ends tick left x e) (rp rs : Bool) :
    svcStep tick ⟨.busy left, [], [], x, false, false, rp, rs, 0⟩ ≠ none := by
  cases rp with
  | true => simp [svcStep]
  | false =>
    cases rs with
    | true => simp [svcStep]
    | false =>
      have ht : left ≠ some 0 → tick x ≠ none := by
        intro h0
        obtain ⟨e, he⟩ := hE
        have key : ∀ k d1 d2 (e : Ev), Quietly tick k x d1 → tick d1 = some (d2, e) → tick x ≠ none := by
          intro k d1 d2 e hq ht
          cases k with
          | zero => cases hq; simp [ht]
          | succ k => obtain ⟨y, hy, _⟩ := quietly_inv hq; simp [hy]
        cases he with
        | done m d' hm hq =>
          cases m with
          | zero => exact absurd hm h0
          | succ m => obtain ⟨y, hy, _⟩ := quietly_inv hq; simp [hy]
        | paused k d1 d2 e hk hq ht _ _ => exact key k d1 d2 e hq ht
        | stopped k d1 d2 e hk hq ht _ _ _ => exact key k d1 d2 e hq ht
        | raised k d1 d2 e hk hq ht _ => exact key k d1 d2 e hq ht
      cases left with
      | none =>
        have := ht (by simp)
        simpa [svcStep] using this
      | some k =>
        cases k with
        | zero => simp [svcStep]
        | succ k =>
          have := ht (by simp)
          simpa [svcStep] using this

/-- If neither the service nor the host can do anything, it is over. -/
theorem rest_over {tick : D → Option (D × Ev)} (hE : EveryRunEnds tick) {G : List (Res D) → Prop} {s : St D} (h : Inv tick G s) (h1 : svcStep tick (s.svc 0) = none)
    (h2 : hostStep 1 s 0 = none) : Over s := by
  obtain ⟨svc, prog, pc, r, st, log⟩ := s
  simp only [Inv] at h h1
  generalize hx : svc 0 = x at h h1
  have hready : ∀ {r st : Bool}, hostStep 1 (⟨svc, prog, .ready, r, st, log⟩ : St D) 0 = none → prog = [] := by
    intro r st h
    cases prog with
    | nil => rfl
    | cons c p => simp [hostStep] at h
  cases h with
  | idle d ps _ _ _ _ hp ht hq => exact Or.inl ⟨rfl, hready h2⟩
  | going n d ps _ _ _ hp ht hq => exact Or.inl ⟨rfl, hready h2⟩
  | over _ _ _ g hEn hp ht hq => exact Or.inl ⟨rfl, hready h2⟩
  | broken _ _ _ g hEn hp ht hq => exact Or.inl ⟨rfl, hready h2⟩
  | send n d ps _ _ _ hp ht hq => simp [hostStep] at h2
  | sent n d ps _ _ _ hp ht hq => simp [hostStep] at h2
  | collect n d ps _ _ _ hp ht hq =>
    simp only [hostStep, Nat.zero_lt_one, if_true, hx] at h2
    cases hq with
    | todo h => subst h; simp [svcStep] at h1
    | busy left y rp rs h hf => subst h; exact absurd h1 (busy_moves left y (hE left y) rp rs)
    | done x h hf => subst h; simp at h2
    | pause x rs last h hf hl => subst h; simp at h2
    | stop x last h hf hl => subst h; simp at h2
    | raised x c rp rs h hf => subst h; simp at h2
  | sendN n d ps _ _ _ hp hg ht hq => simp [hostStep] at h2
  | sentN n d ps _ _ _ hp hg ht hq => simp [hostStep] at h2
  | sendG n i _ _ _ hEn hg hq => exact Or.inr (Or.inr (Or.inl hEn))
  | sendGN n i _ _ _ hEn hp hg ht hq => exact Or.inr (Or.inr (Or.inl hEn))
  | collectG _ _ _ hEn hg hq => exact Or.inr (Or.inr (Or.inl hEn))
  | pauseG i _ _ _ hEn hg hq => exact Or.inr (Or.inr (Or.inl hEn))
  | pauseRG _ _ _ hEn hg hq => exact Or.inr (Or.inr (Or.inl hEn))
  | stopG i _ _ _ hEn hg hq => exact Or.inr (Or.inr (Or.inl hEn))
  | stopRG _ _ _ hEn hg hq => exact Or.inr (Or.inr (Or.inl hEn))
  | pause0 x rs last _ _ _ hp ht hq => simp [hostStep] at h2
  | pause1 x rs last _ _ _ hp ht hq => simp [hostStep] at h2
  | pauseR x rs last _ _ _ hp ht hq =>
    simp only [hostStep, Nat.zero_lt_one, if_true, hx] at h2
    cases hq with
    | todo h => subst h; simp [svcStep] at h1
    | done h => subst h; cases last <;> simp [extra] at h2
  | pauseP x rs _ _ _ hp ht hq =>
    simp only [hostStep, hx] at h2
    cases hq with
    | todo h => subst h; simp [svcStep] at h1
    | done h => subst h; simp at h2
  | pauseD x rs last _ _ _ hp ht hq => simp [hostStep] at h2
  | stop0 x rs last _ _ _ _ hp ht hq => simp [hostStep] at h2
  | stop1 last _ _ _ _ hp ht hq => simp [hostStep] at h2
  | stopR last _ _ _ _ hp ht hq =>
    simp only [hostStep, Nat.zero_lt_one, if_true, hx] at h2
    cases hq with
    | todo x rs h => subst h; simp [svcStep] at h1
    | done x rs h => subst h; cases last <;> simp [extra] at h2
  | stopP _ _ _ _ hp ht hq =>
    simp only [hostStep, hx] at h2
    cases hq with
    | todo x rs h => subst h; simp [svcStep] at h1
    | done x rs h => subst h; simp at h2
  | stopD _ _ _ _ hp ht hq => simp [hostStep] at h2
  | join _ _ _ _ _ g hp ht hq =>
    have : allDead 1 svc = true := by simp [allDead, hx, hq.1]
    simp [hostStep, this] at h2
  | joinNever d ps _ _ _ _ _ hns hg hq => exact Or.inr (Or.inr (Or.inr ⟨rfl, hns⟩))
  | joinErr c _ _ _ hp hg ht hq hc =>
    have : allDead 1 svc = true := by simp [allDead, hx, hq.1]
    simp [hostStep, this] at h2
  | val x ps _ _ _ hp hg ht hq =>
    simp only [hostStep, hx] at h2
    cases hq with
    | todo h => subst h; simp [svcStep] at h1
    | done h => subst h; simp at h2
  | set x ps _ _ _ hp hg ht hq =>
    simp only [hostStep, hx] at h2
    cases hq with
    | todo d h => subst h; simp [svcStep] at h1
    | done h => subst h; simp at h2
  | failed _ _ _ l _ hg => exact Or.inr (Or.inl rfl)

/-! ## The host takes finitely many steps -/

/-- Bound for the number of host steps in the call in progress. -/
def pcCost (S : Nat) : Pc → Nat
  | .ready => 0
  | .failed => 0
  | .joining => 1
  | .joinErr => 1
  | .awaitVal _ => 1
  | .awaitSet _ => 1
  | .stopRecv i => 3 * (S - i) + 2
  | .stopProbe i => 3 * (S - (i + 1)) + 3
  | .sendStop i => (S - i) + 3 * S + 3
  | .pauseJoin => 4 * S + 4
  | .pauseRecv i => 4 * S + 5 + 3 * (S - i)
  | .pauseProbe i => 4 * S + 6 + 3 * (S - (i + 1))
  | .sendPause i => 7 * S + 6 + (S - i)
  | .collect got => 8 * S + 7 + (S - got)
  | .sendRun _ _ i => 9 * S + 8 + (S - i)

def hostCost (S : Nat) (s : St D) : Nat := pcCost S s.pc + (10 * S + 9) * s.prog.length

theorem call_cost (S : Nat) (s : St D) (c : Call D) : pcCost S (call c s).pc ≤ 10 * S + 8 ∧ (call c s).prog = s.prog := by
  cases c <;> simp only [call] <;> repeat' split
  all_goals exact ⟨by simp only [pcCost, St.ret]; omega, by first | rfl | trivial⟩

theorem host_cost (S : Nat) (s a : St D) (j : Nat) (hc : ∀ g, s.pc = .collect g → g < S) (h : hostStep S s j = some a) : hostCost S a < hostCost S s := by
  obtain ⟨svc, prog, pc, r, st, log⟩ := s
  have key : a.prog = prog → pcCost S a.pc < pcCost S pc → hostCost S a < hostCost S (⟨svc, prog, pc, r, st, log⟩ : St D) := by
    intro h1 h2
    simp only [hostCost, h1]
    omega
  cases pc with
  | ready =>
    cases prog with
    | nil => simp [hostStep] at h
    | cons c p =>
      simp only [hostStep, Option.some.injEq] at h
      subst h
      obtain ⟨h1, h2⟩ := call_cost S (⟨svc, p, .ready, r, st, log⟩ : St D) c
      have h0 : pcCost S .ready = 0 := rfl
      simp only [hostCost, h2, h0, List.length_cons, Nat.mul_add]
      omega
  | sendRun n b i =>
    simp only [hostStep] at h
    split at h
    · simp only [Option.some.injEq] at h; subst h; exact key rfl (by simp only [pcCost]; omega)
    · split at h <;> (simp only [Option.some.injEq] at h; subst h; exact key rfl (by simp only [pcCost, St.ret]; omega))
  | collect got =>
    have hg := hc got rfl
    simp only [hostStep] at h
    split at h
    · cases ho : (svc j).outq with
      | nil => rw [ho] at h; simp at h
      | cons x q =>
        rw [ho] at h
        cases x <;> simp only [Option.some.injEq] at h
        · split at h <;> (simp only [Option.some.injEq] at h; subst h; exact key rfl (by simp only [pcCost, St.ret]; omega))
        all_goals subst h; exact key rfl (by simp only [pcCost, St.fail]; omega)
    · simp at h
  | joinErr =>
    simp only [hostStep] at h
    split at h
    · simp only [Option.some.injEq] at h; subst h; exact key rfl (by simp only [pcCost, St.ret]; omega)
    · simp at h
  | awaitVal i =>
    simp only [hostStep] at h
    cases ho : (svc i).outq with
    | nil => rw [ho] at h; simp at h
    | cons x q =>
      rw [ho] at h
      cases x <;> simp only [Option.some.injEq] at h <;> subst h <;> exact key rfl (by simp only [pcCost, St.ret]; omega)
  | awaitSet i =>
    simp only [hostStep] at h
    cases ho : (svc i).outq with
    | nil => rw [ho] at h; simp at h
    | cons x q =>
      rw [ho] at h
      cases x <;> simp only [Option.some.injEq] at h <;> subst h <;> exact key rfl (by simp only [pcCost, St.ret, St.fail]; omega)
  | sendPause i =>
    simp only [hostStep] at h
    split at h <;> (simp only [Option.some.injEq] at h; subst h; exact key rfl (by simp only [pcCost]; omega))
  | pauseRecv i =>
    simp only [hostStep] at h
    split at h
    · cases ho : (svc i).outq with
      | nil => rw [ho] at h; simp at h
      | cons x q =>
        rw [ho] at h
        cases x <;> simp only [Option.some.injEq] at h <;> subst h <;> exact key rfl (by simp only [pcCost]; omega)
    · simp only [Option.some.injEq] at h; subst h; exact key rfl (by simp only [pcCost, St.ret]; omega)
  | pauseProbe i =>
    simp only [hostStep] at h
    cases ho : (svc i).outq with
    | nil => rw [ho] at h; simp only [Option.some.injEq] at h; subst h; exact key rfl (by simp only [pcCost, St.fail]; omega)
    | cons x q =>
      rw [ho] at h
      cases x <;> simp only [Option.some.injEq] at h <;> subst h <;> exact key rfl (by simp only [pcCost, St.fail]; omega)
  | pauseJoin =>
    simp only [hostStep] at h
    split at h
    · simp only [Option.some.injEq] at h; subst h; exact key rfl (by simp only [pcCost]; omega)
    · simp at h
  | sendStop i =>
    simp only [hostStep] at h
    split at h <;> (simp only [Option.some.injEq] at h; subst h; exact key rfl (by simp only [pcCost]; omega))
  | stopRecv i =>
    simp only [hostStep] at h
    split at h
    · cases ho : (svc i).outq with
      | nil => rw [ho] at h; simp at h
      | cons x q =>
        rw [ho] at h
        cases x <;> simp only [Option.some.injEq] at h <;> subst h <;> exact key rfl (by simp only [pcCost]; omega)
    · simp only [Option.some.injEq] at h; subst h; exact key rfl (by simp only [pcCost]; omega)
  | stopProbe i =>
    simp only [hostStep] at h
    cases ho : (svc i).outq with
    | nil => rw [ho] at h; simp only [Option.some.injEq] at h; subst h; exact key rfl (by simp only [pcCost, St.fail]; omega)
    | cons x q =>
      rw [ho] at h
      cases x <;> simp only [Option.some.injEq] at h <;> subst h <;> exact key rfl (by simp only [pcCost, St.fail]; omega)
  | joining =>
    simp only [hostStep] at h
    split at h
    · simp only [Option.some.injEq] at h; subst h; exact key rfl (by simp only [pcCost, St.ret]; omega)
    · simp at h
  | failed => simp [hostStep] at h

/-! ## Fair schedules -/

/-- State after the first `t` entries of a schedule. -/
def runTo (S : Nat) (tick : Nat → D → Option (D × Ev)) (s : St D) (sched : Nat → Lbl) : Nat → St D
  | 0 => s
  | t + 1 => (step S tick (runTo S tick s sched t) (sched t)).getD (runTo S tick s sched t)

/-- The host, with every choice of `select`, and every service are scheduled again and again. -/
def Fair (S : Nat) (sched : Nat → Lbl) : Prop := ∀ t i, i < S → (∃ u, t ≤ u ∧ sched u = .host i) ∧ ∃ u, t ≤ u ∧ sched u = .svc i

theorem runTo_exec (S : Nat) (tick : Nat → D → Option (D × Ev)) (s : St D) (sched : Nat → Lbl) : ∀ t, runTo S tick s sched t = exec S tick s ((List.range t).map sched)
  | 0 => rfl
  | t + 1 => by
    have happ : ∀ (ls : List Lbl) (l : Lbl) (s : St D), exec S tick s (ls ++ [l]) = (step S tick (exec S tick s ls) l).getD (exec S tick s ls) := by
      intro ls
      induction ls with
      | nil => intro l s; rfl
      | cons x ls ih => intro l s; simp only [List.cons_append, exec, ih]
    rw [runTo, runTo_exec S tick s sched t, List.range_succ, List.map_append, List.map_singleton, happ]

/-- What one entry of a schedule can do. -/
theorem step_cases (S : Nat) (tick : Nat → D → Option (D × Ev)) (s : St D) (l : Lbl) : (step S tick s l).getD s = s ∨
    (∃ j a, l = .host j ∧ hostStep S s j = some a ∧ (step S tick s l).getD s = a) ∨
    ∃ i y, i < S ∧ l = .svc i ∧ svcStep (tick i) (s.svc i) = some y ∧ (step S tick s l).getD s = { s with svc := upd s.svc i y } := by
  cases l with
  | host j =>
    cases h : hostStep S s j with
    | none => left; simp [step, h]
    | some a => right; left; exact ⟨j, a, rfl, h, by simp [step, h]⟩
  | svc i =>
    by_cases hi : i < S
    · cases h : svcStep (tick i) (s.svc i) with
      | none => left; simp [step, h]
      | some y => right; right; exact ⟨i, y, hi, rfl, h, by simp [step, h, hi]⟩
    · left; simp [step, hi]

/-- Under a fair schedule, if every service alone comes to rest, everything comes to rest. -/
theorem eventually_rest (S : Nat) (tick : Nat → D → Option (D × Ev)) (s0 : St D) (sched : Nat → Lbl) (hf : Fair S sched)
    (hc : ∀ t g, (runTo S tick s0 sched t).pc = .collect g → g < S)
    (hh : ∀ t, (runTo S tick s0 sched t).pc ≠ .failed → ∀ i, i < S → ∃ k, Halts (tick i) ((runTo S tick s0 sched t).svc i) k) :
    ∃ T, (∀ t, T ≤ t → (runTo S tick s0 sched t).pc = .failed) ∨ ((∀ t, T ≤ t → runTo S tick s0 sched t = runTo S tick s0 sched T) ∧
      ∀ i, i < S → svcStep (tick i) ((runTo S tick s0 sched T).svc i) = none ∧ hostStep S (runTo S tick s0 sched T) i = none) := by
  generalize hst : runTo S tick s0 sched = st at *
  have hstep : ∀ t, st (t + 1) = (step S tick (st t) (sched t)).getD (st t) := fun t => by rw [← hst]; rfl
  -- the host comes to rest
  have hmono : ∀ t, hostCost S (st (t + 1)) ≤ hostCost S (st t) := by
    intro t
    rw [hstep]
    rcases step_cases S tick (st t) (sched t) with h | ⟨j, a, _, h1, h2⟩ | ⟨i, y, _, _, _, h2⟩
    · rw [h]
    · rw [h2]; exact Nat.le_of_lt (host_cost S _ _ j (hc t) h1)
    · rw [h2]; exact Nat.le_refl _
  have hmono' : ∀ t n, hostCost S (st (t + n)) ≤ hostCost S (st t) := by
    intro t n
    induction n with
    | zero => exact Nat.le_refl _
    | succ n ih => exact Nat.le_trans (hmono _) ih
  obtain ⟨T0, hT0⟩ : ∃ T0, ∀ t, hostCost S (st T0) ≤ hostCost S (st t) := by
    have hex : ∃ c, ∃ t, hostCost S (st t) = c := ⟨_, 0, rfl⟩
    classical
    obtain ⟨t, ht⟩ := Nat.find_spec hex
    exact ⟨t, fun u => by rw [ht]; exact Nat.find_min' hex ⟨u, rfl⟩⟩
  have hno : ∀ t, T0 ≤ t → st (t + 1) = st t ∨
      ∃ i y, i < S ∧ sched t = .svc i ∧ svcStep (tick i) ((st t).svc i) = some y ∧ st (t + 1) = { st t with svc := upd (st t).svc i y } := by
    intro t ht
    rcases step_cases S tick (st t) (sched t) with h | ⟨j, a, _, h1, h2⟩ | ⟨i, y, hi, hl, h1, h2⟩
    · left; rw [hstep, h]
    · exfalso
      have h3 := host_cost S _ _ j (hc t) h1
      have h4 := hT0 (t + 1)
      have h5 := hmono' T0 (t - T0)
      rw [hstep, h2] at h4
      rw [show T0 + (t - T0) = t by omega] at h5
      omega
    · right; exact ⟨i, y, hi, hl, h1, by rw [hstep, h2]⟩
  -- a failed host stays so
  have hpc : ∀ n, (st (T0 + n)).pc = (st T0).pc := by
    intro n
    induction n with
    | zero => rfl
    | succ n ih =>
      rw [← Nat.add_assoc]
      rcases hno (T0 + n) (by omega) with h | ⟨i, y, _, _, _, h⟩
      · rw [h]; exact ih
      · rw [h]; exact ih
  by_cases hfl : (st T0).pc = .failed
  · refine ⟨T0, Or.inl fun t ht => ?_⟩
    have := hpc (t - T0)
    rw [show T0 + (t - T0) = t by omega] at this
    rw [this, hfl]
  -- a service comes to rest
  have hwait : ∀ i k T, T0 ≤ T → Halts (tick i) ((st T).svc i) (k + 1) →
      ∀ n, (st (T + n)).svc i = (st T).svc i ∨ ∃ T', T ≤ T' ∧ Halts (tick i) ((st T').svc i) k := by
    intro i k T hT hk n
    induction n with
    | zero => exact Or.inl rfl
    | succ n ih =>
      rcases ih with ih | ih
      · rcases hno (T + n) (by omega) with h | ⟨i', y, _, _, h1, h⟩
        · left; rw [← Nat.add_assoc, h, ih]
        · by_cases he : i' = i
          · subst he
            right
            refine ⟨T + n + 1, by omega, ?_⟩
            rw [h]
            simp only [upd_self]
            rw [ih] at h1
            cases hk with
            | step _ z _ hz hk =>
              rw [hz] at h1
              simp only [Option.some.injEq] at h1
              rwa [← h1]
          · left
            rw [← Nat.add_assoc, h]
            simp only [upd_ne _ (Ne.symm he)]
            exact ih
      · exact Or.inr ih
  have hrest : ∀ i, i < S → ∀ k T, T0 ≤ T → Halts (tick i) ((st T).svc i) k → ∃ T', T ≤ T' ∧ svcStep (tick i) ((st T').svc i) = none := by
    intro i hi k
    induction k with
    | zero => intro T hT hk; cases hk with | rest _ h => exact ⟨T, Nat.le_refl _, h⟩
    | succ k ih =>
      intro T hT hk
      obtain ⟨u, hu, hs⟩ := (hf T i hi).2
      rcases hwait i k T hT hk (u - T) with h | ⟨T', h1, h2⟩
      · rw [show T + (u - T) = u by omega] at h
        cases hk with
        | step _ z _ hz hk =>
          have h3 := hstep u
          rw [hs] at h3
          simp only [step, hi, if_true, h, hz, Option.map_some, Option.getD_some] at h3
          obtain ⟨T'', h4, h5⟩ := ih (u + 1) (by omega) (by rw [h3]; simpa using hk)
          exact ⟨T'', by omega, h5⟩
      · obtain ⟨T'', h3, h4⟩ := ih T' (by omega) h2
        exact ⟨T'', by omega, h4⟩
  -- and stays there
  have hstay : ∀ i T, T0 ≤ T → svcStep (tick i) ((st T).svc i) = none → ∀ n, (st (T + n)).svc i = (st T).svc i := by
    intro i T hT hn n
    induction n with
    | zero => rfl
    | succ n ih =>
      rcases hno (T + n) (by omega) with h | ⟨i', y, _, _, h1, h⟩
      · rw [← Nat.add_assoc, h, ih]
      · by_cases he : i' = i
        · subst he; rw [ih, hn] at h1; simp at h1
        · rw [← Nat.add_assoc, h]
          simp only [upd_ne _ (Ne.symm he)]
          exact ih
  obtain ⟨T1, hT1, hs1⟩ : ∃ T1, T0 ≤ T1 ∧ ∀ i, i < S → svcStep (tick i) ((st T1).svc i) = none := by
    have : ∀ m, m ≤ S → ∃ T1, T0 ≤ T1 ∧ ∀ i, i < m → svcStep (tick i) ((st T1).svc i) = none := by
      intro m
      induction m with
      | zero => intro _; exact ⟨T0, Nat.le_refl _, by omega⟩
      | succ m ih =>
        intro hm
        obtain ⟨T1, h1, h2⟩ := ih (by omega)
        have hnf : (st T1).pc ≠ .failed := by
          have := hpc (T1 - T0)
          rw [show T0 + (T1 - T0) = T1 by omega] at this
          rw [this]; exact hfl
        obtain ⟨k, hk⟩ := hh T1 hnf m (by omega)
        obtain ⟨T2, h3, h4⟩ := hrest m (by omega) k T1 h1 hk
        refine ⟨T2, by omega, fun i hi => ?_⟩
        by_cases he : i = m
        · subst he; exact h4
        · have h5 := hstay i T1 h1 (h2 i (by omega)) (T2 - T1)
          rw [show T1 + (T2 - T1) = T2 by omega] at h5
          rw [h5]
          exact h2 i (by omega)
    exact this S (Nat.le_refl _)
  have hconst : ∀ n, st (T1 + n) = st T1 := by
    intro n
    induction n with
    | zero => rfl
    | succ n ih =>
      rcases hno (T1 + n) (by omega) with h | ⟨i, y, hi, _, h, _⟩
      · rw [← Nat.add_assoc, h, ih]
      · rw [ih, hs1 i hi] at h; simp at h
  have hconst' : ∀ t, T1 ≤ t → st t = st T1 := by
    intro t ht
    have := hconst (t - T1)
    rwa [show T1 + (t - T1) = t by omega] at this
  refine ⟨T1, Or.inr ⟨hconst', fun i hi => ⟨hs1 i hi, ?_⟩⟩⟩
  obtain ⟨u, hu, hs⟩ := (hf T1 i hi).1
  cases hh' : hostStep S (st T1) i with
  | none => rfl
  | some a =>
    exfalso
    have h3 := host_cost S _ _ i (hc T1) hh'
    have h4 := hstep u
    rw [hs, hconst' u hu] at h4
    simp only [step, hh', Option.getD_some] at h4
    rw [← h4, hconst' (u + 1) (by omega)] at h3
    omega

theorem inv_collect {tick : D → Option (D × Ev)} {G : List (Res D) → Prop} {s : St D} (h : Inv tick G s) : ∀ g, s.pc = .collect g → g < 1 := by
  obtain ⟨svc, prog, pc, r, st, log⟩ := s
  simp only [Inv] at h ⊢
  generalize svc 0 = x at h
  cases h <;> simp

/-- **C90, completion.** If every run ends, then under every fair schedule there is a time after which all calls have returned, or a call failed with an unexpected response,
or the user was told that the network was stopped or that exceptions occurred, or the user stopped a network that never ran. -/
theorem C90_completes (tick : Nat → D → Option (D × Ev)) (hE : EveryRunEnds (tick 0)) (d : Nat → D) (p : List (Call D)) (hp : Proper false p) (sched : Nat → Lbl)
    (hf : Fair 1 sched) : ∃ T, ∀ t, T ≤ t → Over (runTo 1 tick (init d p) sched t) := by
  have hI : ∀ t, Inv (tick 0) (Ref (tick 0) (.idle (d 0) false false) p) (runTo 1 tick (init d p) sched t) := by
    intro t
    rw [runTo_exec]
    exact inv_exec tick _ _ _ (inv_init (tick 0) d p hp)
  obtain ⟨T, hT | ⟨h1, h2⟩⟩ := eventually_rest 1 tick (init d p) sched hf (fun t => inv_collect (hI t)) (fun t hn i hi => by
    obtain rfl : i = 0 := by omega
    exact halts_inv hE (hI t) hn)
  · exact ⟨T, fun t ht => Or.inr (Or.inl (hT t ht))⟩
  · obtain ⟨h3, h4⟩ := h2 0 (by omega)
    exact ⟨T, fun t ht => by rw [h1 t ht]; exact rest_over hE (hI T) h3 h4⟩

end Verif.Events
