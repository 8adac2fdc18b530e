import Verif.Selector.Lemmas

/-! Property C05 of `CspSelector.select` (`src/lava/magma/compiler/channels/pypychannel.py:314-352`).

The full claim - "whenever some listed channel has data a blocked `select` returns" - is **false of the
code**: see `C05_lost_wakeup` and `C05_callback_dies`.  The safety half holds for every schedule, and the
liveness half holds if the callback's two races are closed (`C05_select_wakes_partial`). -/

namespace Verif.Selector

/-- **C05** (safety): whenever `select` returns by running the action of channel `i`, `i` is one of the
listed channels and has data at that very moment, for every schedule of the real code. -/
theorem C05_returns_ready (n : Nat) (sched : List Lbl) (l : Lbl) (i : Nat) :
    let s := run (real n) sched
    let t := step (real n) s l
    t.results = i :: s.results → i < n ∧ 0 < (t.chan i).queue := by
  intro s t ht
  have h : Safe (real n) s := safe_run _ sched init ⟨by simp [init]⟩
  have ht' : (step (real n) s l).results = i :: s.results := ht
  show i < n ∧ 0 < ((step (real n) s l).chan i).queue
  cases l with
  | arrive j => simp [step] at ht'
  | cb j => simp only [step, cbStep] at ht'; repeat' split at ht'
            all_goals simp at ht'
  | select => simp only [step] at ht'; split at ht' <;> simp at ht'
  | recv j => simp only [step] at ht'; split at ht' <;> simp at ht'
  | sel =>
    simp only [step, selStep] at ht' ⊢
    split at ht' <;> rename_i hs
    · simp at ht'
    · split at ht' <;> simp at ht'
    · split at ht'
      · split at ht' <;> simp at ht'
      · simp at ht'
    · rename_i k
      split at ht'
      · simp at ht'
      · rename_i hk
        simp at ht'
        subst ht'
        have := h.chosen _ _ hs
        simp only [hk, if_false]
        exact this
    · simp at ht'
    · simp at ht'

/-- Non-vacuity: a schedule in which `select` on two channels returns channel 1. -/
example : let s := run (real 2) ([.arrive 1, .cb 1, .cb 1, .cb 1, .select] ++ List.replicate 7 .sel)
    (step (real 2) s .sel).results = 1 :: s.results := by decide

/-- **C05** (priority): a `select` that is not disturbed picks the first listed channel that has data. -/
theorem C05_first_ready (n : Nat) (s : St) (i : Nat) (hi : i < n) (hidle : s.sel = .idle)
    (hq : 0 < (s.chan i).queue) (hfirst : ∀ j, j < i → (s.chan j).queue = 0) :
    let t := runFrom (real n) s (.select :: List.replicate (n + 1 + (i + 1) + (n + 1)) .sel)
    t.sel = .idle ∧ t.results = i :: s.results := by
  have h0 : step (real n) s .select = { s with sel := .setObs 0 } := by simp [step, hidle]
  intro t
  have ht : t = runFrom (real n) (runFrom (real n) (runFrom (real n) { s with sel := .setObs 0 }
      (List.replicate (n + 1) .sel)) (List.replicate (i + 1) .sel)) (List.replicate (n + 1) .sel) := by
    simp only [t]
    have e : n + 1 + (i + 1) + (n + 1) = n + 1 + ((i + 1) + (n + 1)) := by omega
    rw [← runFrom_append, ← runFrom_append, List.replicate_append_replicate,
      List.replicate_append_replicate, e]
    simp only [runFrom, List.foldl_cons, h0]
  have a := set_alone (real n) n { s with sel := .setObs 0 } 0 (by simp [real]) (by simp) rfl
  generalize runFrom (real n) { s with sel := .setObs 0 } (List.replicate (n + 1) .sel) = u at *
  obtain ⟨a1, a2, a3⟩ := a
  have b := scan_alone (real n) i i u 0 (by omega) (by omega) (by simpa [real] using hi) a1
    (by rw [a3]; exact hq) (by intro j hj; rw [a3]; exact hfirst j hj)
  rw [b] at ht
  have d := unset_alone (real n) i n { u with sel := .unset 0 i } 0 (by simp [real]) (by simp) rfl
  obtain ⟨d1, d2, _⟩ := d
  rw [ht]
  exact ⟨d1, by rw [d2]; simp [a2]⟩

example : let s := run (real 2) [.arrive 1, .cb 1, .cb 1, .cb 1]
    s.sel = .idle ∧ 0 < (s.chan 1).queue ∧ ∀ j, j < 1 → (s.chan j).queue = 0 := by
  refine ⟨by decide, by decide, ?_⟩
  intro j hj
  have : j = 0 := by omega
  subst this; decide

/-- **C05** (liveness, partial): if the callback thread's probe-and-put and its check-and-call of the
observer were atomic, a `select` asleep while some listed channel has data is woken up by the callback
threads alone, and then returns.  Missing: the real code has both races, see below. -/
theorem C05_select_wakes_partial (n : Nat) (sched : List Lbl) (i : Nat) (hi : i < n) :
    let c : Cfg := { n := n, atomicPut := true, atomicCall := true }
    let s := run c sched
    s.sel = .waiting → 0 < (s.chan i).queue →
    ∃ cbs : List Lbl, (∀ l ∈ cbs, ∃ j, l = .cb j) ∧
      ∃ m r, let t := runFrom c s (cbs ++ List.replicate m .sel)
        t.sel = .idle ∧ t.results = r :: s.results := by
  intro c s hw hq
  have h : Live c s := live_run rfl rfl sched init (live_init c)
  -- the callback threads wake it up
  have wakes : ∀ u : St, u.sel = .waiting → Wake u → ∃ j, (step c u (.cb j)).sel = .woken ∧
      (step c u (.cb j)).results = u.results ∧ ∀ x, ((step c u (.cb j)).chan x).queue = (u.chan x).queue := by
    intro u hu ⟨j, hj⟩
    refine ⟨j, ?_⟩
    simp only [step, cbStep, hj, hu, SPc.locked]
    refine ⟨by simp, by simp, ?_⟩
    intro x
    by_cases e : x = j
    · subst e; simp
    · simp [upd_ne _ _ e]
  have woken : ∃ cbs : List Lbl, (∀ l ∈ cbs, ∃ j, l = .cb j) ∧
      let u := runFrom c s cbs
      u.sel = .woken ∧ u.results = s.results ∧ 0 < (u.chan i).queue := by
    rcases h.watch i hi (by rw [hw]; trivial) with a | a | a
    · omega
    · -- channel `i`'s own callback is about to notify
      have ho := h.obs i hi (by rw [hw]; trivial)
      have hst : step c s (.cb i) =
          { s with chan := upd s.chan i { s.chan i with cb := .notify } } := by
        simp [step, cbStep, a, ho, c]
      obtain ⟨j, j1, j2, j3⟩ := wakes (step c s (.cb i)) (by rw [hst]; exact hw)
        (by rw [hst]; exact ⟨i, by simp⟩)
      refine ⟨[.cb i, .cb j], by simp, ?_⟩
      simp only [runFrom, List.foldl_cons, List.foldl_nil]
      refine ⟨j1, by rw [j2, hst], ?_⟩
      rw [j3, hst]; simp [hq]
    · obtain ⟨j, j1, j2, j3⟩ := wakes s hw a
      refine ⟨[.cb j], by simp, ?_⟩
      simp only [runFrom, List.foldl_cons, List.foldl_nil]
      exact ⟨j1, j2, by rw [j3]; exact hq⟩
  obtain ⟨cbs, hc, h1, h2, h3⟩ := woken
  refine ⟨cbs, hc, ?_⟩
  -- the scan finds the first channel with data
  have least : ∀ m, m ≤ n → (∃ r, r < m ∧ 0 < ((runFrom c s cbs).chan r).queue) →
      ∃ r, r < n ∧ 0 < ((runFrom c s cbs).chan r).queue ∧
        ∀ j, j < r → ((runFrom c s cbs).chan j).queue = 0 := by
    intro m
    induction m with
    | zero => rintro _ ⟨r, hr, _⟩; omega
    | succ m ih =>
      rintro hm ⟨r, hr, hrq⟩
      by_cases e : ∃ r, r < m ∧ 0 < ((runFrom c s cbs).chan r).queue
      · exact ih (by omega) e
      · refine ⟨r, by omega, hrq, ?_⟩
        intro j hj
        apply Classical.byContradiction
        intro hne
        exact e ⟨j, by omega, by omega⟩
  obtain ⟨r, r1, r2, r3⟩ := least n (Nat.le_refl _) ⟨i, hi, h3⟩
  refine ⟨1 + ((r + 1) + (n + 1)), r, ?_⟩
  have hfin : runFrom c s (cbs ++ List.replicate (1 + ((r + 1) + (n + 1))) .sel) =
      runFrom c (runFrom c { runFrom c s cbs with sel := .scan 0 } (List.replicate (r + 1) .sel))
        (List.replicate (n + 1) .sel) := by
    rw [runFrom_append, ← runFrom_append c { runFrom c s cbs with sel := .scan 0 },
      List.replicate_append_replicate, Nat.add_comm 1, List.replicate_succ]
    have : step c (runFrom c s cbs) .sel = { runFrom c s cbs with sel := .scan 0 } := by
      simp [step, selStep, h1]
    conv => lhs; rw [runFrom]
    simp only [List.foldl_cons, this]
    rfl
  have b := scan_alone c r r { runFrom c s cbs with sel := .scan 0 } 0 (by omega) (by omega) r1 rfl r2 r3
  have d := unset_alone c r n { runFrom c s cbs with sel := .unset 0 r } 0 (by simp [c]) (by simp) rfl
  rw [b] at hfin
  obtain ⟨d1, d2, _⟩ := d
  intro t
  have ht : t = runFrom c { runFrom c s cbs with sel := .unset 0 r } (List.replicate (n + 1) .sel) := hfin
  rw [ht]
  exact ⟨d1, by rw [d2]; simp [h2]⟩

/-- Non-vacuity: a sleeping `select` whose second channel gets data. -/
example : let s := run (Cfg.mk 2 true true) [.select, .sel, .sel, .sel, .sel, .sel, .sel, .arrive 1, .cb 1, .cb 1]
    s.sel = .waiting ∧ 0 < (s.chan 1).queue := by decide

/-- The schedule that loses a wake-up: the callback of the second item evaluates `not_empty` before the
consumer takes the first item, and puts the second one after the consumer has gone to sleep. -/
def lostSched : List Lbl :=
  [.arrive 0, .cb 0, .cb 0, .cb 0, .cb 0,      -- first item queued
   .arrive 0, .cb 0, .cb 0,                    -- second: `not_empty = True`
   .recv 0,                                    -- consumer takes the first item
   .select, .sel, .sel, .sel, .sel,            -- finds the queue empty and sleeps
   .cb 0, .cb 0]                               -- second item queued, observer not called

/-- Callback states that do not lead to a notification when the observer is not set. -/
def NoCall : CPc → Prop
  | .wait | .taken | .probed _ | .check _ => True
  | _ => False

/-- The states reached from the lost wake-up. -/
structure Stuck (s : St) : Prop where
  sel : s.sel = .waiting
  queue : 0 < (s.chan 0).queue
  cb : (s.chan 0).cb = .wait ∨ (s.chan 0).cb = .taken ∨ (s.chan 0).cb = .probed true ∨
        (s.chan 0).cb = .check true
  obs : ∀ j, j ≠ 0 → (s.chan j).obs = false
  others : ∀ j, j ≠ 0 → NoCall (s.chan j).cb

theorem stuck_step {s : St} (h : Stuck s) (l : Lbl) : Stuck (step (real 1) s l) := by
  obtain ⟨h1, h2, h3, h4, h5⟩ := h
  have hupd : ∀ (i : Nat) (ch : Chan), (i = 0 → 0 < ch.queue ∧ (ch.cb = .wait ∨ ch.cb = .taken ∨
      ch.cb = .probed true ∨ ch.cb = .check true)) → (i ≠ 0 → ch.obs = false ∧ NoCall ch.cb) →
      Stuck { s with chan := upd s.chan i ch } := by
    intro i ch ha hb
    refine ⟨h1, ?_, ?_, ?_, ?_⟩
    · by_cases e : 0 = i
      · subst e; simp [(ha rfl).1]
      · simp only [upd_ne _ _ e]; exact h2
    · by_cases e : 0 = i
      · subst e; simp [(ha rfl).2]
      · simp only [upd_ne _ _ e]; exact h3
    · intro j hj
      by_cases e : j = i
      · subst e; simp [(hb hj).1]
      · simp only [upd_ne _ _ e]; exact h4 j hj
    · intro j hj
      by_cases e : j = i
      · subst e; simp [(hb hj).2]
      · simp only [upd_ne _ _ e]; exact h5 j hj
  cases l with
  | arrive i =>
    refine hupd i _ ?_ ?_
    · intro e; subst e; exact ⟨h2, h3⟩
    · intro e; exact ⟨h4 i e, h5 i e⟩
  | cb i =>
    by_cases e : i = 0
    · subst e
      rcases h3 with h3 | h3 | h3 | h3 <;> simp only [step, cbStep, h3, real]
      · split
        · exact hupd 0 _ (fun _ => ⟨h2, by simp⟩) (fun h => absurd rfl h)
        · exact ⟨h1, h2, Or.inl h3, h4, h5⟩
      · exact hupd 0 _ (fun _ => ⟨h2, by simp [h2]⟩) (fun h => absurd rfl h)
      · exact hupd 0 _ (fun _ => ⟨by simp, by simp⟩) (fun h => absurd rfl h)
      · have : ((s.chan 0).obs && !true) = false := by simp
        simp only [this]
        exact hupd 0 _ (fun _ => ⟨h2, by simp⟩) (fun h => absurd rfl h)
    · have ho := h4 i e
      have hn := h5 i e
      simp only [step, cbStep, real]
      split <;> rename_i hcb <;> simp only [hcb, NoCall] at hn
      · split
        · exact hupd i _ (fun h => absurd h e) (fun _ => ⟨ho, trivial⟩)
        · exact ⟨h1, h2, h3, h4, h5⟩
      · exact hupd i _ (fun h => absurd h e) (fun _ => ⟨ho, trivial⟩)
      · exact hupd i _ (fun h => absurd h e) (fun _ => ⟨ho, trivial⟩)
      · rw [ho]
        exact hupd i _ (fun h => absurd h e) (fun _ => ⟨rfl, trivial⟩)
  | select =>
    have : step (real 1) s .select = s := by simp [step, h1]
    rw [this]; exact ⟨h1, h2, h3, h4, h5⟩
  | sel =>
    have : step (real 1) s .sel = s := by simp [step, selStep, h1]
    rw [this]; exact ⟨h1, h2, h3, h4, h5⟩
  | recv i =>
    have : step (real 1) s (.recv i) = s := by simp [step, h1]
    rw [this]; exact ⟨h1, h2, h3, h4, h5⟩

/-- **C05** (negation of the liveness claim for the real code): after `lostSched` the channel has data
and `select` is asleep, and it stays asleep forever, whatever the threads do and however many more items
arrive on the channel. -/
theorem C05_lost_wakeup :
    (0 < ((run (real 1) lostSched).chan 0).queue) ∧
    ∀ more : List Lbl, (runFrom (real 1) (run (real 1) lostSched) more).sel = .waiting ∧
      0 < ((runFrom (real 1) (run (real 1) lostSched) more).chan 0).queue := by
  have inv : ∀ (more : List Lbl) (s : St), Stuck s → Stuck (runFrom (real 1) s more) := by
    intro more
    induction more with
    | nil => intro s h; exact h
    | cons l ls ih => intro s h; exact ih _ (stuck_step h l)
  have h0 : Stuck (run (real 1) lostSched) := by
    refine ⟨by decide, by decide, Or.inl (by decide), ?_, ?_⟩ <;> intro j hj <;>
      simp [run, runFrom, lostSched, step, cbStep, selStep, real, init, upd, hj, NoCall]
  exact ⟨by decide, fun more => ⟨(inv more _ h0).1, (inv more _ h0).2⟩⟩

/-- The schedule in which the callback thread calls an observer that has just been cleared. -/
def deadSched : List Lbl :=
  [.arrive 0, .select, .sel, .sel,     -- observer set, about to scan
   .cb 0, .cb 0, .cb 0, .cb 0,         -- item queued, `self.observer` found set
   .sel, .sel,                         -- the scan sees the item and clears the observer
   .cb 0]                              -- `self.observer()` is `None()`

theorem dead_step {s : St} (h : (s.chan 0).cb = .dead) (l : Lbl) :
    ((step (real 1) s l).chan 0).cb = .dead ∧
      ((step (real 1) s l).chan 0).queue ≤ (s.chan 0).queue := by
  have hupd : ∀ (i : Nat) (ch : Chan), (i = 0 → ch.cb = .dead ∧ ch.queue ≤ (s.chan 0).queue) →
      (upd s.chan i ch 0).cb = .dead ∧ (upd s.chan i ch 0).queue ≤ (s.chan 0).queue := by
    intro i ch hi
    by_cases e : 0 = i
    · subst e; simpa using hi rfl
    · simp only [upd_ne _ _ e]; exact ⟨h, Nat.le_refl _⟩
  have hself : (s.chan 0).cb = .dead ∧ (s.chan 0).queue ≤ (s.chan 0).queue := ⟨h, Nat.le_refl _⟩
  cases l with
  | arrive i => exact hupd i _ (by intro e; subst e; exact hself)
  | cb i =>
    by_cases e : i = 0
    · subst e; simp [step, cbStep, h]
    · simp only [step, cbStep]
      split <;> (try split) <;>
        first | exact hself | exact hupd i _ (fun h => absurd h e)
  | select => simp only [step]; split <;> exact hself
  | sel =>
    simp only [step, selStep]
    split <;> (try split) <;> (try split) <;>
      first | exact hself | exact hupd _ _ (by intro e; subst e; exact hself)
  | recv i =>
    simp only [step]; split
    · exact hupd i _ (by intro e; subst e; exact ⟨h, Nat.sub_le _ _⟩)
    · exact hself

/-- **C05** (second negation): after `deadSched` the callback thread of the channel is dead, and nothing
that arrives later is ever delivered: the queue never holds more than the one item already there. -/
theorem C05_callback_dies :
    ((run (real 1) deadSched).chan 0).cb = .dead ∧
    ∀ more : List Lbl,
      ((runFrom (real 1) (run (real 1) deadSched) more).chan 0).queue ≤ 1 := by
  have inv : ∀ (more : List Lbl) (s : St), (s.chan 0).cb = .dead → (s.chan 0).queue ≤ 1 →
      ((runFrom (real 1) s more).chan 0).queue ≤ 1 := by
    intro more
    induction more with
    | nil => intro s _ h; exact h
    | cons l ls ih =>
      intro s h1 h2
      have h := dead_step h1 l
      exact ih _ h.1 (Nat.le_trans h.2 h2)
  exact ⟨by decide, fun more => inv more _ (by decide) (by decide)⟩

end Verif.Selector
