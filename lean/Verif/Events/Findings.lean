import Verif.Events.Progress

/-!
# C90: consequences, examples, and what does not hold
-/

namespace Verif.Events

variable {D : Type}

/-! ## The end of a run is determined by its process models -/

theorem quietly_det {tick : D → Option (D × Ev)} : ∀ {k : Nat} {d a b : D}, Quietly tick k d a → Quietly tick k d b → a = b
  | 0, _, _, _, h1, h2 => by cases h1; cases h2; rfl
  | _ + 1, _, _, _, h1, h2 => by
    obtain ⟨x, hx, h1⟩ := quietly_inv h1
    obtain ⟨y, hy, h2⟩ := quietly_inv h2
    rw [hx] at hy
    simp only [Option.some.injEq, Prod.mk.injEq, and_true] at hy
    subst hy
    exact quietly_det h1 h2

/-- Before the end of a quiet stretch every step is quiet. -/
theorem quietly_prefix {tick : D → Option (D × Ev)} : ∀ {k j : Nat} {d a b : D}, j < k → Quietly tick k d a → Quietly tick j d b → ∃ c, tick b = some (c, ⟨false, false, 0⟩)
  | k + 1, 0, _, _, _, _, h1, h2 => by
    cases h2
    obtain ⟨x, hx, _⟩ := quietly_inv h1
    exact ⟨x, hx⟩
  | k + 1, j + 1, _, _, _, hlt, h1, h2 => by
    obtain ⟨x, hx, h1⟩ := quietly_inv h1
    obtain ⟨y, hy, h2⟩ := quietly_inv h2
    rw [hx] at hy
    simp only [Option.some.injEq, Prod.mk.injEq, and_true] at hy
    subst hy
    exact quietly_prefix (by omega) h1 h2

/-- The first step with an event is unique. -/
theorem first_det {tick : D → Option (D × Ev)} {k k' : Nat} {d a a' b b' : D} {e e' : Ev} (h1 : Quietly tick k d a) (h2 : tick a = some (b, e)) (h3 : e ≠ ⟨false, false, 0⟩)
    (h1' : Quietly tick k' d a') (h2' : tick a' = some (b', e')) (h3' : e' ≠ ⟨false, false, 0⟩) : k = k' ∧ b = b' ∧ e = e' := by
  rcases Nat.lt_trichotomy k k' with h | h | h
  · obtain ⟨c, hc⟩ := quietly_prefix h h1' h1
    rw [h2] at hc
    simp only [Option.some.injEq, Prod.mk.injEq] at hc
    exact absurd hc.2 h3
  · subst h
    obtain rfl := quietly_det h1 h1'
    rw [h2] at h2'
    simp only [Option.some.injEq, Prod.mk.injEq] at h2'
    exact ⟨rfl, h2'⟩
  · obtain ⟨c, hc⟩ := quietly_prefix h h1 h1'
    rw [h2'] at hc
    simp only [Option.some.injEq, Prod.mk.injEq] at hc
    exact absurd hc.2 h3'

theorem done_no_first {tick : D → Option (D × Ev)} {m k : Nat} {d x a b : D} {e : Ev} (h : Quietly tick m d x) (hk : k < m) (h1 : Quietly tick k d a)
    (h2 : tick a = some (b, e)) : e = ⟨false, false, 0⟩ := by
  obtain ⟨c, hc⟩ := quietly_prefix hk h h1
  rw [h2] at hc
  simp only [Option.some.injEq, Prod.mk.injEq] at hc
  exact hc.2

/-- A run ends in one way only. -/
theorem ends_det {tick : D → Option (D × Ev)} {n : Option Nat} {d : D} {x y : End D} (hx : Ends tick n d x) (hy : Ends tick n d y) : x = y := by
  cases hx with
  | done m d1 hm hq =>
    cases hy with
    | done m' d2 hm' hq' =>
      rw [hm] at hm'
      simp only [Option.some.injEq] at hm'
      subst hm'
      rw [quietly_det hq hq']
    | paused k a b e hk hq' ht h0 h1 => have := done_no_first hq (hk m hm) hq' ht; subst this; simp at h1
    | stopped k a b e hk hq' ht h0 h1 h2 => have := done_no_first hq (hk m hm) hq' ht; subst this; simp at h2
    | raised k a b e hk hq' ht h0 => have := done_no_first hq (hk m hm) hq' ht; subst this; simp at h0
  | paused k a b e hk hq ht h0 h1 =>
    have hne : e ≠ ⟨false, false, 0⟩ := by rintro rfl; simp at h1
    cases hy with
    | done m d2 hm hq' => have := done_no_first hq' (hk m hm) hq ht; exact absurd this hne
    | paused k' a' b' e' hk' hq' ht' h0' h1' =>
      obtain ⟨rfl, rfl, rfl⟩ := first_det hq ht hne hq' ht' (by rintro rfl; simp at h1')
      rfl
    | stopped k' a' b' e' hk' hq' ht' h0' h1' h2' =>
      obtain ⟨rfl, rfl, rfl⟩ := first_det hq ht hne hq' ht' (by rintro rfl; simp at h2')
      simp [h1] at h1'
    | raised k' a' b' e' hk' hq' ht' h0' =>
      obtain ⟨rfl, rfl, rfl⟩ := first_det hq ht hne hq' ht' (by rintro rfl; simp at h0')
      exact absurd h0 h0'
  | stopped k a b e hk hq ht h0 h1 h2 =>
    have hne : e ≠ ⟨false, false, 0⟩ := by rintro rfl; simp at h2
    cases hy with
    | done m d2 hm hq' => have := done_no_first hq' (hk m hm) hq ht; exact absurd this hne
    | paused k' a' b' e' hk' hq' ht' h0' h1' =>
      obtain ⟨rfl, rfl, rfl⟩ := first_det hq ht hne hq' ht' (by rintro rfl; simp at h1')
      simp [h1] at h1'
    | stopped k' a' b' e' hk' hq' ht' h0' h1' h2' =>
      obtain ⟨rfl, rfl, rfl⟩ := first_det hq ht hne hq' ht' (by rintro rfl; simp at h2')
      rfl
    | raised k' a' b' e' hk' hq' ht' h0' =>
      obtain ⟨rfl, rfl, rfl⟩ := first_det hq ht hne hq' ht' (by rintro rfl; simp at h0')
      exact absurd h0 h0'
  | raised k a b e hk hq ht h0 =>
    have hne : e ≠ ⟨false, false, 0⟩ := by rintro rfl; simp at h0
    cases hy with
    | done m d2 hm hq' => have := done_no_first hq' (hk m hm) hq ht; exact absurd this hne
    | paused k' a' b' e' hk' hq' ht' h0' h1' =>
      obtain ⟨rfl, rfl, rfl⟩ := first_det hq ht hne hq' ht' (by rintro rfl; simp at h1')
      exact absurd h0' h0
    | stopped k' a' b' e' hk' hq' ht' h0' h1' h2' =>
      obtain ⟨rfl, rfl, rfl⟩ := first_det hq ht hne hq' ht' (by rintro rfl; simp at h2')
      exact absurd h0' h0
    | raised k' a' b' e' hk' hq' ht' h0' =>
      obtain ⟨rfl, rfl, rfl⟩ := first_det hq ht hne hq' ht' (by rintro rfl; simp at h0')
      rfl

/-! ## Single runs -/

theorem ref_run1 {tick : D → Option (D × Ev)} {d : D} {n : Nat} {l : List (Res D)} (h : Ref tick (.idle d false false) [.run n true] l) :
    l = [] ∨ ∃ r a, l = [r] ∧ Fin tick (some n) d false r a := by
  cases h with
  | nil => exact Or.inl rfl
  | run d ps st n p r a rs hf hr =>
    cases hr
    exact Or.inr ⟨_, _, rfl, hf⟩
  | runFail d ps st n p hf => exact Or.inr ⟨_, _, rfl, hf⟩

/-- **C90, an exception.** If exceptions are raised in the run before any request, then whatever the schedule, if the run returns at all it raises, with the number of
process models that failed in that time step. -/
theorem C90_exception_reported (tick : Nat → D → Option (D × Ev)) (d : Nat → D) (n c : Nat) (h : Ends (tick 0) (some n) (d 0) (.raised c)) (ls : List Lbl) :
    (exec 1 tick (init d [.run n true]) ls).log = [] ∨ (exec 1 tick (init d [.run n true]) ls).log = [.raised c] := by
  rcases ref_run1 (C90_results tick d [.run n true] ⟨rfl, trivial⟩ ls) with h1 | ⟨r, a, h1, hf⟩
  · exact Or.inl h1
  · right
    rw [h1]
    cases hf with
    | done d' hx => cases ends_det h hx
    | paused d' s l hx => cases ends_det h hx
    | pausedRace d' s hx => cases ends_det h hx
    | stopped d' l hx => cases ends_det h hx
    | stoppedRace d' hx => cases ends_det h hx
    | raised c' hx => cases ends_det h hx; rfl

/-- **C90, a pause request** before the last step: the run returns early, with the data of the step of the request. -/
theorem C90_pause_request (tick : Nat → D → Option (D × Ev)) (d : Nat → D) (n : Nat) (x : D) (s : Bool) (h : Ends (tick 0) (some n) (d 0) (.paused x s false)) (ls : List Lbl) :
    (exec 1 tick (init d [.run n true]) ls).log = [] ∨ (exec 1 tick (init d [.run n true]) ls).log = [.returned [x]] := by
  rcases ref_run1 (C90_results tick d [.run n true] ⟨rfl, trivial⟩ ls) with h1 | ⟨r, a, h1, hf⟩
  · exact Or.inl h1
  · right
    rw [h1]
    cases hf with
    | done d' hx => cases ends_det h hx
    | paused d' s l hx => cases ends_det h hx; rfl
    | pausedRace d' s hx => cases ends_det h hx
    | stopped d' l hx => cases ends_det h hx
    | stoppedRace d' hx => cases ends_det h hx
    | raised c' hx => cases ends_det h hx

/-- **C90, a stop request** before the last step: the run returns with everything stopped. -/
theorem C90_stop_request (tick : Nat → D → Option (D × Ev)) (d : Nat → D) (n : Nat) (x : D) (h : Ends (tick 0) (some n) (d 0) (.stopped x false)) (ls : List Lbl) :
    (exec 1 tick (init d [.run n true]) ls).log = [] ∨ (exec 1 tick (init d [.run n true]) ls).log = [.stopped] := by
  rcases ref_run1 (C90_results tick d [.run n true] ⟨rfl, trivial⟩ ls) with h1 | ⟨r, a, h1, hf⟩
  · exact Or.inl h1
  · right
    rw [h1]
    cases hf with
    | done d' hx => cases ends_det h hx
    | paused d' s l hx => cases ends_det h hx
    | pausedRace d' s hx => cases ends_det h hx
    | stopped d' l hx => cases ends_det h hx; rfl
    | stoppedRace d' hx => cases ends_det h hx
    | raised c' hx => cases ends_det h hx

/-! ## After an exception or stop -/

theorem ref_broken {tick : D → Option (D × Ev)} : ∀ (p : List (Call D)) (rs : List (Res D)), Ref tick .broken p rs → ∀ r ∈ rs, r = .refused ∨ r = .started
  | _, [], _ => by simp
  | p, _ :: rs, h => by
    cases h with
    | brokenGet p _ h => intro r hr; rcases List.mem_cons.1 hr with rfl | hr; exacts [Or.inl rfl, ref_broken p rs h r hr]
    | brokenSet v p _ h => intro r hr; rcases List.mem_cons.1 hr with rfl | hr; exacts [Or.inl rfl, ref_broken p rs h r hr]
    | brokenStart n p _ h => intro r hr; rcases List.mem_cons.1 hr with rfl | hr; exacts [Or.inr rfl, ref_broken p rs h r hr]
    | brokenCont p _ h => intro r hr; rcases List.mem_cons.1 hr with rfl | hr; exacts [Or.inr rfl, ref_broken p rs h r hr]

theorem ref_over {tick : D → Option (D × Ev)} : ∀ (p : List (Call D)) (rs : List (Res D)), Ref tick .over p rs →
    ∀ r ∈ rs, r = .notStarted ∨ r = .nothing ∨ r = .stopped ∨ r = .refused ∨ r = .started
  | _, [], _ => by simp
  | p, _ :: rs, h => by
    cases h with
    | overGet p _ h => intro r hr; rcases List.mem_cons.1 hr with rfl | hr; exacts [by simp, ref_over p rs h r hr]
    | overSet v p _ h => intro r hr; rcases List.mem_cons.1 hr with rfl | hr; exacts [by simp, ref_over p rs h r hr]
    | overWait p _ h => intro r hr; rcases List.mem_cons.1 hr with rfl | hr; exacts [by simp, ref_over p rs h r hr]
    | overPause p _ h => intro r hr; rcases List.mem_cons.1 hr with rfl | hr; exacts [by simp, ref_over p rs h r hr]
    | overStop p _ h => intro r hr; rcases List.mem_cons.1 hr with rfl | hr; exacts [by simp, ref_over p rs h r hr]
    | overStart n p _ h =>
      intro r hr
      rcases List.mem_cons.1 hr with rfl | hr
      · simp
      · rcases ref_broken p rs h r hr with h | h <;> simp [h]
    | overCont p _ h =>
      intro r hr
      rcases List.mem_cons.1 hr with rfl | hr
      · simp
      · rcases ref_broken p rs h r hr with h | h <;> simp [h]

theorem ref_after_raised {tick : D → Option (D × Ev)} {a : Abs D} {p : List (Call D)} {l : List (Res D)} (h : Ref tick a p l) :
    ∀ (l1 l2 : List (Res D)) (c : Nat), l = l1 ++ .raised c :: l2 → ∀ r ∈ l2, r = .refused ∨ r = .started := by
  induction h with
  | nil => intro l1 l2 c h; simp at h
  | run d ps st n p r a rs hf hr ih =>
    intro l1 l2 c h
    cases l1 with
    | nil =>
      simp only [List.nil_append, List.cons.injEq] at h
      obtain ⟨rfl, rfl⟩ := h
      cases hf
      exact ref_broken _ _ hr
    | cons x l1 =>
      simp only [List.cons_append, List.cons.injEq] at h
      exact ih l1 l2 c h.2
  | wait n d ps p r a rs hf hr ih =>
    intro l1 l2 c h
    cases l1 with
    | nil =>
      simp only [List.nil_append, List.cons.injEq] at h
      obtain ⟨rfl, rfl⟩ := h
      cases hf
      exact ref_broken _ _ hr
    | cons x l1 =>
      simp only [List.cons_append, List.cons.injEq] at h
      exact ih l1 l2 c h.2
  | runFail d ps st n p hf =>
    intro l1 l2 c h
    cases l1 <;> simp at h
  | waitFail n d ps p hf =>
    intro l1 l2 c h
    cases l1 <;> simp at h
  | get d ps st p rs hr ih =>
    intro l1 l2 c h
    cases l1 with
    | nil => cases st <;> simp at h
    | cons x l1 => simp only [List.cons_append, List.cons.injEq] at h; exact ih l1 l2 c h.2
  | set d ps st v p rs hr ih =>
    intro l1 l2 c h
    cases l1 with
    | nil => cases st <;> simp at h
    | cons x l1 => simp only [List.cons_append, List.cons.injEq] at h; exact ih l1 l2 c h.2
  | _ =>
    rename_i ih
    intro l1 l2 c h
    cases l1 with
    | nil => simp at h
    | cons x l1 => simp only [List.cons_append, List.cons.injEq] at h; exact ih l1 l2 c h.2

/-- **C90, after an exception** no blocking run, wait, pause or stop ever returns, and every access to a Var is refused: the only results are those of refused accesses and of
non-blocking runs, which are accepted and never done. -/
theorem C90_after_exception (tick : Nat → D → Option (D × Ev)) (d : Nat → D) (p : List (Call D)) (hp : Proper false p) (ls : List Lbl) (l1 l2 : List (Res D)) (c : Nat)
    (h : (exec 1 tick (init d p) ls).log = l1 ++ .raised c :: l2) : ∀ r ∈ l2, r = .refused ∨ r = .started :=
  ref_after_raised (C90_results tick d p hp ls) l1 l2 c h

theorem ref_after_stopped {tick : D → Option (D × Ev)} {a : Abs D} {p : List (Call D)} {l : List (Res D)} (h : Ref tick a p l) :
    ∀ (l1 l2 : List (Res D)), l = l1 ++ .stopped :: l2 → ∀ r ∈ l2, r = .notStarted ∨ r = .nothing ∨ r = .stopped ∨ r = .refused ∨ r = .started := by
  induction h with
  | nil => intro l1 l2 h; simp at h
  | run d ps st n p r a rs hf hr ih =>
    intro l1 l2 h
    cases l1 with
    | nil =>
      simp only [List.nil_append, List.cons.injEq] at h
      obtain ⟨rfl, rfl⟩ := h
      cases hf <;> exact ref_over _ _ hr
    | cons x l1 =>
      simp only [List.cons_append, List.cons.injEq] at h
      exact ih l1 l2 h.2
  | wait n d ps p r a rs hf hr ih =>
    intro l1 l2 h
    cases l1 with
    | nil =>
      simp only [List.nil_append, List.cons.injEq] at h
      obtain ⟨rfl, rfl⟩ := h
      cases hf <;> exact ref_over _ _ hr
    | cons x l1 =>
      simp only [List.cons_append, List.cons.injEq] at h
      exact ih l1 l2 h.2
  | runFail d ps st n p hf =>
    intro l1 l2 h
    cases l1 <;> simp at h
  | waitFail n d ps p hf =>
    intro l1 l2 h
    cases l1 <;> simp at h
  | get d ps st p rs hr ih =>
    intro l1 l2 h
    cases l1 with
    | nil => cases st <;> simp at h
    | cons x l1 => simp only [List.cons_append, List.cons.injEq] at h; exact ih l1 l2 h.2
  | set d ps st v p rs hr ih =>
    intro l1 l2 h
    cases l1 with
    | nil => cases st <;> simp at h
    | cons x l1 => simp only [List.cons_append, List.cons.injEq] at h; exact ih l1 l2 h.2
  | stop d ps p rs hr ih =>
    intro l1 l2 h
    cases l1 with
    | nil =>
      simp only [List.nil_append, List.cons.injEq, true_and] at h
      subst h
      exact ref_over _ _ hr
    | cons x l1 => simp only [List.cons_append, List.cons.injEq] at h; exact ih l1 l2 h.2
  | overStop p rs hr ih =>
    intro l1 l2 h
    cases l1 with
    | nil =>
      simp only [List.nil_append, List.cons.injEq, true_and] at h
      subst h
      exact ref_over _ _ hr
    | cons x l1 => simp only [List.cons_append, List.cons.injEq] at h; exact ih l1 l2 h.2
  | _ =>
    rename_i ih
    intro l1 l2 h
    cases l1 with
    | nil => simp at h
    | cons x l1 => simp only [List.cons_append, List.cons.injEq] at h; exact ih l1 l2 h.2

/-- **C90, after a stop**, by the user or requested by a process model, no run ever returns and no Var is ever read or written. -/
theorem C90_after_stop (tick : Nat → D → Option (D × Ev)) (d : Nat → D) (p : List (Call D)) (hp : Proper false p) (ls : List Lbl) (l1 l2 : List (Res D))
    (h : (exec 1 tick (init d p) ls).log = l1 ++ .stopped :: l2) : ∀ r ∈ l2, r = .notStarted ∨ r = .nothing ∨ r = .stopped ∨ r = .refused ∨ r = .started :=
  ref_after_stopped (C90_results tick d p hp ls) l1 l2 h

/-! ## Examples: a counter -/

/-- Counts, and requests a pause at 3, a stop at 5, fails at 8. -/
def counter (d : Nat) : Option (Nat × Ev) := some (d + 1, ⟨d + 1 = 3, d + 1 = 5, if d + 1 = 8 then 2 else 0⟩)

/-- Like `counter`, blocks at 9 forever. -/
def blocker (d : Nat) : Option (Nat × Ev) := if d = 9 then none else counter d

theorem counter_run (d : Nat) (h : d < 5) : ∃ e, Ends counter none d e := by
  have hl : ∀ m, (none : Option Nat) = some m → 0 < m := by simp
  by_cases h2 : d = 2
  · subst h2; exact ⟨_, .paused 0 2 3 ⟨true, false, 0⟩ hl (.zero _) rfl rfl rfl⟩
  · by_cases h4 : d = 4
    · subst h4; exact ⟨_, .stopped 0 4 5 ⟨false, true, 0⟩ hl (.zero _) rfl rfl rfl rfl⟩
    · have h' : d = 0 ∨ d = 1 ∨ d = 3 := by omega
      rcases h' with rfl | rfl | rfl
      · exact ⟨_, .paused 2 2 3 ⟨true, false, 0⟩ (by simp) (.succ 1 _ 1 _ (.succ 0 _ 0 _ (.zero _) rfl) rfl) rfl rfl rfl⟩
      · exact ⟨_, .paused 1 2 3 ⟨true, false, 0⟩ (by simp) (.succ 0 _ 1 _ (.zero _) rfl) rfl rfl rfl⟩
      · exact ⟨_, .stopped 1 4 5 ⟨false, true, 0⟩ (by simp) (.succ 0 _ 3 _ (.zero _) rfl) rfl rfl rfl rfl⟩

/-- A network that always ends: it counts modulo 4 and requests a pause at 0. -/
def mod4 (d : Nat) : Option (Nat × Ev) := some ((d + 1) % 4, ⟨(d + 1) % 4 = 0, false, 0⟩)

theorem mod4_ends : EveryRunEnds mod4 := by
  have key : ∀ r d, (d + 1 + r) % 4 = 0 → (∀ j, j < r → (d + 1 + j) % 4 ≠ 0) → ∀ n, ∃ e, Ends mod4 n d e := by
    intro r
    induction r with
    | zero =>
      intro d h _ n
      by_cases hn : n = some 0
      · exact ⟨_, .done 0 d hn (.zero _)⟩
      · refine ⟨_, .paused 0 d ((d + 1) % 4) ⟨decide ((d + 1) % 4 = 0), false, 0⟩ ?_ (.zero _) rfl rfl (by simpa using h)⟩
        intro m hm
        rcases Nat.eq_zero_or_pos m with rfl | h'
        · exact absurd hm hn
        · exact h'
    | succ r ih =>
      intro d h1 h2 n
      have hq : mod4 d = some ((d + 1) % 4, ⟨false, false, 0⟩) := by
        have := h2 0 (by omega)
        simp only [mod4, Option.some.injEq, Prod.mk.injEq, true_and]
        simp only [Nat.add_zero] at this
        simp [this]
      have hih := ih ((d + 1) % 4) (by omega) (by
        intro j hj
        have := h2 (j + 1) (by omega)
        omega)
      cases n with
      | none =>
        obtain ⟨e, he⟩ := hih none
        exact ⟨e, ends_cons hq .endless he⟩
      | some m =>
        cases m with
        | zero => exact ⟨_, .done 0 d rfl (.zero _)⟩
        | succ m =>
          obtain ⟨e, he⟩ := hih (some m)
          exact ⟨e, ends_cons hq (.count m) he⟩
  intro n d
  exact key (3 - d % 4) d (by omega) (by intro j hj; omega) n

/-- A fair schedule of the host and one service. -/
def alternate (t : Nat) : Lbl := if t % 2 = 0 then .host 0 else .svc 0

theorem alternate_fair : Fair 1 alternate := by
  intro t i hi
  obtain rfl : i = 0 := by omega
  exact ⟨⟨2 * t, by omega, by simp [alternate]⟩, ⟨2 * t + 1, by omega, by simp [alternate, Nat.add_mod]⟩⟩

/-- The hypotheses of `C90_completes` are met by a network and a program in which a continuous run ends by a pause request. -/
example : EveryRunEnds mod4 ∧ Proper false ([.cont, .get 0, .wait, .get 0, .stop] : List (Call Nat)) ∧ Fair 1 alternate :=
  ⟨mod4_ends, by simp [Proper], alternate_fair⟩

/-- And this is what the user sees. -/
example : (runTo 1 (fun _ => mod4) (init (fun _ => 0) [.cont, .get 0, .wait, .get 0, .stop]) alternate 60).log = [.started, .refused, .returned [0], .value 0, .stopped] := by
  decide +kernel

/-- The requests and exceptions of the counter, one after the other. -/
example : (runTo 1 (fun _ => counter) (init (fun _ => 0) [.run 7 true, .get 0, .run 7 true, .get 0]) alternate 100).log = [.returned [3], .value 3, .stopped, .notStarted] := by
  decide +kernel

example : (runTo 1 (fun _ => counter) (init (fun _ => 5) [.run 7 true, .get 0, .run 3 false, .stop, .get 0]) alternate 100).log = [.raised 2, .refused, .started] := by
  decide +kernel

/-! ## What does not hold -/

/-- Not even with one network: if the request comes in the last step of a run, the service says DONE after the request, and it depends on the timing whether the run returns or
raises a RuntimeError. -/
theorem C90_last_step_race : ∃ ls1 ls2 : List Lbl,
    (exec 1 (fun _ => counter) (init (fun _ => 0) [.run 3 true]) ls1).log = [.returned [3]] ∧
    (exec 1 (fun _ => counter) (init (fun _ => 0) [.run 3 true]) ls2).log = [.protocol] :=
  ⟨[.host 0, .host 0, .host 0, .svc 0, .svc 0, .svc 0, .svc 0, .svc 0, .host 0, .host 0, .host 0, .svc 0, .host 0, .host 0, .host 0, .host 0],
   [.host 0, .host 0, .host 0, .svc 0, .svc 0, .svc 0, .svc 0, .svc 0, .host 0, .host 0, .host 0, .host 0, .host 0, .svc 0], by decide +kernel, by decide +kernel⟩

/-- The same for a stop request. -/
theorem C90_last_step_race_stop : ∃ ls1 ls2 : List Lbl,
    (exec 1 (fun _ => counter) (init (fun _ => 3) [.run 2 true]) ls1).log = [.stopped] ∧
    (exec 1 (fun _ => counter) (init (fun _ => 3) [.run 2 true]) ls2).log = [.protocol] :=
  ⟨[.host 0, .host 0, .host 0, .svc 0, .svc 0, .svc 0, .svc 0, .host 0, .host 0, .host 0, .svc 0, .host 0, .host 0, .host 0, .host 0, .host 0],
   [.host 0, .host 0, .host 0, .svc 0, .svc 0, .svc 0, .svc 0, .host 0, .host 0, .host 0, .host 0, .host 0, .host 0, .svc 0], by decide +kernel, by decide +kernel⟩

/-- If a pause and a stop are requested in the same step, the stop is forgotten until the next run, which does no step at all. -/
def both (d : Nat) : Option (Nat × Ev) := some (d + 1, ⟨d + 1 = 2, d + 1 = 2, 0⟩)

theorem C90_pause_hides_stop : (runTo 1 (fun _ => both) (init (fun _ => 0) [.run 5 true, .get 0, .run 5 true]) alternate 100).log = [.returned [2], .value 2, .stopped] := by
  decide +kernel

/-- Two services; the first requests a pause at 2, the second never. -/
def two (i d : Nat) : Option (Nat × Ev) := some (d + 1, ⟨i = 0 ∧ d + 1 = 2, false, 0⟩)

/-- With several services, a pause request of one can make the run raise a RuntimeError: the other one has already sent DONE. -/
theorem C90_two_services_race : ∃ ls1 ls2 : List Lbl,
    (exec 2 two (init (fun _ => 0) [.run 3 true]) ls1).log = [.protocol] ∧ (exec 2 two (init (fun _ => 0) [.run 3 true]) ls2).log = [.returned [2, 2]] :=
  ⟨[.host 0, .host 0, .host 0, .host 0, .svc 1, .svc 1, .svc 1, .svc 1, .svc 1, .svc 0, .svc 0, .svc 0, .svc 0, .host 0, .host 0, .host 0, .host 0, .svc 0, .host 0, .host 0, .host 0],
   [.host 0, .host 0, .host 0, .host 0, .svc 0, .svc 0, .svc 0, .svc 0, .svc 1, .svc 1, .host 0, .host 0, .host 0, .host 0, .svc 1, .svc 1, .svc 1, .svc 0, .host 0, .host 0, .host 0], by decide +kernel, by decide +kernel⟩

/-- Where nobody can do anything, nothing happens any more. -/
theorem rest_forever (S : Nat) (tick : Nat → D → Option (D × Ev)) (s : St D) (h : ∀ l, step S tick s l = none) : ∀ ls, exec S tick s ls = s
  | [] => rfl
  | l :: ls => by rw [exec, h l]; exact rest_forever S tick s h ls

theorem exec_append (S : Nat) (tick : Nat → D → Option (D × Ev)) : ∀ (ls ls' : List Lbl) (s : St D), exec S tick s (ls ++ ls') = exec S tick (exec S tick s ls) ls'
  | [], _, _ => rfl
  | l :: ls, ls', s => by simp only [List.cons_append, exec]; exact exec_append S tick ls ls' _

/-- A schedule of the second kind, then everybody in turn. -/
def hangSched : List Lbl :=
  [.host 0, .host 0, .host 0, .host 0, .svc 0, .svc 0, .svc 0, .svc 0, .svc 1, .svc 1, .host 0, .host 0, .host 0, .host 0, .svc 1, .svc 1, .svc 1, .svc 0, .host 0, .host 0, .host 0] ++
    (List.replicate 12 [.host 0, .host 1, .svc 0, .svc 1]).flatten

/-- And even if that run returns, the next run never does: the service that did not request the pause will not say DONE again. -/
theorem C90_two_services_hang : ∃ ls : List Lbl, ∀ ls', (exec 2 two (init (fun _ => 0) [.run 3 true, .run 3 true]) (ls ++ ls')).log = [.returned [2, 2]] := by
  refine ⟨hangSched, fun ls' => ?_⟩
  rw [exec_append, rest_forever]
  · decide +kernel
  · intro l
    have h0 : ∀ i : _root_.Fin 2, ((hostStep 2 (exec 2 two (init (fun _ => 0) [.run 3 true, .run 3 true]) hangSched) i.1).isNone = true ∧
        svcStep (two i.1) ((exec 2 two (init (fun _ => 0) [.run 3 true, .run 3 true]) hangSched).svc i.1) = none) ∧
        (exec 2 two (init (fun _ => 0) [.run 3 true, .run 3 true]) hangSched).pc = .collect 1 := by decide +kernel
    generalize exec 2 two (init (fun _ => 0) [.run 3 true, .run 3 true]) hangSched = s at h0
    cases l with
    | host j =>
      by_cases hj : j < 2
      · simpa [step] using (h0 ⟨j, hj⟩).1.1
      · simp only [step, hostStep, (h0 0).2, hj, if_false]
    | svc i =>
      by_cases hi : i < 2
      · simp [step, hi, (h0 ⟨i, hi⟩).1.2]
      · simp [step, hi]

end Verif.Events
