import Verif.Events.Spec

/-!
# C90: requests and exceptions of process models
-/

namespace Verif.Events

variable {D : Type}

@[simp] theorem upd_self {α : Type} (f : Nat → α) (i : Nat) (x : α) : upd f i x i = x := by simp [upd]

theorem upd_ne {α : Type} (f : Nat → α) {i j : Nat} (h : j ≠ i) (x : α) : upd f i x j = f j := by simp [upd, h]

/-! ## How a run ends, step by step -/

theorem quietly_cons {tick : D → Option (D × Ev)} {d d1 : D} (h : tick d = some (d1, ⟨false, false, 0⟩)) {k : Nat} {d2 : D} (hq : Quietly tick k d1 d2) :
    Quietly tick (k + 1) d d2 := by
  induction hq with
  | zero => exact .succ 0 _ _ _ (.zero _) h
  | succ k _ d3 d4 _ ht ih => exact .succ _ _ _ _ (ih h) ht

/-- One step less. -/
inductive Less : Option Nat → Option Nat → Prop where
  | endless : Less none none
  | count (k) : Less (some (k + 1)) (some k)

theorem ends_cons {tick : D → Option (D × Ev)} {d d1 : D} (h : tick d = some (d1, ⟨false, false, 0⟩)) {n n' : Option Nat} (hl : Less n n') {x : End D}
    (hx : Ends tick n' d1 x) : Ends tick n d x := by
  cases hx with
  | done m d' hm hq =>
    cases hl with
    | endless => simp at hm
    | count k =>
      simp only [Option.some.injEq] at hm
      subst hm
      exact .done _ _ rfl (quietly_cons h hq)
  | paused k a b e hk hq ht h1 h2 =>
    have := Ends.paused (tick := tick) (n := n) (d := d) (k + 1) a b e (by
      intro m hm; subst hm
      cases hl with
      | count j => have := hk j rfl; omega) (quietly_cons h hq) ht h1 h2
    cases hl <;> simpa using this
  | stopped k a b e hk hq ht h1 h2 h3 =>
    have := Ends.stopped (tick := tick) (n := n) (d := d) (k + 1) a b e (by
      intro m hm; subst hm
      cases hl with
      | count j => have := hk j rfl; omega) (quietly_cons h hq) ht h1 h2 h3
    cases hl <;> simpa using this
  | raised k a b e hk hq ht h1 =>
    exact Ends.raised (k + 1) a b e (by
      intro m hm; subst hm
      cases hl with
      | count j => have := hk j rfl; omega) (quietly_cons h hq) ht h1

/-- Result and situation after a run in which a pause (`rp`) or stop (`rs`) is already requested. -/
def FinB (tick : D → Option (D × Ev)) (n : Option Nat) (d : D) (rp rs : Bool) (r : Res D) (a : Option (Abs D)) : Prop :=
  if rp then (r = .returned [d] ∧ a = some (.idle d rs true)) ∨ (n = some 0 ∧ r = .protocol ∧ a = none) else Fin tick n d rs r a

theorem fin_cons {tick : D → Option (D × Ev)} {d d1 : D} {e : Ev} (h : tick d = some (d1, e)) (he : e.errs = 0) {n n' : Option Nat} (hl : Less n n')
    {r : Res D} {a : Option (Abs D)} (hf : FinB tick n' d1 e.pause e.stop r a) : Fin tick n d false r a := by
  have hpos : ∀ m, n = some m → 0 < m := by
    intro m hm; subst hm
    cases hl with
    | count j => omega
  have hlast : ∀ m : Nat, n' = some 0 → n = some 1 := by
    intro _ h0; subst h0
    cases hl
    rfl
  obtain ⟨p, s, c⟩ := e
  simp only at he
  subst he
  cases p with
  | true =>
    have hE := Ends.paused (tick := tick) (n := n) (d := d) 0 d d1 _ hpos (.zero _) h rfl rfl
    simp only [FinB, if_true] at hf
    rcases hf with ⟨rfl, rfl⟩ | ⟨h0, rfl, rfl⟩
    · exact .paused _ _ _ hE
    · exact .pausedRace d1 s (by simpa [hlast 0 h0] using hE)
  | false =>
    simp only [FinB, Bool.false_eq_true, if_false] at hf
    cases s with
    | true =>
      have hE := Ends.stopped (tick := tick) (n := n) (d := d) 0 d d1 _ hpos (.zero _) h rfl rfl rfl
      cases hf with
      | pending => exact .stopped _ _ hE
      | pendingRace h0 => exact .stoppedRace d1 (by simpa [hlast 0 h0] using hE)
    | false =>
      cases hf with
      | done d' hx => exact .done _ (ends_cons h hl hx)
      | paused d' s l hx => exact .paused _ _ _ (ends_cons h hl hx)
      | pausedRace d' s hx => exact .pausedRace _ _ (ends_cons h hl hx)
      | stopped d' l hx => exact .stopped _ _ (ends_cons h hl hx)
      | stoppedRace d' hx => exact .stoppedRace _ (ends_cons h hl hx)
      | raised c hx => exact .raised _ (ends_cons h hl hx)

/-! ## What the service can be doing -/

/-- Nothing to do, with a stop pending or not. -/
def Quiet (d : D) (ps : Bool) (s : Svc D) : Prop := s = ⟨.idle, [], [], d, false, false, false, ps, 0⟩

/-- DONE, if the request came in the last step. -/
def extra (last : Bool) : List (Rsp D) := if last then [.done] else []

/-- In a run of `n` steps from `d`. -/
inductive RunPh (tick : D → Option (D × Ev)) (n : Option Nat) (d : D) (ps : Bool) (s : Svc D) : Prop where
  | todo : s = ⟨.idle, [.run n], [], d, false, false, false, ps, 0⟩ → RunPh tick n d ps s
  | busy (left x rp rs) : s = ⟨.busy left, [], [], x, false, false, rp, rs, 0⟩ → (∀ r a, FinB tick left x rp rs r a → Fin tick n d ps r a) → RunPh tick n d ps s
  | done (x) : s = ⟨.idle, [], [.done], x, false, false, false, false, 0⟩ → Fin tick n d ps (.returned [x]) (some (.idle x false true)) → RunPh tick n d ps s
  | pause (x rs last) : s = ⟨.idle, [], .reqPause :: extra last, x, false, false, false, rs, 0⟩ → Fin tick n d ps (.returned [x]) (some (.idle x rs true)) →
      (last = true → Fin tick n d ps .protocol none) → RunPh tick n d ps s
  | stop (x last) : s = ⟨.idle, [], .reqStop :: extra last, x, false, false, false, false, 0⟩ → Fin tick n d ps .stopped (some .over) →
      (last = true → Fin tick n d ps .protocol none) → RunPh tick n d ps s
  | raised (x c rp rs) : s = ⟨.dead, [], [.error], x, false, false, rp, rs, c⟩ → Fin tick n d ps (.raised c) (some .broken) → RunPh tick n d ps s

theorem run_step (tick : D → Option (D × Ev)) (n : Option Nat) (d : D) (ps : Bool) (s y : Svc D) (h : RunPh tick n d ps s) (hs : svcStep tick s = some y) :
    RunPh tick n d ps y := by
  cases h with
  | todo h =>
    subst h
    simp only [svcStep, Option.some.injEq] at hs
    subst hs
    exact .busy n d false ps rfl fun r a hf => by simpa [FinB] using hf
  | busy left x rp rs h hf =>
    subst h
    cases rp with
    | true =>
      simp only [svcStep, if_true, Option.some.injEq] at hs
      subst hs
      refine .pause x rs (left = some 0) ?_ (hf _ _ (by simp [FinB])) (fun h0 => hf _ _ (by simpa [FinB] using h0))
      simp [doneMsg, extra]
    | false =>
      cases rs with
      | true =>
        simp only [svcStep, Bool.false_eq_true, if_false, if_true, Option.some.injEq] at hs
        subst hs
        refine .stop x (left = some 0) ?_ (hf _ _ (by simpa [FinB] using Fin.pending)) (fun h0 => hf _ _ (by
          simp only [FinB, Bool.false_eq_true, if_false]
          exact .pendingRace (by simpa using h0)))
        simp [doneMsg, extra]
      | false =>
        have key : ∀ left', Less left left' → ∀ q : D × Ev, tick x = some q → RunPh tick n d ps (timeStep ⟨.busy left, [], [], x, false, false, false, false, 0⟩ left' q) := by
          rintro left' hl ⟨x', e⟩ hq
          by_cases he : e.errs = 0
          · have : timeStep (⟨.busy left, [], [], x, false, false, false, false, 0⟩ : Svc D) left' (x', e) = ⟨.busy left', [], [], x', false, false, e.pause, e.stop, 0⟩ := by
              simp [timeStep, he, probe]
            rw [this]
            exact .busy left' x' e.pause e.stop rfl fun r a hb => hf r a (by
              simp only [FinB, Bool.false_eq_true, if_false]
              exact fin_cons hq he hl hb)
          · have : timeStep (⟨.busy left, [], [], x, false, false, false, false, 0⟩ : Svc D) left' (x', e) = ⟨.dead, [], [.error], x', false, false, false, false, e.errs⟩ := by
              simp [timeStep, he]
            rw [this]
            refine .raised x' e.errs false false rfl (hf _ _ ?_)
            simp only [FinB, Bool.false_eq_true, if_false]
            exact .raised _ (.raised 0 x x' e (by
              intro m hm; subst hm
              cases hl with
              | count j => omega) (.zero _) hq he)
        cases left with
        | none =>
          simp only [svcStep, Bool.false_eq_true, if_false] at hs
          obtain ⟨q, hq, rfl⟩ := Option.map_eq_some_iff.1 hs
          exact key none .endless q hq
        | some k =>
          cases k with
          | zero =>
            simp only [svcStep, Bool.false_eq_true, if_false, Option.some.injEq] at hs
            subst hs
            refine .done x ?_ (hf _ _ ?_)
            · simp [doneMsg, probe]
            · simp only [FinB, Bool.false_eq_true, if_false]
              exact .done _ (.done 0 _ rfl (.zero _))
          | succ k =>
            simp only [svcStep, Bool.false_eq_true, if_false] at hs
            obtain ⟨q, hq, rfl⟩ := Option.map_eq_some_iff.1 hs
            exact key (some k) (.count k) q hq
  | done x h hf => subst h; simp [svcStep] at hs
  | pause x rs last h hf hl => subst h; simp [svcStep] at hs
  | stop x last h hf hl => subst h; simp [svcStep] at hs
  | raised x c rp rs h hf => subst h; simp [svcStep] at hs

/-- On the way to a pause, `X` is still in the channel to the host. -/
inductive PausePh (x : D) (rs : Bool) (X : List (Rsp D)) (s : Svc D) : Prop where
  | todo : s = ⟨.idle, [.pause], X, x, false, false, false, rs, 0⟩ → PausePh x rs X s
  | done : s = ⟨.idle, [], X ++ [.paused], x, false, false, false, rs, 0⟩ → PausePh x rs X s

theorem pause_step (tick : D → Option (D × Ev)) (x : D) (rs : Bool) (X : List (Rsp D)) (s y : Svc D) (h : PausePh x rs X s) (hs : svcStep tick s = some y) :
    PausePh x rs X y := by
  cases h with
  | todo h => subst h; simp only [svcStep, Option.some.injEq] at hs; subst hs; exact .done rfl
  | done h => subst h; simp [svcStep] at hs

/-- On the way to the end. -/
inductive StopPh (X : List (Rsp D)) (s : Svc D) : Prop where
  | todo (x rs) : s = ⟨.idle, [.stop], X, x, false, false, false, rs, 0⟩ → StopPh X s
  | done (x rs) : s = ⟨.dead, [], X ++ [.terminated], x, false, false, false, rs, 0⟩ → StopPh X s

theorem stop_step (tick : D → Option (D × Ev)) (X : List (Rsp D)) (s y : Svc D) (h : StopPh X s) (hs : svcStep tick s = some y) : StopPh X y := by
  cases h with
  | todo x rs h => subst h; simp only [svcStep, Option.some.injEq] at hs; subst hs; exact .done _ _ rfl
  | done x rs h => subst h; simp [svcStep] at hs

inductive ValPh (x : D) (ps : Bool) (s : Svc D) : Prop where
  | todo : s = ⟨.idle, [.get], [], x, false, false, false, ps, 0⟩ → ValPh x ps s
  | done : s = ⟨.idle, [], [.val x], x, false, false, false, ps, 0⟩ → ValPh x ps s

theorem val_step (tick : D → Option (D × Ev)) (x : D) (ps : Bool) (s y : Svc D) (h : ValPh x ps s) (hs : svcStep tick s = some y) : ValPh x ps y := by
  cases h with
  | todo h => subst h; simp only [svcStep, Option.some.injEq] at hs; subst hs; exact .done rfl
  | done h => subst h; simp [svcStep] at hs

inductive SetPh (x : D) (ps : Bool) (s : Svc D) : Prop where
  | todo (d) : s = ⟨.idle, [.set x], [], d, false, false, false, ps, 0⟩ → SetPh x ps s
  | done : s = ⟨.idle, [], [.setComplete], x, false, false, false, ps, 0⟩ → SetPh x ps s

theorem set_step (tick : D → Option (D × Ev)) (x : D) (ps : Bool) (s y : Svc D) (h : SetPh x ps s) (hs : svcStep tick s = some y) : SetPh x ps y := by
  cases h with
  | todo d h => subst h; simp only [svcStep, Option.some.injEq] at hs; subst hs; exact .done rfl
  | done h => subst h; simp [svcStep] at hs

/-- Ended, and all its responses received. -/
def Gone (s : Svc D) : Prop := s.mode = .dead ∧ s.outq = []

theorem gone_push (s : Svc D) (c : Cmd D) (h : Gone s) : Gone (push s c) := h

theorem dead_step (tick : D → Option (D × Ev)) (s : Svc D) (h : s.mode = .dead) : svcStep tick s = none := by simp [svcStep, h]

/-! ## The invariant -/

/-- The results up to now, continued from situation `a`, are allowed (`G`). -/
def Tail (tick : D → Option (D × Ev)) (G : List (Res D) → Prop) (a : Abs D) (p : List (Call D)) (l : List (Res D)) : Prop :=
  ∀ rs, Ref tick a p rs → G (l ++ rs)

/-- The results up to now, continued with the results of a run, are allowed. -/
def TailRun (tick : D → Option (D × Ev)) (G : List (Res D) → Prop) (n : Option Nat) (d : D) (ps : Bool) (p : List (Call D)) (l : List (Res D)) : Prop :=
  G l ∧ (∀ r a, Fin tick n d ps r (some a) → Tail tick G a p (l ++ [r])) ∧ (Fin tick n d ps .protocol none → G (l ++ [.protocol]))

/-- The call in progress is a run or wait that will return `r` and lead to `a`, or fail if `last`. -/
def TailReq (tick : D → Option (D × Ev)) (G : List (Res D) → Prop) (r : Res D) (a : Abs D) (last : Bool) (p : List (Call D)) (l : List (Res D)) : Prop :=
  G l ∧ Tail tick G a p (l ++ [r]) ∧ (last = true → G (l ++ [.protocol]))

/-- The network has been stopped or has failed, and the user was told. -/
def Ended (l : List (Res D)) : Prop := .stopped ∈ l ∨ ∃ c, .raised c ∈ l

theorem Ended.more {l : List (Res D)} (h : Ended l) (r : Res D) : Ended (l ++ [r]) := by
  rcases h with h | ⟨c, h⟩
  · exact Or.inl (List.mem_append_left _ h)
  · exact Or.inr ⟨c, List.mem_append_left _ h⟩

inductive HInv (tick : D → Option (D × Ev)) (G : List (Res D) → Prop) : Pc → List (Call D) → Bool → Bool → List (Res D) → Svc D → Prop where
  | idle (d ps p st l s) : Proper false p → Tail tick G (.idle d ps st) p l → Quiet d ps s → HInv tick G .ready p false st l s
  | going (n d ps p l s) : Proper true p → Tail tick G (.going n d ps) p l → RunPh tick n d ps s → HInv tick G .ready p true true l s
  | over (p l s) (g : Bool) : Ended l → Proper g p → Tail tick G .over p l → Gone s → HInv tick G .ready p false false l s
  | broken (p l s) (g : Bool) : Ended l → Proper g p → Tail tick G .broken p l → Gone s → HInv tick G .ready p true true l s
  | send (n d ps p l s) : Proper false p → TailRun tick G n d ps p l → Quiet d ps s → HInv tick G (.sendRun n true 0) p true true l s
  | sent (n d ps p l s) : Proper false p → TailRun tick G n d ps p l → RunPh tick n d ps s → HInv tick G (.sendRun n true 1) p true true l s
  | collect (n d ps p l s) : Proper false p → TailRun tick G n d ps p l → RunPh tick n d ps s → HInv tick G (.collect 0) p true true l s
  | sendN (n d ps p l s) : Proper true p → G l → Tail tick G (.going n d ps) p (l ++ [.started]) → Quiet d ps s →
      HInv tick G (.sendRun n false 0) p true true l s
  | sentN (n d ps p l s) : Proper true p → G l → Tail tick G (.going n d ps) p (l ++ [.started]) → RunPh tick n d ps s →
      HInv tick G (.sendRun n false 1) p true true l s
  | sendG (n i p l s) : Ended l → G l → Gone s → HInv tick G (.sendRun n true i) p true true l s
  | sendGN (n i p l s) : Ended l → Proper true p → G l → Tail tick G .broken p (l ++ [.started]) → Gone s → HInv tick G (.sendRun n false i) p true true l s
  | collectG (p l s) : Ended l → G l → Gone s → HInv tick G (.collect 0) p true true l s
  | pauseG (i p l s) : Ended l → G l → Gone s → HInv tick G (.sendPause i) p true true l s
  | pauseRG (p l s) : Ended l → G l → Gone s → HInv tick G (.pauseRecv 0) p true true l s
  | stopG (i p l s) : Ended l → G l → Gone s → HInv tick G (.sendStop i) p true true l s
  | stopRG (p l s) : Ended l → G l → Gone s → HInv tick G (.stopRecv 0) p true true l s
  | pause0 (x rs last p l s) : Proper false p → TailReq tick G (.returned [x]) (.idle x rs true) last p l → s = ⟨.idle, [], extra last, x, false, false, false, rs, 0⟩ →
      HInv tick G (.sendPause 0) p true true l s
  | pause1 (x rs last p l s) : Proper false p → TailReq tick G (.returned [x]) (.idle x rs true) last p l → PausePh x rs (extra last) s →
      HInv tick G (.sendPause 1) p true true l s
  | pauseR (x rs last p l s) : Proper false p → TailReq tick G (.returned [x]) (.idle x rs true) last p l → PausePh x rs (extra last) s →
      HInv tick G (.pauseRecv 0) p true true l s
  | pauseP (x rs p l s) : Proper false p → TailReq tick G (.returned [x]) (.idle x rs true) true p l → PausePh x rs [] s →
      HInv tick G (.pauseProbe 0) p true true l s
  | pauseD (x rs last p l s) : Proper false p → TailReq tick G (.returned [x]) (.idle x rs true) last p l → Quiet x rs s →
      HInv tick G (.pauseRecv 1) p true true l s
  | stop0 (x rs last p r l s) : Proper false p → TailReq tick G .stopped .over last p l → s = ⟨.idle, [], extra last, x, false, false, false, rs, 0⟩ →
      HInv tick G (.sendStop 0) p r true l s
  | stop1 (last p r l s) : Proper false p → TailReq tick G .stopped .over last p l → StopPh (extra last) s → HInv tick G (.sendStop 1) p r true l s
  | stopR (last p r l s) : Proper false p → TailReq tick G .stopped .over last p l → StopPh (extra last) s → HInv tick G (.stopRecv 0) p r true l s
  | stopP (p r l s) : Proper false p → TailReq tick G .stopped .over true p l → StopPh [] s → HInv tick G (.stopProbe 0) p r true l s
  | stopD (p r l s) : Proper false p → TailReq tick G .stopped .over false p l → Gone s → HInv tick G (.stopRecv 1) p r true l s
  | join (p r st l s) (g : Bool) : Proper g p → TailReq tick G .stopped .over false p l → Gone s → HInv tick G .joining p r st l s
  | joinNever (d ps p r st l s) : st = false → G l → Quiet d ps s → HInv tick G .joining p r st l s
  | joinErr (c p l s) : Proper false p → G l → Tail tick G .broken p (l ++ [.raised c]) → Gone s → s.errs = c → HInv tick G .joinErr p true true l s
  | val (x ps p l s) : Proper false p → G l → Tail tick G (.idle x ps true) p (l ++ [.value x]) → ValPh x ps s → HInv tick G (.awaitVal 0) p false true l s
  | set (x ps p l s) : Proper false p → G l → Tail tick G (.idle x ps true) p (l ++ [.setOk]) → SetPh x ps s → HInv tick G (.awaitSet 0) p false true l s
  | failed (p r st l s) : G (l ++ [.protocol]) → HInv tick G .failed p r st (l ++ [.protocol]) s

def Inv (tick : D → Option (D × Ev)) (G : List (Res D) → Prop) (s : St D) : Prop := HInv tick G s.pc s.prog s.running s.started s.log (s.svc 0)

theorem tail_self {tick : D → Option (D × Ev)} {G : List (Res D) → Prop} {a : Abs D} {p : List (Call D)} {l : List (Res D)} (h : Tail tick G a p l) : G l := by
  simpa using h [] (.nil _ _)

theorem quiet_step (tick : D → Option (D × Ev)) (d : D) (ps : Bool) (s : Svc D) (h : Quiet d ps s) : svcStep tick s = none := by
  simp only [Quiet] at h
  subst h
  rfl

theorem inv_svc (tick : D → Option (D × Ev)) (G : List (Res D) → Prop) (pc : Pc) (p : List (Call D)) (r st : Bool) (l : List (Res D)) (s y : Svc D)
    (h : HInv tick G pc p r st l s) (hs : svcStep tick s = some y) : HInv tick G pc p r st l y := by
  have hG : ∀ {P : Prop}, Gone s → P := fun hg => by rw [dead_step tick s hg.1] at hs; simp at hs
  have hQ : ∀ {P : Prop} {d : D} {ps : Bool}, Quiet d ps s → P := fun hg => by rw [quiet_step tick _ _ s hg] at hs; simp at hs
  cases h with
  | idle d ps _ _ _ _ hp ht hq => exact hQ hq
  | going n d ps _ _ _ hp ht hq => exact .going n d ps _ _ _ hp ht (run_step tick n d ps s y hq hs)
  | over _ _ _ g hE hp ht hq => exact hG hq
  | broken _ _ _ g hE hp ht hq => exact hG hq
  | send n d ps _ _ _ hp ht hq => exact hQ hq
  | sent n d ps _ _ _ hp ht hq => exact .sent n d ps _ _ _ hp ht (run_step tick n d ps s y hq hs)
  | collect n d ps _ _ _ hp ht hq => exact .collect n d ps _ _ _ hp ht (run_step tick n d ps s y hq hs)
  | sendN n d ps _ _ _ hp hg ht hq => exact hQ hq
  | sentN n d ps _ _ _ hp hg ht hq => exact .sentN n d ps _ _ _ hp hg ht (run_step tick n d ps s y hq hs)
  | sendG n i _ _ _ hE hg hq => exact hG hq
  | sendGN n i _ _ _ hE hp hg ht hq => exact hG hq
  | collectG _ _ _ hE hg hq => exact hG hq
  | pauseG i _ _ _ hE hg hq => exact hG hq
  | pauseRG _ _ _ hE hg hq => exact hG hq
  | stopG i _ _ _ hE hg hq => exact hG hq
  | stopRG _ _ _ hE hg hq => exact hG hq
  | pause0 x rs last _ _ _ hp ht hq => subst hq; simp [svcStep] at hs
  | pause1 x rs last _ _ _ hp ht hq => exact .pause1 x rs last _ _ _ hp ht (pause_step tick _ _ _ s y hq hs)
  | pauseR x rs last _ _ _ hp ht hq => exact .pauseR x rs last _ _ _ hp ht (pause_step tick _ _ _ s y hq hs)
  | pauseP x rs _ _ _ hp ht hq => exact .pauseP x rs _ _ _ hp ht (pause_step tick _ _ _ s y hq hs)
  | pauseD x rs last _ _ _ hp ht hq => exact hQ hq
  | stop0 x rs last _ _ _ _ hp ht hq => subst hq; simp [svcStep] at hs
  | stop1 last _ _ _ _ hp ht hq => exact .stop1 last _ _ _ _ hp ht (stop_step tick _ s y hq hs)
  | stopR last _ _ _ _ hp ht hq => exact .stopR last _ _ _ _ hp ht (stop_step tick _ s y hq hs)
  | stopP _ _ _ _ hp ht hq => exact .stopP _ _ _ _ hp ht (stop_step tick _ s y hq hs)
  | stopD _ _ _ _ hp ht hq => exact hG hq
  | join _ _ _ _ _ g hp ht hq => exact hG hq
  | joinNever d ps _ _ _ _ _ _ hg hq => exact hQ hq
  | joinErr c _ _ _ hp hg ht hq hc => exact hG hq
  | val x ps _ _ _ hp hg ht hq => exact .val x ps _ _ _ hp hg ht (val_step tick _ _ s y hq hs)
  | set x ps _ _ _ hp hg ht hq => exact .set x ps _ _ _ hp hg ht (set_step tick _ _ s y hq hs)
  | failed _ _ _ l _ hg => exact .failed _ _ _ l _ hg

/-- A result that follows from the situation. -/
theorem tail_cons {tick : D → Option (D × Ev)} {G : List (Res D) → Prop} {a a' : Abs D} {p p' : List (Call D)} {l : List (Res D)} {r : Res D} (h : Tail tick G a p l)
    (hr : ∀ rs, Ref tick a' p' rs → Ref tick a p (r :: rs)) : Tail tick G a' p' (l ++ [r]) := by
  intro rs hrs
  simpa using h _ (hr rs hrs)

theorem tail_run {tick : D → Option (D × Ev)} {G : List (Res D) → Prop} {n : Option Nat} {d : D} {ps : Bool} {a : Abs D} {p q : List (Call D)} {l : List (Res D)}
    (h : Tail tick G a q l) (h1 : ∀ r b rs, Fin tick n d ps r (some b) → Ref tick b p rs → Ref tick a q (r :: rs))
    (h2 : Fin tick n d ps .protocol none → Ref tick a q [.protocol]) : TailRun tick G n d ps p l :=
  ⟨tail_self h, fun r b hf => tail_cons h fun rs hrs => h1 r b rs hf hrs, fun hf => h _ (h2 hf)⟩

theorem inv_call (tick : D → Option (D × Ev)) (G : List (Res D) → Prop) (svc : Nat → Svc D) (c : Call D) (p : List (Call D)) (r st : Bool) (l : List (Res D))
    (h : HInv tick G .ready (c :: p) r st l (svc 0)) : Inv tick G (call c ⟨svc, p, .ready, r, st, l⟩) := by
  cases h with
  | idle d ps _ _ _ _ hp ht hq =>
    cases c with
    | run n b =>
      obtain ⟨_, hp⟩ := hp
      cases b with
      | true => exact .send (some n) d ps _ _ _ hp (tail_run ht (fun r b rs hf hr => .run d ps _ n p r b rs hf hr) (fun hf => .runFail d ps _ n p hf)) hq
      | false => exact .sendN (some n) d ps _ _ _ hp (tail_self ht) (tail_cons ht fun rs hr => .start d ps _ n p rs hr) hq
    | cont =>
      obtain ⟨_, hp⟩ := hp
      exact .sendN none d ps _ _ _ hp (tail_self ht) (tail_cons ht fun rs hr => .cont d ps _ p rs hr) hq
    | wait => exact .idle d ps _ _ _ _ hp (tail_cons ht fun rs hr => .waitIdle d ps _ p rs hr) hq
    | pause => exact .idle d ps _ _ _ _ hp.2 (tail_cons ht fun rs hr => .pauseIdle d ps _ p rs hr) hq
    | get i =>
      obtain ⟨rfl, hp⟩ := hp
      cases st with
      | true =>
        simp only [Quiet] at hq
        refine HInv.val (p := p) d ps _ _ hp (tail_self ht) (tail_cons ht fun rs hr => by simpa using Ref.get d ps true p rs hr) (.todo ?_)
        show upd svc 0 (push (svc 0) .get) 0 = _
        rw [upd_self, hq]
        rfl
      | false => exact .idle d ps _ _ _ _ hp (tail_cons ht fun rs hr => by simpa using Ref.get d ps false p rs hr) hq
    | set i v =>
      obtain ⟨rfl, hp⟩ := hp
      cases st with
      | true =>
        simp only [Quiet] at hq
        refine HInv.set (p := p) v ps _ _ hp (tail_self ht) (tail_cons ht fun rs hr => by simpa using Ref.set d ps true v p rs hr) (.todo d ?_)
        show upd svc 0 (push (svc 0) (.set v)) 0 = _
        rw [upd_self, hq]
        rfl
      | false => exact HInv.idle (p := p) d ps _ _ _ hp (tail_cons ht fun rs hr => by simpa using Ref.set d ps false v p rs hr) hq
    | stop =>
      cases st with
      | true =>
        refine .stop0 d ps false _ _ _ _ hp.2 ⟨tail_self ht, tail_cons ht fun rs hr => .stop d ps p rs hr, by simp⟩ hq
      | false => exact .joinNever d ps _ _ _ _ _ rfl (tail_self ht) hq
  | going n d ps _ _ _ hp ht hq =>
    cases c with
    | run n b => simp [Proper] at hp
    | cont => simp [Proper] at hp
    | wait => exact .collect n d ps _ _ _ hp (tail_run ht (fun r b rs hf hr => .wait n d ps p r b rs hf hr) (fun hf => .waitFail n d ps p hf)) hq
    | pause => simp [Proper] at hp
    | get i =>
      obtain ⟨rfl, hp⟩ := hp
      exact .going n d ps _ _ _ hp (tail_cons ht fun rs hr => .getGoing n d ps p rs hr) hq
    | set i v =>
      obtain ⟨rfl, hp⟩ := hp
      exact .going n d ps _ _ _ hp (tail_cons ht fun rs hr => .setGoing n d ps v p rs hr) hq
    | stop => simp [Proper] at hp
  | over _ _ _ g hE hp ht hq =>
    cases c with
    | run n b =>
      cases b with
      | true => exact .sendG (some n) 0 _ _ _ hE (tail_self ht) hq
      | false => exact .sendGN (some n) 0 _ _ _ hE hp.2 (tail_self ht) (tail_cons ht fun rs hr => .overStart n p rs hr) hq
    | cont => exact .sendGN none 0 _ _ _ hE hp.2 (tail_self ht) (tail_cons ht fun rs hr => .overCont p rs hr) hq
    | wait => exact .over _ _ _ _ (hE.more _) hp (tail_cons ht fun rs hr => .overWait p rs hr) hq
    | pause => exact .over _ _ _ _ (hE.more _) hp.2 (tail_cons ht fun rs hr => .overPause p rs hr) hq
    | get i =>
      obtain ⟨rfl, hp⟩ := hp
      exact .over _ _ _ _ (hE.more _) hp (tail_cons ht fun rs hr => .overGet p rs hr) hq
    | set i v =>
      obtain ⟨rfl, hp⟩ := hp
      exact .over _ _ _ _ (hE.more _) hp (tail_cons ht fun rs hr => .overSet v p rs hr) hq
    | stop => exact .join _ _ _ _ _ false hp.2 ⟨tail_self ht, tail_cons ht fun rs hr => .overStop p rs hr, by simp⟩ hq
  | broken _ _ _ g hE hp ht hq =>
    cases c with
    | run n b =>
      cases b with
      | true => exact .sendG (some n) 0 _ _ _ hE (tail_self ht) hq
      | false => exact .sendGN (some n) 0 _ _ _ hE hp.2 (tail_self ht) (tail_cons ht fun rs hr => .brokenStart n p rs hr) hq
    | cont => exact .sendGN none 0 _ _ _ hE hp.2 (tail_self ht) (tail_cons ht fun rs hr => .brokenCont p rs hr) hq
    | wait => exact .collectG _ _ _ hE (tail_self ht) hq
    | pause => exact .pauseG 0 _ _ _ hE (tail_self ht) hq
    | get i =>
      obtain ⟨rfl, hp⟩ := hp
      exact .broken _ _ _ _ (hE.more _) hp (tail_cons ht fun rs hr => .brokenGet p rs hr) hq
    | set i v =>
      obtain ⟨rfl, hp⟩ := hp
      exact .broken _ _ _ _ (hE.more _) hp (tail_cons ht fun rs hr => .brokenSet v p rs hr) hq
    | stop => exact .stopG 0 _ _ _ hE (tail_self ht) hq

theorem extra_true : (extra true : List (Rsp D)) = [.done] := rfl
theorem extra_false : (extra false : List (Rsp D)) = [] := rfl

theorem inv_host (tick : D → Option (D × Ev)) (G : List (Res D) → Prop) (s a : St D) (j : Nat) (h : Inv tick G s) (hs : hostStep 1 s j = some a) : Inv tick G a := by
  obtain ⟨svc, prog, pc, r, st, log⟩ := s
  simp only [Inv] at h
  have hd : ∀ f : Nat → Svc D, datas 1 f = [(f 0).d] := fun f => rfl
  have hne : ∀ j, j < 1 → j = 0 := fun j h => by omega
  generalize hx : svc 0 = x at h
  cases h with
  | idle d ps p st l s hp ht hq =>
    cases prog with
    | nil => simp [hostStep] at hs
    | cons c p =>
      simp only [hostStep, Option.some.injEq] at hs
      subst hs
      exact inv_call tick G svc c p false st log (hx ▸ .idle d ps _ _ _ _ hp ht hq)
  | going n d ps p l s hp ht hq =>
    cases prog with
    | nil => simp [hostStep] at hs
    | cons c p =>
      simp only [hostStep, Option.some.injEq] at hs
      subst hs
      exact inv_call tick G svc c p true true log (hx ▸ .going n d ps _ _ _ hp ht hq)
  | over p l s g hE hp ht hq =>
    cases prog with
    | nil => simp [hostStep] at hs
    | cons c p =>
      simp only [hostStep, Option.some.injEq] at hs
      subst hs
      exact inv_call tick G svc c p false false log (hx ▸ .over _ _ _ g hE hp ht hq)
  | broken p l s g hE hp ht hq =>
    cases prog with
    | nil => simp [hostStep] at hs
    | cons c p =>
      simp only [hostStep, Option.some.injEq] at hs
      subst hs
      exact inv_call tick G svc c p true true log (hx ▸ .broken _ _ _ g hE hp ht hq)
  | send n d ps p l s hp ht hq =>
    simp only [hostStep, Nat.zero_lt_one, if_true, Option.some.injEq] at hs
    subst hs
    refine .sent n d ps _ _ _ hp ht (.todo ?_)
    simp only [Quiet] at hq
    simp only [upd_self, hx, hq]
    rfl
  | sent n d ps p l s hp ht hq =>
    simp only [hostStep, Nat.lt_irrefl, if_false, if_true, Option.some.injEq] at hs
    subst hs
    exact .collect n d ps _ _ _ hp ht (by show RunPh tick n d ps (svc 0); rw [hx]; exact hq)
  | collect n d ps p l s hp ht hq =>
    simp only [hostStep] at hs
    by_cases hj : j < 1
    · obtain rfl := hne j hj
      rw [if_pos hj, hx] at hs
      obtain ⟨h1, h2, h3⟩ := ht
      cases hq with
      | todo h => subst h; simp at hs
      | busy left x rp rs h hf => subst h; simp at hs
      | done x h hf =>
        subst h
        simp only [if_true, Option.some.injEq, pop, St.ret, hd, upd_self, hx] at hs
        subst hs
        refine .idle x false _ _ _ _ hp (h2 _ _ hf) ?_
        simp only [upd_self]
        rfl
      | pause x rs last h hf hl =>
        subst h
        simp only [Option.some.injEq, pop, hx] at hs
        subst hs
        refine .pause0 x rs last _ _ _ hp ⟨h1, h2 _ _ hf, fun h => h3 (hl h)⟩ ?_
        simp only [upd_self]
      | stop x last h hf hl =>
        subst h
        simp only [Option.some.injEq, pop, hx] at hs
        subst hs
        refine .stop0 x false last _ _ _ _ hp ⟨h1, h2 _ _ hf, fun h => h3 (hl h)⟩ ?_
        simp only [upd_self]
      | raised x c rp rs h hf =>
        subst h
        simp only [Option.some.injEq, pop, hx] at hs
        subst hs
        refine .joinErr c _ _ _ hp h1 (h2 _ _ hf) ?_ ?_
        · simp only [upd_self]; exact ⟨rfl, rfl⟩
        · simp only [upd_self]
    · rw [if_neg hj] at hs
      simp at hs
  | sendN n d ps p l s hp hg ht hq =>
    simp only [hostStep, Nat.zero_lt_one, if_true, Option.some.injEq] at hs
    subst hs
    refine .sentN n d ps _ _ _ hp hg ht (.todo ?_)
    simp only [Quiet] at hq
    simp only [upd_self, hx, hq]
    rfl
  | sentN n d ps p l s hp hg ht hq =>
    simp only [hostStep, Nat.lt_irrefl, if_false, Bool.false_eq_true, Option.some.injEq] at hs
    subst hs
    exact .going n d ps _ _ _ hp ht (by show RunPh tick n d ps (svc 0); rw [hx]; exact hq)
  | sendG n i p l s hE hg hq =>
    simp only [hostStep] at hs
    split at hs
    · rename_i hi
      obtain rfl := hne i hi
      simp only [Option.some.injEq] at hs
      subst hs
      exact .sendG n 1 _ _ _ hE hg (by simp only [upd_self, hx]; exact gone_push _ _ hq)
    · simp only [if_true, Option.some.injEq] at hs
      subst hs
      exact .collectG _ _ _ hE hg (by show Gone (svc 0); rw [hx]; exact hq)
  | sendGN n i p l s hE hp hg ht hq =>
    simp only [hostStep] at hs
    split at hs
    · rename_i hi
      obtain rfl := hne i hi
      simp only [Option.some.injEq] at hs
      subst hs
      exact .sendGN n 1 _ _ _ hE hp hg ht (by simp only [upd_self, hx]; exact gone_push _ _ hq)
    · simp only [Bool.false_eq_true, if_false, Option.some.injEq] at hs
      subst hs
      exact .broken _ _ _ true (hE.more _) hp ht (by show Gone (svc 0); rw [hx]; exact hq)
  | collectG p l s hE hg hq =>
    simp only [hostStep] at hs
    split at hs
    · rename_i hi
      obtain rfl := hne j hi
      rw [hx, hq.2] at hs
      simp at hs
    · simp at hs
  | pauseG i p l s hE hg hq =>
    simp only [hostStep] at hs
    split at hs
    · rename_i hi
      obtain rfl := hne i hi
      simp only [Option.some.injEq] at hs
      subst hs
      exact .pauseG 1 _ _ _ hE hg (by simp only [upd_self, hx]; exact gone_push _ _ hq)
    · simp only [Option.some.injEq] at hs
      subst hs
      exact .pauseRG _ _ _ hE hg (by show Gone (svc 0); rw [hx]; exact hq)
  | pauseRG p l s hE hg hq =>
    simp only [hostStep, Nat.zero_lt_one, if_true] at hs
    rw [hx, hq.2] at hs
    simp at hs
  | stopG i p l s hE hg hq =>
    simp only [hostStep] at hs
    split at hs
    · rename_i hi
      obtain rfl := hne i hi
      simp only [Option.some.injEq] at hs
      subst hs
      exact .stopG 1 _ _ _ hE hg (by simp only [upd_self, hx]; exact gone_push _ _ hq)
    · simp only [Option.some.injEq] at hs
      subst hs
      exact .stopRG _ _ _ hE hg (by show Gone (svc 0); rw [hx]; exact hq)
  | stopRG p l s hE hg hq =>
    simp only [hostStep, Nat.zero_lt_one, if_true] at hs
    rw [hx, hq.2] at hs
    simp at hs
  | pause0 x rs last p l s hp ht hq =>
    simp only [hostStep, Nat.zero_lt_one, if_true, Option.some.injEq] at hs
    subst hs
    refine .pause1 x rs last _ _ _ hp ht (.todo ?_)
    simp only [upd_self, hx, hq]
    rfl
  | pause1 x rs last p l s hp ht hq =>
    simp only [hostStep, Nat.lt_irrefl, if_false, Option.some.injEq] at hs
    subst hs
    exact .pauseR x rs last _ _ _ hp ht (by show PausePh x rs (extra last) (svc 0); rw [hx]; exact hq)
  | pauseR x rs last p l s hp ht hq =>
    simp only [hostStep, Nat.zero_lt_one, if_true, hx] at hs
    cases last with
    | true =>
      cases hq with
      | todo h =>
        subst h
        simp only [extra_true, Option.some.injEq, pop, hx] at hs
        subst hs
        refine .pauseP x rs _ _ _ hp ht (.todo ?_)
        simp only [upd_self]
      | done h =>
        subst h
        simp only [extra_true, List.singleton_append, Option.some.injEq, pop, hx] at hs
        subst hs
        refine .pauseP x rs _ _ _ hp ht (.done ?_)
        simp only [upd_self, List.nil_append]
    | false =>
      cases hq with
      | todo h => subst h; simp [extra_false] at hs
      | done h =>
        subst h
        simp only [extra_false, List.nil_append, Option.some.injEq, pop, hx] at hs
        subst hs
        refine .pauseD x rs false _ _ _ hp ht ?_
        simp only [upd_self]
        rfl
  | pauseP x rs p l s hp ht hq =>
    simp only [hostStep, hx] at hs
    cases hq with
    | todo h =>
      subst h
      simp only [Option.some.injEq, St.fail] at hs
      subst hs
      exact .failed _ _ _ log _ (ht.2.2 rfl)
    | done h =>
      subst h
      simp only [List.nil_append, Option.some.injEq, pop, hx] at hs
      subst hs
      refine .pauseD x rs true _ _ _ hp ht ?_
      simp only [upd_self]
      rfl
  | pauseD x rs last p l s hp ht hq =>
    simp only [hostStep, Nat.lt_irrefl, if_false, Option.some.injEq, St.ret, hd, hx] at hs
    subst hs
    simp only [Quiet] at hq
    refine .idle x rs _ _ _ _ hp ?_ (by show Quiet x rs (svc 0); rw [hx]; exact hq)
    rw [hq]
    exact ht.2.1
  | stop0 x rs last p r l s hp ht hq =>
    simp only [hostStep, Nat.zero_lt_one, if_true, Option.some.injEq] at hs
    subst hs
    refine .stop1 last _ _ _ _ hp ht (.todo x rs ?_)
    simp only [upd_self, hx, hq]
    rfl
  | stop1 last p r l s hp ht hq =>
    simp only [hostStep, Nat.lt_irrefl, if_false, Option.some.injEq] at hs
    subst hs
    exact .stopR last _ _ _ _ hp ht (by show StopPh (extra last) (svc 0); rw [hx]; exact hq)
  | stopR last p r l s hp ht hq =>
    simp only [hostStep, Nat.zero_lt_one, if_true, hx] at hs
    cases last with
    | true =>
      cases hq with
      | todo x rs h =>
        subst h
        simp only [extra_true, Option.some.injEq, pop, hx] at hs
        subst hs
        refine .stopP _ _ _ _ hp ht (.todo x rs ?_)
        simp only [upd_self]
      | done x rs h =>
        subst h
        simp only [extra_true, List.singleton_append, Option.some.injEq, pop, hx] at hs
        subst hs
        refine .stopP _ _ _ _ hp ht (.done x rs ?_)
        simp only [upd_self, List.nil_append]
    | false =>
      cases hq with
      | todo x rs h => subst h; simp [extra_false] at hs
      | done x rs h =>
        subst h
        simp only [extra_false, List.nil_append, Option.some.injEq, pop, hx] at hs
        subst hs
        refine .stopD _ _ _ _ hp ht ?_
        simp only [upd_self]
        exact ⟨rfl, rfl⟩
  | stopP p r l s hp ht hq =>
    simp only [hostStep, hx] at hs
    cases hq with
    | todo x rs h =>
      subst h
      simp only [Option.some.injEq, St.fail] at hs
      subst hs
      exact .failed _ _ _ log _ (ht.2.2 rfl)
    | done x rs h =>
      subst h
      simp only [List.nil_append, Option.some.injEq, pop, hx] at hs
      subst hs
      refine .stopD _ _ _ _ hp ⟨ht.1, ht.2.1, by simp⟩ ?_
      simp only [upd_self]
      exact ⟨rfl, rfl⟩
  | stopD p r l s hp ht hq =>
    simp only [hostStep, Nat.lt_irrefl, if_false, Option.some.injEq] at hs
    subst hs
    exact .join _ _ _ _ _ false hp ht (by show Gone (svc 0); rw [hx]; exact hq)
  | join p r st l s g hp ht hq =>
    simp only [hostStep] at hs
    split at hs
    · simp only [Option.some.injEq, St.ret] at hs
      subst hs
      exact .over _ _ _ g (Or.inl (by simp)) hp ht.2.1 (by show Gone (svc 0); rw [hx]; exact hq)
    · simp at hs
  | joinNever d ps p r st l s _ hg hq =>
    simp only [Quiet] at hq
    simp [hostStep, allDead, hx, hq] at hs
  | joinErr c p l s hp hg ht hq hc =>
    simp only [hostStep] at hs
    split at hs
    · simp only [Option.some.injEq, St.ret] at hs
      subst hs
      refine .broken _ _ _ false (Or.inr ⟨allErrs 1 svc, List.mem_append_right _ (List.mem_singleton.2 rfl)⟩) hp ?_ (by show Gone (svc 0); rw [hx]; exact hq)
      have : allErrs 1 svc = c := by rw [← hc, ← hx]; simp [allErrs]
      rw [this]
      exact ht
    · simp at hs
  | val x ps p l s hp hg ht hq =>
    simp only [hostStep, hx] at hs
    cases hq with
    | todo h => subst h; simp at hs
    | done h =>
      subst h
      simp only [Option.some.injEq, pop, St.ret, hx] at hs
      subst hs
      refine .idle x ps _ _ _ _ hp ht ?_
      simp only [upd_self]
      rfl
  | set x ps p l s hp hg ht hq =>
    simp only [hostStep, hx] at hs
    cases hq with
    | todo d h => subst h; simp at hs
    | done h =>
      subst h
      simp only [Option.some.injEq, pop, St.ret, hx] at hs
      subst hs
      refine .idle x ps _ _ _ _ hp ht ?_
      simp only [upd_self]
      rfl
  | failed p r st l s hg => simp [hostStep] at hs

theorem inv_step (tick : Nat → D → Option (D × Ev)) (G : List (Res D) → Prop) (s a : St D) (l : Lbl) (h : Inv (tick 0) G s) (hs : step 1 tick s l = some a) :
    Inv (tick 0) G a := by
  cases l with
  | host j => exact inv_host (tick 0) G s a j h hs
  | svc i =>
    simp only [step] at hs
    split at hs
    · rename_i hi
      obtain rfl : i = 0 := by omega
      obtain ⟨y, hy, rfl⟩ := Option.map_eq_some_iff.1 hs
      simp only [Inv, upd_self]
      exact inv_svc (tick 0) G _ _ _ _ _ _ _ h hy
    · simp at hs

theorem inv_exec (tick : Nat → D → Option (D × Ev)) (G : List (Res D) → Prop) : ∀ (ls : List Lbl) (s : St D), Inv (tick 0) G s → Inv (tick 0) G (exec 1 tick s ls)
  | [], _, h => h
  | l :: ls, s, h => by
    rw [exec]
    apply inv_exec tick G ls
    cases hl : step 1 tick s l with
    | none => exact h
    | some a => exact inv_step tick G s a l h hl

theorem inv_init (tick : D → Option (D × Ev)) (d : Nat → D) (p : List (Call D)) (hp : Proper false p) : Inv tick (Ref tick (.idle (d 0) false false) p) (init d p) :=
  .idle (d 0) false _ _ _ _ hp (fun rs h => by simpa [init] using h) rfl

theorem inv_log {tick : D → Option (D × Ev)} {G : List (Res D) → Prop} {s : St D} (h : Inv tick G s) : G s.log := by
  obtain ⟨svc, prog, pc, r, st, log⟩ := s
  simp only [Inv] at h ⊢
  generalize svc 0 = x at h
  cases h <;> first | assumption | exact tail_self (by assumption) | (rename_i h _; exact h.1) | (rename_i h _ _; exact h.1)

/-- **C90.** One network of processes, whatever its process models do. Under every schedule the results of the calls of a program are those of a sequential execution in
which a run ends with the first time step in which a process model requests a pause or stop or raises an exception: a pause request makes the run return early, a stop request
stops everything, an exception makes it raise with the number of process models that failed. -/
theorem C90_results (tick : Nat → D → Option (D × Ev)) (d : Nat → D) (p : List (Call D)) (hp : Proper false p) (ls : List Lbl) :
    Ref (tick 0) (.idle (d 0) false false) p (exec 1 tick (init d p) ls).log :=
  inv_log (inv_exec tick _ ls _ (inv_init (tick 0) d p hp))

end Verif.Events
